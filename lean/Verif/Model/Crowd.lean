import Verif.Model.Domain
import Verif.Model.Race
/-!
# A document process whose DDL calls and worker overlap

In Model/Domain a transaction of package ddl starts and commits at one moment, so that nothing happens to a document meanwhile.
Here the transactions of CreateSchema, AddIndex, GetHistoryJob and of the worker may have started earlier (Model/Race), while other
DDL calls, reloads, and transactions on documents went on.
-/
namespace Mondis.Crowd
open Mondis Schema Spec Meta

variable {D : Type}

/-- A document process, what the store held before each of the events of this process so far (latest first), and how many of
these events there were since the worker's last turn. -/
structure Hub where
  w : Domain.World
  past : List DB := []
  turn : Nat := 0

/-- What happens, and for how many events its transaction has been under way (that matters for events of package ddl only;
transactions on documents start with an event of their own). -/
structure Ev (D : Type) where
  ev : Domain.Ev D
  back : Nat := 0

/-- As package ddl sees it. -/
def Hub.race (h : Hub) : Race.Hub := ⟨h.w.ddl, h.past, h.turn⟩

/-- One event: as in Model/Domain `World.step`, but for the transactions of package ddl (ddl_api.go:13-156, ddl_worker.go:74-134), which
are as in Model/Race `Hub.does`.  (A call that finds a nil *ddl.DDL, domain.go:35-55, 195-197, panics without having touched the store;
here it answers at some moment before Init has succeeded.) -/
def Hub.does (J : Json) (C : Doc.Codec D) (h : Hub) (e : Ev D) : Domain.Answer D × Domain.World :=
  match e.ev with
  | .ddl .crash => h.w.step J C (.ddl .crash)
  | .ddl d =>
    if h.w.ddl.up = false ∧ Domain.needsDDL d then (.ddl (.job .panic), h.w)
    else (.ddl (h.race.does J ⟨d, e.back⟩).1, { h.w with ddl := (h.race.does J ⟨d, e.back⟩).2 })
  | ev => h.w.step J C ev

/-- The transactions under way die with the process. -/
def Hub.then (h : Hub) (e : Ev D) (w : Domain.World) : Hub :=
  match e.ev with
  | .ddl .crash => ⟨w, [], 0⟩
  | .ddl (.work ..) => ⟨w, h.w.ddl.db :: h.past, 0⟩
  | _ => ⟨w, h.w.ddl.db :: h.past, h.turn + 1⟩

/-- One event. -/
def Hub.step (J : Json) (C : Doc.Codec D) (h : Hub) (e : Ev D) : Domain.Answer D × Hub :=
  ((h.does J C e).1, h.then e (h.does J C e).2)

/-- A history. -/
def run (J : Json) (C : Doc.Codec D) : List (Ev D) → Hub → List (Domain.Answer D) × Hub
  | [], h => ([], h)
  | e :: es, h => ((h.step J C e).1 :: (run J C es (h.step J C e).2).1, (run J C es (h.step J C e).2).2)

/-- In a history that starts in `h`, transaction `j` on documents was committed, in state `sj`, after transaction `k` took its snapshot
and before `k` was committed, in state `sk`; as in Model/Domain `Overlap`. -/
def Overlap (J : Json) (C : Doc.Codec D) (es : List (Ev D)) (h : Hub) (j k : Nat) (sj sk : Domain.Session) : Prop :=
  ∃ l₁ n₁ l₂ f n₂ l₃ g n₃ l₄ s₀,
    es = l₁ ++ ⟨.snapshot k, n₁⟩ :: (l₂ ++ ⟨.finish j f, n₂⟩ :: (l₃ ++ ⟨.finish k g, n₃⟩ :: l₄)) ∧
    (run J C l₁ h).2.w.session k = some s₀ ∧ s₀.phase = .fresh ∧
    (run J C (l₁ ++ ⟨.snapshot k, n₁⟩ :: l₂) h).2.w.session j = some sj ∧
    ((run J C (l₁ ++ ⟨.snapshot k, n₁⟩ :: l₂) h).2.step J C ⟨.finish j f, n₂⟩).1 = .committed (.ok ()) ∧
    (run J C (l₁ ++ ⟨.snapshot k, n₁⟩ :: (l₂ ++ ⟨.finish j f, n₂⟩ :: l₃)) h).2.w.session k = some sk ∧
    ((run J C (l₁ ++ ⟨.snapshot k, n₁⟩ :: (l₂ ++ ⟨.finish j f, n₂⟩ :: l₃)) h).2.step J C ⟨.finish k g, n₃⟩).1 = .committed (.ok ())

/-- *contract* badger (opened with the default options, provider/badger.go:19-27, which detect conflicts), as in Model/Domain `Detects`:
the commit of a transaction on documents that has written something succeeds only if none of the keys it read was written by one that
was committed after its snapshot. -/
def Detects (J : Json) (C : Doc.Codec D) (es : List (Ev D)) (h : Hub) : Prop :=
  ∀ j k sj sk, Overlap J C es h j k sj sk → sk.txn.kv.writes ≠ [] →
    ∀ key ∈ sk.txn.kv.reads, key ∉ sj.txn.kv.writes.map Prod.fst

end Mondis.Crowd
