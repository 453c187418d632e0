import Verif.Spec.Domain
import Verif.Spec.Serial
import Verif.Spec.Race
import Verif.Model.Crowd
/-!
# Specification of a document process whose DDL calls and worker overlap

Documents as in Spec/Domain, package ddl as in Spec/Race.  (The imported model is used for the type of events.)
-/
namespace Mondis.Spec
open Mondis Schema Ddl

variable {D : Type}

/-- A document process, the states of package ddl before each of the events of this process so far (latest first), and how many
of these events there were since the worker's last turn. -/
structure Throng (D : Type) where
  site : Site D := {}
  past : List DState := []
  turn : Nat := 0

/-- As package ddl sees it, were the process `P`. -/
def Throng.span (S : Throng D) (P : Proc) : Span := ⟨P, S.past, S.turn⟩

/-- One event; one of package ddl was under way for the last `n` events. -/
def Throng.Does (norm : D → Res D) (S : Throng D) (e : Crowd.Ev D) : Domain.Answer D → Site D → Prop :=
  S.site.StepBy (fun P d => (S.span P).Does ⟨d, e.back⟩) norm e.ev

/-- The transactions under way die with the process. -/
def Throng.then (S : Throng D) (e : Crowd.Ev D) (R : Site D) : Throng D :=
  match e.ev with
  | .ddl .crash => ⟨R, [], 0⟩
  | .ddl (.work ..) => ⟨R, S.site.proc.state :: S.past, 0⟩
  | _ => ⟨R, S.site.proc.state :: S.past, S.turn + 1⟩

/-- A history. -/
inductive Throng.Steps (norm : D → Res D) : Throng D → List (Crowd.Ev D) → List (Domain.Answer D) → Throng D → Prop where
  | nil {S} : Steps norm S [] [] S
  | cons {S e a R es as T} : S.Does norm e a R → Steps norm (S.then e R) es as T → Steps norm S (e :: es) (a :: as) T

/-- The history is short enough for no counter to overflow. -/
def Throng.Brief (K : Nat) (es : List (Crowd.Ev D)) : Prop := DomainBrief K (es.map (·.ev))

/-- No transaction that wrote something has listed, counted or emptied a collection that another transaction, committed between
its snapshot and its commit, has written to. -/
def Throng.Undisturbed (J : Json) (C : Doc.Codec D) (es : List (Crowd.Ev D)) (h : Crowd.Hub) : Prop :=
  ∀ j k sj sk, Crowd.Overlap J C es h j k sj sk → (saidIn k (es.map (·.ev)) (Crowd.run J C es h).1).any Said.wrote = true →
    ∀ q ∈ saidIn k (es.map (·.ev)) (Crowd.run J C es h).1, q.call.point = false →
    ∀ r ∈ saidIn j (es.map (·.ev)) (Crowd.run J C es h).1, r.wrote = true → ¬ (r.db = q.db ∧ r.coll = q.coll)

end Mondis.Spec
