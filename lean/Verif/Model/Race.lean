import Verif.Model.Ddl
/-!
# Package ddl: calls made while the worker is at work

In Model/Ddl a transaction starts and commits at one moment.  Here the transactions of CreateSchema, AddIndex,
GetHistoryJob and of the worker may have started earlier, on what the store held then, and other transactions of the process
may have committed in between.  (A draw of a document id and the creation of a sequence only read one counter, so that they
are accepted only if they would have done the same at the moment of the commit, see `Prog.replay`; they stay as in Model/Ddl.)
-/
namespace Mondis.Race
open Mondis Schema Spec Meta Ddl

/-- *contract* badger (opened with the default options, provider/badger.go:19-27): the commit of a transaction is refused
(ErrConflict) if a key it read was written since it started.  Here only if what it read is there no more: more commits are
accepted than by badger, and `fail` may refuse any. -/
def refusal (reads : List Bytes) (snap db : DB) (fail : Option Err) : Option Err :=
  if ∀ k ∈ reads, snap.get k = db.get k then fail else some .conflict

/-- util/util.go:70-81: an update transaction that started when the store held `snap` and commits now. -/
def lateTxn (J : Json) {α : Type} (env : Env) (fail : Option Err) (prog : Client α) (snap db : DB) : Res α × DB :=
  Util.runInNewUpdateTxn env (refusal (Util.body env true (prog.code J) snap).2.reads snap db fail) (prog.code J) snap db

/-- A process serving one database, what the store held before each of the events of this process so far (latest first), and
how many of these events there were since the worker's last turn. -/
structure Hub where
  w : World
  past : List DB := []
  turn : Nat := 0

/-- What happens, and for how many events its transaction has been under way. -/
structure Ev where
  ev : Ddl.Ev
  back : Nat := 0

/-- What the store held `n` events ago. -/
def Hub.snap (h : Hub) : Nat → DB
  | 0 => h.w.db
  | n + 1 => h.past.getD n h.w.db

/-- One event, as in Model/Ddl `World.step` (ddl_api.go:13-156, ddl_worker.go:74-134).  There is one worker
(document/ddl/ddl.go:51-57, ddl_worker.go:35-56), so that its transaction starts after its last turn.  (A second successful Init,
possible only while there is no collection, would start another one; that is left out.) -/
def Hub.does (J : Json) (h : Hub) (e : Ev) : Answer × World :=
  match e.ev with
  | .createSchema o i c =>
    let x := lateTxn J c.env c.fail (Ddl.createSchema o i) (h.snap e.back) h.w.db
    (.job (notifyWorker h.w.up x.1), { h.w with db := x.2 })
  | .addIndex i c =>
    let x := lateTxn J c.env c.fail (addIndexTxn i) (h.snap e.back) h.w.db
    (.job (notifyWorker h.w.up x.1), { h.w with db := x.2 })
  | .getJob id c =>
    let x := lateTxn J c.env c.fail (getHistoryJob id) (h.snap e.back) h.w.db
    (.found x.1, { h.w with db := x.2 })
  | .work o₁ o₂ o₃ c after =>
    if h.w.stuck ∨ h.w.up = false then (.none, h.w)
    else
      let x := lateTxn J c.env c.fail (workTxn o₁ o₂ o₃ h.w.vars) (h.snap (min e.back h.turn)) h.w.db
      match x.1 with
      | .ok out =>
        (.worked (.ok out), afterCommit after out.after
          { h.w with db := x.2, vars := if out.nojob then {} else out.vars })
      | r => (.worked r, { h.w with db := x.2, vars := {} })
  | ev => h.w.step J ev

/-- The transactions under way die with the process. -/
def Hub.then (h : Hub) (e : Ev) (w : World) : Hub :=
  match e.ev with
  | .crash => ⟨w, [], 0⟩
  | .work .. => ⟨w, h.w.db :: h.past, 0⟩
  | _ => ⟨w, h.w.db :: h.past, h.turn + 1⟩

/-- One event. -/
def Hub.step (J : Json) (h : Hub) (e : Ev) : Answer × Hub := ((h.does J e).1, h.then e (h.does J e).2)

/-- A history. -/
def run (J : Json) : List Ev → Hub → List Answer × Hub
  | [], h => ([], h)
  | e :: es, h => ((h.step J e).1 :: (run J es (h.step J e).2).1, (run J es (h.step J e).2).2)

end Mondis.Race
