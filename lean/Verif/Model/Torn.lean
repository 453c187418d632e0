import Verif.Model.Ddl
/-!
# Death of the process in the middle of a turn of the worker, or of Init

In `Model/Ddl.lean` the process dies between events.  A transaction is one event of the store: a death inside one is a
death before it (nothing was committed) or after it, and an answer that the caller did not live to see is an event
followed by `crash`.  Two events are made of several transactions:

* a turn of the worker commits the job, then makes a sequence, in a transaction each, for every collection of the new
  database (ddl_worker.go:328-338, called from 117-121 after the commit);
* Init lists the databases and makes a sequence, in a transaction each, for every collection (ddl.go:60-79).

Here the process may also die after any number of those transactions.
-/
namespace Mondis.Torn
open Mondis Schema Spec Meta Ddl

/-- What can happen. -/
inductive TEv where
  /-- as in `Model/Ddl.lean` -/
  | ev (e : Ev)
  /-- a turn of the worker commits, or not, and the process dies when `n` of the sequences were made -/
  | turn (o₁ o₂ o₃ : Order) (c : Circ) (after : Env) (n : Nat)
  /-- Init is running, and the process dies when `n` of the sequences were made -/
  | init (o : DBInfo → Order) (env : Env) (fail : Int64 → Option Err) (n : Nat)

/-- document/ddl/ddl_worker.go:63-143 handleJobQueue, cut short: the transaction is there or not; of the callbacks (328-338) the first
`n` are done.  Only the store is left. -/
def turnDies (J : Json) (o₁ o₂ o₃ : Order) (c : Circ) (after : Env) (n : Nat) (w : World) : World :=
  if w.stuck ∨ w.up = false then { db := w.db }
  else
    let x := (⟨true, c.env, c.fail, workTxn o₁ o₂ o₃ w.vars⟩ : MetaTxn WorkOut).run J w.db
    match x.1 with
    | .ok out => { db := (afterCommit after (out.after.take n) { w with db := x.2, vars := if out.nojob then {} else out.vars }).db }
    | _ => { db := x.2 }

/-- document/ddl/ddl.go:60-84 Init, cut short: the first `n` of the sequences it would make are visited. -/
def initDies (J : Json) (o : DBInfo → Order) (env : Env) (fail : Int64 → Option Err) (n : Nat) (w : World) : World :=
  let x := (⟨true, env, none, Client.one .listDatabases⟩ : MetaTxn (List DBInfo)).run J w.db
  match x.1 with
  | .ok l =>
    { db := (initSequences env fail
        ((l.flatMap (fun d => ((o d).visit d.collections.ents).map (fun e => (d.id, e.2.id)))).take n) { w with db := x.2 }).2.db }
  | _ => { db := x.2 }

/-- One event.  Nobody is left to hear an answer when the process dies. -/
def step (J : Json) (w : World) : TEv → List Answer × World
  | .ev e => ([(w.step J e).1], (w.step J e).2)
  | .turn o₁ o₂ o₃ c after n => ([], turnDies J o₁ o₂ o₃ c after n w)
  | .init o env fail n => ([], initDies J o env fail n w)

/-- A history. -/
def run (J : Json) : List TEv → World → List Answer × World
  | [], w => ([], w)
  | x :: xs, w => ((step J w x).1 ++ (run J xs (step J w x).2).1, (run J xs (step J w x).2).2)

end Mondis.Torn
