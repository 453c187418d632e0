import Verif.Model.Ddl
/-!
# Package ddl: calls until they return

`Model/Ddl` ends a call of CreateSchema or AddIndex with its transaction.  Here the call goes on: its caller waits in
checkJob for the job to get into the history, looking from time to time, until the job is there or the context is over.
Any number of callers wait at the same time, while other calls, turns of the worker and restarts go on.

When the ticker fires is left open: a look may happen at any time (ddl_worker.go:385 only says how often).  If the
ticker fired and the context is over, Go's select takes either: both are events that may come first.  A look is one
event; the transaction it makes runs at once.
-/
namespace Mondis.Wait
open Mondis Spec Schema Ddl

/-- context.Context.Err once the context is over (a contract of package context) -/
inductive Over where
  | canceled
  | deadlineExceeded
  deriving DecidableEq

/-- A caller of CreateSchema or AddIndex. -/
inductive Caller where
  /-- ddl_api.go:85-87, 131-133: the transaction failed, or something panicked: the call is over without waiting -/
  | answered (r : Res Job)
  /-- in checkJob -/
  | waiting (j : Job)
  /-- checkJob returned (or panicked) after a look at the history -/
  | told (j : Job) (r : Res Unit)
  /-- checkJob returned the error of the context -/
  | gaveUp (j : Job) (o : Over)
  /-- the process died during checkJob -/
  | died (j : Job)

/-- What can happen. -/
inductive Act where
  /-- any event of `Model/Ddl`, among them the transactions of new calls -/
  | ev (e : Ev)
  /-- ddl_worker.go:391: the ticker of caller `k` fires -/
  | look (k : Nat) (c : Circ)
  /-- ddl_worker.go:392-394: caller `k` notices that its context is over -/
  | over (k : Nat) (o : Over)

/-- The process and the callers of CreateSchema and AddIndex, in the order of their calls. -/
structure Room where
  world : World
  callers : List Caller := []

/-- ddl_api.go:85-92, 131-138: a call after its transaction and notifyWorker (in `World.step`): it waits, or is over. -/
def arrive : Ddl.Answer → List Caller
  | .job (.ok j) => [.waiting j]
  | .job r => [.answered r]
  | _ => []

/-- The process of the caller dies. -/
def Caller.die : Caller → Caller
  | .waiting j => .died j
  | x => x

/-- Does the event end the process? -/
def isCrash : Ev → Bool
  | .crash => true
  | _ => false

/-- ddl_worker.go:397-416: what a look makes of the caller; without a decision the loop goes on. -/
def Caller.after (j : Job) : Ddl.Answer → Caller
  | .found r => match checkOnce r with
    | some a => .told j a
    | none => .waiting j
  | _ => .waiting j

/-- One thing that happens. -/
def Room.step (J : Json) (R : Room) : Act → Room
  | .ev e =>
    let x := R.world.step J e
    { world := x.2, callers := (if isCrash e then R.callers.map Caller.die else R.callers) ++ arrive x.1 }
  | .look k c => match R.callers[k]? with
    | some (.waiting j) =>
      let x := R.world.step J (.getJob j.id c)
      { world := x.2, callers := R.callers.set k (Caller.after j x.1) }
    | _ => R
  | .over k o => match R.callers[k]? with
    | some (.waiting j) => { R with callers := R.callers.set k (.gaveUp j o) }
    | _ => R

/-- Everything that happens, one after the other. -/
def run (J : Json) : List Act → Room → Room
  | [], R => R
  | a :: as, R => run J as (R.step J a)

end Mondis.Wait
