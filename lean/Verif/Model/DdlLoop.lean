import Verif.Model.Ddl
/-!
# Package ddl: when the worker works

`Model/Ddl` lets the worker make a turn at any time.  Here the worker sleeps until its ticker fires or a notification
reaches it; then handleJobQueue makes turn after turn until it returns.

When the ticker fires and when the turns are made is left open; so are the pauses between turns
(ddl_worker.go:136-140), which only take time.  One worker is modelled: a second successful Init of the same DDL object
(possible only while there are no collections) would start another one (ddl.go:51-57), and is left out.
-/
namespace Mondis.Loop
open Mondis Spec Schema Ddl

/-- What can happen. -/
inductive Act where
  /-- Any event of `Model/Ddl`.  A turn of the worker is made only if it is awake.  `hears`: is the worker waiting at its
  channel (ddl_worker.go:43-46) when notifyWorker of this call tries to send (:432-437, it does not wait; the channel
  has no buffer, :33)?  A worker that is about to get there, as after Init or after a turn, misses the notification. -/
  | ev (e : Ev) (hears : Bool)
  /-- ddl_worker.go:44: the ticker fires (a tick during a turn is kept by the channel of the ticker until the worker is
  back: it counts when it is received) -/
  | tick

/-- The process, and whether the worker is in handleJobQueue; and the answers of all events so far. -/
structure Loop where
  world : World
  awake : Bool := false
  answers : List Ddl.Answer := []

/-- A turn of the worker? -/
def isTurn : Ev → Bool
  | .work .. => true
  | _ => false

/-- ddl_api.go:85-91, 131-137: does the call notify the worker? -/
def notifies : Ddl.Answer → Bool
  | .job (.ok _) => true
  | _ => false

/-- ddl_worker.go:122-134: does handleJobQueue go on after this turn?  Not if there was no job, nor after an error.  A
worker whose afterCommitFunc4Job never returns (:332-339) stays. -/
def goesOn : Ddl.Answer → Bool
  | .worked (.ok out) => !out.nojob
  | .worked _ => false
  | _ => true

/-- Is the worker in handleJobQueue after the event? -/
def awakeAfter (awake hears : Bool) (a : Ddl.Answer) : Ev → Bool
  | .crash => false
  | .work .. => goesOn a
  | _ => awake || (hears && notifies a)

/-- One thing that happens. -/
def Loop.step (J : Json) (L : Loop) : Act → Loop
  | .tick => { L with awake := L.awake || L.world.up }
  | .ev e hears =>
    if isTurn e = true ∧ L.awake = false then L
    else
      let x := L.world.step J e
      { world := x.2, awake := awakeAfter L.awake hears x.1 e, answers := L.answers ++ [x.1] }

/-- Everything that happens, one after the other. -/
def run (J : Json) : List Act → Loop → Loop
  | [], L => L
  | a :: as, L => run J as (L.step J a)

end Mondis.Loop
