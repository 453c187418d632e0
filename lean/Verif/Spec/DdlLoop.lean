import Verif.Model.DdlLoop
import Verif.Spec.Ddl
/-!
# Specification: when the DDL worker works

What the users of package ddl see of the worker: the turns it makes, and what OnChanged is told.
-/
namespace Mondis.Spec.Loop
open Mondis Spec Schema Ddl Mondis.Loop

/-- The events among what happens. -/
def events (as : List Act) : List Ev := as.filterMap (fun
  | .ev e _ => some e
  | .tick => none)

/-- All events but the turns of the worker. -/
def calls (es : List Ev) : List Ev := es.filter (fun e => !isTurn e)

/-- What OnChanged was told, in order: is all well? -/
def told (as : List Ddl.Answer) : List Bool := as.filterMap (fun
  | .worked r => (onChanged r).map Option.isNone
  | _ => none)

/-- How many turns the worker made. -/
def made (as : List Ddl.Answer) : Nat := as.countP (fun
  | .worked _ => true
  | _ => false)

/-- How many turns the worker could have made. -/
def offered (as : List Act) : Nat := as.countP (fun
  | .ev e _ => isTurn e
  | .tick => false)

/-- How often the worker may have been woken: the ticks, and the calls that found it waiting. -/
def wakes (as : List Act) : Nat := as.countP (fun
  | .ev _ hears => hears
  | .tick => true)

/-- The process does not die, and no turn is refused by the engine. -/
def Calm (as : List Act) : Prop := ∀ a ∈ as, match a with
  | .ev .crash _ => False
  | .ev (.work _ _ _ c _) _ => c.fail = none
  | _ => True

/-- A turn that the engine does not refuse. -/
def Turn (a : Act) : Prop := ∃ o₁ o₂ o₃ c env hears, a = .ev (.work o₁ o₂ o₃ c env) hears ∧ c.fail = none

/-- The history is short enough for no counter to overflow, all names are text and no transaction is too big. -/
def Brief (K : Nat) (as : List Act) : Prop :=
  (∀ a ∈ as, match a with
    | .ev e _ => EvFits K e
    | .tick => True) ∧
  as.length * (4 * (as.length + 1) * (K + 300)) < 2 ^ 62

end Mondis.Spec.Loop
