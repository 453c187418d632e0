import Verif.Model.Torn
import Verif.Spec.Ddl
/-!
# What it means that the process died in the middle

`Spec/Ddl.lean` knows only whole events.  A turn, or Init, that was cut short must look to everyone later as if it had been
finished and the process had died just after — with nobody having heard an answer.
-/
namespace Mondis.Torn
open Mondis Ddl

/-- The whole events an event counts as. -/
def whole : TEv → List Ev
  | .ev e => [e]
  | .turn o₁ o₂ o₃ c after _ => [.work o₁ o₂ o₃ c after, .crash]
  | .init o env fail _ => [.init o env fail, .crash]

/-- The events of which somebody heard an answer. -/
def heard : TEv → List Ev
  | .ev e => [e]
  | _ => []

/-- Of the answers `as` to the whole events, those somebody heard. -/
def told : List TEv → List Answer → List Answer
  | .ev _ :: xs, a :: as => a :: told xs as
  | .turn .. :: xs, _ :: _ :: as => told xs as
  | .init .. :: xs, _ :: _ :: as => told xs as
  | _, _ => []

/-- The process dies in this event. -/
def Dies : TEv → Prop
  | .ev e => e = .crash
  | _ => True

end Mondis.Torn
