import Verif.Spec.Ddl
import Verif.Model.Race
/-!
# Specification of package ddl: calls made while the worker is at work

A call is answered by what it saw when it started; if it puts a request in the queue, it does so now.  (The imported model is
used for the type of events.)
-/
namespace Mondis.Spec
open Mondis Schema Ddl

/-- A process, the states of package ddl before each of the events of this process so far (latest first), and how many of
these events there were since the worker's last turn. -/
structure Span where
  proc : Proc := {}
  past : List DState := []
  turn : Nat := 0

/-- The state `n` events ago. -/
def Span.seen (S : Span) : Nat → DState
  | 0 => S.proc.state
  | n + 1 => S.past.getD n S.proc.state

/-- One event that was under way for the last `n` events, and the answer to the caller. -/
inductive Span.Does (S : Span) : Race.Ev → Answer → Proc → Prop where
  /-- not accepted: nothing happens, and the answer is what it was when the call started -/
  | create {o i c n r A'} : (S.seen n).Creates i r A' → (∀ j, r ≠ .ok j) → S.Does ⟨.createSchema o i c, n⟩ (.job r) S.proc
  /-- accepted: the name was free when the call started; no other request was accepted since; it is put in the queue -/
  | created {o i c n j A'} : (S.seen n).Creates i (.ok j) A' → S.proc.state.lastID = (S.seen n).lastID →
      S.proc.state.queue.length ≤ 100 →
      S.Does ⟨.createSchema o i c, n⟩ (.job (S.proc.heard (.ok j))) { S.proc with state := S.proc.state.enqueued i }
  | createRefused {o i c n e} : c.fail = some e ∨ (0 < n ∧ e = .conflict) →
      S.Does ⟨.createSchema o i c, n⟩ (.job (.err e)) S.proc
  | index {i c n r A'} : (S.seen n).Adds i r A' → (∀ j, r ≠ .ok j) → S.Does ⟨.addIndex i c, n⟩ (.job r) S.proc
  | indexed {i c n j A₀ A'} : (S.seen n).Adds i (.ok j) A₀ → S.proc.state.Adds i (.ok j) A' → S.proc.state.lastID = (S.seen n).lastID →
      S.Does ⟨.addIndex i c, n⟩ (.job (S.proc.heard (.ok j))) { S.proc with state := A' }
  | indexRefused {i c n e} : c.fail = some e ∨ (0 < n ∧ e = .conflict) → S.Does ⟨.addIndex i c, n⟩ (.job (.err e)) S.proc
  /-- what was in the history when the call started -/
  | getJob {id c n} : S.Does ⟨.getJob id c, n⟩ (.found (.ok ((S.seen n).finishedJob id))) S.proc
  /-- a turn of the worker that takes effect does what it would do now -/
  | work {o₁ o₂ o₃ c env n a Q} : S.proc.Step (.work o₁ o₂ o₃ c env) a Q → S.Does ⟨.work o₁ o₂ o₃ c env, n⟩ a Q
  /-- a turn of the worker during which something else happened may be in vain -/
  | workMissed {o₁ o₂ o₃ c env n r} : S.proc.running = true → 0 < min n S.turn →
      S.Does ⟨.work o₁ o₂ o₃ c env, n⟩ (.worked r) S.proc
  | draw {x c n a Q} : S.proc.Step (.draw x c) a Q → S.Does ⟨.draw x c, n⟩ a Q
  | crash {n a Q} : S.proc.Step .crash a Q → S.Does ⟨.crash, n⟩ a Q
  | init {o env fail n a Q} : S.proc.Step (.init o env fail) a Q → S.Does ⟨.init o env fail, n⟩ a Q

/-- The transactions under way die with the process. -/
def Span.then (S : Span) (e : Race.Ev) (Q : Proc) : Span :=
  match e.ev with
  | .crash => ⟨Q, [], 0⟩
  | .work .. => ⟨Q, S.proc.state :: S.past, 0⟩
  | _ => ⟨Q, S.proc.state :: S.past, S.turn + 1⟩

/-- A history. -/
inductive Span.Steps : Span → List Race.Ev → List Answer → Span → Prop where
  | nil {S} : Steps S [] [] S
  | cons {S e a Q es as R} : S.Does e a Q → Steps (S.then e Q) es as R → Steps S (e :: es) (a :: as) R

/-- The history is short enough for no counter to overflow. -/
def Span.Brief (K : Nat) (es : List Race.Ev) : Prop := Spec.Brief K (es.map (·.ev))

end Mondis.Spec
