import Verif.Model.DdlWait
import Verif.Spec.Ddl
/-!
# Specification: waiting for DDL jobs

What the calls of CreateSchema and AddIndex return, in terms of the requests made.
-/
namespace Mondis.Spec.Wait
open Mondis Spec Schema Ddl Mondis.Wait

/-- The history without the waiting: calls, turns of the worker, restarts. -/
def events (as : List Act) : List Ev := as.filterMap (fun
  | .ev e => some e
  | _ => none)

/-- What the transactions of the calls answered, in the order of the calls. -/
def answersOf (as : List Ddl.Answer) : List (Res Job) := as.filterMap (fun
  | .job r => some r
  | _ => none)

/-- What the transaction of a call answered. -/
def transaction : Caller → Res Job
  | .answered r => r
  | .waiting j | .told j _ | .gaveUp j _ | .died j => .ok j

/-- The job of a call that was accepted. -/
def job (x : Caller) : Option Job := match transaction x with
  | .ok j => some j
  | _ => none

/-- The request of the `n`-th call asks for an index, or for a database that a call accepted before it asked for. -/
def Doomed (cs : List Caller) (n : Nat) : Prop :=
  ∃ x j, cs[n]? = some x ∧ job x = some j ∧
    (dbOf j = none ∨ ∃ m y i d d', m < n ∧ cs[m]? = some y ∧ job y = some i ∧ dbOf i = some d' ∧ dbOf j = some d ∧ d'.name = d.name)

/-- The history is short enough for no counter to overflow, all names are text and no transaction is too big. -/
def Brief (K : Nat) (as : List Act) : Prop :=
  (∀ a ∈ as, match a with
    | .ev e => EvFits K e
    | .look _ c => Roomy c.env
    | .over _ _ => True) ∧
  as.length * (4 * (as.length + 1) * (K + 300)) < 2 ^ 62

/-- How each call can end: refused by its transaction; or accepted, and then still waiting, told something, dead with
the process, or given up because its context was over. -/
def Ended (as : List Act) (k : Nat) : Caller → Prop
  | .answered r => ∀ j, r ≠ .ok j
  | .waiting _ => True
  | .told _ _ => ∃ c, .look k c ∈ as
  | .gaveUp _ o => .over k o ∈ as
  | .died _ => .ev .crash ∈ as

end Mondis.Spec.Wait
