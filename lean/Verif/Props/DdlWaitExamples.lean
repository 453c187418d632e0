import Verif.Props.DdlWait
import Verif.Props.DdlExamples
/-!
# Cases meeting the hypotheses of `Props/DdlWait.lean`
-/
namespace Mondis.Wait
open Mondis Spec Schema Meta Structure Ddl Props

/-- How a call stands, with the id of its job. -/
inductive Stand where
  | out
  | waits (id : Int64)
  | success (id : Int64)
  | badNews (id : Int64)
  | over (id : Int64) (o : Over)
  | dead (id : Int64)
  deriving DecidableEq

def standing : Caller → Stand
  | .answered _ => .out
  | .waiting j => .waits j.id
  | .told j (.ok ()) => .success j.id
  | .told j _ => .badNews j.id
  | .gaveUp j o => .over j.id o
  | .died j => .dead j.id

def room : Room := { world := { db := OMap.empty } }

/-- All acts of a history fit. -/
theorem brief_acts {as : List Act} (h : ∀ a ∈ as, a = .ev start ∨ a = .ev createA ∨ a = .ev createB ∨ a = .ev turn ∨ a = .ev indexX ∨ a = .ev .crash ∨
    (∃ k, a = .look k quiet) ∨ ∃ k o, a = .over k o) (hn : as.length * (4 * (as.length + 1) * (2 + 300)) < 2 ^ 62) : Wait.Brief 2 as := by
  refine ⟨fun a ha => ?_, hn⟩
  rcases h a ha with rfl | rfl | rfl | rfl | rfl | rfl | ⟨k, rfl⟩ | ⟨k, o, rfl⟩
  · exact fits_start
  · exact fits_createA
  · exact fits_createB
  · exact fits_turn
  · exact fits_index
  · trivial
  · exact roomy
  · trivial

set_option maxRecDepth 100000

/-- Databases "a" and "b" are requested; the caller of the first is told at its second look, the second gives up; then the
database "b" is requested again, which is refused. -/
def first : List Act := [.ev start, .ev createA, .ev createB, .ev turn, .look 0 quiet, .over 1 .deadlineExceeded, .ev turn, .look 0 quiet,
  .look 1 quiet, .ev turn, .ev turn, .ev createB]

theorem first_stands : (run plainJson first room).callers.map standing = [.success 4, .over 7 .deadlineExceeded, .out] := by decide +kernel

/-- C88_told at work. -/
example : ∃ j r, Caller.told j r ∈ (run plainJson first room).callers ∧ r = .ok () ∧ ∃ d, dbOf j = some d ∧
    Listed plainJson (run plainJson first room).world.db d := by
  have h : (run plainJson first room).callers.any (fun x => match x with
      | .told _ _ => true
      | _ => false) = true := by decide +kernel
  obtain ⟨x, hx, e⟩ := List.any_eq_true.mp h
  cases x with
  | told j r => exact ⟨j, r, hx, C88_told (K := 2) freshDB (brief_acts (by simp [first]) (by decide)) hx⟩
  | _ => cases e

/-- The caller of the request for "a" gives up before the worker's turn and asks again; then "b" is requested. -/
def impatient : List Act := [.ev start, .ev createA, .over 0 .canceled, .ev createA, .ev createB, .ev turn, .look 1 quiet, .ev turn, .ev turn, .ev turn,
  .look 1 quiet, .look 2 quiet, .ev .crash, .ev start, .ev turn, .ev turn]

/-- The second and the third call die waiting (jobs 8 and 11), although the database "a" is there. -/
theorem impatient_stands : (run plainJson impatient room).callers.map standing = [.over 4 .canceled, .dead 8, .dead 11] := by decide +kernel

/-- The second call is doomed from the start. -/
theorem impatient_doomed : Wait.Doomed (run plainJson impatient room).callers 1 := by
  have h : (match (run plainJson impatient room).callers with
      | x :: y :: _ => match Wait.job x, Wait.job y with
        | some i, some j => decide ((dbOf i).map (·.name) = some nameA ∧ (dbOf j).map (·.name) = some nameA)
        | _, _ => false
      | _ => false) = true := by decide +kernel
  split at h
  · next x y l e =>
    split at h
    · next i j hi hj =>
      have h := of_decide_eq_true h
      obtain ⟨h1, h2⟩ := h
      obtain ⟨d', hd', e1⟩ := Option.map_eq_some_iff.mp h1
      obtain ⟨d, hd, e2⟩ := Option.map_eq_some_iff.mp h2
      refine ⟨y, j, by rw [e]; rfl, hj, .inr ⟨0, x, i, d, d', by omega, by rw [e]; rfl, hi, hd', hd, by rw [e1, e2]⟩⟩
    · cases h
  · cases h

/-- C88_never at work. -/
example (j : Job) (r : Res Unit) : (run plainJson impatient room).callers[2]? ≠ some (.told j r) :=
  C88_never (K := 2) freshDB (brief_acts (by simp [impatient]) (by decide)) impatient_doomed (by omega) j r

/-- An index is requested, then database "b": nobody is told anything. -/
example : (run plainJson [.ev start, .ev createA, .ev turn, .ev turn, .look 0 quiet, .ev indexX, .ev createB, .ev turn, .ev turn, .ev turn, .look 1 quiet,
    .look 2 quiet] room).callers.map standing = [.success 4, .waits 6, .waits 9] := by decide +kernel

/-- C88_served at work: the first caller gives up, the second waits; both databases are there, and the second caller is
told at its next look. -/
def calls : List Act := [.ev start, .ev createA, .ev createB, .over 0 .deadlineExceeded]
def meanwhile : List Act := [.ev turn, .look 1 quiet, .ev turn, .ev turn, .ev turn]

example : (∀ x ∈ (run plainJson calls room).callers, ∀ j d, Wait.job x = some j → dbOf j = some d →
      Listed plainJson (run plainJson (calls ++ meanwhile) room).world.db d) ∧
    ∀ j, (run plainJson (calls ++ meanwhile) room).callers[1]? = some (.waiting j) → (∃ x ∈ (run plainJson calls room).callers, Wait.job x = some j) →
      (run plainJson (calls ++ meanwhile ++ [.look 1 quiet]) room).callers[1]? = some (.told j (.ok ())) := by
  refine C88_served (K := 2) freshDB (brief_acts (by simp [calls, meanwhile]) (by decide)) ?_ ?_ (by decide +kernel) (by decide +kernel) ?_ (by decide +kernel) rfl
  · have : (run plainJson calls room).callers.all (fun x => match Wait.transaction x with
        | .panic => false
        | _ => true) = true := by decide +kernel
    intro x hx e
    have := List.all_eq_true.mp this x hx
    rw [e] at this
    cases this
  · have : (run plainJson calls room).callers.all (fun x => match Wait.job x with
        | some j => (dbOf j).isSome
        | none => true) = true := by decide +kernel
    intro x hx j e
    have := List.all_eq_true.mp this x hx
    rw [e] at this
    exact this
  · intro e he
    have : e = turn := by
      have he : e ∈ [turn, turn, turn, turn] := he
      simp only [List.mem_cons, List.not_mem_nil, or_false, or_self] at he
      exact he
    exact ⟨_, _, _, _, _, this, rfl⟩

theorem calls_stand : (run plainJson calls room).callers.map standing = [.over 4 .deadlineExceeded, .waits 7] ∧
    (run plainJson (calls ++ meanwhile) room).callers.map standing = [.over 4 .deadlineExceeded, .waits 7] ∧
    (run plainJson (calls ++ meanwhile ++ [.look 1 quiet]) room).callers.map standing = [.over 4 .deadlineExceeded, .success 7] := by decide +kernel

end Mondis.Wait
