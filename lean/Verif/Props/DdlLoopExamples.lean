import Verif.Props.DdlLoop
import Verif.Props.DdlExamples
/-!
# Cases meeting the hypotheses of `Props/DdlLoop.lean`
-/
namespace Mondis.Loop
open Mondis Spec Schema Meta Structure Ddl Props Spec.Loop

/-- All acts of a history fit. -/
theorem brief_acts {as : List Act} (h : ∀ a ∈ as, a = .tick ∨ ∃ e b, a = .ev e b ∧ (e = start ∨ e = createA ∨ e = createB ∨ e = turn ∨ e = indexX ∨
    e = .crash)) (hn : as.length * (4 * (as.length + 1) * (2 + 300)) < 2 ^ 62) : Spec.Loop.Brief 2 as := by
  refine ⟨fun a ha => ?_, hn⟩
  rcases h a ha with rfl | ⟨e, b, rfl, h⟩
  · trivial
  · rcases h with rfl | rfl | rfl | rfl | rfl | rfl
    · exact fits_start
    · exact fits_createA
    · exact fits_createB
    · exact fits_turn
    · exact fits_index
    · trivial

theorem step_answers (L : Loop) {e : Ev} {b : Bool} (h : L.awake = true) :
    (L.step plainJson (.ev e b)).answers = L.answers ++ [(L.world.step plainJson e).1] := by
  simp only [Loop.step]
  rw [if_neg (by rw [h]; simp)]

def aTurn : Act := .ev turn false

set_option maxRecDepth 100000

/-- Databases "a" and "b" are requested; only the first notification reaches the worker. -/
def requests : List Act := [.ev start false, .ev createA true, .ev createB false]

/-- C89_serves at work: after five turns both are there, and the worker sleeps. -/
example : (∀ j ∈ accepted (run plainJson requests (fresh OMap.empty)).answers,
      Served plainJson (run plainJson (requests ++ List.replicate 5 aTurn) (fresh OMap.empty)).world j) ∧
    (run plainJson (requests ++ List.replicate 5 aTurn) (fresh OMap.empty)).awake = false ∧
    (accepted (run plainJson requests (fresh OMap.empty)).answers).map (·.id) = [4, 7] := by
  have hn : (accepted (run plainJson requests (fresh OMap.empty)).answers).map (·.id) = [4, 7] := by decide +kernel
  have hl : (accepted (run plainJson requests (fresh OMap.empty)).answers).length = 2 := by
    have := congrArg List.length hn
    rw [List.length_map] at this
    exact this
  have h := C89_serves (J := plainJson) (K := 2) (db := OMap.empty) (as := requests) (ws := List.replicate 5 aTurn) freshDB
    (brief_acts (by simp [requests, aTurn, List.replicate]) (by decide)) ?_ ?_ (by decide +kernel) (by decide +kernel)
    (fun a ha => ⟨_, _, _, _, _, _, (List.mem_replicate.mp ha).2, rfl⟩)
  · rw [hl] at h
    exact ⟨h.2.1 (by decide), h.2.2 (by decide), hn⟩
  · have : ((run plainJson requests (fresh OMap.empty)).answers).all (fun
        | .job .panic => false
        | _ => true) = true := by decide +kernel
    intro a ha e
    have := List.all_eq_true.mp this a ha
    rw [e] at this
    cases this
  · have : (accepted (run plainJson requests (fresh OMap.empty)).answers).all (fun j => (dbOf j).isSome) = true := by decide +kernel
    exact List.all_eq_true.mp this

/-- A notification that the worker misses: it sleeps on, whatever turns it is offered, and database "a" is not there
before the ticker fires. -/
def missed : List Act := [.ev start false, .ev createA false, aTurn, aTurn]

theorem missed_sleeps : (run plainJson missed (fresh OMap.empty)).awake = false ∧ made (run plainJson missed (fresh OMap.empty)).answers = 0 := by
  obtain ⟨h1, new, h2, h3⟩ := C89_asleep (J := plainJson) missed (by decide) (fresh OMap.empty) rfl
  exact ⟨h1, by rw [h2]; exact h3⟩

/-- After the tick the two turns are made. -/
example : made (run plainJson (missed ++ [.tick, aTurn, aTurn]) (fresh OMap.empty)).answers = 2 ∧
    told (run plainJson (missed ++ [.tick, aTurn, aTurn]) (fresh OMap.empty)).answers = [true, true] := by decide +kernel

/-- Database "a" is requested twice before the worker runs; the third turn finds the second request in vain. -/
def clash : List Act := [.ev start false, .ev createA true, .ev createA false, aTurn, aTurn, aTurn]

theorem clash_told : told (run plainJson clash (fresh OMap.empty)).answers = [true, true, false] ∧
    (run plainJson clash (fresh OMap.empty)).awake = true := by decide +kernel

/-- Then the worker is woken three times and the process restarted. -/
def later : List Act := [.tick, aTurn, aTurn, .ev createB true, aTurn, .ev .crash false, .ev start false, .tick, aTurn, aTurn]

theorem clash_brief : Spec.Loop.Brief 2 (clash ++ aTurn :: later) := brief_acts (by simp [clash, later, aTurn]) (by decide)

/-- C89_failed at work: three more turns, each with an error. -/
example : ∃ new, (∀ x ∈ told new, x = false) ∧ made new = (told new).length ∧ made new ≤ 3 ∧ ∃ old,
    (run plainJson (clash ++ aTurn :: later) (fresh OMap.empty)).answers = old ++ new := by
  have hx : (match ((run plainJson clash (fresh OMap.empty)).world.step plainJson turn).1 with
      | .worked (.err _) => true
      | _ => false) = true := by decide +kernel
  have hs := step_answers (run plainJson clash (fresh OMap.empty)) (e := turn) (b := false) clash_told.2
  generalize ((run plainJson clash (fresh OMap.empty)).world.step plainJson turn).1 = x at hx hs
  cases x with
  | worked r =>
    cases r with
    | err e =>
      obtain ⟨new, h1, h2, h3, h4⟩ := C89_failed (J := plainJson) (K := 2) (db := OMap.empty) (as₁ := clash) (as₂ := later) (b := false)
        (o₁ := asIs) (o₂ := asIs) (o₃ := asIs) (c := quiet) (env := plainEnv) freshDB clash_brief rfl (by rw [run_append]; exact hs)
      exact ⟨new, h2, h3, Nat.le_trans h4 (by decide), _, h1⟩
    | _ => cases hx
  | _ => cases hx

/-- They are indeed made. -/
example : told (run plainJson (clash ++ aTurn :: later) (fresh OMap.empty)).answers = [true, true, false, false, false, false, false] := by
  decide +kernel

/-- Database "a" is created; the worker is about to find the queue empty. -/
def quietly : List Act := [.ev start false, .ev createA true, aTurn, aTurn]

theorem quietly_brief : Spec.Loop.Brief 2 (quietly ++ aTurn :: .ev indexX true :: [aTurn, aTurn, .ev createB true, aTurn, .tick, aTurn, aTurn]) :=
  brief_acts (by simp [quietly, aTurn]) (by decide)

/-- C89_spins at work: all turns are made, and OnChanged hears of success five times, the database "b" being requested
in between. -/
example : ∃ old new, (run plainJson (quietly ++ aTurn :: .ev indexX true :: [aTurn, aTurn, .ev createB true, aTurn, .tick, aTurn, aTurn])
    (fresh OMap.empty)).answers = old ++ new ∧ (∀ x ∈ told new, x = true) ∧ (told new).length = 5 := by
  have ha : (run plainJson quietly (fresh OMap.empty)).awake = true := by decide +kernel
  have hx : (match ((run plainJson quietly (fresh OMap.empty)).world.step plainJson turn).1 with
      | .worked (.ok out) => out.nojob
      | _ => false) = true := by decide +kernel
  have hy : (match (((run plainJson quietly (fresh OMap.empty)).step plainJson aTurn).world.step plainJson indexX).1 with
      | .job (.ok _) => true
      | _ => false) = true := by decide +kernel
  have hs := step_answers (run plainJson quietly (fresh OMap.empty)) (e := turn) (b := false) ha
  have ht : (((run plainJson quietly (fresh OMap.empty)).step plainJson aTurn).step plainJson (.ev indexX true)).answers =
      ((run plainJson quietly (fresh OMap.empty)).step plainJson aTurn).answers ++
        [(((run plainJson quietly (fresh OMap.empty)).step plainJson aTurn).world.step plainJson indexX).1] := rfl
  generalize ((run plainJson quietly (fresh OMap.empty)).world.step plainJson turn).1 = x at hx hs
  generalize (((run plainJson quietly (fresh OMap.empty)).step plainJson aTurn).world.step plainJson indexX).1 = y at hy ht
  cases x with
  | worked r =>
    cases r with
    | ok out =>
      cases y with
      | job q =>
        cases q with
        | ok j =>
          obtain ⟨-, new, h1, h2, h3, h4⟩ := C89_spins (J := plainJson) (K := 2) (db := OMap.empty) (as₁ := quietly) (b := false) (j := j)
            (as₂ := [aTurn, aTurn, .ev createB true, aTurn, .tick, aTurn, aTurn]) (o₁ := asIs) (o₂ := asIs) (o₃ := asIs) (c := quiet)
            (env := plainEnv) (c' := quiet) (i := { db := nameA, collection := nameX, index := { name := nameB, columns := [nameY] } })
            freshDB quietly_brief hx
            (by
              rw [run_append]
              refine ht.trans ?_
              rw [show ((run plainJson quietly (fresh OMap.empty)).step plainJson aTurn).answers = _ from hs, List.append_assoc]
              rfl)
            (by
              intro a ha
              simp only [List.mem_cons, List.not_mem_nil, or_false] at ha
              rcases ha with rfl | rfl | rfl | rfl | rfl | rfl | rfl <;> first | rfl | trivial)
          exact ⟨_, new, h1, h2, by rw [← h3, h4]; decide⟩
        | _ => cases hy
      | _ => cases hy
    | _ => cases hx
  | _ => cases hx

/-- C89_wakes at work: after the missed notification the worker sleeps, and the ticker wakes it. -/
example : (run plainJson missed (fresh OMap.empty)).awake = false ∧ (run plainJson (missed ++ [.tick]) (fresh OMap.empty)).awake = true :=
  ⟨by decide +kernel, C89_wakes (db := OMap.empty) missed .tick (.inl ⟨rfl, by decide +kernel⟩)⟩

end Mondis.Loop
