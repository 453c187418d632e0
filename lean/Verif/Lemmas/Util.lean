import Verif.Lemmas.Frame
import Verif.Model.Util
import Verif.Model.Store
/-!
# Transactions: atomicity and serializability
-/
namespace Mondis.Util
open Mondis Prog

theorem versions_length {α : Type} (db₀ : DB) (h : List (Committed α)) :
    (versions db₀ h).length = h.length + 1 := by
  induction h with
  | nil => rfl
  | cons T rest ih => simp [versions, ih]

theorem versions_drop {α : Type} (db₀ : DB) (after before : List (Committed α)) :
    (versions db₀ (after ++ before)).drop after.length = versions db₀ before := by
  induction after with
  | nil => rfl
  | cons T rest ih => simpa [versions] using ih

/-- The snapshot a transaction saw is the newest version of the transactions committed before. -/
theorem snapshotOf_eq {α : Type} (db₀ : DB) (after before : List (Committed α)) (T : Committed α)
    (h : T.snap = before.length) :
    snapshotOf db₀ (after ++ before) T = (versions db₀ before).headD db₀ := by
  unfold snapshotOf
  simp only
  rw [versions_length]
  have e : (after ++ before).length + 1 - 1 - T.snap = after.length := by
    simp [h]
  rw [e, ← versions_drop db₀ after before]
  generalize versions db₀ (after ++ before) = vs
  rw [List.getD_eq_getElem?_getD, List.headD_eq_head?_getD, List.head?_drop]

/-- If none of the later transactions wrote `k`, its entry is still the one in the snapshot. -/
theorem versions_unwritten {α : Type} (db₀ : DB) (after before : List (Committed α)) (k : Bytes)
    (h : ∀ after' U before', after ++ before = after' ++ U :: before' → before.length ≤ before'.length →
      k ∉ writtenKeys db₀ before' U) :
    ((versions db₀ (after ++ before)).headD db₀).get k =
      ((versions db₀ before).headD db₀).get k := by
  induction after with
  | nil => rfl
  | cons T rest ih =>
    have ih := ih (fun after' U before' e hl => h (T :: after') U before' (by simp [e]) hl)
    rw [← ih]
    simp only [List.cons_append, versions, List.headD_cons]
    have := h [] T (rest ++ before) (by simp) (by simp)
    exact get_applyWrites_of_not_mem this

/-- One after the other, in commit order: each transaction runs on what the earlier ones left. -/
def serial {α : Type} (db₀ : DB) : List (Committed α) → DB
  | [] => db₀
  | T :: rest => applyWrites (serial db₀ rest) (T.outcome (serial db₀ rest)).2.writes

/-- What a transaction the engine accepted has read is still there when it commits. -/
theorem accepted_unchanged {α : Type} (db₀ : DB) (T : Committed α) (rest : List (Committed α))
    (h : Accepted db₀ (T :: rest)) :
    ∀ k ∈ (T.outcome (snapshotOf db₀ rest T)).2.reads,
      (snapshotOf db₀ rest T).get k = ((versions db₀ rest).headD db₀).get k := by
  obtain ⟨-, hsnap, hread⟩ := h
  intro k hk
  have hsplit : rest = rest.take (rest.length - T.snap) ++ rest.drop (rest.length - T.snap) :=
    (List.take_append_drop _ _).symm
  have hlen : (rest.drop (rest.length - T.snap)).length = T.snap := by
    rw [List.length_drop]; omega
  have e := snapshotOf_eq db₀ (rest.take (rest.length - T.snap)) (rest.drop (rest.length - T.snap)) T
    hlen.symm
  rw [← hsplit] at e
  rw [e]
  have := versions_unwritten db₀ (rest.take (rest.length - T.snap))
    (rest.drop (rest.length - T.snap)) k (by
      intro after' U before' he hl
      rw [← hsplit] at he
      exact hread before' after' U he (by omega) k hk)
  rw [← hsplit] at this
  exact this.symm

/-- A transaction the engine accepted gives the result it would have given running alone at commit
time. -/
theorem accepted_replay {α : Type} (db₀ : DB) (T : Committed α) (rest : List (Committed α))
    (hs : T.prog.ScanFree) (h : Accepted db₀ (T :: rest)) :
    let head := (versions db₀ rest).headD db₀
    (T.outcome head).1 = (T.outcome (snapshotOf db₀ rest T)).1 ∧
    (T.outcome head).2.writes = (T.outcome (snapshotOf db₀ rest T)).2.writes :=
  replay T.prog hs _ _ _ (accepted_unchanged db₀ T rest h)

/-- The database is what the serial execution gives. -/
theorem versions_serial {α : Type} (db₀ : DB) (h : List (Committed α))
    (hs : ∀ T ∈ h, T.prog.ScanFree) (ha : Accepted db₀ h) :
    (versions db₀ h).headD db₀ = serial db₀ h := by
  induction h with
  | nil => rfl
  | cons T rest ih =>
    have ih := ih (fun U hU => hs U (by simp [hU])) ha.1
    have := (accepted_replay db₀ T rest (hs T (by simp)) ha).2
    simp only [versions, List.headD_cons, serial]
    rw [← ih, this]
    rfl

end Mondis.Util
