import Verif.Spec.Meta
/-!
# Static bounds for programs over package meta
-/
namespace Mondis.Spec.Client
open Mondis Spec

/-- The program passes text only and makes at most `k` calls, whatever it is answered. -/
def Within {α : Type} : Nat → Client α → Prop
  | _, done _ => True
  | 0, call _ _ => False
  | k + 1, call c f => c.Text ∧ ∀ r, (f r).Within k

theorem Within.mono {α : Type} {p : Client α} {k n : Nat} (h : p.Within k) (hn : k ≤ n) : p.Within n := by
  induction p generalizing k n with
  | done r => cases n <;> trivial
  | call c f ih =>
    cases k with
    | zero => exact h.elim
    | succ k =>
      cases n with
      | zero => omega
      | succ n => exact ⟨h.1, fun r => ih r (h.2 r) (by omega)⟩

theorem Within.text {α : Type} {p : Client α} {k : Nat} (h : p.Within k) (M : MState) : p.Text M := by
  induction p generalizing k M with
  | done r => trivial
  | call c f ih =>
    cases k with
    | zero => exact h.elim
    | succ k => exact ⟨h.1, ih _ (h.2 _) _⟩

theorem Within.calls {α : Type} {p : Client α} {k : Nat} (h : p.Within k) (M : MState) : p.calls M ≤ k := by
  induction p generalizing k M with
  | done r => exact Nat.zero_le _
  | call c f ih =>
    cases k with
    | zero => exact h.elim
    | succ k =>
      have := ih _ (h.2 (c.sem M).1) (c.sem M).2
      simp only [Client.calls]
      omega

theorem Within.bind {α β : Type} {p : Client α} {f : α → Client β} {k n : Nat} (h : p.Within k)
    (hf : ∀ a, (f a).Within n) : (p.bind f).Within (k + n) := by
  induction p generalizing k with
  | done r =>
    cases r with
    | ok a => exact (hf a).mono (by omega)
    | err e => exact Within.mono (k := 0) trivial (by omega)
    | panic => exact Within.mono (k := 0) trivial (by omega)
  | call c g ih =>
    cases k with
    | zero => exact h.elim
    | succ k =>
      have e : k + 1 + n = (k + n) + 1 := by omega
      rw [e]
      exact ⟨h.1, fun r => ih r (h.2 r)⟩

theorem within_one {β : Type} {c : MetaCall β} (h : c.Text) : (one c).Within 1 := ⟨h, fun _ => trivial⟩

theorem strict_one {β : Type} (c : MetaCall β) : (one c).Strict := ⟨rfl, rfl, fun _ => trivial⟩

theorem Strict.bind {α β : Type} {p : Client α} {f : α → Client β} (h : p.Strict)
    (hf : ∀ a, (f a).Strict) : (p.bind f).Strict := by
  induction p with
  | done r => cases r with
    | ok a => exact hf a
    | err e => trivial
    | panic => trivial
  | call c g ih =>
    obtain ⟨h1, h2, h3⟩ := h
    refine ⟨?_, ?_, fun r => ih r (h3 r)⟩
    · show (g (.err .readOnlyTxn)).bind f = _
      rw [h1]; rfl
    · show (g (.err .txnTooBig)).bind f = _
      rw [h2]; rfl

theorem Only.bind {P : ∀ β : Type, MetaCall β → Prop} {α β : Type} {p : Client α} {f : α → Client β} (h : p.Only P)
    (hf : ∀ a, (f a).Only P) : (p.bind f).Only P := by
  induction p with
  | done r => cases r with
    | ok a => exact hf a
    | err e => trivial
    | panic => trivial
  | call c g ih => exact ⟨h.1, fun r => ih r (h.2 r)⟩

theorem only_one {P : ∀ β : Type, MetaCall β → Prop} {β : Type} {c : MetaCall β} (h : P _ c) : (one c).Only P :=
  ⟨h, fun _ => trivial⟩

/-- What a sequence means. -/
theorem sem_bind {α β : Type} (p : Client α) (f : α → Client β) (M : MState) :
    (p.bind f).sem M = match p.sem M with
      | (.ok a, M') => (f a).sem M'
      | (.err e, M') => (.err e, M')
      | (.panic, M') => (.panic, M') := by
  induction p generalizing M with
  | done r => cases r <;> rfl
  | call c g ih => exact ih _ _

theorem sem_one {β : Type} (c : MetaCall β) (M : MState) : (one c).sem M = c.sem M := rfl

theorem withIDs_strict {α : Type} {p : Client α} (h : p.Strict) (got : List (Int64 × Int64)) :
    (p.withIDs got).Strict := by
  induction p generalizing got with
  | done r => trivial
  | call c k ih =>
    obtain ⟨h1, h2, h3⟩ := h
    refine ⟨?_, ?_, fun r => ih r (h3 r) _⟩
    · show (k (.err .readOnlyTxn)).withIDs _ = _
      rw [h1]; rfl
    · show (k (.err .txnTooBig)).withIDs _ = _
      rw [h2]; rfl

theorem withIDs_only {P : ∀ β : Type, MetaCall β → Prop} {α : Type} {p : Client α} (h : p.Only P)
    (got : List (Int64 × Int64)) : (p.withIDs got).Only P := by
  induction p generalizing got with
  | done r => trivial
  | call c k ih => exact ⟨h.1, fun r => ih r (h.2 r) _⟩

theorem withIDs_within {α : Type} {p : Client α} {n : Nat} (h : p.Within n) (got : List (Int64 × Int64)) :
    (p.withIDs got).Within n := by
  induction p generalizing got n with
  | done r => exact Within.mono (k := 0) trivial (Nat.zero_le _)
  | call c k ih =>
    cases n with
    | zero => exact h.elim
    | succ n => exact ⟨h.1, fun r => ih r (h.2 r) _⟩

end Mondis.Spec.Client
