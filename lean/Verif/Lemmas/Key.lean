import Verif.Model.Key
import Verif.Lemmas.Lex
namespace Mondis.Key
open Mondis.Lex

theorem compare_spec (a b : Bytes) :
    (compare a b = -1 ↔ a < b) ∧ (compare a b = 0 ↔ a = b) ∧ (compare a b = 1 ↔ b < a) := by
  induction a generalizing b with
  | nil => cases b <;> simp [compare]
  | cons x a ih =>
    cases b with
    | nil => simp [compare]
    | cons y b =>
      obtain ⟨h1, h2, h3⟩ := ih b
      simp only [compare, cons_lt_cons]
      by_cases hxy : x < y
      · have hne : x ≠ y := by rintro rfl; exact absurd hxy (UInt8.lt_irrefl x)
        have hyx : ¬ y < x := fun h => absurd (UInt8.lt_trans hxy h) (UInt8.lt_irrefl x)
        simp [hxy, hne, hyx, hne.symm]
      · by_cases hyx : y < x
        · have hne : x ≠ y := by rintro rfl; exact absurd hyx (UInt8.lt_irrefl x)
          simp [hyx, hxy, hne, hne.symm]
        · have : x = y := UInt8.le_antisymm (UInt8.not_lt.mp hyx) (UInt8.not_lt.mp hxy)
          subst this
          simp [h1, h2, h3]

theorem hasPrefix_iff (k p : Bytes) : hasPrefix k p = true ↔ ∃ t, k = p ++ t := by
  unfold hasPrefix
  simp only [Bool.and_eq_true, decide_eq_true_eq, beq_iff_eq]
  constructor
  · rintro ⟨_, h⟩; exact ⟨k.drop p.length, by conv => lhs; rw [← List.take_append_drop p.length k, h]⟩
  · rintro ⟨t, rfl⟩; simp

theorem add_one_eq_zero_iff (x : UInt8) : x + 1 = 0 ↔ x = 255 := by
  rw [← UInt8.toNat_inj, ← UInt8.toNat_inj, UInt8.toNat_add]
  have := x.toNat_lt
  simp; omega

theorem lt_add_one {x : UInt8} (h : x ≠ 255) : x < x + 1 := by
  have h1 : ¬ x + 1 = 0 := fun h' => h ((add_one_eq_zero_iff x).mp h')
  rw [UInt8.lt_iff_toNat_lt, UInt8.toNat_add]
  have := x.toNat_lt
  have : x.toNat ≠ 255 := fun h' => h (UInt8.toNat_inj.mp h')
  simp; omega

theorem lt_add_one_iff {x y : UInt8} (h : x ≠ 255) : y < x + 1 ↔ y ≤ x := by
  rw [UInt8.lt_iff_toNat_lt, UInt8.toNat_add, UInt8.le_iff_toNat_le]
  have := x.toNat_lt
  have : x.toNat ≠ 255 := fun h' => h (UInt8.toNat_inj.mp h')
  simp; omega

/-- Every byte string is all-0xFF, or splits at its last byte that is not 0xFF. -/
theorem split_ff (k : Bytes) :
    (∃ n, k = List.replicate n 255) ∨
    ∃ p c n, c ≠ 255 ∧ k = p ++ c :: List.replicate n 255 := by
  induction k with
  | nil => exact .inl ⟨0, rfl⟩
  | cons x k ih =>
    rcases ih with ⟨n, rfl⟩ | ⟨p, c, n, hc, rfl⟩
    · by_cases hx : x = 255
      · subst hx; exact .inl ⟨n + 1, rfl⟩
      · exact .inr ⟨[], x, n, hx, rfl⟩
    · exact .inr ⟨x :: p, c, n, hc, rfl⟩

theorem incRev_ff (n : Nat) (l : Bytes) :
    incRev (List.replicate n 255 ++ l) = (incRev l).map (List.replicate n 0 ++ ·) := by
  induction n with
  | zero => simp
  | succ n ih =>
    simp only [List.replicate_succ, List.cons_append, incRev, ih]
    simp [Function.comp_def]

theorem prefixNext_ff (n : Nat) :
    prefixNext (List.replicate n 255) = List.replicate n 255 ++ [0] := by
  unfold prefixNext
  have := incRev_ff n []
  simp only [List.append_nil] at this
  rw [List.reverse_replicate, this]; simp [incRev]

theorem prefixNext_split (p : Bytes) (c : UInt8) (n : Nat) (hc : c ≠ 255) :
    prefixNext (p ++ c :: List.replicate n 255) = p ++ (c + 1) :: List.replicate n 0 := by
  unfold prefixNext
  have hr : (p ++ c :: List.replicate n 255).reverse = List.replicate n 255 ++ (c :: p.reverse) := by
    simp [List.reverse_append]
  rw [hr, incRev_ff]
  have : ¬ c + 1 = 0 := fun h => hc ((add_one_eq_zero_iff c).mp h)
  simp [incRev, this]

theorem isPointRev_iff (s e : Bytes) (hl : s.length = e.length) :
    isPointRev s e = true ↔ incRev s = some e := by
  induction s generalizing e with
  | nil => cases e <;> simp [isPointRev, incRev]
  | cons x s ih =>
    cases e with
    | nil => simp at hl
    | cons y e =>
      have hl' : s.length = e.length := by simpa using hl
      simp only [isPointRev, incRev]
      by_cases hx : x = 255
      · subst hx
        simp only [ne_eq, not_true, if_false, show (255 : UInt8) + 1 = 0 from rfl]
        by_cases hy : y = 0
        · subst hy; simp [ih e hl']
        · simp [hy, Ne.symm hy]
      · have : ¬ x + 1 = 0 := fun h => hx ((add_one_eq_zero_iff x).mp h)
        simp [hx, this]

end Mondis.Key
