import Verif.Lemmas.BigEndian
import Verif.Spec.Float
namespace Mondis.Memcomparable
open Mondis.Spec

def magN (n : Nat) : Nat :=
  if n / 2 ^ 52 = 0 then n % 2 ^ 52 else (2 ^ 52 + n % 2 ^ 52) * 2 ^ (n / 2 ^ 52 - 1)

theorem magN_succ (n : Nat) : magN n < magN (n + 1) := by
  unfold magN
  by_cases hc : n % 2 ^ 52 = 2 ^ 52 - 1
  · have h1 : (n + 1) / 2 ^ 52 = n / 2 ^ 52 + 1 := by omega
    have h2 : (n + 1) % 2 ^ 52 = 0 := by omega
    rw [h1, h2, hc]
    generalize n / 2 ^ 52 = q
    cases q with
    | zero => decide
    | succ q =>
      rw [if_neg (by omega), if_neg (by omega)]
      have : q + 1 + 1 - 1 = (q + 1 - 1) + 1 := by omega
      rw [this, Nat.pow_succ]
      have : 0 < 2 ^ (q + 1 - 1) := Nat.pow_pos (by decide)
      simp only [Nat.add_sub_cancel] at this ⊢
      omega
  · have h1 : (n + 1) / 2 ^ 52 = n / 2 ^ 52 := by omega
    have h2 : (n + 1) % 2 ^ 52 = n % 2 ^ 52 + 1 := by omega
    rw [h1, h2]
    split
    · omega
    · apply Nat.mul_lt_mul_of_pos_right (by omega) (Nat.pow_pos (by decide))

theorem magN_lt {a b : Nat} (h : a < b) : magN a < magN b := by
  induction h with
  | refl => exact magN_succ a
  | step _ ih => exact Nat.lt_trans ih (magN_succ _)

theorem magN_lt_iff {a b : Nat} : magN a < magN b ↔ a < b := by
  refine ⟨fun h => ?_, magN_lt⟩
  rcases Nat.lt_trichotomy a b with h1 | h1 | h1
  · exact h1
  · subst h1; omega
  · have := magN_lt h1; omega

theorem magN_pos {a : Nat} (h : 0 < a) : 0 < magN a := by
  have := magN_lt h; omega

/-- sign-less part -/
def low (u : UInt64) : Nat := u.toNat % 2 ^ 63

theorem magnitude_eq (u : UInt64) : F64.magnitude u = magN (low u) := by
  have := u.toNat_lt
  unfold F64.magnitude magN F64.expo F64.frac low
  rw [show u.toNat / 2 ^ 52 % 2 ^ 11 = u.toNat % 2 ^ 63 / 2 ^ 52 by omega,
    show u.toNat % 2 ^ 52 = u.toNat % 2 ^ 63 % 2 ^ 52 by omega]

theorem isNaN_iff (u : UInt64) : F64.isNaN u ↔ 0x7FF0000000000000 < low u := by
  have := u.toNat_lt
  unfold F64.isNaN F64.expo F64.frac low
  omega

theorem and_not_sign (u : UInt64) : (u &&& ~~~ signMask).toNat = low u := by
  unfold low
  rw [UInt64.toNat_and, show (~~~ signMask).toNat = 2 ^ 63 - 1 from rfl]
  exact Nat.and_two_pow_sub_one_eq_mod _ _

theorem and_sign (u : UInt64) : (u &&& signMask).toNat = if 2 ^ 63 ≤ u.toNat then 2 ^ 63 else 0 := by
  have hu := u.toNat_lt
  rw [UInt64.toNat_and, show signMask.toNat = 2 ^ 63 from rfl]
  apply Nat.eq_of_testBit_eq
  intro i
  rw [Nat.testBit_and, Nat.testBit_two_pow]
  by_cases hi : 63 = i
  · subst hi
    rw [Nat.testBit_eq_decide_div_mod_eq]
    split
    · rw [show u.toNat / 2 ^ 63 % 2 = 1 by omega]; decide
    · rw [show u.toNat / 2 ^ 63 % 2 = 0 by omega]; decide
  · split
    · rw [Nat.testBit_two_pow]; simp [hi]
    · simp [hi]

theorem or_sign (u : UInt64) : (u ||| signMask).toNat = low u + 2 ^ 63 := by
  have hu := u.toNat_lt
  rw [UInt64.toNat_or, show signMask.toNat = 2 ^ 63 from rfl]
  unfold low
  have h1 : u.toNat = (u.toNat / 2 ^ 63) * 2 ^ 63 + u.toNat % 2 ^ 63 := by omega
  apply Nat.eq_of_testBit_eq
  intro i
  rw [Nat.testBit_or, Nat.testBit_two_pow]
  rcases Nat.lt_trichotomy i 63 with hi | hi | hi
  · rw [Nat.add_comm, Nat.testBit_two_pow_add_gt hi, Nat.testBit_mod_two_pow]
    simp [hi]; omega
  · subst hi
    rw [Nat.add_comm, Nat.testBit_two_pow_add_eq, Nat.testBit_mod_two_pow]
    simp
  · have p : 2 ^ 64 ≤ 2 ^ i := Nat.pow_le_pow_right (by decide) hi
    rw [Nat.testBit_lt_two_pow (by omega), Nat.testBit_lt_two_pow (by omega)]
    simp; omega

theorem floatGeZero_iff (u : UInt64) :
    floatGeZero u = true ↔ low u ≤ 0x7FF0000000000000 ∧ (u.toNat < 2 ^ 63 ∨ low u = 0) := by
  have h1 := and_not_sign u
  have h2 := and_sign u
  unfold floatGeZero
  simp only [Bool.and_eq_true, decide_eq_true_eq, Bool.or_eq_true, beq_iff_eq, UInt64.le_iff_toNat_le,
    h1, ← UInt64.toNat_inj, h2]
  simp

/-- numeric key of an encoded non-NaN float -/
theorem enc_toNat (u : UInt64) (h : ¬ F64.isNaN u) :
    (encodeFloat64ToUint64 u).toNat =
      if u.toNat < 2 ^ 63 ∨ low u = 0 then low u + 2 ^ 63 else 2 ^ 63 - 1 - low u := by
  rw [isNaN_iff] at h
  have hu := u.toNat_lt
  have hl : low u = u.toNat % 2 ^ 63 := rfl
  unfold encodeFloat64ToUint64
  by_cases hg : u.toNat < 2 ^ 63 ∨ low u = 0
  · rw [if_pos ((floatGeZero_iff u).mpr ⟨by omega, hg⟩), if_pos hg, or_sign]
  · rw [if_neg (fun h' => hg ((floatGeZero_iff u).mp h').2), if_neg hg]
    simp only [UInt64.toNat_not, UInt64.size]; omega

theorem enc_lt (u v : UInt64) (hu : ¬ F64.isNaN u) (hv : ¬ F64.isNaN v) :
    encodeFloat64ToUint64 u < encodeFloat64ToUint64 v ↔ F64.scaled u < F64.scaled v := by
  rw [UInt64.lt_iff_toNat_lt, enc_toNat u hu, enc_toNat v hv]
  have h1 := u.toNat_lt; have h2 := v.toNat_lt
  have hlu : low u = u.toNat % 2 ^ 63 := rfl
  have hlv : low v = v.toNat % 2 ^ 63 := rfl
  have hz : magN 0 = 0 := rfl
  unfold F64.scaled F64.neg
  rw [magnitude_eq, magnitude_eq]
  simp only [decide_eq_true_eq]
  by_cases a : low u = 0 <;> by_cases b : low v = 0
  · rw [a, b, hz]; simp
  · rw [a, hz]
    have := magN_pos (Nat.pos_of_ne_zero b)
    simp [b]; split <;> split <;> omega
  · rw [b, hz]
    have := magN_pos (Nat.pos_of_ne_zero a)
    simp [a]; split <;> split <;> omega
  · have h3 := magN_pos (Nat.pos_of_ne_zero a)
    have h4 := magN_pos (Nat.pos_of_ne_zero b)
    have h5 := magN_lt_iff (a := low u) (b := low v)
    have h6 := magN_lt_iff (a := low v) (b := low u)
    simp only [a, b, or_false]
    generalize magN (low u) = x at *
    generalize magN (low v) = y at *
    split <;> split <;> split <;> split <;> omega

theorem dec_enc (u : UInt64) (h : ¬ F64.isNaN u) :
    decodeUint64ToFloat64 (encodeFloat64ToUint64 u) = if u = F64.negZero then 0 else u := by
  have hu := u.toNat_lt
  have hlu : low u = u.toNat % 2 ^ 63 := rfl
  have he := enc_toNat u h
  have hn := fun h' => h ((isNaN_iff u).mpr h')
  have hs := and_sign (encodeFloat64ToUint64 u)
  have hzero : (u = F64.negZero) ↔ u.toNat = 2 ^ 63 := by
    rw [← UInt64.toNat_inj]; rfl
  unfold decodeUint64ToFloat64
  have hgt : (encodeFloat64ToUint64 u &&& signMask > 0) ↔
      2 ^ 63 ≤ (encodeFloat64ToUint64 u).toNat := by
    show 0 < _ ↔ _
    rw [UInt64.lt_iff_toNat_lt, hs]; simp; split <;> omega
  have hne := (encodeFloat64ToUint64 u).toNat_lt
  by_cases hg : u.toNat < 2 ^ 63 ∨ low u = 0
  · rw [if_pos hg] at he
    rw [if_pos (hgt.mpr (by omega))]
    apply UInt64.toNat_inj.mp
    rw [and_not_sign]; unfold low; rw [he]
    by_cases hz : u = F64.negZero
    · rw [if_pos hz]
      have := hzero.mp hz
      simp; omega
    · rw [if_neg hz]
      have : u.toNat ≠ 2 ^ 63 := fun h => hz (hzero.mpr h)
      omega
  · rw [if_neg hg] at he
    rw [if_neg (fun h => by have := hgt.mp h; omega), if_neg (fun h => by have := hzero.mp h; omega)]
    apply UInt64.toNat_inj.mp
    simp only [UInt64.toNat_not, UInt64.size, he]; omega

end Mondis.Memcomparable
