import Verif.Lemmas.Lex
import Verif.Model.Memcomparable
/-! Big-endian digits of naturals and their order; instances for `putUint64`. -/
namespace Mondis.Memcomparable
open Mondis.Lex

/-- `k` big-endian base-256 digits. -/
def beN : Nat → Nat → Bytes
  | 0, _ => []
  | k + 1, n => UInt8.ofNat (n / 256 ^ k) :: beN k (n % 256 ^ k)

@[simp] theorem beN_length (k n : Nat) : (beN k n).length = k := by
  induction k generalizing n with
  | zero => rfl
  | succ k ih => simp [beN, ih]

def beVal : Bytes → Nat
  | [] => 0
  | c :: l => c.toNat * 256 ^ l.length + beVal l

theorem beVal_lt (l : Bytes) : beVal l < 256 ^ l.length := by
  induction l with
  | nil => simp [beVal]
  | cons c l ih =>
    have := c.toNat_lt
    simp only [beVal, List.length_cons, Nat.pow_succ]
    have : c.toNat * 256 ^ l.length ≤ 255 * 256 ^ l.length := Nat.mul_le_mul_right _ (by omega)
    omega

theorem beVal_beN (k n : Nat) (h : n < 256 ^ k) : beVal (beN k n) = n := by
  induction k generalizing n with
  | zero => simp at h; simp [beN, beVal, h]
  | succ k ih =>
    have hp : 0 < 256 ^ k := Nat.pow_pos (by decide)
    have hq : n / 256 ^ k < 256 := by
      rw [Nat.div_lt_iff_lt_mul hp, Nat.mul_comm]; rwa [Nat.pow_succ] at h
    simp only [beN, beVal, beN_length, ih _ (Nat.mod_lt _ hp)]
    have : (UInt8.ofNat (n / 256 ^ k)).toNat = n / 256 ^ k := by
      simp [Nat.mod_eq_of_lt hq]
    rw [this, Nat.mul_comm]
    exact Nat.div_add_mod n (256 ^ k)

theorem beN_beVal (l : Bytes) : beN l.length (beVal l) = l := by
  induction l with
  | nil => rfl
  | cons c l ih =>
    have hp : 0 < 256 ^ l.length := Nat.pow_pos (by decide)
    have hl := beVal_lt l
    simp only [List.length_cons, beN, beVal]
    have h1 : (c.toNat * 256 ^ l.length + beVal l) / 256 ^ l.length = c.toNat := by
      rw [Nat.add_comm, Nat.add_mul_div_right _ _ hp, Nat.div_eq_of_lt hl]; omega
    have h2 : (c.toNat * 256 ^ l.length + beVal l) % 256 ^ l.length = beVal l := by
      rw [Nat.add_comm, Nat.add_mul_mod_self_right, Nat.mod_eq_of_lt hl]
    rw [h1, h2, ih]; simp

theorem beVal_lt_of_lt {a b : Bytes} (hl : a.length = b.length) (h : a < b) :
    beVal a < beVal b := by
  induction a generalizing b with
  | nil => cases b with
    | nil => exact absurd h (irrefl _)
    | cons => simp at hl
  | cons x a ih => cases b with
    | nil => simp at hl
    | cons y b =>
      have hl' : a.length = b.length := by simpa using hl
      simp only [beVal, hl']
      have ha := beVal_lt a
      have hb := beVal_lt b
      rw [hl'] at ha
      rcases cons_lt_cons.mp h with h1 | ⟨rfl, h1⟩
      · rw [UInt8.lt_iff_toNat_lt] at h1
        have : (x.toNat + 1) * 256 ^ b.length ≤ y.toNat * 256 ^ b.length :=
          Nat.mul_le_mul_right _ h1
        rw [Nat.add_mul] at this
        omega
      · have := ih hl' h1
        omega

theorem lt_iff_beVal_lt {a b : Bytes} (hl : a.length = b.length) :
    a < b ↔ beVal a < beVal b := by
  refine ⟨beVal_lt_of_lt hl, fun h => ?_⟩
  rcases trichotomy a b with h1 | h1 | h1
  · exact h1
  · subst h1; omega
  · have := beVal_lt_of_lt hl.symm h1; omega

theorem putUint64_eq (v : UInt64) : putUint64 v = beN 8 v.toNat := by
  have := v.toNat_lt
  simp only [putUint64, beN]
  simp only [List.cons.injEq, and_true]
  refine ⟨?_, ?_, ?_, ?_, ?_, ?_, ?_, ?_⟩ <;>
  · apply UInt8.toNat_inj.mp
    simp [UInt64.toNat_shiftRight, Nat.shiftRight_eq_div_pow]
    try omega

@[simp] theorem putUint64_length (v : UInt64) : (putUint64 v).length = 8 := rfl

theorem beVal_putUint64 (v : UInt64) : beVal (putUint64 v) = v.toNat := by
  rw [putUint64_eq, beVal_beN]; exact v.toNat_lt

theorem putUint64_lt (v w : UInt64) : putUint64 v < putUint64 w ↔ v < w := by
  rw [lt_iff_beVal_lt (by simp), beVal_putUint64, beVal_putUint64, UInt64.lt_iff_toNat_lt]

theorem putUint64_inj {v w : UInt64} (h : putUint64 v = putUint64 w) : v = w := by
  apply UInt64.toNat_inj.mp
  rw [← beVal_putUint64, h, beVal_putUint64]

theorem getUint64_toNat (b0 b1 b2 b3 b4 b5 b6 b7 : UInt8) :
    (getUint64 b0 b1 b2 b3 b4 b5 b6 b7).toNat = beVal [b0, b1, b2, b3, b4, b5, b6, b7] := by
  have key : ∀ (hi lo k : Nat), lo < 2 ^ k → lo ||| (hi <<< k) = hi * 2 ^ k + lo := by
    intro hi lo k h
    rw [Nat.or_comm, ← Nat.shiftLeft_add_eq_or_of_lt h, Nat.shiftLeft_eq]
  have h0 := b0.toNat_lt; have h1 := b1.toNat_lt; have h2 := b2.toNat_lt
  have h3 := b3.toNat_lt; have h4 := b4.toNat_lt; have h5 := b5.toNat_lt
  have h6 := b6.toNat_lt; have h7 := b7.toNat_lt
  simp only [getUint64, UInt64.toNat_or, UInt64.toNat_shiftLeft, UInt8.toNat_toUInt64]
  have sm : ∀ (x k : Nat), x < 256 → k ≤ 56 → x <<< k % 2 ^ 64 = x <<< k := by
    intro x k hx hk
    apply Nat.mod_eq_of_lt
    rw [Nat.shiftLeft_eq]
    calc x * 2 ^ k < 256 * 2 ^ k := Nat.mul_lt_mul_of_pos_right hx (Nat.pow_pos (by decide))
      _ ≤ 256 * 2 ^ 56 := Nat.mul_le_mul_left _ (Nat.pow_le_pow_right (by decide) hk)
      _ = 2 ^ 64 := by decide
  simp only [show (8 : UInt64).toNat % 64 = 8 from rfl, show (16 : UInt64).toNat % 64 = 16 from rfl,
    show (24 : UInt64).toNat % 64 = 24 from rfl, show (32 : UInt64).toNat % 64 = 32 from rfl,
    show (40 : UInt64).toNat % 64 = 40 from rfl, show (48 : UInt64).toNat % 64 = 48 from rfl,
    show (56 : UInt64).toNat % 64 = 56 from rfl]
  rw [sm _ 8 h6 (by decide), sm _ 16 h5 (by decide), sm _ 24 h4 (by decide), sm _ 32 h3 (by decide),
    sm _ 40 h2 (by decide), sm _ 48 h1 (by decide), sm _ 56 h0 (by decide)]
  rw [key _ _ 8 (by omega), key _ _ 16 (by omega), key _ _ 24 (by omega), key _ _ 32 (by omega),
    key _ _ 40 (by omega), key _ _ 48 (by omega), key _ _ 56 (by omega)]
  simp only [beVal, List.length_cons, List.length_nil]
  omega

theorem putUint64_getUint64 (b0 b1 b2 b3 b4 b5 b6 b7 : UInt8) :
    putUint64 (getUint64 b0 b1 b2 b3 b4 b5 b6 b7) = [b0, b1, b2, b3, b4, b5, b6, b7] := by
  rw [putUint64_eq, getUint64_toNat]
  exact beN_beVal [b0, b1, b2, b3, b4, b5, b6, b7]

theorem decodeUint64_put (v : UInt64) (rest : Bytes) :
    decodeUint64 (putUint64 v ++ rest) = .ok (rest, v) := by
  simp only [putUint64, List.cons_append, List.nil_append, decodeUint64]
  congr 2
  apply putUint64_inj
  rw [putUint64_getUint64]; rfl

theorem decodeUint64_ok {b : Bytes} {r : Bytes} {v : UInt64} (h : decodeUint64 b = .ok (r, v)) :
    b = putUint64 v ++ r := by
  unfold decodeUint64 at h
  split at h
  · simp only [Res.ok.injEq, Prod.mk.injEq] at h
    obtain ⟨rfl, rfl⟩ := h
    rw [putUint64_getUint64]; rfl
  · cases h

theorem decodeUint64_short {b : Bytes} (h : b.length < 8) :
    decodeUint64 b = .err .insufficientBytes := by
  unfold decodeUint64
  split
  · simp at h; omega
  · rfl

theorem decodeUint64_err_iff (b : Bytes) :
    b.length < 8 ↔ decodeUint64 b = .err .insufficientBytes := by
  refine ⟨decodeUint64_short, fun h => ?_⟩
  unfold decodeUint64 at h
  split at h
  · cases h
  · rename_i h2
    rcases b with _|⟨a0,_|⟨a1,_|⟨a2,_|⟨a3,_|⟨a4,_|⟨a5,_|⟨a6,_|⟨a7,b⟩⟩⟩⟩⟩⟩⟩⟩ <;> simp
    exact absurd rfl (h2 _ _ _ _ _ _ _ _ _)

/-! Signed values. -/

theorem nat_xor_two_pow {n k : Nat} (h : n < 2 ^ k) : n ^^^ 2 ^ k = n + 2 ^ k := by
  apply Nat.eq_of_testBit_eq
  intro i
  rw [Nat.testBit_xor, Nat.testBit_two_pow, Nat.add_comm]
  rcases Nat.lt_trichotomy i k with hi | hi | hi
  · rw [Nat.testBit_two_pow_add_gt hi]
    simp [show k ≠ i by omega]
  · subst hi
    rw [Nat.testBit_two_pow_add_eq]
    simp [Nat.testBit_lt_two_pow h]
  · have h1 : n.testBit i = false := Nat.testBit_lt_two_pow (Nat.lt_trans h (Nat.pow_lt_pow_right (by decide) hi))
    have h2 : (2 ^ k + n).testBit i = false := by
      apply Nat.testBit_lt_two_pow
      have : 2 ^ (k+1) ≤ 2 ^ i := Nat.pow_le_pow_right (by decide) hi
      rw [Nat.pow_succ] at this; omega
    rw [h1, h2]; simp; omega

theorem nat_xor_two_pow_ge {n k : Nat} (h : 2 ^ k ≤ n) (h2 : n < 2 ^ (k + 1)) : n ^^^ 2 ^ k = n - 2 ^ k := by
  have := nat_xor_two_pow (n := n - 2 ^ k) (k := k) (by rw [Nat.pow_succ] at h2; omega)
  rw [show n - 2 ^ k + 2 ^ k = n by omega] at this
  rw [← this, Nat.xor_assoc, Nat.xor_self, Nat.xor_zero, this]

theorem toInt_encode (v : Int64) :
    (((encodeInt64ToUint64 v).toNat : Nat) : Int) = v.toInt + 2 ^ 63 := by
  have hv := v.toUInt64.toNat_lt
  have h1 : v.toInt = v.toBitVec.toInt := rfl
  have h2 : v.toUInt64.toNat = v.toBitVec.toNat := rfl
  rw [h1, BitVec.toInt_eq_toNat_cond, ← h2]
  simp only [encodeInt64ToUint64, UInt64.toNat_xor, signMask]
  rw [show (9223372036854775808 : UInt64).toNat = 2 ^ 63 from rfl]
  split
  · rw [nat_xor_two_pow (by omega)]; simp
  · rw [nat_xor_two_pow_ge (by omega) (by omega)]; simp; omega

theorem decodeUint64ToInt64_encode (v : Int64) :
    decodeUint64ToInt64 (encodeInt64ToUint64 v) = v := by
  unfold decodeUint64ToInt64 encodeInt64ToUint64
  rw [UInt64.xor_assoc, UInt64.xor_self, UInt64.xor_zero]; rfl

theorem encodeInt64ToUint64_decode (u : UInt64) :
    encodeInt64ToUint64 (decodeUint64ToInt64 u) = u := by
  unfold decodeUint64ToInt64 encodeInt64ToUint64
  have : (u ^^^ signMask).toInt64.toUInt64 = u ^^^ signMask := rfl
  rw [this, UInt64.xor_assoc, UInt64.xor_self, UInt64.xor_zero]

theorem encodeInt64ToUint64_lt (v w : Int64) :
    encodeInt64ToUint64 v < encodeInt64ToUint64 w ↔ v < w := by
  have hv := toInt_encode v
  have hw := toInt_encode w
  rw [UInt64.lt_iff_toNat_lt, Int64.lt_iff_toInt_lt]
  omega

theorem not_lt_not (u v : UInt64) : ~~~ u < ~~~ v ↔ v < u := by
  have := u.toNat_lt; have := v.toNat_lt
  simp only [UInt64.lt_iff_toNat_lt, UInt64.toNat_not, UInt64.size]
  omega

end Mondis.Memcomparable
