import Verif.Model.Compact
import Verif.Lemmas.BigEndian
namespace Mondis.Compact

theorem or_shift (x y k : Nat) (h : x < 2 ^ k) : x ||| (y <<< k) = x + y * 2 ^ k := by
  rw [Nat.or_comm, ← Nat.shiftLeft_add_eq_or_of_lt h, Nat.shiftLeft_eq, Nat.add_comm]

theorem or_shifted_toNat (x y : UInt64) (i : Nat) (hi : 7 * i < 64) (hx : x.toNat < 2 ^ (7 * i))
    (hy : y.toNat * 2 ^ (7 * i) < 2 ^ 64) :
    (x ||| (if 7 * i < 64 then y <<< UInt64.ofNat (7 * i) else 0)).toNat
      = x.toNat + y.toNat * 2 ^ (7 * i) := by
  rw [if_pos hi, UInt64.toNat_or, UInt64.toNat_shiftLeft]
  rw [UInt64.toNat_ofNat', Nat.mod_eq_of_lt (a := 7 * i) (b := 2 ^ 64) (by omega), Nat.mod_eq_of_lt (b := 64) hi]
  rw [Nat.mod_eq_of_lt (by rw [Nat.shiftLeft_eq]; exact hy)]
  exact or_shift _ _ _ hx

theorem low_or_high (n : Nat) : (n % 256 ||| 128) = n % 128 + 128 := by
  have h := or_shift (n % 128) (n % 256 / 128) 7 (by omega)
  have h' := or_shift (n % 128) 1 7 (by omega)
  have e : n % 256 = n % 128 ||| ((n % 256 / 128) <<< 7) := by rw [h]; omega
  rw [e, Nat.or_assoc]
  have : (n % 256 / 128) <<< 7 ||| 128 = 1 <<< 7 := by
    have : n % 256 / 128 = 0 ∨ n % 256 / 128 = 1 := by omega
    rcases this with h | h <;> rw [h] <;> decide
  rw [this, h']

theorem hi_byte (v : UInt64) : (v.toUInt8 ||| 0x80).toNat = v.toNat % 128 + 128 := by
  rw [UInt8.toNat_or, UInt64.toNat_toUInt8]
  exact low_or_high _

theorem not_hi_lt (v : UInt64) : ¬ (v.toUInt8 ||| 0x80) < 0x80 := by
  rw [UInt8.lt_iff_toNat_lt, hi_byte]
  simp

theorem hi_and (v : UInt64) : ((v.toUInt8 ||| 0x80) &&& 0x7f).toUInt64.toNat = v.toNat % 128 := by
  rw [UInt8.toNat_toUInt64, UInt8.toNat_and, hi_byte]
  rw [show (0x7f : UInt8).toNat = 2 ^ 7 - 1 from rfl, Nat.and_two_pow_sub_one_eq_mod]
  omega

theorem uvarint_roundtrip (room i : Nat) (hri : room + 1 + i = 10) (x v : UInt64)
    (hx : x.toNat < 2 ^ (7 * i)) (hv : v.toNat * 2 ^ (7 * i) < 2 ^ 64) :
    ∃ d, putUvarint (room + 1) v = some d ∧ 1 ≤ d.length ∧ d.length ≤ room + 1 ∧
      ∀ rest, uvarintLoop (d ++ rest) i x
        = .ok (rest, UInt64.ofNat (x.toNat + v.toNat * 2 ^ (7 * i))) := by
  induction room generalizing i x v with
  | zero =>
    have hi : i = 9 := by omega
    subst hi
    have hv1 : v.toNat ≤ 1 := by simp at hv; omega
    have hlt : ¬ v ≥ 0x80 := by
      show ¬ (0x80 ≤ v); rw [UInt64.le_iff_toNat_le]; simp; omega
    refine ⟨[v.toUInt8], by simp [putUvarint, hlt], by simp, by simp, fun rest => ?_⟩
    have hb : v.toUInt8.toNat = v.toNat := by rw [UInt64.toNat_toUInt8]; omega
    have h1 : v.toUInt8 < 0x80 := by rw [UInt8.lt_iff_toNat_lt, hb]; simp; omega
    have h2 : ¬ (9 > 9 ∨ True ∧ v.toUInt8 > 1) := by
      have : ¬ v.toUInt8 > 1 := by
        show ¬ (1 < v.toUInt8); rw [UInt8.lt_iff_toNat_lt, hb]; simp; omega
      simp [this]
    simp only [List.cons_append, List.nil_append, uvarintLoop, h1, if_true]
    rw [if_neg h2]
    congr 2
    apply UInt64.toNat_inj.mp
    have hbb : v.toUInt8.toUInt64.toNat = v.toNat := by rw [UInt8.toNat_toUInt64, hb]
    rw [or_shifted_toNat x _ 9 (by omega) hx (by rw [hbb]; exact hv), hbb, UInt64.toNat_ofNat']
    rw [Nat.mod_eq_of_lt]; simp at hx ⊢; omega
  | succ room ih =>
    have hi : i ≤ 8 := by omega
    have hpow : 2 ^ (7 * (i + 1)) = 128 * 2 ^ (7 * i) := by
      rw [show 7 * (i + 1) = 7 * i + 7 by omega, Nat.pow_add, Nat.mul_comm]
    have hp : 0 < 2 ^ (7 * i) := Nat.pow_pos (by decide)
    have hsum : x.toNat + v.toNat * 2 ^ (7 * i) < 2 ^ 64 := by
      have hdvd : 2 ^ 64 = 2 ^ (64 - 7 * i) * 2 ^ (7 * i) := by
        rw [← Nat.pow_add]; congr 1; omega
      rw [hdvd] at hv ⊢
      have hv' := Nat.lt_of_mul_lt_mul_right hv
      calc x.toNat + v.toNat * 2 ^ (7 * i) < (v.toNat + 1) * 2 ^ (7 * i) := by
            rw [Nat.add_mul]; omega
        _ ≤ _ := Nat.mul_le_mul_right _ hv'
    by_cases hge : v ≥ 0x80
    · have hsplit : v.toNat = 128 * (v.toNat / 128) + v.toNat % 128 := by omega
      have hshift : (v >>> 7).toNat = v.toNat / 128 := by
        rw [UInt64.toNat_shiftRight, Nat.shiftRight_eq_div_pow]; rfl
      have hlow : ((v.toUInt8 ||| 0x80) &&& 0x7f).toUInt64.toNat * 2 ^ (7 * i) < 2 ^ 64 := by
        rw [hi_and]
        exact Nat.lt_of_le_of_lt (Nat.mul_le_mul_right _ (Nat.mod_le _ _)) hv
      have hx' := or_shifted_toNat x ((v.toUInt8 ||| 0x80) &&& 0x7f).toUInt64 i (by omega) hx hlow
      rw [hi_and] at hx'
      obtain ⟨d, hd, hl1, hl2, hr⟩ := ih (i + 1) (by omega)
        (x ||| (if 7 * i < 64 then ((v.toUInt8 ||| 0x80) &&& 0x7f).toUInt64 <<< UInt64.ofNat (7 * i) else 0))
        (v >>> 7)
        (by
          rw [hx', hpow]
          have : v.toNat % 128 * 2 ^ (7 * i) ≤ 127 * 2 ^ (7 * i) :=
            Nat.mul_le_mul_right _ (by omega)
          omega)
        (by
          rw [hshift, hpow]
          refine Nat.lt_of_le_of_lt ?_ hv
          rw [← Nat.mul_assoc]
          exact Nat.mul_le_mul_right _ (by omega))
      refine ⟨(v.toUInt8 ||| 0x80) :: d, ?_, by simp, by simpa using hl2, fun rest => ?_⟩
      · rw [putUvarint, if_pos hge, hd]; rfl
      · simp only [List.cons_append, uvarintLoop, if_neg (not_hi_lt v)]
        rw [hr rest]
        congr 3
        rw [hx', hshift, hpow]
        have : v.toNat * 2 ^ (7 * i)
            = v.toNat % 128 * 2 ^ (7 * i) + v.toNat / 128 * (128 * 2 ^ (7 * i)) := by
          rw [← Nat.mul_assoc, ← Nat.add_mul]; congr 1; omega
        omega
    · have hlt : v.toNat < 128 := by
        have : ¬ (0x80 ≤ v) := hge
        rw [UInt64.le_iff_toNat_le] at this; simp at this; omega
      refine ⟨[v.toUInt8], by rw [putUvarint, if_neg hge], by simp, by simp, fun rest => ?_⟩
      have hb : v.toUInt8.toNat = v.toNat := by rw [UInt64.toNat_toUInt8]; omega
      have h1 : v.toUInt8 < 0x80 := by rw [UInt8.lt_iff_toNat_lt, hb]; simp; omega
      have h2 : ¬ (i > 9 ∨ (i = 9 ∧ v.toUInt8 > 1)) := by omega
      simp only [List.cons_append, List.nil_append, uvarintLoop, h1, if_true, if_neg h2]
      congr 2
      apply UInt64.toNat_inj.mp
      have hbb : v.toUInt8.toUInt64.toNat = v.toNat := by rw [UInt8.toNat_toUInt64, hb]
      rw [or_shifted_toNat x _ i (by omega) hx (by rw [hbb]; exact hv), hbb, UInt64.toNat_ofNat']
      rw [Nat.mod_eq_of_lt hsum]

theorem uvarint_total (v : UInt64) : ∃ d, putUvarint maxVarintLen64 v = some d ∧ 1 ≤ d.length ∧
    d.length ≤ 10 ∧ ∀ rest, decodeUvarint (d ++ rest) = .ok (rest, v) := by
  obtain ⟨d, h1, h2, h3, h4⟩ := uvarint_roundtrip 9 0 rfl 0 v (by simp) (by simpa using v.toNat_lt)
  refine ⟨d, h1, h2, h3, fun rest => ?_⟩
  rw [decodeUvarint, h4]; simp

/-- every byte except the last has the continuation bit -/
theorem putUvarint_shape (room : Nat) (v : UInt64) (d : Bytes) (h : putUvarint room v = some d) :
    ∃ init last, d = init ++ [last] ∧ ∀ b ∈ init, ¬ b < 0x80 := by
  induction room generalizing v d with
  | zero => simp [putUvarint] at h
  | succ room ih =>
    rw [putUvarint] at h
    split at h
    · simp only [Option.map_eq_some_iff] at h
      obtain ⟨t, ht, rfl⟩ := h
      obtain ⟨i, l, rfl, hi⟩ := ih _ _ ht
      refine ⟨(v.toUInt8 ||| 0x80) :: i, l, rfl, ?_⟩
      intro b hb
      rcases List.mem_cons.mp hb with rfl | hb
      · exact not_hi_lt v
      · exact hi b hb
    · simp at h; exact ⟨[], _, by simpa using h.symm, by simp⟩

theorem uvarintLoop_truncated (p : Bytes) (h : ∀ b ∈ p, ¬ b < 0x80) (i : Nat) (x : UInt64) :
    uvarintLoop p i x = .err .insufficientBytes := by
  induction p generalizing i x with
  | nil => rfl
  | cons b p ih =>
    have hb : ¬ b < 0x80 := h b (by simp)
    simp only [uvarintLoop, if_neg hb]
    exact ih (fun c hc => h c (by simp [hc])) _ _

theorem uvarintLoop_no_panic (p : Bytes) (i : Nat) (x : UInt64) : uvarintLoop p i x ≠ .panic := by
  induction p generalizing i x with
  | nil => simp [uvarintLoop]
  | cons b p ih =>
    simp only [uvarintLoop]
    split
    · split <;> simp
    · exact ih _ _

theorem uvarintLoop_length {p r : Bytes} {i : Nat} {x u : UInt64} (h : uvarintLoop p i x = .ok (r, u)) :
    r.length < p.length := by
  induction p generalizing i x with
  | nil => simp [uvarintLoop] at h
  | cons b p ih =>
    simp only [uvarintLoop] at h
    split at h
    · split at h
      · simp at h
      · simp only [Res.ok.injEq, Prod.mk.injEq] at h
        rw [← h.1]; simp
    · have := ih h
      simp; omega

theorem decodeVarint_length {s r : Bytes} {n : Int64} (h : decodeVarint s = .ok (r, n)) : r.length ≤ s.length := by
  unfold decodeVarint decodeUvarint at h
  cases hd : uvarintLoop s 0 0 with
  | ok x =>
    obtain ⟨r', u⟩ := x
    rw [hd] at h
    simp at h
    have := uvarintLoop_length hd
    rw [← h.1]; omega
  | err e => rw [hd] at h; simp at h
  | panic => rw [hd] at h; simp at h

theorem toInt64_toUInt64 (v : Int64) : v.toUInt64.toInt64 = v := rfl

theorem zigzag_toNat (v : Int64) :
    (zigzag v).toNat = if v.toInt < 0 then (-2 * v.toInt - 1).toNat else (2 * v.toInt).toNat := by
  have h1 : v.toInt = v.toBitVec.toInt := rfl
  have h2 : v.toUInt64.toNat = v.toBitVec.toNat := rfl
  have hv := v.toUInt64.toNat_lt
  have hlt : (v < 0) ↔ v.toInt < 0 := by rw [Int64.lt_iff_toInt_lt]; rfl
  unfold zigzag
  have hcond := BitVec.toInt_eq_toNat_cond v.toBitVec
  rw [← h2, ← h1] at hcond
  have hs : (v.toUInt64 <<< 1).toNat = v.toUInt64.toNat * 2 % 2 ^ 64 := by
    rw [UInt64.toNat_shiftLeft]; rw [Nat.shiftLeft_eq]; rfl
  by_cases hneg : v.toInt < 0
  · rw [if_pos hneg]; simp only [if_pos (hlt.mpr hneg)]
    rw [UInt64.toNat_not, hs]
    simp only [UInt64.size]
    split at hcond <;> omega
  · rw [if_neg hneg]; simp only [if_neg (fun h => hneg (hlt.mp h))]
    rw [hs]
    split at hcond <;> omega

theorem unzigzag_zigzag (v : Int64) : unzigzag (zigzag v) = v := by
  have hz := zigzag_toNat v
  have hle := Int64.toInt_lt v
  have hge := Int64.le_toInt v
  unfold unzigzag
  have hodd : (zigzag v &&& 1 ≠ 0) ↔ (zigzag v).toNat % 2 = 1 := by
    rw [ne_eq, ← UInt64.toNat_inj, UInt64.toNat_and]
    rw [show (1 : UInt64).toNat = 2 ^ 1 - 1 from rfl, Nat.and_two_pow_sub_one_eq_mod]
    simp
  have hsh : (zigzag v >>> 1).toNat = (zigzag v).toNat / 2 := by
    rw [UInt64.toNat_shiftRight, Nat.shiftRight_eq_div_pow]; rfl
  have hint : (zigzag v >>> 1).toInt64.toInt = (zigzag v).toNat / 2 := by
    have h3 : (zigzag v >>> 1).toInt64.toInt = (zigzag v >>> 1).toBitVec.toInt := rfl
    rw [h3, BitVec.toInt_eq_toNat_cond]
    have h4 : (zigzag v >>> 1).toBitVec.toNat = (zigzag v >>> 1).toNat := rfl
    rw [h4, hsh, if_pos]
    · simp
    · have := (zigzag v).toNat_lt; omega
  apply Int64.toInt_inj.mp
  by_cases hneg : v.toInt < 0
  · rw [if_pos hneg] at hz
    rw [if_pos (hodd.mpr (by omega))]
    rw [Int64.toInt_not, hint]
    rw [Int.bmod_def]; split <;> omega
  · rw [if_neg hneg] at hz
    rw [if_neg (fun h => by have := hodd.mp h; omega), hint]
    omega

end Mondis.Compact
