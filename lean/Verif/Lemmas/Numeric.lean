import Verif.Lemmas.Compact
namespace Mondis.Numeric
open Mondis.Memcomparable

def IsDigit (c : UInt8) : Prop := 48 ≤ c ∧ c ≤ 57

def val (m : Nat) (ds : Bytes) : Nat := ds.foldl (fun m c => m * 10 + (c.toNat - 48)) m

theorem val_nil (m : Nat) : val m [] = m := rfl
theorem val_cons (m : Nat) (c : UInt8) (r : Bytes) :
    val m (c :: r) = val (m * 10 + (c.toNat - 48)) r := by
  unfold val; rw [List.foldl_cons]

theorem le_val (m : Nat) (ds : Bytes) : m ≤ val m ds := by
  induction ds generalizing m with
  | nil => simp [val_nil]
  | cons c r ih => have := ih (m * 10 + (c.toNat - 48)); rw [val_cons]; omega

theorem parseDigits_eq (ds : Bytes) (m : Nat) (hd : ∀ c ∈ ds, IsDigit c) (h : val m ds < 2 ^ 64) :
    parseDigits ds m = .ok (val m ds) := by
  induction ds generalizing m with
  | nil => rfl
  | cons c r ih =>
    have hc : 48 ≤ c ∧ c ≤ 57 := hd c (by simp)
    simp only [parseDigits, if_pos hc]
    rw [val_cons] at h ⊢
    have := le_val (m * 10 + (c.toNat - 48)) r
    rw [if_neg (by omega)]
    exact ih _ (fun d hd' => hd d (by simp [hd'])) h

theorem digit_ok (n : Nat) (h : n < 10) : IsDigit (UInt8.ofNat (48 + n)) ∧ (UInt8.ofNat (48 + n)).toNat - 48 = n := by
  have : (UInt8.ofNat (48 + n)).toNat = 48 + n := by simp; omega
  refine ⟨⟨?_, ?_⟩, by omega⟩ <;> rw [UInt8.le_iff_toNat_le, this] <;> simp <;> omega

theorem formatUint_spec (fuel n : Nat) (hn : n < 10 ^ fuel) (hf : 0 < fuel) (acc : Bytes) :
    ∃ ds, formatUint fuel n acc = ds ++ acc ∧ ds ≠ [] ∧ (∀ c ∈ ds, IsDigit c) ∧
      ∀ r, val 0 (ds ++ r) = val n r := by
  induction fuel generalizing n acc with
  | zero => omega
  | succ fuel ih =>
    unfold formatUint
    split
    · rename_i h
      refine ⟨[UInt8.ofNat (48 + n)], rfl, by simp, ?_, ?_⟩
      · intro c hc; rw [List.mem_singleton] at hc; subst hc; exact (digit_ok n h).1
      · intro r; rw [List.cons_append, List.nil_append, val_cons, (digit_ok n h).2]; simp
    · rename_i h
      have hfuel : 0 < fuel := by
        rcases Nat.eq_zero_or_pos fuel with h0 | h0
        · subst h0; simp at hn; omega
        · exact h0
      obtain ⟨ds, h1, h2, h3, h4⟩ := ih (n / 10)
        (by rw [Nat.div_lt_iff_lt_mul (by omega)]; rwa [Nat.pow_succ] at hn) hfuel
        (UInt8.ofNat (48 + n % 10) :: acc)
      have hdig := digit_ok (n % 10) (by omega)
      refine ⟨ds ++ [UInt8.ofNat (48 + n % 10)], by rw [h1]; simp, by simp, ?_, ?_⟩
      · intro c hc
        rcases List.mem_append.mp hc with hc | hc
        · exact h3 c hc
        · rw [List.mem_singleton] at hc; subst hc; exact hdig.1
      · intro r
        rw [List.append_assoc, h4]
        rw [List.cons_append, List.nil_append, val_cons, hdig.2]
        congr 1; omega

theorem parse_format (v : Int64) : parseInt (formatInt v) = .ok v := by
  have hle := Int64.toInt_lt v
  have hge := Int64.le_toInt v
  have hlt : (v < 0) ↔ v.toInt < 0 := by rw [Int64.lt_iff_toInt_lt]; rfl
  have hback : Int64.ofInt v.toInt = v := Int64.ofInt_toInt v
  unfold formatInt
  split
  · rename_i h
    have h := hlt.mp h
    obtain ⟨ds, h1, h2, h3, h4⟩ := formatUint_spec 20 (-v.toInt).toNat (by omega) (by decide) []
    have h5 := h4 []
    simp only [List.append_nil] at h1 h5
    rw [h1]
    have hp := parseDigits_eq ds 0 h3 (by rw [h5, val_nil]; omega)
    rw [h5, val_nil] at hp
    simp only [parseInt]
    simp only [show ((45 : UInt8) == 43 || (45 : UInt8) == 45) = true from rfl, if_true, if_neg h2, hp]
    rw [if_neg (by simp), if_neg (by simp; omega)]
    congr 1
    rw [← hback]; congr 1; simp; omega
  · rename_i h
    have h : ¬ v.toInt < 0 := fun h' => h (hlt.mpr h')
    obtain ⟨ds, h1, h2, h3, h4⟩ := formatUint_spec 20 v.toInt.toNat (by omega) (by decide) []
    have h5 := h4 []
    simp only [List.append_nil] at h1 h5
    rw [h1]
    have hp := parseDigits_eq ds 0 h3 (by rw [h5, val_nil]; omega)
    rw [h5, val_nil] at hp
    cases ds with
    | nil => exact absurd rfl h2
    | cons c r =>
      have hc : 48 ≤ c ∧ c ≤ 57 := h3 c (by simp)
      have c45 : (c == 45) = false := by
        rw [beq_eq_false_iff_ne]; rintro rfl; exact absurd hc (by decide)
      have c43 : (c == 43) = false := by
        rw [beq_eq_false_iff_ne]; rintro rfl; exact absurd hc (by decide)
      simp only [parseInt, c45, c43]
      simp only [Bool.or_self, Bool.false_eq_true, if_false, if_neg h2, hp]
      have hr : ¬ (v.toInt.toNat ≥ 2 ^ 63) := by omega
      simp only [Bool.false_and, Bool.false_eq_true, if_false, Bool.not_false, Bool.true_and,
        decide_eq_true_eq, if_neg hr]
      have hn : ((v.toInt.toNat : Nat) : Int) = v.toInt := by omega
      rw [hn, hback]

end Mondis.Numeric
