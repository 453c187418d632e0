import Verif.Lemmas.Wire
/-!
# Unmarshalling cannot panic without a very long varint
-/
namespace Mondis.Wire

/-- No eight consecutive bytes all have the continuation bit, i.e. there is no varint of more than
eight bytes. -/
def NoLongVarint (d : Bytes) : Prop :=
  ∀ pre run post, d = pre ++ run ++ post → run.length = 8 → ∃ b ∈ run, b.toNat < 128

theorem NoLongVarint.append_right {a b : Bytes} (h : NoLongVarint (a ++ b)) : NoLongVarint b := by
  intro pre run post e hl
  exact h (a ++ pre) run post (by rw [e]; simp) hl

theorem NoLongVarint.append_left {a b : Bytes} (h : NoLongVarint (a ++ b)) : NoLongVarint a := by
  intro pre run post e hl
  exact h pre run (post ++ b) (by rw [e]; simp) hl

theorem NoLongVarint.drop {d : Bytes} (h : NoLongVarint d) (n : Nat) : NoLongVarint (d.drop n) := by
  rw [← List.take_append_drop n d] at h; exact h.append_right

theorem NoLongVarint.take {d : Bytes} (h : NoLongVarint d) (n : Nat) : NoLongVarint (d.take n) := by
  rw [← List.take_append_drop n d] at h; exact h.append_left

theorem uvar_suffix (d : Bytes) (shift acc : Nat) (v : Nat) (r : Bytes) (h : uvar shift acc d = .ok (v, r)) :
    ∃ c, c ≠ [] ∧ d = c ++ r := by
  induction d generalizing shift acc with
  | nil => simp [uvar] at h
  | cons b d ih =>
    simp only [uvar] at h
    split at h
    · simp at h
    · split at h
      · cases h; exact ⟨[b], by simp, rfl⟩
      · obtain ⟨c, _, e⟩ := ih _ _ h
        exact ⟨b :: c, by simp, by rw [e]; rfl⟩

theorem uvar_no_panic (d : Bytes) (shift acc : Nat) : uvar shift acc d ≠ .panic := by
  induction d generalizing shift acc with
  | nil => simp [uvar]
  | cons b d ih =>
    simp only [uvar]
    split
    · simp
    · split
      · simp
      · exact ih _ _

theorem uvar_bound (n : Nat) (d : Bytes) (shift acc : Nat) (v : Nat) (r : Bytes)
    (h : uvar shift acc d = .ok (v, r)) (ha : acc < 2 ^ shift) (hn : shift + 7 * n ≤ 63)
    (hd : n ≤ d.length → ∃ b ∈ d.take n, b.toNat < 128) : v < 2 ^ (shift + 7 * n) ∨ d.length < n ∧ v < 2 ^ (shift + 7 * d.length) := by
  induction n generalizing d shift acc with
  | zero => obtain ⟨b, hb, _⟩ := hd (by omega); simp at hb
  | succ n ih =>
    cases d with
    | nil => simp [uvar] at h
    | cons b d =>
      simp only [uvar] at h
      rw [if_neg (by omega)] at h
      have hp : (2 : Nat) ^ (shift + 7) = 2 ^ shift * 128 := by rw [Nat.pow_add]
      have hlt : acc + b.toNat % 128 * 2 ^ shift < 2 ^ (shift + 7) := by
        have h1 : b.toNat % 128 * 2 ^ shift ≤ 127 * 2 ^ shift := Nat.mul_le_mul_right _ (by omega)
        omega
      have hle : (2 : Nat) ^ (shift + 7) ≤ 2 ^ 63 := Nat.pow_le_pow_right (by omega) (by omega)
      rw [Nat.mod_eq_of_lt (by omega)] at h
      have hmono : ∀ k, 7 ≤ k → (2 : Nat) ^ (shift + 7) ≤ 2 ^ (shift + k) := fun k hk =>
        Nat.pow_le_pow_right (by omega) (by omega)
      by_cases hb : b.toNat < 128
      · rw [if_pos hb] at h
        cases h
        left
        exact Nat.lt_of_lt_of_le hlt (hmono _ (by omega))
      · rw [if_neg hb] at h
        have := ih d (shift + 7) _ h hlt (by omega) (by
          intro hl
          obtain ⟨x, hx, hx2⟩ := hd (by simp; omega)
          rw [List.take_succ_cons, List.mem_cons] at hx
          rcases hx with rfl | hx
          · exact absurd hx2 hb
          · exact ⟨x, hx, hx2⟩)
        rcases this with h1 | ⟨h1, h2⟩
        · left
          rw [show shift + 7 * (n + 1) = shift + 7 + 7 * n by omega]; exact h1
        · right
          refine ⟨by simp; omega, ?_⟩
          rw [show shift + 7 * (b :: d).length = shift + 7 + 7 * d.length by simp; omega]; exact h2

theorem uvar_small {d : Bytes} (hd : NoLongVarint d) {v : Nat} {r : Bytes} (h : uvar 0 0 d = .ok (v, r)) :
    v < 2 ^ 56 := by
  have := uvar_bound 8 d 0 0 v r h (by omega) (by omega) (by
    intro hl
    exact hd [] (d.take 8) (d.drop 8) (by simp) (by rw [List.length_take]; omega))
  rcases this with h1 | ⟨h1, h2⟩
  · simpa using h1
  · refine Nat.lt_of_lt_of_le h2 (Nat.pow_le_pow_right (by omega) (by omega))

theorem wrap_small {i : Int} (h0 : 0 ≤ i) (h1 : i < 2 ^ 63) : wrap i = i := by
  unfold wrap
  exact Int.bmod_eq_of_le (by omega) (by omega)

theorem skip_calm (fuel : Nat) :
    (∀ d : Bytes, 2 * d.length + 1 ≤ fuel → d.length < 2 ^ 62 → NoLongVarint d →
      skip fuel d ≠ .panic ∧ ∀ n, skip fuel d = .ok n → 1 ≤ n ∧ n ≤ d.length + 2 ^ 56) ∧
    (∀ (d : Bytes) (idx : Int), 1 ≤ idx → idx ≤ d.length + 2 ^ 56 →
      2 * (d.length - idx.toNat) + 2 ≤ fuel → d.length < 2 ^ 62 → NoLongVarint d →
      group fuel d idx ≠ .panic ∧ ∀ n, group fuel d idx = .ok n → 1 ≤ n ∧ n ≤ d.length) := by
  induction fuel with
  | zero => exact ⟨fun d h => by omega, fun d idx _ _ h => by omega⟩
  | succ fuel ih =>
    obtain ⟨ihs, ihg⟩ := ih
    constructor
    · intro d hf hl hc
      unfold skip
      cases hu : uvar 0 0 d with
      | panic => exact absurd hu (uvar_no_panic _ _ _)
      | err e => simp
      | ok wr =>
        obtain ⟨w, r⟩ := wr
        obtain ⟨c, hc1, hc2⟩ := uvar_suffix _ _ _ _ _ hu
        have hclen : 1 ≤ c.length := by cases c with | nil => contradiction | cons => simp
        have hdl : d.length = c.length + r.length := by rw [hc2]; simp
        have hcr : NoLongVarint r := by rw [hc2] at hc; exact hc.append_right
        simp only [Res.ok_bind]
        have hw : w % 8 < 8 := Nat.mod_lt _ (by omega)
        generalize w % 8 = t at hw ⊢
        match t, hw with
        | 0, _ =>
          simp only
          cases hu2 : uvar 0 0 r with
          | panic => exact absurd hu2 (uvar_no_panic _ _ _)
          | err e => simp
          | ok wr2 =>
            obtain ⟨v, r'⟩ := wr2
            obtain ⟨c', _, hc'⟩ := uvar_suffix _ _ _ _ _ hu2
            have : r.length = c'.length + r'.length := by rw [hc']; simp
            simp only [Res.ok_bind]
            refine ⟨by simp, fun n hn => ?_⟩
            injection hn with hn
            omega
        | 1, _ =>
          refine ⟨by simp, fun n hn => ?_⟩
          injection hn with hn
          omega
        | 2, _ =>
          simp only
          cases hu2 : uvar 0 0 r with
          | panic => exact absurd hu2 (uvar_no_panic _ _ _)
          | err e => simp
          | ok wr2 =>
            obtain ⟨v, r'⟩ := wr2
            obtain ⟨c', _, hc'⟩ := uvar_suffix _ _ _ _ _ hu2
            have : r.length = c'.length + r'.length := by rw [hc']; simp
            have hv := uvar_small hcr hu2
            simp only [Res.ok_bind]
            rw [if_neg (by omega), wrap_small (by omega) (by omega)]
            refine ⟨by simp, fun n hn => ?_⟩
            injection hn with hn
            omega
        | 3, _ =>
          simp only
          have := ihg d (d.length - r.length : Nat) (by omega) (by omega) (by omega) hl hc
          refine ⟨this.1, fun n hn => ?_⟩
          have := this.2 n hn
          omega
        | 4, _ =>
          refine ⟨by simp, fun n hn => ?_⟩
          injection hn with hn
          omega
        | 5, _ =>
          refine ⟨by simp, fun n hn => ?_⟩
          injection hn with hn
          omega
        | 6, _ => simp
        | 7, _ => simp
    · intro d idx h1 h2 hf hl hc
      unfold group
      rw [if_neg (by omega)]
      dsimp only
      cases hu : uvar 0 0 (d.drop idx.toNat) with
      | panic => exact absurd hu (uvar_no_panic _ _ _)
      | err e => simp
      | ok wr =>
        obtain ⟨w, r⟩ := wr
        obtain ⟨c, hc1, hc2⟩ := uvar_suffix _ _ _ _ _ hu
        have hclen : 1 ≤ c.length := by cases c with | nil => contradiction | cons => simp
        have hdl : (d.drop idx.toNat).length = c.length + r.length := by rw [hc2]; simp
        have hdl2 : (d.drop idx.toNat).length = d.length - idx.toNat := List.length_drop
        simp only [Res.ok_bind]
        by_cases hw : w % 8 = 4
        · rw [if_pos hw]
          refine ⟨by simp, fun n hn => ?_⟩
          injection hn with hn
          omega
        · rw [if_neg hw]
          have hs := ihs (d.drop idx.toNat) (by omega) (by omega) (hc.drop _)
          cases hk : skip fuel (d.drop idx.toNat) with
          | panic => exact absurd hk hs.1
          | err e => simp
          | ok n =>
            obtain ⟨n1, n2⟩ := hs.2 n hk
            simp only [Res.ok_bind]
            rw [wrap_small (by omega) (by omega)]
            exact ihg d (idx.toNat + n) (by omega) (by omega) (by omega) hl hc

/-- The unmarshaller cannot panic on an input without varints of more than eight bytes. -/
theorem loop_calm {M : Type} (fld : Nat → Option (Field M)) (unk : M → Bytes → M)
    (hfld : ∀ num f, fld num = some (.bytes f) → ∀ m b, b.length < 2 ^ 62 → NoLongVarint b → f m b ≠ .panic)
    (fuel pos : Nat) (d : Bytes) (m : M) (hf : d.length ≤ fuel) (hp : pos + d.length < 2 ^ 62)
    (hc : NoLongVarint d) : loop fld unk fuel pos d m ≠ .panic := by
  induction fuel generalizing pos d m with
  | zero =>
    have : d = [] := List.length_eq_zero_iff.mp (by omega)
    subst this; simp [loop]
  | succ fuel ih =>
    unfold loop
    by_cases hd : d = []
    · simp [hd]
    rw [if_neg hd]
    cases hu : uvar 0 0 d with
    | panic => exact absurd hu (uvar_no_panic _ _ _)
    | err e => simp
    | ok wr =>
      obtain ⟨w, r⟩ := wr
      obtain ⟨c, hc1, hc2⟩ := uvar_suffix _ _ _ _ _ hu
      have hclen : 1 ≤ c.length := by cases c with | nil => contradiction | cons => simp
      have hdl : d.length = c.length + r.length := by rw [hc2]; simp
      have hcr : NoLongVarint r := by rw [hc2] at hc; exact hc.append_right
      simp only [Res.ok_bind]
      split
      · simp
      split
      · simp
      split
      · split
        · simp
        · cases hu2 : uvar 0 0 r with
          | panic => exact absurd hu2 (uvar_no_panic _ _ _)
          | err e => simp
          | ok wr2 =>
            obtain ⟨v, r'⟩ := wr2
            obtain ⟨c', _, hc'⟩ := uvar_suffix _ _ _ _ _ hu2
            have : r.length = c'.length + r'.length := by rw [hc']; simp
            simp only [Res.ok_bind]
            exact ih _ _ _ (by omega) (by omega) (by rw [hc'] at hcr; exact hcr.append_right)
      · rename_i f hfn
        split
        · simp
        · cases hu2 : uvar 0 0 r with
          | panic => exact absurd hu2 (uvar_no_panic _ _ _)
          | err e => simp
          | ok wr2 =>
            obtain ⟨v, r'⟩ := wr2
            obtain ⟨c', _, hc'⟩ := uvar_suffix _ _ _ _ _ hu2
            have hrl : r.length = c'.length + r'.length := by rw [hc']; simp
            have hv := uvar_small hcr hu2
            have hcr' : NoLongVarint r' := by rw [hc'] at hcr; exact hcr.append_right
            simp only [Res.ok_bind]
            rw [if_neg (by omega), if_neg (by omega)]
            split
            · simp
            · rename_i hle
              have hft := hfld _ f hfn m (r'.take v) (by rw [List.length_take]; omega) (hcr'.take _)
              cases hfr : f m (r'.take v) with
              | panic => exact absurd hfr hft
              | err e => simp
              | ok m' =>
                simp only [Res.ok_bind]
                exact ih _ _ _ (by rw [List.length_drop]; omega) (by rw [List.length_drop]; omega)
                  (hcr'.drop _)
      · have hs := (skip_calm (2 * d.length + 1)).1 d (Nat.le_refl _) (by omega) hc
        cases hk : skip (2 * d.length + 1) d with
        | panic => exact absurd hk hs.1
        | err e => simp
        | ok n =>
          obtain ⟨n1, n2⟩ := hs.2 n hk
          simp only [Res.ok_bind]
          split
          · simp
          split
          · omega
          split
          · simp
          · exact ih _ _ _ (by rw [List.length_drop]; omega) (by rw [List.length_drop]; omega) (hc.drop _)

theorem unmarshal_calm {M : Type} (fld : Nat → Option (Field M)) (unk : M → Bytes → M)
    (hfld : ∀ num f, fld num = some (.bytes f) → ∀ m b, b.length < 2 ^ 62 → NoLongVarint b → f m b ≠ .panic)
    (d : Bytes) (m : M) (hp : d.length < 2 ^ 62) (hc : NoLongVarint d) : unmarshal fld unk d m ≠ .panic :=
  loop_calm fld unk hfld _ _ _ _ (Nat.le_refl _) (by omega) hc

end Mondis.Wire
