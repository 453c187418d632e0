import Verif.Lemmas.BigEndian
/-! Lemmas on the group encoding of byte strings. -/
namespace Mondis.Memcomparable
open Mondis.Lex

/-- Byte-at-a-time view of `encodeGroups`: `k` slots are left in the current group. -/
def encAux : Nat → Bytes → Bytes
  | 0, d => encMarker :: (match d with
      | [] => List.replicate 8 encPad ++ [encMarker - 8]
      | c :: d' => c :: encAux 7 d')
  | k + 1, [] => List.replicate (k + 1) encPad ++ [encMarker - UInt8.ofNat (k + 1)]
  | k + 1, c :: d => c :: encAux k d

theorem encAux_zero (d : Bytes) : encAux 0 d = encMarker :: encAux 8 d := by
  cases d <;> simp [encAux]

theorem encodeGroups_eq (d : Bytes) : encodeGroups d = encAux 8 d := by
  fun_induction encodeGroups d with
  | case1 a0 a1 a2 a3 a4 a5 a6 a7 rest ih =>
    rw [ih]; simp [encAux, encAux_zero]
  | case2 d h =>
    rcases d with _|⟨a0,_|⟨a1,_|⟨a2,_|⟨a3,_|⟨a4,_|⟨a5,_|⟨a6,_|⟨a7,b⟩⟩⟩⟩⟩⟩⟩⟩ <;>
      first | rfl | exact absurd rfl (h _ _ _ _ _ _ _ _ _)

theorem zeros_before (k j : Nat) (hj : j ≤ 8) (h : k < j ) (b s : Bytes) (hb : k ≤ 8) :
    Before (List.replicate k encPad ++ (encMarker - UInt8.ofNat j) :: s) (encAux k b) := by
  have pad_lt : ∀ i, i < j → i ≤ 8 → encMarker - UInt8.ofNat j < encMarker - UInt8.ofNat i := by
    intro i hi h8
    rw [UInt8.lt_iff_toNat_lt]
    simp only [encMarker, UInt8.toNat_sub, UInt8.toNat_ofNat']
    rw [Nat.mod_eq_of_lt (a := j) (by omega), Nat.mod_eq_of_lt (a := i) (by omega)]
    simp; omega
  induction k generalizing b with
  | zero =>
    rw [encAux_zero]
    refine Before.head _ _ ?_
    simpa using pad_lt 0 h (by omega)
  | succ k ih =>
    cases b with
    | nil =>
      simp only [encAux]
      exact ⟨List.replicate (k+1) encPad, _, _, s, [], rfl, rfl, pad_lt _ h hb⟩
    | cons c d =>
      simp only [encAux, List.replicate_succ, List.cons_append]
      by_cases hc : c = encPad
      · subst hc; exact (ih (by omega) d (by omega)).cons _
      · refine Before.head _ _ ?_
        rw [UInt8.lt_iff_toNat_lt]
        simp only [encPad] at hc ⊢
        have : c.toNat ≠ 0 := fun h0 => hc (by apply UInt8.toNat_inj.mp; simpa using h0)
        simp; omega

theorem encAux_before (k : Nat) (hk : k ≤ 8) (a b : Bytes) (h : a < b) :
    Before (encAux k a) (encAux k b) := by
  have nilcase : ∀ k, k + 1 ≤ 8 → ∀ (c : UInt8) (d : Bytes),
      Before (encAux (k+1) []) (encAux (k+1) (c :: d)) := by
    intro k hk c d
    simp only [encAux, List.replicate_succ, List.cons_append]
    by_cases hc : c = encPad
    · subst hc
      exact (zeros_before k (k+1) (by omega) (by omega) d [] (by omega)).cons _
    · refine Before.head _ _ ?_
      rw [UInt8.lt_iff_toNat_lt]
      simp only [encPad] at hc ⊢
      have : c.toNat ≠ 0 := fun h0 => hc (by apply UInt8.toNat_inj.mp; simpa using h0)
      simp; omega
  induction a generalizing k b with
  | nil =>
    cases b with
    | nil => exact absurd h (irrefl _)
    | cons c d =>
      cases k with
      | zero => rw [encAux_zero, encAux_zero]; exact (nilcase 7 (by omega) c d).cons _
      | succ k => exact nilcase k hk c d
  | cons x a ih =>
    cases b with
    | nil => exact absurd h (List.not_lt_nil _)
    | cons y b =>
      have step : ∀ k, k + 1 ≤ 8 → Before (encAux (k+1) (x :: a)) (encAux (k+1) (y :: b)) := by
        intro k hk
        simp only [encAux]
        rcases cons_lt_cons.mp h with h1 | ⟨rfl, h1⟩
        · exact Before.head _ _ h1
        · exact (ih k (by omega) b h1).cons x
      cases k with
      | zero => rw [encAux_zero, encAux_zero]; exact (step 7 (by omega)).cons _
      | succ k => exact step k hk

theorem encodeGroups_before (a b : Bytes) (h : a < b) :
    Before (encodeGroups a) (encodeGroups b) := by
  rw [encodeGroups_eq, encodeGroups_eq]; exact encAux_before 8 (by omega) a b h

theorem encodeGroups_inj_append {a b x y : Bytes} (h : encodeGroups a ++ x = encodeGroups b ++ y) :
    a = b ∧ x = y := by
  rcases trichotomy a b with h1 | h1 | h1
  · exact absurd ((encodeGroups_before a b h1).lt x y) (by rw [h]; exact irrefl _)
  · subst h1; exact ⟨rfl, List.append_cancel_left h⟩
  · exact absurd ((encodeGroups_before b a h1).lt y x) (by rw [h]; exact irrefl _)

theorem encodeGroups_length (d : Bytes) : (encodeGroups d).length = 9 * (d.length / 8 + 1) := by
  fun_induction encodeGroups d with
  | case1 a0 a1 a2 a3 a4 a5 a6 a7 rest ih => simp [ih]; omega
  | case2 d h padCount =>
    have : d.length < 8 := by
      rcases d with _|⟨a0,_|⟨a1,_|⟨a2,_|⟨a3,_|⟨a4,_|⟨a5,_|⟨a6,_|⟨a7,b⟩⟩⟩⟩⟩⟩⟩⟩ <;>
        first | exact absurd rfl (h _ _ _ _ _ _ _ _ _) | simp
    simp [padCount, encGroupSize]; omega

/-! Complement. -/

theorem compl_compl (b : Bytes) : (b.map (~~~ ·)).map (~~~ ·) = b := by
  simp [Function.comp_def]

theorem getUint64_not (b0 b1 b2 b3 b4 b5 b6 b7 : UInt8) :
    ~~~ getUint64 b0 b1 b2 b3 b4 b5 b6 b7
      = getUint64 (~~~b0) (~~~b1) (~~~b2) (~~~b3) (~~~b4) (~~~b5) (~~~b6) (~~~b7) := by
  apply UInt64.toNat_inj.mp
  have h0 := b0.toNat_lt; have h1 := b1.toNat_lt; have h2 := b2.toNat_lt
  have h3 := b3.toNat_lt; have h4 := b4.toNat_lt; have h5 := b5.toNat_lt
  have h6 := b6.toNat_lt; have h7 := b7.toNat_lt
  rw [UInt64.toNat_not, getUint64_toNat, getUint64_toNat]
  simp only [beVal, UInt8.toNat_not, UInt64.size, UInt8.size, List.length_cons, List.length_nil]
  omega

theorem fastReverseBytes_eq (b : Bytes) : fastReverseBytes b = safeReverseBytes b := by
  unfold safeReverseBytes
  fun_induction fastReverseBytes b with
  | case1 b0 b1 b2 b3 b4 b5 b6 b7 rest ih =>
    rw [ih, loadWord, storeWord, getUint64_not, putUint64_getUint64]; simp
  | case2 b h => rfl

theorem reverseBytes_eq (s : Bool) (b : Bytes) : reverseBytes s b = b.map (~~~ ·) := by
  unfold reverseBytes; split
  · rw [fastReverseBytes_eq]; rfl
  · rfl

theorem encodeBytesDesc_eq (b d : Bytes) :
    encodeBytesDesc b d = b ++ (encodeGroups d).map (~~~ ·) := by
  simp [encodeBytesDesc, encodeBytes, reverseBytes_eq]

/-! Decoding. -/

theorem decodeLoop_encode (d buf rest : Bytes) :
    decodeLoop false (encodeGroups d ++ rest) buf = .ok (rest, buf ++ d) := by
  fun_induction encodeGroups d generalizing buf with
  | case1 a0 a1 a2 a3 a4 a5 a6 a7 r ih =>
    simp only [List.cons_append, List.nil_append, decodeLoop]
    simp [encMarker, encGroupSize, ih]
  | case2 d h padCount =>
    rcases d with _|⟨a0,_|⟨a1,_|⟨a2,_|⟨a3,_|⟨a4,_|⟨a5,_|⟨a6,_|⟨a7,b⟩⟩⟩⟩⟩⟩⟩⟩ <;>
      first
      | exact absurd rfl (h _ _ _ _ _ _ _ _ _)
      | simp [padCount, encGroupSize, encMarker, encPad, List.replicate, decodeLoop]

theorem sub_sub_self' (m : UInt8) : 255 - (255 - m) = m := by
  apply UInt8.toNat_inj.mp
  have := m.toNat_lt
  simp [UInt8.toNat_sub]; omega

theorem sub_not (m : UInt8) : encMarker - ~~~ m = m := by
  apply UInt8.toNat_inj.mp
  have := m.toNat_lt
  simp [encMarker, UInt8.toNat_sub, UInt8.toNat_not, UInt8.size]; omega

theorem not_beq_pad (m : UInt8) : (~~~ m == encPad) = (m == encMarker) := by
  have : (~~~ m = encPad) ↔ (m = encMarker) := by
    have := m.toNat_lt
    rw [← UInt8.toNat_inj, ← UInt8.toNat_inj]
    simp [encPad, encMarker, UInt8.toNat_not, UInt8.size]; omega
  rw [Bool.eq_iff_iff]; simpa using this

theorem decodeLoop_ok (s buf : Bytes) (rest d : Bytes)
    (h : decodeLoop false s buf = .ok (rest, d)) :
    ∃ e, d = buf ++ e ∧ s = encodeGroups e ++ rest := by
  fun_induction decodeLoop false s buf with
  | case1 => cases h
  | case2 a0 a1 a2 a3 a4 a5 a6 a7 marker r buf0 group padCount hp real buf1 hz padByte hall =>
    simp only [Bool.false_eq_true, if_false, Res.ok.injEq, Prod.mk.injEq] at h
    obtain ⟨rfl, rfl⟩ := h
    have hm : marker = 255 - padCount := by
      simp only [padCount, Bool.false_eq_true, if_false, encMarker]
      exact (sub_sub_self' _).symm
    refine ⟨group.take real, rfl, ?_⟩
    have hn0 : padCount.toNat ≠ 0 := fun h0 => hz (UInt8.toNat_inj.mp h0)
    have hcases : padCount = 1 ∨ padCount = 2 ∨ padCount = 3 ∨ padCount = 4 ∨ padCount = 5 ∨
        padCount = 6 ∨ padCount = 7 ∨ padCount = 8 := by
      simp only [← UInt8.toNat_inj]
      simp only [encGroupSize] at hp
      simp
      omega
    clear_value padCount
    subst hm
    rcases hcases with rfl | rfl | rfl | rfl | rfl | rfl | rfl | rfl <;>
    · simp [real, group, padByte, encPad, encGroupSize] at hall
      simp [real, group, encGroupSize, encodeGroups, encPad, List.replicate, encMarker, hall]
  | case3 => cases h
  | case4 a0 a1 a2 a3 a4 a5 a6 a7 marker r buf0 group padCount hp real buf1 hz ih =>
    obtain ⟨e, rfl, rfl⟩ := ih h
    have hz : padCount = 0 := by simpa using hz
    have hm : marker = 255 := by
      have : marker = 255 - padCount := by
        simp only [padCount, Bool.false_eq_true, if_false, encMarker]
        exact (sub_sub_self' _).symm
      rw [this, hz]; rfl
    refine ⟨[a0, a1, a2, a3, a4, a5, a6, a7] ++ e, ?_, ?_⟩
    · simp [buf1, real, hz, group, encGroupSize]
    · subst hm
      simp [encodeGroups, encMarker]
  | case5 => cases h

theorem decodeLoop_no_panic (r : Bool) (s buf : Bytes) : decodeLoop r s buf ≠ .panic := by
  fun_induction decodeLoop r s buf <;> simp_all

theorem decodeLoop_rev (s buf : Bytes) :
    decodeLoop true s buf =
      (decodeLoop false (s.map (~~~ ·)) (buf.map (~~~ ·))).map'
        (fun p => (p.1.map (~~~ ·), p.2)) := by
  fun_induction decodeLoop true s buf with
  | case1 a0 a1 a2 a3 a4 a5 a6 a7 marker r buf0 padCount hp =>
    simp only [List.map_cons, decodeLoop, sub_not]
    simp only [padCount, if_true] at hp
    simp [Res.map', hp]
  | case2 a0 a1 a2 a3 a4 a5 a6 a7 marker r buf0 group padCount hp real buf1 hz padByte hall =>
    simp only [List.map_cons, decodeLoop, sub_not]
    simp only [padCount, if_true] at hp hz
    have hall' : (List.drop (encGroupSize - marker.toNat)
        [~~~a0, ~~~a1, ~~~a2, ~~~a3, ~~~a4, ~~~a5, ~~~a6, ~~~a7]).all (· == encPad) = true := by
      have : [~~~a0, ~~~a1, ~~~a2, ~~~a3, ~~~a4, ~~~a5, ~~~a6, ~~~a7] = group.map (~~~ ·) := rfl
      rw [this, ← List.map_drop, List.all_map]
      simpa [Function.comp_def, not_beq_pad, padByte, real, padCount] using hall
    have ht : (List.take (encGroupSize - marker.toNat)
        [~~~a0, ~~~a1, ~~~a2, ~~~a3, ~~~a4, ~~~a5, ~~~a6, ~~~a7])
          = (group.take real).map (~~~ ·) := by
      rw [List.map_take]; rfl
    simp only [Bool.false_eq_true, if_false, hp, if_true, hall', hz, not_false_eq_true, ne_eq]
    simp [Res.map', reverseBytes_eq, buf1, ht, Function.comp_def]
  | case3 a0 a1 a2 a3 a4 a5 a6 a7 marker r buf0 group padCount hp real hz padByte hall =>
    simp only [List.map_cons, decodeLoop, sub_not]
    simp only [padCount, if_true] at hp hz
    have hall' : ¬ (List.drop (encGroupSize - marker.toNat)
        [~~~a0, ~~~a1, ~~~a2, ~~~a3, ~~~a4, ~~~a5, ~~~a6, ~~~a7]).all (· == encPad) = true := by
      have : [~~~a0, ~~~a1, ~~~a2, ~~~a3, ~~~a4, ~~~a5, ~~~a6, ~~~a7] = group.map (~~~ ·) := rfl
      rw [this, ← List.map_drop, List.all_map]
      simpa [Function.comp_def, not_beq_pad, padByte, real, padCount] using hall
    simp only [Bool.false_eq_true, if_false, hp, if_true, hall', hz, not_false_eq_true, ne_eq]
    simp [Res.map']
  | case4 a0 a1 a2 a3 a4 a5 a6 a7 marker r buf0 group padCount hp real buf1 hz ih =>
    rw [ih]
    simp only [List.map_cons, decodeLoop, sub_not]
    have hz' : marker = 0 := by simpa [padCount] using hz
    subst hz'
    simp [encGroupSize, buf1, group, real, padCount]
  | case5 buf0 s h =>
    unfold decodeLoop
    split
    · rename_i b0 b1 b2 b3 b4 b5 b6 b7 m r buf1 heq
      exfalso
      rcases buf0 with _|⟨a0,_|⟨a1,_|⟨a2,_|⟨a3,_|⟨a4,_|⟨a5,_|⟨a6,_|⟨a7,_|⟨a8,b⟩⟩⟩⟩⟩⟩⟩⟩⟩ <;> simp at heq
      exact h _ _ _ _ _ _ _ _ _ _ rfl
    · rfl

end Mondis.Memcomparable
