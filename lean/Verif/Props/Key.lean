import Verif.Lemmas.Key
/-!
# Property theorems C11–C13: keys and key ranges
-/
namespace Mondis.Props
open Mondis.Lex Mondis.Spec Mondis.Key

/-! ## C11 -/

/-- `Next` is the immediate successor in byte order. -/
theorem C11_next_immediate_successor (k : Bytes) :
    k < next k ∧ ∀ x, k < x → next k ≤ x := by
  refine ⟨lt_append_cons k 0 [], fun x hx => ?_⟩
  rw [← List.not_lt]
  intro h
  unfold next at h
  induction k generalizing x with
  | nil =>
    cases x with
    | nil => exact absurd hx (irrefl _)
    | cons c x =>
      rcases cons_lt_cons.mp h with h | ⟨_, h⟩
      · exact absurd h (by rw [UInt8.lt_iff_toNat_lt]; simp)
      · exact absurd h (List.not_lt_nil _)
  | cons y k ih =>
    cases x with
    | nil => exact absurd hx (List.not_lt_nil _)
    | cons c x =>
      rcases cons_lt_cons.mp hx with h1 | ⟨rfl, h1⟩
      · rcases cons_lt_cons.mp h with h2 | ⟨h2, _⟩
        · exact absurd (UInt8.lt_trans h1 h2) (UInt8.lt_irrefl _)
        · rw [h2] at h1; exact absurd h1 (UInt8.lt_irrefl _)
      · rcases cons_lt_cons.mp h with h2 | ⟨_, h2⟩
        · exact absurd h2 (UInt8.lt_irrefl _)
        · exact ih x h1 h2

/-- `Cmp` is the byte order and `HasPrefix` the prefix relation of the specification. -/
theorem C11_cmp_hasPrefix (a b : Bytes) :
    (cmp a b = -1 ↔ a < b) ∧ (cmp a b = 0 ↔ a = b) ∧ (cmp a b = 1 ↔ b < a) ∧
    (hasPrefix a b = true ↔ IsPrefixOf b a) := by
  obtain ⟨h1, h2, h3⟩ := compare_spec a b
  exact ⟨h1, h2, h3, hasPrefix_iff a b⟩

example : ([1, 2] : Bytes) < [1, 2, 0] ∧ next [1, 2] = [1, 2, 0] := by decide

/-! ## C12 -/

/-- The key has a byte other than 0xFF (in particular it is not empty). -/
def HasNonFF (k : Bytes) : Prop := ∃ c ∈ k, c ≠ 255

private theorem split_of_nonFF {k : Bytes} (h : HasNonFF k) :
    ∃ p c n, c ≠ 255 ∧ k = p ++ c :: List.replicate n 255 := by
  rcases split_ff k with ⟨n, rfl⟩ | h'
  · obtain ⟨c, hc, hne⟩ := h
    exact absurd (List.mem_replicate.mp hc).2 hne
  · exact h'

/-- Upper bound: every key starting with `k` is below `PrefixNext(k)`, unless `k` is empty or all 0xFF. -/
theorem C12_prefixNext_upper (k : Bytes) (h : HasNonFF k) (t : Bytes) :
    k ++ t < prefixNext k := by
  obtain ⟨p, c, n, hc, rfl⟩ := split_of_nonFF h
  rw [prefixNext_split p c n hc]
  simp only [List.append_assoc, List.cons_append, append_lt_append_left, cons_lt_cons]
  exact .inl (lt_add_one hc)

/-- Exactness: if the last byte of `k` is not 0xFF, the keys in `[k, PrefixNext(k))` are exactly
those starting with `k`. -/
theorem C12_prefixNext_exact (p : Bytes) (c : UInt8) (hc : c ≠ 255) (x : Bytes) :
    (p ++ [c] ≤ x ∧ x < prefixNext (p ++ [c])) ↔ IsPrefixOf (p ++ [c]) x := by
  have hpn : prefixNext (p ++ [c]) = p ++ [c + 1] := by
    simpa using prefixNext_split p c 0 hc
  rw [hpn]
  constructor
  · rintro ⟨h1, h2⟩
    rw [← List.not_lt] at h1
    induction p generalizing x with
    | nil =>
      cases x with
      | nil => exact absurd (List.nil_lt_cons c []) h1
      | cons y x =>
        rcases cons_lt_cons.mp h2 with h3 | ⟨_, h3⟩
        · have hle := (lt_add_one_iff hc).mp h3
          have : ¬ y < c := fun hlt => h1 (cons_lt_cons.mpr (.inl hlt))
          have : y = c := UInt8.le_antisymm hle (UInt8.not_lt.mp this)
          subst this; exact ⟨x, rfl⟩
        · exact absurd h3 (List.not_lt_nil _)
    | cons z p ih =>
      cases x with
      | nil => exact absurd (List.nil_lt_cons z _) h1
      | cons y x =>
        rcases cons_lt_cons.mp h2 with h3 | ⟨rfl, h3⟩
        · exact absurd (cons_lt_cons.mpr (.inl h3)) h1
        · have hpn' : prefixNext (p ++ [c]) = p ++ [c + 1] := by
            simpa using prefixNext_split p c 0 hc
          obtain ⟨t, rfl⟩ := ih x hpn' (fun h => h1 (cons_lt_cons.mpr (.inr ⟨rfl, h⟩))) h3
          exact ⟨t, rfl⟩
  · rintro ⟨t, rfl⟩
    exact ⟨le_append _ _, by
      have := C12_prefixNext_upper (p ++ [c]) ⟨c, by simp, hc⟩ t
      rwa [hpn] at this⟩

/-- The upper bound fails for every key that is empty or all 0xFF: the key `k ++ [1]` starts with
`k` but is above `PrefixNext(k)`. -/
theorem C12_upper_false (k : Bytes) (h : ¬ HasNonFF k) : prefixNext k < k ++ [1] := by
  rcases split_ff k with ⟨n, rfl⟩ | ⟨p, c, n, hc, rfl⟩
  · rw [prefixNext_ff]; simp [cons_lt_cons]
  · exact absurd ⟨c, by simp, hc⟩ h

/-- Exactness fails whenever `k` ends in 0xFF (and has another byte): a key in the range that does
not start with `k`. -/
theorem C12_exact_false (k : Bytes) (h : HasNonFF k) :
    ∃ x, (k ++ [255]) ≤ x ∧ x < prefixNext (k ++ [255]) ∧ ¬ IsPrefixOf (k ++ [255]) x := by
  obtain ⟨p, c, n, hc, rfl⟩ := split_of_nonFF h
  have hr : (p ++ c :: List.replicate n 255) ++ [255] = p ++ c :: List.replicate (n + 1) 255 := by
    simp [List.replicate_succ']
  rw [hr, prefixNext_split p c (n + 1) hc]
  refine ⟨p ++ [c + 1], ?_, ?_, ?_⟩
  · apply List.le_of_lt
    simp only [append_lt_append_left, cons_lt_cons]; exact .inl (lt_add_one hc)
  · simp [List.replicate_succ]
  · rintro ⟨t, ht⟩
    simp only [List.append_assoc, List.append_cancel_left_eq, List.cons_append,
      List.cons.injEq] at ht
    exact absurd (lt_add_one hc) (by rw [ht.1]; exact UInt8.lt_irrefl _)

example : HasNonFF [1, 255] := ⟨1, by simp, by decide⟩
example : prefixNext [97, 98] = [97, 99] ∧ prefixNext [1, 255] = [2, 0] ∧
    prefixNext [255] = [255, 0] := by decide

/-! ## C13 -/

/-- `IsPoint` holds iff the end key is `Next` of the start, or `PrefixNext` of a start that is not
all 0xFF. -/
theorem C13_isPoint_iff (s e : Bytes) :
    isPoint s e = true ↔ e = next s ∨ (HasNonFF s ∧ e = prefixNext s) := by
  unfold isPoint
  by_cases hl : s.length = e.length
  · rw [if_neg (by simpa using hl), isPointRev_iff _ _ (by simpa using hl)]
    constructor
    · intro h
      rcases split_ff s with ⟨n, rfl⟩ | ⟨p, c, n, hc, rfl⟩
      · have := incRev_ff n []
        rw [List.append_nil] at this
        rw [List.reverse_replicate, this] at h
        simp [incRev] at h
      · right
        refine ⟨⟨c, by simp, hc⟩, ?_⟩
        unfold prefixNext; rw [h]; simp
    · rintro (rfl | ⟨hs, he⟩)
      · simp [next] at hl
      · obtain ⟨p, c, n, hc, rfl⟩ := split_of_nonFF hs
        unfold prefixNext at he
        revert he
        match hi : incRev (p ++ c :: List.replicate n 255).reverse with
        | some r => intro he; simp at he; subst he; simp
        | none =>
          intro he; simp only at he; subst he
          simp at hl
  · rw [if_pos (by simpa using hl)]
    simp only [Bool.and_eq_true, beq_iff_eq]
    constructor
    · rintro ⟨⟨h1, h2⟩, h3⟩
      left
      unfold next
      have hd := List.take_append_drop s.length e
      rw [← h3] at hd
      rw [← hd]
      congr 1
      have hlen : (e.drop s.length).length = 1 := by simp; omega
      obtain ⟨y, hy⟩ := List.length_eq_one_iff.mp hlen
      rw [hy]
      have : e[s.length]? = some y := by
        rw [← List.head?_drop, hy]; rfl
      rw [this] at h2; simpa using h2
    · rintro (rfl | ⟨hs, he⟩)
      · simp [next]
      · exfalso
        obtain ⟨p, c, n, hc, rfl⟩ := split_of_nonFF hs
        rw [prefixNext_split p c n hc] at he
        subst he
        simp at hl

/-- A point range produced by `Next` contains exactly its start key. -/
theorem C13_point_next_single (s x : Bytes) : (s ≤ x ∧ x < next s) ↔ x = s := by
  constructor
  · rintro ⟨h1, h2⟩
    rcases trichotomy s x with h | h | h
    · exact absurd h2 (List.not_lt.mpr ((C11_next_immediate_successor s).2 x h))
    · exact h.symm
    · exact absurd h (List.not_lt.mpr h1)
  · rintro rfl; exact ⟨List.le_refl _, (C11_next_immediate_successor x).1⟩

/-- That a point range always contains a single key is false: with `PrefixNext` the range also
contains every extension of the start key. -/
theorem C13_point_single_false :
    ∃ s e, isPoint s e = true ∧ ∃ x y, x ≠ y ∧ (s ≤ x ∧ x < e) ∧ (s ≤ y ∧ y < e) :=
  ⟨[1], [2], by decide, [1], [1, 7], by decide, by decide, by decide⟩

example : isPoint [1] [2] = true ∧ isPoint [1] [1, 0] = true ∧ isPoint [1] [3] = false := by decide

end Mondis.Props
