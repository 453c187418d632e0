import Verif.Spec.Order
/-!
# Specification: finite maps keyed by 64-bit integers, kept in key order

A map is its strictly key-sorted list of entries.  `get`, `set`, `del` are the usual map
operations; `ext` says that a map is determined by `get`, so everything below could be read as
statements about partial functions `Int64 → Option V` with finite domain.
-/
namespace Mondis

/-- Finite ordered map from 64-bit integers to `V`. -/
structure IMap (V : Type) where
  /-- entries in strictly increasing key order -/
  ents : List (Int64 × V)
  sorted : ents.Pairwise (fun a b => a.1 < b.1)

namespace IMap
variable {V : Type}

/-! Operations on entry lists. -/

def lookup (l : List (Int64 × V)) (k : Int64) : Option V :=
  match l with
  | [] => none
  | (k', v) :: r => if k' = k then some v else lookup r k

def insertList (l : List (Int64 × V)) (k : Int64) (v : V) : List (Int64 × V) :=
  match l with
  | [] => [(k, v)]
  | (k', v') :: r =>
    if k < k' then (k, v) :: (k', v') :: r
    else if k = k' then (k, v) :: r
    else (k', v') :: insertList r k v

theorem mem_insertList {l : List (Int64 × V)} {k : Int64} {v : V} {e : Int64 × V}
    (h : e ∈ insertList l k v) : e = (k, v) ∨ e ∈ l := by
  induction l with
  | nil => simpa [insertList] using h
  | cons a r ih =>
    obtain ⟨k', v'⟩ := a
    unfold insertList at h
    split at h
    · simpa using h
    · split at h
      · rcases List.mem_cons.mp h with h | h
        · exact .inl h
        · exact .inr (List.mem_cons_of_mem _ h)
      · rcases List.mem_cons.mp h with h | h
        · exact .inr (by simp [h])
        · rcases ih h with h | h
          · exact .inl h
          · exact .inr (List.mem_cons_of_mem _ h)

theorem sorted_insertList {l : List (Int64 × V)} (hs : l.Pairwise (fun a b => a.1 < b.1))
    (k : Int64) (v : V) : (insertList l k v).Pairwise (fun a b => a.1 < b.1) := by
  induction l with
  | nil => simp [insertList]
  | cons a r ih =>
    obtain ⟨k', v'⟩ := a
    rw [List.pairwise_cons] at hs
    unfold insertList
    split
    · rename_i hk
      refine List.pairwise_cons.mpr ⟨?_, List.pairwise_cons.mpr hs⟩
      intro b hb
      rcases List.mem_cons.mp hb with rfl | hb
      · exact hk
      · exact Int64.lt_trans hk (hs.1 b hb)
    · split
      · rename_i hk
        subst hk
        exact List.pairwise_cons.mpr hs
      · rename_i h1 h2
        refine List.pairwise_cons.mpr ⟨?_, ih hs.2⟩
        intro b hb
        rcases mem_insertList hb with rfl | hb
        · show k' < k
          by_cases h3 : k' < k
          · exact h3
          · exact absurd (Int64.le_antisymm (Int64.not_lt.mp h3) (Int64.not_lt.mp h1)) h2
        · exact hs.1 b hb

/-- The empty map. -/
def empty : IMap V := ⟨[], List.Pairwise.nil⟩

/-- Lookup. -/
def get (m : IMap V) (k : Int64) : Option V := lookup m.ents k

/-- Insert or overwrite. -/
def set (m : IMap V) (k : Int64) (v : V) : IMap V :=
  ⟨insertList m.ents k v, sorted_insertList m.sorted k v⟩

/-- Restrict to the entries satisfying `p`. -/
def filter (m : IMap V) (p : Int64 × V → Bool) : IMap V :=
  ⟨m.ents.filter p, m.sorted.filter p⟩

/-- Remove a key. -/
def del (m : IMap V) (k : Int64) : IMap V := m.filter (fun e => e.1 ≠ k)

/-! Laws. -/

theorem lookup_of_forall_ne {l : List (Int64 × V)} {k : Int64} (h : ∀ e ∈ l, e.1 ≠ k) :
    lookup l k = none := by
  induction l with
  | nil => rfl
  | cons a r ih =>
    obtain ⟨k', v'⟩ := a
    have : k' ≠ k := h (k', v') (by simp)
    simp [lookup, this, ih (fun e he => h e (by simp [he]))]

theorem lookup_eq_some_iff {l : List (Int64 × V)} (hs : l.Pairwise (fun a b => a.1 < b.1))
    {k : Int64} {v : V} : lookup l k = some v ↔ (k, v) ∈ l := by
  induction l with
  | nil => simp [lookup]
  | cons a r ih =>
    obtain ⟨k', v'⟩ := a
    rw [List.pairwise_cons] at hs
    unfold lookup
    by_cases hk : k' = k
    · subst hk
      simp only [if_true, Option.some.injEq]
      constructor
      · rintro rfl; simp
      · intro h
        rcases List.mem_cons.mp h with h | h
        · simp at h; exact h.symm
        · exact absurd (hs.1 _ h) Int64.lt_irrefl
    · simp only [if_neg hk, ih hs.2, List.mem_cons, Prod.mk.injEq]
      constructor
      · exact .inr
      · rintro (⟨h, _⟩ | h)
        · exact absurd h.symm hk
        · exact h

theorem get_eq_some_iff (m : IMap V) (k : Int64) (v : V) : m.get k = some v ↔ (k, v) ∈ m.ents :=
  lookup_eq_some_iff m.sorted

theorem lookup_insertList (l : List (Int64 × V)) (k : Int64) (v : V)
    (hs : l.Pairwise (fun a b => a.1 < b.1)) (j : Int64) :
    lookup (insertList l k v) j = if k = j then some v else lookup l j := by
  induction l with
  | nil => simp [insertList, lookup]
  | cons a r ih =>
    obtain ⟨k', v'⟩ := a
    rw [List.pairwise_cons] at hs
    unfold insertList
    split
    · rfl
    · split
      · rename_i hk; subst hk
        simp only [lookup]; split <;> rfl
      · rename_i h1 h2
        simp only [lookup, ih hs.2]
        by_cases hj : k' = j
        · subst hj; simp [h2]
        · simp [hj]

@[simp] theorem get_set (m : IMap V) (k : Int64) (v : V) (j : Int64) :
    (m.set k v).get j = if k = j then some v else m.get j :=
  lookup_insertList m.ents k v m.sorted j

theorem get_filter (m : IMap V) (p : Int64 × V → Bool) (k : Int64) :
    (m.filter p).get k = (m.get k).filter (fun v => p (k, v)) := by
  have h := get_eq_some_iff (m.filter p) k
  have h' := get_eq_some_iff m k
  cases hg : m.get k with
  | none =>
    cases hf : (m.filter p).get k with
    | none => rfl
    | some v =>
      have := (h v).mp hf
      rw [filter, List.mem_filter] at this
      rw [← h', hg] at this; simp at this
  | some w =>
    have hw := (h' w).mp hg
    by_cases hp : p (k, w)
    · simp only [Option.filter, hp, if_true]
      exact (h w).mpr (List.mem_filter.mpr ⟨hw, hp⟩)
    · simp only [Option.filter, hp]
      cases hf : (m.filter p).get k with
      | none => rfl
      | some v =>
        have := (h v).mp hf
        rw [filter, List.mem_filter] at this
        rw [← h', hg] at this
        simp at this
        exact absurd this.2 (by rw [← this.1]; exact hp)

@[simp] theorem get_del (m : IMap V) (k j : Int64) :
    (m.del k).get j = if k = j then none else m.get j := by
  rw [del, get_filter]
  by_cases h : k = j
  · subst h; cases m.get k <;> simp [Option.filter]
  · have : j ≠ k := fun e => h e.symm
    cases m.get j <;> simp [Option.filter, h, this]

@[simp] theorem get_empty (k : Int64) : (empty : IMap V).get k = none := rfl

theorem ents_eq {l l' : List (Int64 × V)} (hs : l.Pairwise (fun a b => a.1 < b.1))
    (hs' : l'.Pairwise (fun a b => a.1 < b.1)) (h : ∀ e, e ∈ l ↔ e ∈ l') : l = l' := by
  induction l generalizing l' with
  | nil =>
    cases l' with
    | nil => rfl
    | cons b r => exact absurd ((h b).mpr (by simp)) (by simp)
  | cons a r ih =>
    cases l' with
    | nil => exact absurd ((h a).mp (by simp)) (by simp)
    | cons b r' =>
      rw [List.pairwise_cons] at hs hs'
      have hab : a = b := by
        rcases List.mem_cons.mp ((h a).mp (by simp)) with h1 | h1
        · exact h1
        · rcases List.mem_cons.mp ((h b).mpr (by simp)) with h2 | h2
          · exact h2.symm
          · exact absurd (Int64.lt_trans (hs.1 b h2) (hs'.1 a h1)) Int64.lt_irrefl
      subst hab
      congr 1
      apply ih hs.2 hs'.2
      intro e
      constructor
      · intro he
        rcases List.mem_cons.mp ((h e).mp (List.mem_cons_of_mem _ he)) with h1 | h1
        · subst h1; exact absurd (hs.1 _ he) Int64.lt_irrefl
        · exact h1
      · intro he
        rcases List.mem_cons.mp ((h e).mpr (List.mem_cons_of_mem _ he)) with h1 | h1
        · subst h1; exact absurd (hs'.1 _ he) Int64.lt_irrefl
        · exact h1

/-- A map is determined by its lookups. -/
@[ext] theorem ext {m m' : IMap V} (h : ∀ k, m.get k = m'.get k) : m = m' := by
  obtain ⟨l, hs⟩ := m
  obtain ⟨l', hs'⟩ := m'
  have : l = l' := by
    apply ents_eq hs hs'
    rintro ⟨k, v⟩
    have := h k
    have a := get_eq_some_iff ⟨l, hs⟩ k v
    have b := get_eq_some_iff ⟨l', hs'⟩ k v
    rw [this] at a
    exact a.symm.trans b
  subst this; rfl

theorem mem_get {m : IMap V} {k : Int64} {v : V} (h : (k, v) ∈ m.ents) : m.get k = some v :=
  (get_eq_some_iff m k v).mpr h

theorem get_eq_none_iff (m : IMap V) (k : Int64) : m.get k = none ↔ ∀ v, (k, v) ∉ m.ents := by
  constructor
  · intro h v hv; rw [mem_get hv] at h; cases h
  · intro h
    cases hg : m.get k with
    | none => rfl
    | some v => exact absurd ((get_eq_some_iff m k v).mp hg) (h v)

theorem set_comm (m : IMap V) {k j : Int64} (h : k ≠ j) (v w : V) :
    (m.set k v).set j w = (m.set j w).set k v := by
  ext1 i
  simp only [get_set]
  by_cases h1 : k = i <;> by_cases h2 : j = i <;> simp_all

theorem set_set (m : IMap V) (k : Int64) (v w : V) : (m.set k v).set k w = m.set k w := by
  ext1 i
  simp only [get_set]
  by_cases h1 : k = i <;> simp_all

theorem del_set (m : IMap V) (k : Int64) (v : V) : (m.set k v).del k = m.del k := by
  ext1 i
  simp only [get_set, get_del]
  by_cases h1 : k = i <;> simp_all

theorem length_insertList {l : List (Int64 × V)} (hs : l.Pairwise (fun a b => a.1 < b.1))
    (k : Int64) (v : V) :
    (insertList l k v).length = if (lookup l k).isSome then l.length else l.length + 1 := by
  induction l with
  | nil => rfl
  | cons a r ih =>
    obtain ⟨k', v'⟩ := a
    rw [List.pairwise_cons] at hs
    unfold insertList
    split
    · rename_i hk
      rw [lookup_of_forall_ne]
      · simp
      · intro e he
        rcases List.mem_cons.mp he with rfl | he
        · intro h; simp only at h; rw [h] at hk; exact Int64.lt_irrefl hk
        · intro h
          have := hs.1 e he
          rw [h] at this
          exact Int64.lt_irrefl (Int64.lt_trans this hk)
    · split
      · rename_i hk; subst hk; simp [lookup]
      · rename_i h1 h2
        have h2' : ¬ k' = k := fun h => h2 h.symm
        simp only [List.length_cons, ih hs.2, lookup, if_neg h2']
        split <;> rfl

/-- Number of entries after an insertion. -/
theorem length_set (m : IMap V) (k : Int64) (v : V) :
    (m.set k v).ents.length = if (m.get k).isSome then m.ents.length else m.ents.length + 1 :=
  length_insertList m.sorted k v

/-- Number of entries after a deletion. -/
theorem length_del (m : IMap V) (k : Int64) :
    (m.del k).ents.length + (if (m.get k).isSome then 1 else 0) = m.ents.length := by
  cases hg : m.get k with
  | none =>
    have : m.del k = m := by
      ext1 j; rw [get_del]; split
      · rename_i h; rw [← h, hg]
      · rfl
    simp [this]
  | some v =>
    have : (m.del k).set k v = m := by
      ext1 j; rw [get_set, get_del]; split
      · rename_i h; rw [← h, hg]
      · rfl
    have hl := length_set (m.del k) k v
    rw [this] at hl
    simp [get_del] at hl
    simp [hl]

theorem length_eq_zero_iff (m : IMap V) : m.ents.length = 0 ↔ ∀ k, m.get k = none := by
  constructor
  · intro h k
    rw [List.length_eq_zero_iff] at h
    simp [get, h, lookup]
  · intro h
    have : m = empty := by ext1 k; simp [h]
    simp [this, empty]

/-- No key is listed twice. -/
theorem keys_nodup (m : IMap V) : (m.ents.map Prod.fst).Nodup := by
  rw [List.Nodup, List.pairwise_map]
  exact m.sorted.imp (fun h e => by rw [e] at h; exact absurd h Int64.lt_irrefl)

/-- The listed keys are those with a value. -/
theorem mem_keys_iff (m : IMap V) (k : Int64) : k ∈ m.ents.map Prod.fst ↔ m.get k ≠ none := by
  constructor
  · intro h
    obtain ⟨e, he, rfl⟩ := List.mem_map.mp h
    rw [mem_get (v := e.2) he]; simp
  · intro h
    cases hg : m.get k with
    | none => exact absurd hg h
    | some v => exact List.mem_map.mpr ⟨(k, v), (get_eq_some_iff m k v).mp hg, rfl⟩

end IMap
end Mondis
