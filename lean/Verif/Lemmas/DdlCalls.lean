import Verif.Lemmas.DdlWork
/-!
# Package ddl: CreateSchema and AddIndex
-/
namespace Mondis.Ddl
open Mondis Spec Schema Meta

/-! ### Names and numbers -/

theorem distinct_fold (l s : List Bytes) (hs : s.Nodup) :
    (l.foldl (fun s n => if n ∈ s then s else s ++ [n]) s).Nodup ∧
    (∀ x, x ∈ l.foldl (fun s n => if n ∈ s then s else s ++ [n]) s ↔ x ∈ s ∨ x ∈ l) ∧
    (l.foldl (fun s n => if n ∈ s then s else s ++ [n]) s).length ≤ s.length + l.length := by
  induction l generalizing s with
  | nil => exact ⟨hs, fun x => by simp, Nat.le_refl _⟩
  | cons a l ih =>
    rw [List.foldl_cons]
    by_cases ha : a ∈ s
    · rw [if_pos ha]
      obtain ⟨h1, h2, h3⟩ := ih s hs
      refine ⟨h1, fun x => ?_, by simp only [List.length_cons]; omega⟩
      rw [h2, List.mem_cons]
      constructor
      · rintro (h | h)
        · exact .inl h
        · exact .inr (.inr h)
      · rintro (h | rfl | h)
        · exact .inl h
        · exact .inl ha
        · exact .inr h
    · rw [if_neg ha]
      obtain ⟨h1, h2, h3⟩ := ih (s ++ [a]) (by
        rw [List.nodup_append]
        refine ⟨hs, by simp, ?_⟩
        intro x hx y hy e
        rw [List.mem_singleton] at hy
        rw [e, hy] at hx
        exact ha hx)
      refine ⟨h1, fun x => ?_, by simp only [List.length_append, List.length_cons, List.length_nil] at h3 ⊢; omega⟩
      rw [h2, List.mem_cons, List.mem_append, List.mem_singleton]
      constructor
      · rintro ((h | h) | h)
        · exact .inl h
        · exact .inr (.inl h)
        · exact .inr (.inr h)
      · rintro (h | h | h)
        · exact .inl (.inl h)
        · exact .inl (.inr h)
        · exact .inr h

theorem distinct_nodup (l : List Bytes) : (distinct l).Nodup := (distinct_fold l [] .nil).1
theorem mem_distinct (l : List Bytes) (x : Bytes) : x ∈ distinct l ↔ x ∈ l := by
  have := (distinct_fold l [] .nil).2.1 x
  simpa [distinct] using this
theorem distinct_length (l : List Bytes) : (distinct l).length ≤ l.length := by
  have := (distinct_fold l [] .nil).2.2
  simpa [distinct] using this

theorem get_numberFold (first : Nat) (l : List (Bytes × Nat)) (m : OMap CollectionInfo) (x : Bytes) (c : CollectionInfo)
    (h : (l.foldl (fun m e => m.set e.1 { id := Int64.ofNat (first + e.2), name := e.1 }) m).get x = some c) :
    m.get x = some c ∨ ∃ e ∈ l, e.1 = x ∧ c = { id := Int64.ofNat (first + e.2), name := e.1 } := by
  induction l generalizing m with
  | nil => exact .inl h
  | cons e l ih =>
    rw [List.foldl_cons] at h
    rcases ih _ h with h | ⟨e', he', h⟩
    · rw [OMap.get_set] at h
      split at h
      · cases h; exact .inr ⟨e, List.mem_cons_self, by assumption, rfl⟩
      · exact .inl h
    · exact .inr ⟨e', List.mem_cons_of_mem _ he', h⟩

theorem isSome_numberFold (first : Nat) (l : List (Bytes × Nat)) (m : OMap CollectionInfo) (x : Bytes) :
    ((l.foldl (fun m e => m.set e.1 { id := Int64.ofNat (first + e.2), name := e.1 }) m).get x).isSome = true ↔
    (m.get x).isSome = true ∨ x ∈ l.map Prod.fst := by
  induction l generalizing m with
  | nil => simp
  | cons e l ih =>
    rw [List.foldl_cons, ih, OMap.get_set, List.map_cons, List.mem_cons]
    by_cases hx : e.1 = x
    · rw [if_pos hx]; simp [hx]
    · rw [if_neg hx]
      have : ¬ x = e.1 := fun h => hx h.symm
      simp [this]

/-- What a numbered collection looks like. -/
theorem get_numbered {first : Nat} {s : List Bytes} {x : Bytes} {c : CollectionInfo} (h : (numbered first s).get x = some c) :
    x ∈ s ∧ ∃ i, i < s.length ∧ c = { id := Int64.ofNat (first + i), name := x } := by
  rcases get_numberFold first _ _ x c h with h | ⟨e, he, rfl, rfl⟩
  · cases h
  · obtain ⟨n, i⟩ := e
    have := List.mem_zipIdx' he
    exact ⟨this.2 ▸ List.getElem_mem _, i, this.1, rfl⟩

theorem isSome_numbered (first : Nat) (s : List Bytes) (x : Bytes) :
    ((numbered first s).get x).isSome = true ↔ x ∈ s := by
  unfold numbered
  rw [isSome_numberFold, List.zipIdx_map_fst]
  simp

theorem numbered_snoc (first : Nat) (s : List Bytes) (x : Bytes) :
    numbered first (s ++ [x]) = (numbered first s).set x { id := Int64.ofNat (first + s.length), name := x } := by
  unfold numbered
  rw [List.zipIdx_append, List.foldl_append]
  simp

theorem perm_insertList {V : Type} {l : List (Bytes × V)} {k : Bytes} {v : V} (h : ∀ e ∈ l, e.1 ≠ k) :
    (OMap.insertList l k v).Perm ((k, v) :: l) := by
  induction l with
  | nil => exact List.Perm.refl _
  | cons a r ih =>
    obtain ⟨k', v'⟩ := a
    unfold OMap.insertList
    split
    · exact List.Perm.refl _
    · split
      · rename_i e; exact absurd e.symm (h (k', v') List.mem_cons_self)
      · exact ((ih (fun e he => h e (List.mem_cons_of_mem _ he))).cons _).trans (List.Perm.swap _ _ _)

theorem ents_numberFold (first : Nat) (l : List (Bytes × Nat)) (m : OMap CollectionInfo) (hl : (l.map Prod.fst).Nodup)
    (hd : ∀ e ∈ l, m.get e.1 = none) :
    (l.foldl (fun m e => m.set e.1 { id := Int64.ofNat (first + e.2), name := e.1 }) m).ents.Perm
      (l.map (fun e => (e.1, ({ id := Int64.ofNat (first + e.2), name := e.1 } : CollectionInfo))) ++ m.ents) := by
  induction l generalizing m with
  | nil => exact List.Perm.refl _
  | cons e l ih =>
    rw [List.map_cons, List.nodup_cons] at hl
    rw [List.foldl_cons]
    refine (ih _ hl.2 ?_).trans ?_
    · intro e' he'
      rw [OMap.get_set, if_neg]
      · exact hd e' (List.mem_cons_of_mem _ he')
      · intro he
        exact hl.1 (by rw [he]; exact List.mem_map_of_mem he')
    · have hp : (m.set e.1 { id := Int64.ofNat (first + e.2), name := e.1 }).ents.Perm
          ((e.1, ({ id := Int64.ofNat (first + e.2), name := e.1 } : CollectionInfo)) :: m.ents) := by
        refine perm_insertList ?_
        intro x hx hxe
        have := (OMap.get_eq_none_iff m e.1).mp (hd e List.mem_cons_self) x.2
        exact this (by rw [← hxe]; exact hx)
      refine (hp.append_left _).trans ?_
      simp only [List.map_cons, List.cons_append]
      exact List.perm_middle

/-- The ids of numbered collections. -/
theorem ids_numbered (first : Nat) {s : List Bytes} (hs : s.Nodup) :
    ((numbered first s).ents.map (fun e => e.2.id)).Perm ((List.range s.length).map (fun i => Int64.ofNat (first + i))) := by
  have h := ents_numberFold first s.zipIdx OMap.empty (by rw [List.zipIdx_map_fst]; exact hs) (fun e _ => rfl)
  refine (h.map _).trans ?_
  rw [List.map_append, List.map_map]
  have e1 : List.map (fun e : Bytes × CollectionInfo => e.2.id) (OMap.empty : OMap CollectionInfo).ents = [] := rfl
  rw [e1, List.append_nil, List.range_eq_range', ← List.zipIdx_map_snd 0 s, List.map_map]
  exact List.Perm.refl _

/-! ### The loop of CreateSchema -/

theorem addCollections_ok (ix : Bytes → List IndexIn) (first : Nat) (hf : 1 ≤ first) (cs s : List Bytes) (d : DBInfo) (next : Int64)
    (hd : d.collections = numbered first s) (hn : next = Int64.ofNat (first + s.length - 1)) (hix : ∀ c ∈ cs, ix c = []) :
    addCollections ix cs d next = .ok ({ d with
      collections := numbered first (cs.foldl (fun s n => if n ∈ s then s else s ++ [n]) s),
      collectionOrder := d.collectionOrder ++ cs },
      Int64.ofNat (first + (cs.foldl (fun s n => if n ∈ s then s else s ++ [n]) s).length - 1)) := by
  induction cs generalizing s d next with
  | nil => simp only [addCollections, List.foldl_nil, List.append_nil, ← hd, ← hn]
  | cons c cs ih =>
    unfold addCollections
    simp only
    rw [if_pos (hix c List.mem_cons_self)]
    have hix' : ∀ c ∈ cs, ix c = [] := fun c hc => hix c (List.mem_cons_of_mem _ hc)
    by_cases hc : c ∈ s
    · have hk : (d.collections.get c).isSome = true := by rw [hd]; exact (isSome_numbered first s c).mpr hc
      rw [hk, if_pos rfl, if_pos rfl]
      rw [ih s { d with collectionOrder := d.collectionOrder ++ [c] } next hd hn hix', List.foldl_cons, if_pos hc]
      simp only [List.append_assoc, List.cons_append, List.nil_append]
    · have hk : (d.collections.get c).isSome = false := by
        rw [hd, Bool.eq_false_iff]
        exact fun h => hc ((isSome_numbered first s c).mp h)
      rw [hk]
      have e1 : next + 1 = Int64.ofNat (first + s.length) := by
        rw [hn, ofNat_succ]; congr 1; omega
      rw [if_neg (by simp), if_neg (by simp)]
      rw [ih (s ++ [c]) { d with collections := d.collections.set c { id := next + 1, name := c },
                                 collectionOrder := d.collectionOrder ++ [c] } (next + 1) (by
        show d.collections.set c _ = _
        rw [numbered_snoc, hd, e1]) (by
        rw [e1]; congr 1; simp only [List.length_append, List.length_singleton]; omega) hix',
        List.foldl_cons, if_neg hc]
      simp only [List.append_assoc, List.cons_append, List.nil_append]

theorem addCollections_panic (ix : Bytes → List IndexIn) (cs : List Bytes) (d : DBInfo) (next : Int64)
    (hix : ∃ c ∈ cs, ix c ≠ []) : addCollections ix cs d next = .panic := by
  induction cs generalizing d next with
  | nil => obtain ⟨c, hc, -⟩ := hix; cases hc
  | cons c cs ih =>
    unfold addCollections
    simp only
    by_cases h : ix c = []
    · rw [if_pos h]
      refine ih _ _ ?_
      obtain ⟨c', hc', h'⟩ := hix
      rcases List.mem_cons.mp hc' with rfl | hc'
      · exact absurd h h'
      · exact ⟨c', hc', h'⟩
    · rw [if_neg h]

theorem createJob_ok (i : CreateSchemaInput) (last : Nat) (h : ¬ WithIndex i) :
    createJob i (Int64.ofNat last) = .ok { id := DState.createJobID last i, type := .createSchema, arg := .db (requested last i) } := by
  unfold createJob
  rw [addCollections_ok _ (last + 2) (by omega) i.collections [] _ _ rfl ?_ ?_]
  · simp only [List.nil_append, DState.createJobID, requested, distinct]
    have e : Int64.ofNat (last + 2 + (List.foldl (fun s n => if n ∈ s then s else s ++ [n]) [] i.collections).length - 1) + 1 =
        Int64.ofNat (last + 2 + (List.foldl (fun s n => if n ∈ s then s else s ++ [n]) [] i.collections).length) := by
      rw [ofNat_succ]; congr 1; omega
    rw [e, ofNat_succ]
  · rw [ofNat_succ]; rfl
  · intro c hc
    cases hg : i.indices.get c with
    | none => rfl
    | some l =>
      by_cases hl : l = []
      · rw [hl]; rfl
      · exact absurd ⟨c, hc, l, hg, hl⟩ h

theorem createJob_panic (i : CreateSchemaInput) (start : Int64) (h : WithIndex i) : createJob i start = .panic := by
  unfold createJob
  obtain ⟨c, hc, l, hg, hl⟩ := h
  rw [addCollections_panic _ _ _ _ ⟨c, hc, by rw [hg]; exact hl⟩]

/-! ### Validation -/

theorem firstErr_ok {α : Type} {f : α → Res Unit} {l : List α} (h : ∀ a ∈ l, f a = .ok ()) : firstErr f l = .ok () := by
  induction l with
  | nil => rfl
  | cons a l ih => simp only [firstErr, h a List.mem_cons_self]; exact ih (fun b hb => h b (List.mem_cons_of_mem _ hb))

theorem firstErr_cases {α : Type} {f : α → Res Unit} {E : List Err} (l : List α)
    (h : ∀ a ∈ l, f a = .ok () ∨ ∃ e ∈ E, f a = .err e) :
    (firstErr f l = .ok () ∧ ∀ a ∈ l, f a = .ok ()) ∨ ∃ e ∈ E, firstErr f l = .err e := by
  induction l with
  | nil => exact .inl ⟨rfl, by simp⟩
  | cons a l ih =>
    simp only [firstErr]
    rcases h a List.mem_cons_self with ha | ⟨e, he, ha⟩
    · rw [ha]
      rcases ih (fun b hb => h b (List.mem_cons_of_mem _ hb)) with ⟨h1, h2⟩ | h1
      · refine .inl ⟨h1, ?_⟩
        intro b hb
        rcases List.mem_cons.mp hb with rfl | hb
        · exact ha
        · exact h2 b hb
      · exact .inr h1
    · rw [ha]; exact .inr ⟨e, he, rfl⟩

theorem validIndex_cases (i : IndexIn) : (ValidIndex i ∧ i.validate = .ok ()) ∨
    (¬ ValidIndex i ∧ ∃ e ∈ [errIndexNameEmpty, errIndexColumnsEmpty], i.validate = .err e) := by
  unfold ValidIndex IndexIn.validate
  by_cases h1 : i.name = []
  · rw [if_pos h1]; exact .inr ⟨fun h => h.1 h1, _, by simp, rfl⟩
  · rw [if_neg h1]
    by_cases h2 : i.columns = []
    · rw [if_pos (by rw [h2]; rfl)]; exact .inr ⟨fun h => h.2 h2, _, by simp, rfl⟩
    · rw [if_neg (by rw [List.length_eq_zero_iff]; exact h2)]; exact .inl ⟨⟨h1, h2⟩, rfl⟩

/-- Validate accepts exactly the well-formed inputs. -/
theorem validate_cases (o : Order) (i : CreateSchemaInput) : (ValidInput i ∧ i.validate o = .ok ()) ∨
    (¬ ValidInput i ∧ ∃ e ∈ [errDBEmpty, errCollectionEmpty, errIndexNameEmpty, errIndexColumnsEmpty], i.validate o = .err e) := by
  unfold CreateSchemaInput.validate
  by_cases h1 : i.db = []
  · rw [if_pos h1]; exact .inr ⟨fun h => h.1 h1, _, by simp, rfl⟩
  rw [if_neg h1]
  rcases firstErr_cases (E := [errCollectionEmpty]) (f := fun cn : Bytes => if cn = [] then .err errCollectionEmpty else .ok ())
    i.collections (by
      intro c _
      by_cases hc : c = []
      · exact .inr ⟨_, by simp, if_pos hc⟩
      · exact .inl (if_neg hc)) with ⟨g1, g2⟩ | ⟨e, he, g⟩
  · rw [g1]
    simp only
    have hcoll : ∀ c ∈ i.collections, c ≠ [] := by
      intro c hc e
      have := g2 c hc
      rw [if_pos e] at this
      cases this
    rcases firstErr_cases (E := [errIndexNameEmpty, errIndexColumnsEmpty]) (f := fun l => firstErr IndexIn.validate l)
      (o.visit (i.indices.ents.map Prod.snd)) (by
        intro l _
        rcases firstErr_cases (f := IndexIn.validate) l (fun x _ => (validIndex_cases x).elim (fun h => .inl h.2) (fun h => .inr h.2)) with h | h
        · exact .inl h.1
        · exact .inr h) with ⟨k1, k2⟩ | ⟨e, he, k⟩
    · rw [k1]
      refine .inl ⟨⟨h1, hcoll, ?_⟩, rfl⟩
      intro n l hl x hx
      have hm : l ∈ o.visit (i.indices.ents.map Prod.snd) :=
        (o.perm _).mem_iff.mpr (List.mem_map.mpr ⟨(n, l), (OMap.get_eq_some_iff _ _ _).mp hl, rfl⟩)
      rcases firstErr_cases (f := IndexIn.validate) l (fun x _ => (validIndex_cases x).elim (fun h => .inl h.2) (fun h => .inr h.2)) with ⟨-, h⟩ | ⟨e, -, h⟩
      · rcases validIndex_cases x with h' | ⟨-, e, -, h'⟩
        · exact h'.1
        · rw [h x hx] at h'; cases h'
      · rw [k2 l hm] at h; cases h
    · rw [k]
      refine .inr ⟨?_, e, ?_, rfl⟩
      · intro hv
        have : firstErr (fun l => firstErr IndexIn.validate l) (o.visit (i.indices.ents.map Prod.snd)) = .ok () := by
          refine firstErr_ok (fun l hl => firstErr_ok (fun x hx => ?_))
          obtain ⟨⟨n, l'⟩, hm, rfl⟩ := List.mem_map.mp ((o.perm _).mem_iff.mp hl)
          rcases validIndex_cases x with h' | ⟨h', -⟩
          · exact h'.2
          · exact absurd (hv.2.2 n l' (OMap.mem_get hm) x hx) h'
        rw [this] at k; cases k
      · simp only [List.mem_cons, List.not_mem_nil, or_false] at he ⊢
        rcases he with rfl | rfl <;> simp
  · rw [g]
    simp only [List.mem_singleton] at he
    subst he
    refine .inr ⟨?_, _, by simp, rfl⟩
    intro hv
    have : firstErr (fun cn : Bytes => if cn = [] then Res.err errCollectionEmpty else .ok ()) i.collections = .ok () :=
      firstErr_ok (fun c hc => if_neg (hv.2.1 c hc))
    rw [this] at g; cases g

end Mondis.Ddl
