import Verif.Model.DocKeys
import Verif.Props.Codec
import Verif.Lemmas.Key
import Verif.Lemmas.Scan
/-!
# Property theorems C40: keys of the document layer
-/
namespace Mondis.Props
open Mondis Mondis.Doc Mondis.Spec Mondis.Memcomparable

/-- What a key of the document layer stands for. -/
inductive DocKey where
  | document (cid did : Int64)
  | indexName (cid : Int64) (name : Bytes)
  | columns (cid : Int64) (fields : List IndexField)
  | sequence (keyword : Bytes)
  | collectionName (name : Bytes)
  | index (iid : Int64)

/-- The key the code builds for it. -/
def DocKey.encode : DocKey → Res Bytes
  | .document cid did => .ok (documentKey cid did)
  | .indexName cid name => .ok (indexName2IDKey cid name)
  | .columns cid fields => columnsIndexedKey cid fields
  | .sequence kw => .ok (metaSequenceKey kw)
  | .collectionName n => .ok (metaCollectionName2IDKey n)
  | .index iid => .ok (metaIndexKey iid)

/-- The same columns are indexed: for a single column the direction is irrelevant (an index can be read
both ways), for several the order of listing is. -/
def SameColumns (l l' : List IndexField) : Prop :=
  (l.length = 1 ∧ l.map IndexField.name = l'.map IndexField.name) ∨ (l.length ≠ 1 ∧ l.Perm l')

/-- Two keys stand for the same thing. -/
def DocKey.Same : DocKey → DocKey → Prop
  | .columns cid fs, .columns cid' fs' => cid = cid' ∧ SameColumns fs fs'
  | .columns _ _, _ => False
  | _, .columns _ _ => False
  | k, k' => k = k'

/-! ### fields -/

theorem insertField_perm (f : IndexField) (l : List IndexField) : (insertField f l).Perm (f :: l) := by
  induction l with
  | nil => exact List.Perm.refl _
  | cons g l ih =>
    unfold insertField
    split
    · exact List.Perm.refl _
    · exact (List.Perm.cons g ih).trans (List.Perm.swap f g l)

theorem sortFields_perm_aux (l acc : List IndexField) :
    (l.foldl (fun acc f => insertField f acc) acc).Perm (l ++ acc) := by
  induction l generalizing acc with
  | nil => exact List.Perm.refl _
  | cons f l ih =>
    simp only [List.foldl_cons, List.cons_append]
    refine (ih _).trans ?_
    refine ((insertField_perm f acc).append_left l).trans ?_
    exact List.perm_middle

theorem sortFields_perm (l : List IndexField) : (sortFields l).Perm l := by
  have := sortFields_perm_aux l []
  simpa [sortFields] using this

theorem le_of_not_lt {a b : Bytes} (h : ¬ a < b) : b ≤ a := h

theorem insertField_sorted (f : IndexField) (l : List IndexField)
    (h : l.Pairwise (fun a b => a.name ≤ b.name)) :
    (insertField f l).Pairwise (fun a b => a.name ≤ b.name) := by
  induction l with
  | nil => simp [insertField]
  | cons g l ih =>
    rw [List.pairwise_cons] at h
    unfold insertField
    split
    · rename_i hlt
      rw [List.pairwise_cons]
      refine ⟨?_, List.pairwise_cons.mpr h⟩
      intro a ha
      rcases List.mem_cons.mp ha with rfl | ha
      · exact List.le_of_lt hlt
      · exact List.le_trans (List.le_of_lt hlt) (h.1 a ha)
    · rename_i hlt
      rw [List.pairwise_cons]
      refine ⟨?_, ih h.2⟩
      intro a ha
      rcases List.mem_cons.mp ((insertField_perm f l).mem_iff.mp ha) with rfl | ha
      · exact le_of_not_lt hlt
      · exact h.1 a ha

theorem sortFields_sorted (l : List IndexField) :
    (sortFields l).Pairwise (fun a b => a.name ≤ b.name) := by
  unfold sortFields
  suffices ∀ acc : List IndexField, acc.Pairwise (fun a b => a.name ≤ b.name) →
      (l.foldl (fun acc f => insertField f acc) acc).Pairwise (fun a b => a.name ≤ b.name) from
    this [] List.Pairwise.nil
  induction l with
  | nil => exact fun acc h => h
  | cons f l ih => exact fun acc h => ih _ (insertField_sorted f acc h)

theorem inj_on_of_nodup_map {α β : Type} {f : α → β} {l : List α} (h : (l.map f).Nodup) {a b : α}
    (ha : a ∈ l) (hb : b ∈ l) (e : f a = f b) : a = b := by
  induction l with
  | nil => cases ha
  | cons x l ih =>
    rw [List.map_cons, List.nodup_cons] at h
    rcases List.mem_cons.mp ha with h1 | ha <;> rcases List.mem_cons.mp hb with h2 | hb
    · rw [h1, h2]
    · rw [h1] at e; exact absurd (List.mem_map.mpr ⟨b, hb, e.symm⟩) h.1
    · rw [h2] at e; exact absurd (List.mem_map.mpr ⟨a, ha, e⟩) h.1
    · exact ih h.2 ha hb

theorem normFields_of_ne_one {l : List IndexField} (h : l.length ≠ 1) : normFields l = sortFields l := by
  match l with
  | [] => rfl
  | [_] => exact absurd rfl h
  | _ :: _ :: _ => rfl

theorem normFields_length (l : List IndexField) : (normFields l).length = l.length := by
  match l with
  | [_] => rfl
  | [] => rfl
  | a :: b :: l => exact (sortFields_perm (a :: b :: l)).length_eq

theorem sameColumns_of_norm {l l' : List IndexField} (h : normFields l = normFields l') : SameColumns l l' := by
  have hl : l.length = l'.length := by rw [← normFields_length l, h, normFields_length]
  by_cases h1 : l.length = 1
  · left
    refine ⟨h1, ?_⟩
    match l, l', h1, hl with
    | [f], [g], _, _ =>
      simp only [normFields, List.cons.injEq, IndexField.mk.injEq, and_true] at h
      simp [h]
  · right
    refine ⟨h1, ?_⟩
    rw [normFields_of_ne_one h1, normFields_of_ne_one (by omega)] at h
    exact ((sortFields_perm l).symm.trans (h ▸ List.Perm.refl _)).trans (sortFields_perm l')

theorem norm_of_sameColumns {l l' : List IndexField} (hn : (l.map IndexField.name).Nodup)
    (h : SameColumns l l') : normFields l = normFields l' := by
  rcases h with ⟨h1, h⟩ | ⟨h1, h⟩
  · have hl : l'.length = 1 := by rw [← h1, ← List.length_map (f := IndexField.name), ← h, List.length_map]
    match l, l', h1, hl with
    | [f], [g], _, _ =>
      simp only [List.map_cons, List.map_nil, List.cons.injEq, and_true] at h
      simp [normFields, h]
  · rw [normFields_of_ne_one h1, normFields_of_ne_one (by rw [← h.length_eq]; exact h1)]
    have hp : (sortFields l).Perm (sortFields l') :=
      (sortFields_perm l).trans (h.trans (sortFields_perm l').symm)
    refine hp.eq_of_pairwise (le := fun a b => a.name ≤ b.name) ?_ (sortFields_sorted l) (sortFields_sorted l')
    intro a b ha hb hab hba
    have hab' : a.name = b.name := List.le_antisymm hab hba
    have ha' := (sortFields_perm l).mem_iff.mp ha
    have hb' := (sortFields_perm l).mem_iff.mp (hp.mem_iff.mpr hb)
    exact inj_on_of_nodup_map hn ha' hb' hab'

/-! ### encoding of the fields -/

theorem encodeBytes_eq (data : Bytes) : ∃ d, ∀ b, Compact.encodeBytes b data = .ok (b ++ (d ++ data)) := by
  obtain ⟨d, _, _, _, h4, _⟩ := C08_varint_roundtrip (Int64.ofNat data.length)
  exact ⟨d, fun b => by simp [Compact.encodeBytes, h4]⟩

theorem encodeFields_total (l : List IndexField) :
    ∃ d, (∀ b, encodeFields b l = .ok (b ++ d)) ∧
      (∀ l' b, encodeFields b l' = .ok (b ++ d) → d.length < 2 ^ 63 → l = l') := by
  induction l with
  | nil =>
    refine ⟨[], fun b => by simp [encodeFields], ?_⟩
    intro l' b h _
    match l' with
    | [] => rfl
    | f :: l' =>
      obtain ⟨d, _, h2, _, h4, _⟩ := C08_uvarint_roundtrip (if f.desc then 1 else 0)
      obtain ⟨e, h5⟩ := encodeBytes_eq f.name
      have : ∀ (l : List IndexField) b c, encodeFields b l = .ok c → b.length ≤ c.length := by
        intro l
        induction l with
        | nil => intro b c h; cases h; exact Nat.le_refl _
        | cons g l ih =>
          intro b c h
          obtain ⟨d, _, h2, _, h4, _⟩ := C08_uvarint_roundtrip (if g.desc then 1 else 0)
          obtain ⟨e, h5⟩ := encodeBytes_eq g.name
          simp only [encodeFields, h4, h5, Res.ok_bind] at h
          have := ih _ _ h
          simp at this; omega
      simp only [encodeFields, h4, h5, Res.ok_bind] at h
      have := this _ _ _ h
      simp at this; omega
  | cons f l ih =>
    obtain ⟨d, ih1, ih2⟩ := ih
    obtain ⟨u, _, hu2, _, hu4, hu5, _⟩ := C08_uvarint_roundtrip (if f.desc then 1 else 0)
    obtain ⟨e, he⟩ := encodeBytes_eq f.name
    refine ⟨u ++ (e ++ f.name) ++ d, fun b => by simp [encodeFields, hu4, he, ih1], ?_⟩
    intro l' b h hlen
    match l' with
    | [] =>
      simp only [encodeFields, Res.ok.injEq] at h
      have := congrArg List.length h
      simp only [List.length_append] at this; omega
    | g :: l' =>
      obtain ⟨u', _, hu2', _, hu4', hu5', _⟩ := C08_uvarint_roundtrip (if g.desc then 1 else 0)
      obtain ⟨e', he'⟩ := encodeBytes_eq g.name
      have htot : ∀ (l : List IndexField), ∃ d, ∀ b, encodeFields b l = .ok (b ++ d) := by
        intro l
        induction l with
        | nil => exact ⟨[], fun b => by simp [encodeFields]⟩
        | cons g l ih =>
          obtain ⟨d, _, _, _, h4, _⟩ := C08_uvarint_roundtrip (if g.desc then 1 else 0)
          obtain ⟨e, h5⟩ := encodeBytes_eq g.name
          obtain ⟨t, ht⟩ := ih
          exact ⟨d ++ (e ++ g.name) ++ t, fun b => by simp [encodeFields, h4, h5, ht]⟩
      obtain ⟨d', hd'⟩ := htot l'
      simp only [encodeFields, hu4', he', hd', Res.ok_bind, Res.ok.injEq, List.append_assoc,
        List.append_cancel_left_eq] at h
      have hdesc : f.desc = g.desc ∧ e' ++ (g.name ++ d') = e ++ (f.name ++ d) := by
        have h1 := hu5 (e ++ (f.name ++ d))
        have h2 := hu5' (e' ++ (g.name ++ d'))
        rw [h, h1] at h2
        simp only [Res.ok.injEq, Prod.mk.injEq] at h2
        refine ⟨?_, h2.1.symm⟩
        have := h2.2
        revert this
        cases f.desc <;> cases g.desc <;> simp
      have hname : d' = d ∧ g.name = f.name := by
        simp only [List.length_append] at hlen
        have hl' : g.name.length + d'.length < 2 ^ 63 := by
          have := congrArg List.length hdesc.2
          simp only [List.length_append] at this; omega
        obtain ⟨x, _, hx, hx'⟩ := C08_bytes_roundtrip f.name (by omega)
        obtain ⟨y, _, hy, hy'⟩ := C08_bytes_roundtrip g.name (by omega)
        have ex : x = e ++ f.name := by have := (hx []).symm.trans (he []); simpa using this
        have ey : y = e' ++ g.name := by have := (hy []).symm.trans (he' []); simpa using this
        have h1 := hx' d (by simp only [List.length_append]; omega)
        have h2 := hy' d' (by simp only [List.length_append]; omega)
        rw [ex] at h1; rw [ey] at h2
        rw [List.append_assoc] at h1 h2
        rw [hdesc.2, h1] at h2
        simp only [Res.ok.injEq, Prod.mk.injEq] at h2
        exact ⟨h2.1.symm, h2.2.symm⟩
      have := ih2 l' [] (by rw [hd', hname.1]) (by simp only [List.length_append] at hlen; omega)
      obtain ⟨fn, fd⟩ := f
      obtain ⟨gn, gd⟩ := g
      simp_all

/-! ### keys -/

theorem columnsIndexedKey_eq (cid : Int64) (fs : List IndexField) : ∃ d,
    columnsIndexedKey cid fs = .ok (collectionPrefix ++ (encodeInt64 [] cid ++ (columnsIndexedPrefix ++ d))) ∧
    ∀ fs', columnsIndexedKey cid fs' = columnsIndexedKey cid fs → d.length < 2 ^ 63 →
      normFields fs = normFields fs' := by
  obtain ⟨d, h1, h2⟩ := encodeFields_total (normFields fs)
  refine ⟨d, ?_, ?_⟩
  · unfold columnsIndexedKey; rw [h1, (C01_int64_append collectionPrefix cid).1]; simp
  · intro fs' h hl
    unfold columnsIndexedKey at h
    rw [h1] at h
    exact h2 _ _ h hl

theorem documentKey_eq (cid did : Int64) : documentKey cid did =
    collectionPrefix ++ (encodeInt64 [] cid ++ (documentPrefix ++ encodeInt64 [] did)) := by
  unfold documentKey documentKeyPrefix
  rw [(C01_int64_append _ did).1, (C01_int64_append collectionPrefix cid).1]; simp

theorem documentKeyPrefix_eq (cid : Int64) : documentKeyPrefix cid =
    collectionPrefix ++ (encodeInt64 [] cid ++ documentPrefix) := by
  unfold documentKeyPrefix
  rw [(C01_int64_append collectionPrefix cid).1]; simp

theorem indexName2IDKey_eq (cid : Int64) (n : Bytes) : indexName2IDKey cid n =
    collectionPrefix ++ (encodeInt64 [] cid ++ (indexNamePrefix ++ encodeBytes [] n)) := by
  unfold indexName2IDKey
  rw [C03_bytes_append, (C01_int64_append collectionPrefix cid).1]; simp

theorem metaIndexKey_eq (iid : Int64) : metaIndexKey iid = metaIndexPrefix ++ encodeInt64 [] iid :=
  (C01_int64_append _ iid).1

theorem cnameKey_eq (n : Bytes) : metaCollectionName2IDKey n = metaCName2IDPrefix ++ encodeBytes [] n :=
  C03_bytes_append _ _

theorem append_lt (a x y : Bytes) : (a ++ x < a ++ y) = (x < y) := by simp

theorem encodeInt64_len (v : Int64) : (encodeInt64 [] v).length = 8 := (C01_int64_append [] v).2

theorem encodeInt64_inj {v w : Int64} (h : encodeInt64 [] v = encodeInt64 [] w) : v = w := by
  have h1 := C01_int64_roundtrip v []
  have h2 := C01_int64_roundtrip w []
  rw [h, h2] at h1
  simpa using h1.symm

theorem encodeInt64_append_inj {v w : Int64} {x y : Bytes} (h : encodeInt64 [] v ++ x = encodeInt64 [] w ++ y) :
    v = w ∧ x = y := by
  have := List.append_inj h (by simp only [encodeInt64_len])
  exact ⟨encodeInt64_inj this.1, this.2⟩

/-- **C40** Keys never coincide unless they stand for the same thing (any Go slice is shorter than
2^63 bytes). -/
theorem C40_keys_disjoint (k k' : DocKey) (b : Bytes) (hb : b.length < 2 ^ 63)
    (h : k.encode = .ok b) (h' : k'.encode = .ok b) : k.Same k' := by
  cases k <;> cases k' <;>
    simp only [DocKey.encode, Res.ok.injEq, DocKey.Same, documentKey_eq, indexName2IDKey_eq, metaIndexKey_eq, cnameKey_eq,
      metaSequenceKey] at h h' ⊢
  case columns.columns cid fs cid' fs' =>
    obtain ⟨d, h1, h2⟩ := columnsIndexedKey_eq cid fs
    obtain ⟨d', h1', _⟩ := columnsIndexedKey_eq cid' fs'
    rw [h1] at h; rw [h1'] at h'
    simp only [Res.ok.injEq] at h h'
    have e := h.trans h'.symm
    replace e := List.append_cancel_left e
    obtain ⟨rfl, e2⟩ := encodeInt64_append_inj e
    clear e
    have e := e2
    clear e2
    replace e := List.append_cancel_left e
    subst e
    refine ⟨rfl, sameColumns_of_norm (h2 fs' (by rw [h1, h1']) ?_)⟩
    rw [← h] at hb
    simp only [List.length_append] at hb; omega
  case document.columns cid did cid' fs' =>
    obtain ⟨d', h1', _⟩ := columnsIndexedKey_eq cid' fs'
    rw [h1'] at h'; simp only [Res.ok.injEq] at h'
    have e := h.trans h'.symm
    replace e := List.append_cancel_left e
    obtain ⟨rfl, e2⟩ := encodeInt64_append_inj e
    clear e
    have e := e2
    clear e2
    simp [documentPrefix, columnsIndexedPrefix] at e
  case columns.document cid fs cid' did =>
    obtain ⟨d', h1', _⟩ := columnsIndexedKey_eq cid fs
    rw [h1'] at h; simp only [Res.ok.injEq] at h
    have e := h.trans h'.symm
    replace e := List.append_cancel_left e
    obtain ⟨rfl, e2⟩ := encodeInt64_append_inj e
    clear e
    have e := e2
    clear e2
    simp [documentPrefix, columnsIndexedPrefix] at e
  case indexName.columns cid n cid' fs' =>
    obtain ⟨d', h1', _⟩ := columnsIndexedKey_eq cid' fs'
    rw [h1'] at h'; simp only [Res.ok.injEq] at h'
    have e := h.trans h'.symm
    replace e := List.append_cancel_left e
    obtain ⟨rfl, e2⟩ := encodeInt64_append_inj e
    clear e
    have e := e2
    clear e2
    simp [indexNamePrefix, columnsIndexedPrefix] at e
  case columns.indexName cid fs cid' n =>
    obtain ⟨d', h1', _⟩ := columnsIndexedKey_eq cid fs
    rw [h1'] at h; simp only [Res.ok.injEq] at h
    have e := h.trans h'.symm
    replace e := List.append_cancel_left e
    obtain ⟨rfl, e2⟩ := encodeInt64_append_inj e
    clear e
    have e := e2
    clear e2
    simp [indexNamePrefix, columnsIndexedPrefix] at e
  case sequence.columns cid fs' =>
    obtain ⟨d', h1', _⟩ := columnsIndexedKey_eq cid fs'
    rw [h1'] at h'; simp only [Res.ok.injEq] at h'
    have e := h.trans h'.symm
    simp [metaSequencePrefix, metaPrefix, collectionPrefix] at e
  case columns.sequence cid fs kw =>
    obtain ⟨d', h1', _⟩ := columnsIndexedKey_eq cid fs
    rw [h1'] at h; simp only [Res.ok.injEq] at h
    have e := h.trans h'.symm
    simp [metaSequencePrefix, metaPrefix, collectionPrefix] at e
  case collectionName.columns cid fs' =>
    obtain ⟨d', h1', _⟩ := columnsIndexedKey_eq cid fs'
    rw [h1'] at h'; simp only [Res.ok.injEq] at h'
    have e := h.trans h'.symm
    simp [metaCName2IDPrefix, metaPrefix, collectionPrefix] at e
  case columns.collectionName cid fs kw =>
    obtain ⟨d', h1', _⟩ := columnsIndexedKey_eq cid fs
    rw [h1'] at h; simp only [Res.ok.injEq] at h
    have e := h.trans h'.symm
    simp [metaCName2IDPrefix, metaPrefix, collectionPrefix] at e
  case index.columns cid fs' =>
    obtain ⟨d', h1', _⟩ := columnsIndexedKey_eq cid fs'
    rw [h1'] at h'; simp only [Res.ok.injEq] at h'
    have e := h.trans h'.symm
    simp [metaIndexPrefix, metaPrefix, collectionPrefix] at e
  case columns.index cid fs kw =>
    obtain ⟨d', h1', _⟩ := columnsIndexedKey_eq cid fs
    rw [h1'] at h; simp only [Res.ok.injEq] at h
    have e := h.trans h'.symm
    simp [metaIndexPrefix, metaPrefix, collectionPrefix] at e
  case document.document cid did cid' did' =>
    have e := h.trans h'.symm
    replace e := List.append_cancel_left e
    obtain ⟨rfl, e2⟩ := encodeInt64_append_inj e
    clear e
    have e := e2
    clear e2
    replace e := List.append_cancel_left e
    rw [encodeInt64_inj e]
  case document.indexName cid did cid' n =>
    have e := h.trans h'.symm
    replace e := List.append_cancel_left e
    obtain ⟨rfl, e2⟩ := encodeInt64_append_inj e
    clear e
    have e := e2
    clear e2
    simp [indexNamePrefix, documentPrefix] at e
  case indexName.document cid n cid' did =>
    have e := h.trans h'.symm
    replace e := List.append_cancel_left e
    obtain ⟨rfl, e2⟩ := encodeInt64_append_inj e
    clear e
    have e := e2
    clear e2
    simp [indexNamePrefix, documentPrefix] at e
  case indexName.indexName cid n cid' n' =>
    have e := h.trans h'.symm
    replace e := List.append_cancel_left e
    obtain ⟨rfl, e2⟩ := encodeInt64_append_inj e
    clear e
    have e := e2
    clear e2
    replace e := List.append_cancel_left e
    rw [(C04_bytes_self_delimiting n n' [] [] (by simpa using e)).1]
  case sequence.sequence kw kw' =>
    have e := h.trans h'.symm
    replace e := List.append_cancel_left e
    rw [e]
  case collectionName.collectionName n n' =>
    have e := h.trans h'.symm
    replace e := List.append_cancel_left e
    rw [(C04_bytes_self_delimiting n n' [] [] (by simpa using e)).1]
  case index.index i i' =>
    have e := h.trans h'.symm
    replace e := List.append_cancel_left e
    rw [encodeInt64_inj e]
  all_goals
    have e := h.trans h'.symm
    simp [metaSequencePrefix, metaCName2IDPrefix, metaIndexPrefix, metaPrefix, collectionPrefix] at e

/-- **C40** Conversely, the same thing has the same key: for a list of columns with distinct names the
key depends neither on the order of listing nor, for one column, on the direction. -/
theorem C40_keys_well_defined (cid : Int64) (fs fs' : List IndexField)
    (hn : (fs.map IndexField.name).Nodup) (h : SameColumns fs fs') :
    columnsIndexedKey cid fs = columnsIndexedKey cid fs' ∧ ∃ b, columnsIndexedKey cid fs = .ok b := by
  refine ⟨by unfold columnsIndexedKey; rw [norm_of_sameColumns hn h], ?_⟩
  obtain ⟨d, h1, _⟩ := columnsIndexedKey_eq cid fs
  exact ⟨_, h1⟩

/-- **C40** Document keys are ordered by collection, then by document id. -/
theorem C40_document_order (cid did cid' did' : Int64) :
    documentKey cid did < documentKey cid' did' ↔ cid < cid' ∨ (cid = cid' ∧ did < did') := by
  have hc := C01_int64_order
  simp only [documentKey_eq]
  have hlt : ∀ c d c' d' : Int64, c < c' →
      collectionPrefix ++ (encodeInt64 [] c ++ (documentPrefix ++ encodeInt64 [] d)) <
      collectionPrefix ++ (encodeInt64 [] c' ++ (documentPrefix ++ encodeInt64 [] d')) := by
    intro c d c' d' h
    rw [append_lt]
    exact hc.2.1 c c' _ _ h
  constructor
  · intro h
    by_cases h1 : cid < cid'
    · exact .inl h1
    · right
      have h2 : ¬ cid' < cid := fun h2 => List.lt_asymm h (hlt _ _ _ _ h2)
      have e : cid = cid' := by
        apply Int64.toInt_inj.mp
        rw [Int64.lt_iff_toInt_lt] at h1 h2
        omega
      subst e
      refine ⟨rfl, ?_⟩
      rw [append_lt, append_lt, append_lt] at h
      exact (hc.1 did did').mpr h
  · rintro (h | ⟨rfl, h⟩)
    · exact hlt _ _ _ _ h
    · rw [append_lt, append_lt, append_lt]
      exact (hc.1 did did').mp h

/-- **C40** Among all keys of the document layer, exactly the documents of a collection carry its document
prefix, so a scan of that prefix meets nothing else. -/
theorem C40_document_prefix (cid : Int64) (k : DocKey) (b : Bytes) (h : k.encode = .ok b) :
    IsPrefixOf (documentKeyPrefix cid) b ↔ ∃ did, k = .document cid did := by
  rw [documentKeyPrefix_eq]
  constructor
  · rintro ⟨t, ht⟩
    subst ht
    cases k <;> simp only [DocKey.encode, Res.ok.injEq, documentKey_eq, indexName2IDKey_eq, metaIndexKey_eq, cnameKey_eq,
      metaSequenceKey, List.append_assoc] at h
    case document cid' did =>
      replace h := List.append_cancel_left h
      obtain ⟨rfl, e⟩ := encodeInt64_append_inj h
      exact ⟨did, rfl⟩
    case indexName cid' n =>
      replace h := List.append_cancel_left h
      obtain ⟨rfl, e⟩ := encodeInt64_append_inj h
      simp [documentPrefix, indexNamePrefix] at e
    case columns cid' fs =>
      obtain ⟨d, h1, _⟩ := columnsIndexedKey_eq cid' fs
      rw [h1] at h
      simp only [Res.ok.injEq] at h
      replace h := List.append_cancel_left h
      obtain ⟨rfl, e⟩ := encodeInt64_append_inj h
      simp [documentPrefix, columnsIndexedPrefix] at e
    all_goals simp [metaSequencePrefix, metaCName2IDPrefix, metaIndexPrefix, metaPrefix, collectionPrefix] at h
  · rintro ⟨did, rfl⟩
    simp only [DocKey.encode, Res.ok.injEq] at h
    rw [← h, documentKey_eq]
    exact ⟨encodeInt64 [] did, by simp⟩

/-- **C40** DecodeCollectionDocumentKey accepts exactly the document keys, possibly followed by more
bytes (which it does not look at), and returns what was encoded. -/
theorem C40_document_decode (key : Bytes) (cid did : Int64) :
    decodeDocumentKey key = .ok (cid, did) ↔ IsPrefixOf (documentKey cid did) key := by
  have hpre : ∀ k p : Bytes, Key.hasPrefix k p = false ↔ ¬ IsPrefixOf p k := by
    intro k p
    rw [← Bool.not_eq_true, Key.hasPrefix_iff]; rfl
  unfold IsPrefixOf
  rw [documentKey_eq]
  constructor
  · intro h
    unfold decodeDocumentKey at h
    split at h
    · cases h
    rename_i hlen
    split at h
    · cases h
    rename_i hp
    rw [Bool.not_eq_false, Key.hasPrefix_iff] at hp
    obtain ⟨k1, rfl⟩ := hp
    have hd : (collectionPrefix ++ k1).drop 5 = k1 := by simp [collectionPrefix]
    rw [hd] at h
    rcases C01_int64_decode_exact k1 with ⟨_, h1⟩ | ⟨_, c, k2, h1, rfl⟩
    · rw [h1] at h; cases h
    rw [h1] at h
    simp only at h
    split at h
    · cases h
    rename_i hp
    rw [Bool.not_eq_false, Key.hasPrefix_iff] at hp
    obtain ⟨k3, rfl⟩ := hp
    have hd : (documentPrefix ++ k3).drop 2 = k3 := by simp [documentPrefix]
    rw [hd] at h
    rcases C01_int64_decode_exact k3 with ⟨_, h1⟩ | ⟨_, d, k4, h1, rfl⟩
    · rw [h1] at h; cases h
    rw [h1] at h
    simp only [Res.ok.injEq, Prod.mk.injEq] at h
    obtain ⟨rfl, rfl⟩ := h
    exact ⟨k4, by simp⟩
  · rintro ⟨t, rfl⟩
    unfold decodeDocumentKey
    have hl : ¬ (collectionPrefix ++ (encodeInt64 [] cid ++ (documentPrefix ++ encodeInt64 [] did)) ++ t).length < 5 + 8 + 2 + 8 := by
      simp [encodeInt64_len, collectionPrefix, documentPrefix]; omega
    rw [if_neg hl]
    have hp : ∀ a b : Bytes, Key.hasPrefix (a ++ b) a = true := fun a b => (Key.hasPrefix_iff _ _).mpr ⟨b, rfl⟩
    have hd : ∀ k1, (collectionPrefix ++ k1).drop 5 = k1 := fun k1 => by simp [collectionPrefix]
    have hd2 : ∀ k1, (documentPrefix ++ k1).drop 2 = k1 := fun k1 => by simp [documentPrefix]
    simp only [List.append_assoc, hp, hd, hd2, C01_int64_roundtrip, Bool.true_eq_false, if_false]

/-- **C40** DecodeCollectionIndexName2IDKey accepts exactly the index-name keys. -/
theorem C40_indexName_decode (key : Bytes) (cid : Int64) (n : Bytes) :
    decodeIndexName2IDKey key = .ok (cid, n) ↔ key = indexName2IDKey cid n := by
  rw [indexName2IDKey_eq]
  constructor
  · intro h
    unfold decodeIndexName2IDKey at h
    split at h
    · cases h
    split at h
    · cases h
    rename_i hp
    rw [Bool.not_eq_false, Key.hasPrefix_iff] at hp
    obtain ⟨k1, rfl⟩ := hp
    have hd : (collectionPrefix ++ k1).drop 5 = k1 := by simp [collectionPrefix]
    rw [hd] at h
    rcases C01_int64_decode_exact k1 with ⟨_, h1⟩ | ⟨_, c, k2, h1, rfl⟩
    · rw [h1] at h; cases h
    rw [h1] at h
    simp only at h
    split at h
    · cases h
    rename_i hp
    rw [Bool.not_eq_false, Key.hasPrefix_iff] at hp
    obtain ⟨k3, rfl⟩ := hp
    have hd : (indexNamePrefix ++ k3).drop 3 = k3 := by simp [indexNamePrefix]
    rw [hd] at h
    match h4 : decodeBytes k3 with
    | .err e => rw [h4] at h; cases h
    | .panic => rw [h4] at h; cases h
    | .ok (rest, m) =>
      rw [h4] at h
      simp only at h
      split at h
      · cases h
      rename_i hr
      simp only [Res.ok.injEq, Prod.mk.injEq] at h
      obtain ⟨rfl, rfl⟩ := h
      have hr : rest = [] := List.length_eq_zero_iff.mp (by omega)
      subst hr
      rw [C06_bytes_canonical] at h4
      rw [h4]; simp
  · rintro rfl
    unfold decodeIndexName2IDKey
    have hl9 : 9 ≤ (encodeBytes [] n).length := by
      have := C06_encoded_length n
      rw [this]; simp only [encodedBytesLength, encGroupSize]; omega
    have hl : ¬ (collectionPrefix ++ (encodeInt64 [] cid ++ (indexNamePrefix ++ encodeBytes [] n))).length ≤ 5 + 8 + 3 := by
      simp [encodeInt64_len, collectionPrefix, indexNamePrefix]; omega
    rw [if_neg hl]
    have hp : ∀ a b : Bytes, Key.hasPrefix (a ++ b) a = true := fun a b => (Key.hasPrefix_iff _ _).mpr ⟨b, rfl⟩
    have hd : ∀ k1, (collectionPrefix ++ k1).drop 5 = k1 := fun k1 => by simp [collectionPrefix]
    have hd2 : ∀ k1, (indexNamePrefix ++ k1).drop 3 = k1 := fun k1 => by simp [indexNamePrefix]
    have hr : decodeBytes (encodeBytes [] n) = .ok ([], n) := by simpa using C03_bytes_roundtrip n []
    simp [hp, hd, hd2, C01_int64_roundtrip, hr]

/-! ### concrete cases -/

example : (DocKey.columns 7 [⟨[98], true⟩, ⟨[97], false⟩]).encode = .ok
    [95, 109, 100, 95, 99, 128, 0, 0, 0, 0, 0, 0, 7, 95, 99, 105, 0, 2, 97, 1, 2, 98] := by decide
example : (DocKey.document 1 2).encode = .ok (documentKey 1 2) ∧ (documentKey 1 2).length < 2 ^ 63 := by decide
example : SameColumns [⟨[98], true⟩, ⟨[97], false⟩] [⟨[97], false⟩, ⟨[98], true⟩] :=
  .inr ⟨by decide, List.Perm.swap _ _ _⟩
example : documentKey (-1) 5 < documentKey 1 (-3) ∧ documentKey 1 (-3) < documentKey 1 2 := by decide
example : decodeDocumentKey (documentKey 3 4 ++ [1, 2]) = .ok (3, 4) := by decide

end Mondis.Props
