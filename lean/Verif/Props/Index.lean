import Verif.Model.Index
import Verif.Props.InsertOne
/-!
# C45: CreateIndex, DropIndex and the stored catalogue of indexes
-/
namespace Mondis.Props
open Mondis.Doc Mondis.Memcomparable Mondis.Prog Mondis.Spec
open Mondis.Sequence (Circ)
open Mondis.Sequence.Old (Seq)

/-- The catalogue: for every collection, the indexes by name, with id and definition. -/
abbrev Cats := Int64 → OMap (Int64 × IndexDef)

def Cats.upd (A : Cats) (cid : Int64) (m : OMap (Int64 × IndexDef)) : Cats := fun c => if c = cid then m else A c

namespace Idx
open Sequence.Old

/-! ### keys -/

theorem ci_ok (cid : Int64) (fs : List IndexField) : ∃ b, columnsIndexedKey cid fs = .ok b := by
  obtain ⟨d, h, _⟩ := columnsIndexedKey_eq cid fs; exact ⟨_, h⟩

theorem ci_form {cid : Int64} {fs : List IndexField} {b : Bytes} (h : columnsIndexedKey cid fs = .ok b) :
    ∃ d, b = collectionPrefix ++ (encodeInt64 [] cid ++ (columnsIndexedPrefix ++ d)) := by
  obtain ⟨d, h1, _⟩ := columnsIndexedKey_eq cid fs
  rw [h] at h1
  injection h1 with h1
  exact ⟨_, h1⟩

theorem in_ne_nil (cid : Int64) (n : Bytes) : indexName2IDKey cid n ≠ [] := by
  rw [indexName2IDKey_eq]; simp [collectionPrefix]

theorem mi_ne_nil (iid : Int64) : metaIndexKey iid ≠ [] := by
  rw [metaIndexKey_eq]; simp [metaIndexPrefix, metaPrefix]

theorem ci_ne_nil {cid : Int64} {fs : List IndexField} {b : Bytes} (h : columnsIndexedKey cid fs = .ok b) : b ≠ [] := by
  obtain ⟨d, rfl⟩ := ci_form h; simp [collectionPrefix]

theorem in_inj {cid cid' : Int64} {n n' : Bytes} (h : indexName2IDKey cid n = indexName2IDKey cid' n') : cid = cid' ∧ n = n' := by
  have h1 := (C40_indexName_decode (indexName2IDKey cid n) cid n).mpr rfl
  have h2 := (C40_indexName_decode (indexName2IDKey cid n) cid' n').mpr h
  rw [h1] at h2
  simpa using h2

theorem mi_inj {i i' : Int64} (h : metaIndexKey i = metaIndexKey i') : i = i' := by
  rw [metaIndexKey_eq, metaIndexKey_eq] at h
  exact encodeInt64_inj (List.append_cancel_left h)

theorem in_ne_mi (cid : Int64) (n : Bytes) (i : Int64) : indexName2IDKey cid n ≠ metaIndexKey i := by
  rw [indexName2IDKey_eq, metaIndexKey_eq]
  intro h
  simp [collectionPrefix, metaIndexPrefix, metaPrefix] at h

theorem ci_ne_mi {cid : Int64} {fs : List IndexField} {b : Bytes} (h : columnsIndexedKey cid fs = .ok b) (i : Int64) :
    b ≠ metaIndexKey i := by
  obtain ⟨d, rfl⟩ := ci_form h
  rw [metaIndexKey_eq]
  intro h
  simp [collectionPrefix, metaIndexPrefix, metaPrefix] at h

theorem ci_ne_in {cid : Int64} {fs : List IndexField} {b : Bytes} (h : columnsIndexedKey cid fs = .ok b) (cid' : Int64) (n : Bytes) :
    b ≠ indexName2IDKey cid' n := by
  obtain ⟨d, rfl⟩ := ci_form h
  rw [indexName2IDKey_eq]
  intro h
  have h := encodeInt64_append_inj (List.append_cancel_left h)
  simp [columnsIndexedPrefix, indexNamePrefix] at h

theorem seq_ne : indexSequenceKey ≠ [] := by decide

theorem in_ne_seq (cid : Int64) (n : Bytes) : indexName2IDKey cid n ≠ indexSequenceKey := by
  rw [indexName2IDKey_eq]
  intro h
  simp [collectionPrefix, indexSequenceKey, metaSequenceKey, metaSequencePrefix, metaPrefix] at h

theorem mi_ne_seq (i : Int64) : metaIndexKey i ≠ indexSequenceKey := by
  rw [metaIndexKey_eq]
  intro h
  simp [metaIndexPrefix, indexSequenceKey, metaSequenceKey, metaSequencePrefix, metaPrefix] at h

theorem ci_ne_seq {cid : Int64} {fs : List IndexField} {b : Bytes} (h : columnsIndexedKey cid fs = .ok b) :
    b ≠ indexSequenceKey := by
  obtain ⟨d, rfl⟩ := ci_form h
  intro h
  simp [collectionPrefix, indexSequenceKey, metaSequenceKey, metaSequencePrefix, metaPrefix] at h

theorem ci_iff {cid cid' : Int64} {fs fs' : List IndexField} {b : Bytes} (h : columnsIndexedKey cid fs = .ok b)
    (hb : b.length < 2 ^ 63) (hn : (fs.map IndexField.name).Nodup) :
    columnsIndexedKey cid' fs' = .ok b ↔ cid = cid' ∧ SameColumns fs fs' := by
  constructor
  · intro h'
    exact C40_keys_disjoint (.columns cid fs) (.columns cid' fs') b hb h h'
  · rintro ⟨rfl, hs⟩
    rw [← (C40_keys_well_defined cid fs fs' hn hs).1]; exact h

/-! ### representation -/

/-- The entry at a key. -/
def At (db : DB) (k v : Bytes) : Prop := ∃ w, db.get k = some w ∧ w.value = v ∧ w.expiresAt = 0

/-- The store holds exactly the catalogue. -/
structure Rep (IC : IndexCodec) (A : Cats) (db : DB) : Prop where
  name : ∀ cid n iid d, (A cid).get n = some (iid, d) →
    d.name = n ∧ n ≠ [] ∧ d.fields ≠ [] ∧ (d.fields.map IndexField.name).Nodup ∧
    (∃ v, Compact.encodeVarint [] iid = .ok v ∧ At db (indexName2IDKey cid n) v) ∧
    At db (metaIndexKey iid) (IC.marshal d) ∧
    keyErr (indexName2IDKey cid n) = none ∧
    ∃ b, columnsIndexedKey cid d.fields = .ok b ∧ keyErr b = none ∧ At db b n
  noName : ∀ cid n, (A cid).get n = none → db.get (indexName2IDKey cid n) = none
  noCol : ∀ cid fs b, columnsIndexedKey cid fs = .ok b → db.get b ≠ none →
    ∃ n iid d, (A cid).get n = some (iid, d) ∧ columnsIndexedKey cid d.fields = .ok b
  col : ∀ cid n n' iid iid' d d', (A cid).get n = some (iid, d) → (A cid).get n' = some (iid', d') →
    SameColumns d.fields d'.fields → n = n'
  id : ∀ cid cid' n n' iid d d', (A cid).get n = some (iid, d) → (A cid').get n' = some (iid, d') → cid = cid' ∧ n = n'
  clean : ∀ cid k v, db.get k = some v → IsPrefixOf (indexNameKeyPrefix cid) k → ∃ n, k = indexName2IDKey cid n

/-- Is there an index on the same columns? -/
def HasColumns (A : Cats) (cid : Int64) (fs : List IndexField) : Prop :=
  ∃ n iid d, (A cid).get n = some (iid, d) ∧ SameColumns d.fields fs

/-! ### what CreateIndex does -/

theorem mi_ok (i : Int64) : keyErr (metaIndexKey i) = none := by
  have hl : (metaIndexKey i).length = 15 := by
    rw [metaIndexKey_eq, List.length_append, encodeInt64_len]; rfl
  unfold keyErr
  rw [if_neg (by omega), if_neg, if_neg (by omega)]
  rw [Key.hasPrefix_iff, metaIndexKey_eq]
  rintro ⟨t, h⟩
  simp [metaIndexPrefix, metaPrefix, badgerPrefix] at h

/-- A transaction that has only read so far. -/
structure Fresh (env : Env) (snap : DB) (t : Txn) : Prop where
  env : t.env = { env with update := true }
  view : t.view = snap
  writes : t.writes = []
  attempts : t.attempts = 0

theorem checkColumns_run (env : Env) (snap : DB) {b : Bytes} (hb : b ≠ []) :
    ((∃ w, snap.get b = some w ∧ w.live env.now = true ∧ w.value ≠ [] ∧
      ((checkColumns b).run (Txn.start { env with update := true } snap)).1 = .err errSameColumns) ∨
    ((∀ w, snap.get b = some w → w.live env.now = true → w.value = []) ∧
      ((checkColumns b).run (Txn.start { env with update := true } snap)).1 = .ok ())) ∧
    Fresh env snap ((checkColumns b).run (Txn.start { env with update := true } snap)).2 := by
  simp only [checkColumns, Prog.run, Txn.get, if_neg hb, Txn.start, List.map_nil, List.not_mem_nil, if_false]
  cases hg : snap.get b with
  | none => exact ⟨.inr ⟨by simp, rfl⟩, ⟨rfl, rfl, rfl, rfl⟩⟩
  | some w =>
    simp only
    by_cases hl : w.live env.now = true
    · simp only [hl, if_true]
      by_cases hv : w.value = []
      · simp only [hv, if_true, Prog.run]
        exact ⟨.inr ⟨by simp [hv], trivial⟩, ⟨rfl, rfl, rfl, rfl⟩⟩
      · simp only [hv, if_false, Prog.run]
        exact ⟨.inl ⟨w, rfl, hl, hv, trivial⟩, ⟨rfl, rfl, rfl, rfl⟩⟩
    · simp only [hl]
      exact ⟨.inr ⟨by simp [hl], rfl⟩, ⟨rfl, rfl, rfl, rfl⟩⟩

theorem writeIndex_run (IC : IndexCodec) {env : Env} {snap : DB} {t : Txn} (ht : Fresh env snap t) (cid iid : Int64)
    (b : Bytes) (d : IndexDef) (hshort : keyErr (indexName2IDKey cid d.name) = none)
    (htb : env.tooBig 1 = true → env.tooBig 2 = true) :
    (∃ e t', (writeIndex IC cid iid b d).run t = (.err e, t') ∧
      (keyErr b ≠ none ∨ ∃ n, env.tooBig n = true)) ∨
    (∃ v t', Compact.encodeVarint [] iid = .ok v ∧ keyErr b = none ∧ (writeIndex IC cid iid b d).run t = (.ok (), t') ∧
      t'.writes = [(b, some ⟨d.name, 0, 0⟩), (indexName2IDKey cid d.name, some ⟨v, 0, 0⟩),
        (metaIndexKey iid, some ⟨IC.marshal d, 0, 0⟩)]) := by
  obtain ⟨v, hv, -⟩ := C08_varint_roundtrip iid
  obtain ⟨e1, e2, e3, e4⟩ := ht
  have hu : t.env.update = true := by rw [e1]
  have htb' : t.env.tooBig = env.tooBig := by rw [e1]
  have herr : ∀ (t : Txn) k w e, t.env.update = true → keyErr k = some e → t.modify k w = (.err e, t) := by
    intro t k w e h hk; simp only [Txn.modify, h, hk]; rfl
  have hmod : ∀ (t : Txn) k w, t.env.update = true → keyErr k = none → t.modify k w =
      if t.env.tooBig t.attempts then (.err .txnTooBig, { t with attempts := t.attempts + 1 })
        else (.ok (), { t with view := applyWrite t.view (k, w), writes := t.writes ++ [(k, w)], attempts := t.attempts + 1 }) := by
    intro t k w h hk; simp only [Txn.modify, h, hk]; rfl
  have hprog : writeIndex IC cid iid b d =
      .set b d.name none (fun r => match r with
        | .ok _ => .set (indexName2IDKey cid d.name) v none (fun r => match r with
          | .panic => .done .panic
          | _ => setK (metaIndexKey iid) (IC.marshal d))
        | .err e => .done (.err e)
        | .panic => .done .panic) := by
    unfold writeIndex
    rw [hv]
    show Prog.set b d.name none _ = _
    congr 1
    funext r
    cases r <;> rfl
  rw [hprog]
  simp only [Prog.run, Txn.set]
  cases hk : keyErr b with
  | some e => rw [herr t _ _ e hu hk]; exact .inl ⟨e, _, rfl, .inl (by simp)⟩
  | none =>
    rw [hmod t _ _ hu hk]
    simp only [e4, htb']
    by_cases h0 : env.tooBig 0 = true
    · simp only [h0, if_true]
      exact .inl ⟨_, _, rfl, .inr ⟨0, h0⟩⟩
    · simp only [h0]
      simp only [Bool.false_eq_true, if_false, Prog.run, Txn.set]
      rw [hmod _ _ _ (by exact hu) hshort]
      simp only [htb', e3, List.nil_append]
      by_cases h1 : env.tooBig (0 + 1) = true
      · simp only [h1, if_true, setK, Prog.run, Txn.set]
        rw [hmod _ _ _ (by exact hu) (mi_ok _)]
        have h2 : env.tooBig (0 + 1 + 1) = true := htb h1
        simp only [htb', h2, if_true]
        exact .inl ⟨_, _, rfl, .inr ⟨_, h2⟩⟩
      · simp only [h1, Bool.false_eq_true, if_false, setK, Prog.run, Txn.set]
        rw [hmod _ _ _ (by exact hu) (mi_ok _)]
        simp only [htb']
        by_cases h2 : env.tooBig (0 + 1 + 1) = true
        · simp only [h2, if_true]
          exact .inl ⟨_, _, rfl, .inr ⟨_, h2⟩⟩
        · simp only [h2, Bool.false_eq_true, if_false]
          exact .inr ⟨v, _, hv, trivial, rfl, by simp [mkVal]⟩

/-- Nothing goes wrong: no write is refused for size, no key is too long, the id is drawn and the commit
accepted. -/
def Calm (cid : Int64) (d : IndexDef) (s : Seq) (c cs : Circ) (db : DB) : Prop :=
  (∀ n, c.env.tooBig n = false) ∧ (∀ b, columnsIndexedKey cid d.fields = .ok b → keyErr b = none) ∧
  (∃ u, (s.nextId cs db).1 = .ok u) ∧ c.fail = none

theorem create_cases (IC : IndexCodec) (cid : Int64) (d : IndexDef) (s : Seq) (c cs : Circ) (mem : OMap IndexDef) (db : DB)
    (hname : d.name ≠ []) (hfields : d.fields ≠ [])
    (hshort : keyErr (indexName2IDKey cid d.name) = none) (htb : c.env.tooBig 1 = true → c.env.tooBig 2 = true)
    {b : Bytes} (hb : columnsIndexedKey cid d.fields = .ok b) :
    (∃ w, c.snap.get b = some w ∧ w.live c.env.now = true ∧ w.value ≠ [] ∧
      createIndex IC .open cid d s c cs mem db = (.err errSameColumns, s, db, mem)) ∨
    ((∀ w, c.snap.get b = some w → w.live c.env.now = true → w.value = []) ∧
      ((∃ r, createIndex IC .open cid d s c cs mem db = (r, (s.nextId cs db).2.1, (s.nextId cs db).2.2, mem) ∧
        (∀ x, r ≠ .ok x) ∧ ¬ Calm cid d s c cs db) ∨
       (∃ u v, (s.nextId cs db).1 = .ok u ∧ Compact.encodeVarint [] u.toInt64 = .ok v ∧ keyErr b = none ∧ c.fail = none ∧
        createIndex IC .open cid d s c cs mem db = (.ok u.toInt64, (s.nextId cs db).2.1,
          (((s.nextId cs db).2.2.set b ⟨d.name, 0, 0⟩).set (indexName2IDKey cid d.name) ⟨v, 0, 0⟩).set
            (metaIndexKey u.toInt64) ⟨IC.marshal d, 0, 0⟩,
          mem.set d.name { d with fields := normFields d.fields })))) := by
  obtain ⟨hcheck, hfresh⟩ := checkColumns_run c.env c.snap (ci_ne_nil hb)
  unfold createIndex
  simp only [if_neg hname, if_neg hfields, checkState, hb]
  generalize (checkColumns b).run (Txn.start { c.env with update := true } c.snap) = x at *
  obtain ⟨r, t⟩ := x
  rcases hcheck with ⟨w, h1, h2, h3, h4⟩ | ⟨h1, h2⟩
  · simp only at h4
    subst h4
    exact .inl ⟨w, h1, h2, h3, rfl⟩
  · simp only at h2
    subst h2
    refine .inr ⟨h1, ?_⟩
    simp only
    cases hx : (s.nextId cs db).1 with
    | err e =>
      have hx' : s.nextId cs db = (.err e, (s.nextId cs db).2) := by rw [← hx]
      rw [hx']
      refine .inl ⟨.err e, rfl, by simp, fun h => ?_⟩
      obtain ⟨u, hu⟩ := h.2.2.1
      rw [hx] at hu; cases hu
    | panic =>
      have hx' : s.nextId cs db = (.panic, (s.nextId cs db).2) := by rw [← hx]
      rw [hx']
      refine .inl ⟨.panic, rfl, by simp, fun h => ?_⟩
      obtain ⟨u, hu⟩ := h.2.2.1
      rw [hx] at hu; cases hu
    | ok u =>
      have hx' : s.nextId cs db = (.ok u, (s.nextId cs db).2) := by rw [← hx]
      rw [hx']
      simp only
      rcases writeIndex_run IC hfresh cid u.toInt64 b d hshort htb with ⟨e, t', h3, h4⟩ | ⟨v, t', hv, hkb, h3, h4⟩
      · rw [h3]
        refine .inl ⟨.err e, rfl, by simp, fun h => ?_⟩
        rcases h4 with h4 | ⟨n, h4⟩
        · exact h4 (h.2.1 b hb)
        · rw [h.1 n] at h4; cases h4
      · rw [h3]
        simp only [Txn.commit, h4, List.cons_ne_nil, if_false]
        cases hf : c.fail with
        | some e => exact .inl ⟨.err e, rfl, by simp, fun h => by rw [h.2.2.2] at hf; cases hf⟩
        | none => exact .inr ⟨u, v, rfl, hv, hkb, rfl, rfl⟩

/-! ### the catalogue after each step -/

/-- The keys the catalogue is stored under. -/
def IsIndexKey (k : Bytes) : Prop :=
  (∃ cid, IsPrefixOf (indexNameKeyPrefix cid) k) ∨ (∃ i, k = metaIndexKey i) ∨ ∃ cid fs, columnsIndexedKey cid fs = .ok k

theorem in_prefix (cid : Int64) (n : Bytes) : IsPrefixOf (indexNameKeyPrefix cid) (indexName2IDKey cid n) := by
  refine ⟨encodeBytes [] n, ?_⟩
  rw [indexName2IDKey_eq]
  have h : indexNameKeyPrefix cid = collectionPrefix ++ (encodeInt64 [] cid ++ indexNamePrefix) := by
    unfold indexNameKeyPrefix
    rw [(C01_int64_append collectionPrefix cid).1]
    simp only [List.append_assoc]
  rw [h]
  simp only [List.append_assoc]

theorem seq_not_index : ¬ IsIndexKey indexSequenceKey := by
  rintro (⟨cid, t, h⟩ | ⟨i, h⟩ | ⟨cid, fs, h⟩)
  · have e : indexNameKeyPrefix cid = collectionPrefix ++ (encodeInt64 [] cid ++ indexNamePrefix) := by
      unfold indexNameKeyPrefix
      rw [(C01_int64_append collectionPrefix cid).1]
      simp only [List.append_assoc]
    rw [e] at h
    simp [collectionPrefix, indexSequenceKey, metaSequenceKey, metaSequencePrefix, metaPrefix] at h
  · exact mi_ne_seq i h.symm
  · exact ci_ne_seq h rfl

theorem Rep.congr {IC : IndexCodec} {A : Cats} {db db' : DB} (h : Rep IC A db)
    (hc : ∀ k, IsIndexKey k → db'.get k = db.get k) : Rep IC A db' where
  name := by
    intro cid n iid d hd
    obtain ⟨h1, h2, h3, h4, ⟨v, h5, h6⟩, h7, h8, b, h9, h10, h11⟩ := h.name cid n iid d hd
    refine ⟨h1, h2, h3, h4, ⟨v, h5, ?_⟩, ?_, h8, b, h9, h10, ?_⟩
    · unfold At; rw [hc _ (.inl ⟨cid, in_prefix cid n⟩)]; exact h6
    · unfold At; rw [hc _ (.inr (.inl ⟨_, rfl⟩))]; exact h7
    · unfold At; rw [hc _ (.inr (.inr ⟨cid, _, h9⟩))]; exact h11
  noName := by
    intro cid n hn
    rw [hc _ (.inl ⟨cid, in_prefix cid n⟩)]; exact h.noName cid n hn
  noCol := by
    intro cid fs b hb hg
    rw [hc _ (.inr (.inr ⟨cid, _, hb⟩))] at hg; exact h.noCol cid fs b hb hg
  col := h.col
  id := h.id
  clean := by
    intro cid k v hk hp
    rw [hc _ (.inl ⟨cid, hp⟩)] at hk
    exact h.clean cid k v hk hp

theorem keyErr_len {k : Bytes} (h : keyErr k = none) : k.length < 2 ^ 63 := by
  unfold keyErr at h
  by_cases hl : k.length > 65000
  · split at h
    · cases h
    · split at h
      · cases h
      · cases h
  · omega

theorem upd_get (A : Cats) (cid : Int64) (m : OMap (Int64 × IndexDef)) (c : Int64) :
    (A.upd cid m) c = if c = cid then m else A c := rfl

/-- A lookup after one entry was added to the catalogue. -/
theorem upd_set_get (A : Cats) (cid : Int64) (n : Bytes) (x : Int64 × IndexDef) (c : Int64) (n' : Bytes) :
    ((A.upd cid ((A cid).set n x)) c).get n' = if c = cid ∧ n = n' then some x else (A c).get n' := by
  rw [upd_get]
  by_cases hc : c = cid
  · subst hc
    rw [if_pos rfl, OMap.get_set]
    by_cases hn : n = n' <;> simp [hn]
  · rw [if_neg hc, if_neg (fun h => hc h.1)]

theorem upd_del_get (A : Cats) (cid : Int64) (n : Bytes) (c : Int64) (n' : Bytes) :
    ((A.upd cid ((A cid).del n)) c).get n' = if c = cid ∧ n = n' then none else (A c).get n' := by
  rw [upd_get]
  by_cases hc : c = cid
  · subst hc
    rw [if_pos rfl, OMap.get_del]
    by_cases hn : n = n' <;> simp [hn]
  · rw [if_neg hc, if_neg (fun h => hc h.1)]

theorem in_of_prefix {cid : Int64} {k : Bytes} {cid' : Int64} {n : Bytes} (hp : IsPrefixOf (indexNameKeyPrefix cid) k)
    (hk : k = indexName2IDKey cid' n) : cid = cid' := by
  subst hk
  obtain ⟨t, ht⟩ := hp
  rw [indexName2IDKey_eq] at ht
  have e : indexNameKeyPrefix cid = collectionPrefix ++ (encodeInt64 [] cid ++ indexNamePrefix) := by
    unfold indexNameKeyPrefix
    rw [(C01_int64_append collectionPrefix cid).1]
    simp only [List.append_assoc]
  rw [e] at ht
  simp only [List.append_assoc] at ht
  exact (encodeInt64_append_inj (List.append_cancel_left ht)).1.symm

theorem not_in_prefix_mi (cid i : Int64) : ¬ IsPrefixOf (indexNameKeyPrefix cid) (metaIndexKey i) := by
  rintro ⟨t, h⟩
  have e : indexNameKeyPrefix cid = collectionPrefix ++ (encodeInt64 [] cid ++ indexNamePrefix) := by
    unfold indexNameKeyPrefix
    rw [(C01_int64_append collectionPrefix cid).1]
    simp only [List.append_assoc]
  rw [e, metaIndexKey_eq] at h
  simp [collectionPrefix, metaIndexPrefix, metaPrefix] at h

theorem not_in_prefix_ci {cid cid' : Int64} {fs : List IndexField} {b : Bytes} (hb : columnsIndexedKey cid' fs = .ok b) :
    ¬ IsPrefixOf (indexNameKeyPrefix cid) b := by
  obtain ⟨d, rfl⟩ := ci_form hb
  rintro ⟨t, h⟩
  have e : indexNameKeyPrefix cid = collectionPrefix ++ (encodeInt64 [] cid ++ indexNamePrefix) := by
    unfold indexNameKeyPrefix
    rw [(C01_int64_append collectionPrefix cid).1]
    simp only [List.append_assoc]
  rw [e] at h
  simp only [List.append_assoc] at h
  have h := encodeInt64_append_inj (List.append_cancel_left h)
  simp [columnsIndexedPrefix, indexNamePrefix] at h

theorem Rep.create {IC : IndexCodec} {A : Cats} {db : DB} (h : Rep IC A db) {cid iid : Int64} {d : IndexDef} {v b : Bytes}
    (hname : d.name ≠ []) (hfields : d.fields ≠ []) (hnd : (d.fields.map IndexField.name).Nodup)
    (hnew : (A cid).get d.name = none) (hcol : ¬ HasColumns A cid d.fields)
    (hid : ∀ c n e, (A c).get n ≠ some (iid, e))
    (hv : Compact.encodeVarint [] iid = .ok v) (hb : columnsIndexedKey cid d.fields = .ok b) (hkb : keyErr b = none)
    (hshort : keyErr (indexName2IDKey cid d.name) = none) :
    Rep IC (A.upd cid ((A cid).set d.name (iid, d)))
      (((db.set b ⟨d.name, 0, 0⟩).set (indexName2IDKey cid d.name) ⟨v, 0, 0⟩).set (metaIndexKey iid) ⟨IC.marshal d, 0, 0⟩) := by
  have gin : ∀ c n, (((db.set b ⟨d.name, 0, 0⟩).set (indexName2IDKey cid d.name) ⟨v, 0, 0⟩).set (metaIndexKey iid)
      ⟨IC.marshal d, 0, 0⟩).get (indexName2IDKey c n) =
      if c = cid ∧ d.name = n then some ⟨v, 0, 0⟩ else db.get (indexName2IDKey c n) := by
    intro c n
    rw [OMap.get_set, if_neg (fun e => in_ne_mi c n iid e.symm), OMap.get_set, OMap.get_set, if_neg (ci_ne_in hb c n)]
    by_cases e : c = cid ∧ d.name = n
    · rw [if_pos e, if_pos (by rw [e.1, e.2])]
    · rw [if_neg e, if_neg]
      intro e'
      obtain ⟨e1, e2⟩ := in_inj e'
      exact e ⟨e1.symm, e2⟩
  have gmi : ∀ i, (((db.set b ⟨d.name, 0, 0⟩).set (indexName2IDKey cid d.name) ⟨v, 0, 0⟩).set (metaIndexKey iid)
      ⟨IC.marshal d, 0, 0⟩).get (metaIndexKey i) =
      if iid = i then some ⟨IC.marshal d, 0, 0⟩ else db.get (metaIndexKey i) := by
    intro i
    rw [OMap.get_set]
    by_cases e : iid = i
    · rw [if_pos e, if_pos (by rw [e])]
    · rw [if_neg e, if_neg (fun e' => e (mi_inj e')), OMap.get_set, if_neg (in_ne_mi cid _ i), OMap.get_set,
        if_neg (ci_ne_mi hb i)]
  have gci : ∀ c fs b', columnsIndexedKey c fs = .ok b' → (((db.set b ⟨d.name, 0, 0⟩).set (indexName2IDKey cid d.name) ⟨v, 0, 0⟩).set (metaIndexKey iid)
      ⟨IC.marshal d, 0, 0⟩).get b' = if b = b' then some ⟨d.name, 0, 0⟩ else db.get b' := by
    intro c fs b' hb'
    rw [OMap.get_set, if_neg (fun e => ci_ne_mi hb' iid e.symm), OMap.get_set, if_neg (fun e => ci_ne_in hb' cid _ e.symm),
      OMap.get_set]
  have hcols : ∀ c n i e, (A c).get n = some (i, e) → ∀ b', columnsIndexedKey c e.fields = .ok b' → b ≠ b' := by
    intro c n i e he b' hb' ebb
    subst ebb
    obtain ⟨-, -, -, hnd', -, -, -, b'', hb'', hk'', -⟩ := h.name c n i e he
    rw [hb'] at hb''
    cases hb''
    obtain ⟨e1, e2⟩ := (ci_iff hb' (keyErr_len hkb) hnd').mp hb
    subst e1
    exact hcol ⟨n, i, e, he, e2⟩
  constructor
  case name =>
    intro c n i e he
    rw [upd_set_get] at he
    split at he
    · rename_i hc
      obtain ⟨rfl, rfl⟩ := hc
      cases he
      refine ⟨rfl, hname, hfields, hnd, ⟨v, hv, ⟨v, 0, 0⟩, ?_, rfl, rfl⟩, ⟨⟨IC.marshal d, 0, 0⟩, ?_, rfl, rfl⟩, hshort, b, hb, hkb,
        ⟨d.name, 0, 0⟩, ?_, rfl, rfl⟩
      · rw [gin, if_pos ⟨rfl, rfl⟩]
      · rw [gmi, if_pos rfl]
      · rw [gci _ _ _ hb, if_pos rfl]
    · rename_i hc
      obtain ⟨h1, h2, h3, h4, ⟨v', h5, h6⟩, h7, h8, b', h9, h10, h11⟩ := h.name c n i e he
      refine ⟨h1, h2, h3, h4, ⟨v', h5, ?_⟩, ?_, h8, b', h9, h10, ?_⟩
      · unfold At; rw [gin, if_neg hc]; exact h6
      · unfold At; rw [gmi, if_neg (fun e' => hid c n e (by rw [e']; exact he))]; exact h7
      · unfold At; rw [gci _ _ _ h9, if_neg (hcols c n i e he b' h9)]; exact h11
  case noName =>
    intro c n hn
    rw [upd_set_get] at hn
    split at hn
    · cases hn
    · rename_i hc
      rw [gin, if_neg hc]; exact h.noName c n hn
  case noCol =>
    intro c fs b' hb' hg
    rw [gci _ _ _ hb'] at hg
    by_cases e : b = b'
    · subst e
      obtain ⟨e1, -⟩ := (ci_iff hb (keyErr_len hkb) hnd).mp hb'
      exact ⟨d.name, iid, d, by rw [upd_set_get, if_pos ⟨e1.symm, rfl⟩], by rw [← e1]; exact hb⟩
    · rw [if_neg e] at hg
      obtain ⟨n, i, e', h1, h2⟩ := h.noCol c fs b' hb' hg
      refine ⟨n, i, e', ?_, h2⟩
      rw [upd_set_get, if_neg]
      · exact h1
      · rintro ⟨rfl, rfl⟩
        rw [hnew] at h1; cases h1
  case col =>
    intro c n n' i i' e e' h1 h2 hs
    rw [upd_set_get] at h1 h2
    split at h1 <;> split at h2
    · rename_i a b; rw [← a.2, ← b.2]
    · rename_i a b
      cases h1
      exfalso
      obtain ⟨-, -, -, hnd', -, -, -, b'', hb'', hk'', -⟩ := h.name c n' i' e' h2
      obtain ⟨rfl, -⟩ := a
      have : columnsIndexedKey c e'.fields = .ok _ := (ci_iff hb (keyErr_len hkb) hnd).mpr ⟨rfl, hs⟩
      exact hcol ⟨n', i', e', h2, ((ci_iff this (keyErr_len hkb) hnd').mp hb).2⟩
    · rename_i a b
      cases h2
      exfalso
      obtain ⟨rfl, -⟩ := b
      exact hcol ⟨n, i, e, h1, hs⟩
    · exact h.col c n n' i i' e e' h1 h2 hs
  case id =>
    intro c c' n n' i e e' h1 h2
    rw [upd_set_get] at h1 h2
    split at h1 <;> split at h2
    · rename_i a b; exact ⟨by rw [a.1, b.1], by rw [← a.2, ← b.2]⟩
    · cases h1; exact absurd h2 (hid c' n' e')
    · cases h2; exact absurd h1 (hid c n e)
    · exact h.id c c' n n' i e e' h1 h2
  case clean =>
    intro c k w hk hp
    rw [OMap.get_set] at hk
    split at hk
    · rename_i e; subst e; exact absurd hp (not_in_prefix_mi c iid)
    · rw [OMap.get_set] at hk
      split at hk
      · rename_i e
        subst e
        have := in_of_prefix hp rfl
        subst this
        exact ⟨d.name, rfl⟩
      · rw [OMap.get_set] at hk
        split at hk
        · rename_i e; subst e; exact absurd hp (not_in_prefix_ci hb)
        · exact h.clean c k w hk hp

theorem Rep.drop {IC : IndexCodec} {A : Cats} {db : DB} (h : Rep IC A db) {cid iid : Int64} {n : Bytes} {d : IndexDef} {b : Bytes}
    (hget : (A cid).get n = some (iid, d)) (hb : columnsIndexedKey cid d.fields = .ok b) :
    Rep IC (A.upd cid ((A cid).del n)) (((db.del b).del (metaIndexKey iid)).del (indexName2IDKey cid n)) := by
  obtain ⟨-, -, -, hnd, -, -, -, b₁, hb₁, hkb, -⟩ := h.name cid n iid d hget
  rw [hb] at hb₁; cases hb₁
  have gin : ∀ c m, (((db.del b).del (metaIndexKey iid)).del (indexName2IDKey cid n)).get (indexName2IDKey c m) =
      if c = cid ∧ n = m then none else db.get (indexName2IDKey c m) := by
    intro c m
    rw [OMap.get_del]
    by_cases e : c = cid ∧ n = m
    · rw [if_pos e, if_pos (by rw [e.1, e.2])]
    · rw [if_neg e, if_neg, OMap.get_del, if_neg (fun e => in_ne_mi c m iid e.symm), OMap.get_del, if_neg (ci_ne_in hb c m)]
      intro e'
      obtain ⟨e1, e2⟩ := in_inj e'
      exact e ⟨e1.symm, e2⟩
  have gmi : ∀ i, (((db.del b).del (metaIndexKey iid)).del (indexName2IDKey cid n)).get (metaIndexKey i) =
      if iid = i then none else db.get (metaIndexKey i) := by
    intro i
    rw [OMap.get_del, if_neg (in_ne_mi cid n i), OMap.get_del]
    by_cases e : iid = i
    · rw [if_pos e, if_pos (by rw [e])]
    · rw [if_neg e, if_neg (fun e' => e (mi_inj e')), OMap.get_del, if_neg (ci_ne_mi hb i)]
  have gci : ∀ c fs b', columnsIndexedKey c fs = .ok b' → (((db.del b).del (metaIndexKey iid)).del (indexName2IDKey cid n)).get b' =
      if b = b' then none else db.get b' := by
    intro c fs b' hb'
    rw [OMap.get_del, if_neg (fun e => ci_ne_in hb' cid _ e.symm), OMap.get_del, if_neg (fun e => ci_ne_mi hb' iid e.symm),
      OMap.get_del]
  have hold : ∀ c m i e, ((A.upd cid ((A cid).del n)) c).get m = some (i, e) →
      ¬ (c = cid ∧ n = m) ∧ (A c).get m = some (i, e) := by
    intro c m i e he
    rw [upd_del_get] at he
    split at he
    · cases he
    · exact ⟨‹_›, he⟩
  constructor
  case name =>
    intro c m i e he
    obtain ⟨hne, he⟩ := hold c m i e he
    obtain ⟨h1, h2, h3, h4, ⟨v', h5, h6⟩, h7, h8, b', h9, h10, h11⟩ := h.name c m i e he
    refine ⟨h1, h2, h3, h4, ⟨v', h5, ?_⟩, ?_, h8, b', h9, h10, ?_⟩
    · unfold At; rw [gin, if_neg hne]; exact h6
    · unfold At; rw [gmi, if_neg]
      · exact h7
      · intro e'
        subst e'
        obtain ⟨e1, e2⟩ := h.id cid c n m iid d e hget he
        exact hne ⟨e1.symm, e2⟩
    · unfold At; rw [gci _ _ _ h9, if_neg]
      · exact h11
      · intro e'
        subst e'
        obtain ⟨e1, e2⟩ := (ci_iff hb (keyErr_len hkb) hnd).mp h9
        subst e1
        exact hne ⟨rfl, h.col cid n m iid i d e hget he e2⟩
  case noName =>
    intro c m hn
    rw [upd_del_get] at hn
    rw [gin]
    split
    · rfl
    · rename_i hne
      rw [if_neg hne] at hn
      exact h.noName c m hn
  case noCol =>
    intro c fs b' hb' hg
    rw [gci _ _ _ hb'] at hg
    by_cases e : b = b'
    · rw [if_pos e] at hg; exact absurd rfl hg
    · rw [if_neg e] at hg
      obtain ⟨m, i, e', h1, h2⟩ := h.noCol c fs b' hb' hg
      refine ⟨m, i, e', ?_, h2⟩
      rw [upd_del_get, if_neg]
      · exact h1
      · rintro ⟨rfl, rfl⟩
        rw [hget] at h1; cases h1
        rw [hb] at h2; cases h2
        exact e rfl
  case col =>
    intro c m m' i i' e e' h1 h2 hs
    exact h.col c m m' i i' e e' (hold _ _ _ _ h1).2 (hold _ _ _ _ h2).2 hs
  case id =>
    intro c c' m m' i e e' h1 h2
    exact h.id c c' m m' i e e' (hold _ _ _ _ h1).2 (hold _ _ _ _ h2).2
  case clean =>
    intro c k w hk hp
    rw [OMap.get_del] at hk
    split at hk
    · cases hk
    · rw [OMap.get_del] at hk
      split at hk
      · cases hk
      · rw [OMap.get_del] at hk
        split at hk
        · cases hk
        · exact h.clean c k w hk hp

/-! ### what DropIndex does -/

theorem Fresh.get_some {env : Env} {snap : DB} {t : Txn} (ht : Fresh env snap t) {k : Bytes} (hk : k ≠ []) {w : Val}
    (hg : snap.get k = some w) (he : w.expiresAt = 0) : (t.get k).1 = .ok w ∧ Fresh env snap (t.get k).2 := by
  obtain ⟨e1, e2, e3, e4⟩ := ht
  have hl : w.live t.env.now = true := by simp [Val.live, he]
  simp only [Txn.get, if_neg hk, e2, hg, hl, if_true, e3, List.map_nil, List.not_mem_nil, if_false]
  exact ⟨trivial, ⟨e1, rfl, rfl, e4⟩⟩

theorem Fresh.get_none {env : Env} {snap : DB} {t : Txn} (ht : Fresh env snap t) {k : Bytes} (hk : k ≠ [])
    (hg : snap.get k = none) : (t.get k).1 = .err .keyNotFound ∧ Fresh env snap (t.get k).2 := by
  obtain ⟨e1, e2, e3, e4⟩ := ht
  simp only [Txn.get, if_neg hk, e2, hg, e3, List.map_nil, List.not_mem_nil, if_false]
  exact ⟨trivial, ⟨e1, rfl, rfl, e4⟩⟩

theorem delete_cases {t : Txn} (hu : t.env.update = true) (k : Bytes) (hk : keyErr k = none) :
    (∃ t', t.delete k = (.err .txnTooBig, t') ∧ t.env.tooBig t.attempts = true) ∨
    (∃ t', t.delete k = (.ok (), t') ∧ t'.env = t.env ∧ t'.writes = t.writes ++ [(k, none)] ∧ t'.reads = t.reads) := by
  have : t.delete k = if t.env.tooBig t.attempts then (.err .txnTooBig, { t with attempts := t.attempts + 1 })
        else (.ok (), { t with view := applyWrite t.view (k, none), writes := t.writes ++ [(k, none)], attempts := t.attempts + 1 }) := by
    simp only [Txn.delete, Txn.modify, hu, hk]; rfl
  rw [this]
  by_cases h : t.env.tooBig t.attempts = true
  · rw [if_pos h]; exact .inl ⟨_, rfl, h⟩
  · rw [if_neg h]; exact .inr ⟨_, rfl, rfl, rfl, rfl⟩

theorem drop_none {IC : IndexCodec} {A : Cats} {snap : DB} (h : Rep IC A snap) {env : Env} {t : Txn} (ht : Fresh env snap t)
    {cid : Int64} {n : Bytes} (hn : (A cid).get n = none) : ((dropIndexTxn IC cid n).run t).1 = .ok none := by
  obtain ⟨h1, -⟩ := ht.get_none (in_ne_nil cid n) (h.noName cid n hn)
  simp only [dropIndexTxn, Prog.run]
  generalize t.get (indexName2IDKey cid n) = x at *
  obtain ⟨r, t'⟩ := x
  simp only at h1
  subst h1
  rfl

theorem drop_some' {IC : IndexCodec} {A : Cats} {snap : DB} (h : Rep IC A snap) {env : Env} {t : Txn} (ht : Fresh env snap t)
    {cid : Int64} {n : Bytes} {iid : Int64} {d : IndexDef} (hn : (A cid).get n = some (iid, d)) {b : Bytes}
    (hb : columnsIndexedKey cid d.fields = .ok b) :
    (∃ t', (dropIndexTxn IC cid n).run t = (.err .txnTooBig, t') ∧ ∃ i, env.tooBig i = true) ∨
    (∃ t', (dropIndexTxn IC cid n).run t = (.ok (some d), t') ∧
      t'.writes = [(b, none), (metaIndexKey iid, none), (indexName2IDKey cid n, none)] ∧
      indexName2IDKey cid n ∈ t'.reads ∧ metaIndexKey iid ∈ t'.reads) := by
  have rd : ∀ {t : Txn} {k : Bytes}, t.writes = [] → k ≠ [] → (t.get k).2.reads = k :: t.reads := by
    intro t k h hk
    simp only [Txn.get, if_neg hk, h, List.map_nil, List.not_mem_nil, if_false]
    repeat' split
    all_goals rfl
  have q1 := rd ht.writes (in_ne_nil cid n)
  obtain ⟨-, -, -, -, ⟨v, hv, w, hw1, hw2, hw3⟩, ⟨w', hw1', hw2', hw3'⟩, hkn, b', hb', hkb, -⟩ := h.name cid n iid d hn
  rw [hb] at hb'; cases hb'
  obtain ⟨h1, hf⟩ := ht.get_some (in_ne_nil cid n) hw1 hw3
  have hdec : Compact.decodeVarint w.value = .ok ([], iid) := by
    obtain ⟨v', hv', -, -, -, hd, -⟩ := C08_varint_roundtrip iid
    rw [hv] at hv'; cases hv'
    rw [hw2]
    simpa using hd []
  simp only [dropIndexTxn, Prog.run]
  generalize t.get (indexName2IDKey cid n) = x at *
  obtain ⟨r, t1⟩ := x
  simp only at h1 hf q1
  subst h1
  simp only [run_bind, ofRes, Prog.run, hdec, getK]
  obtain ⟨h2, hf2⟩ := hf.get_some (mi_ne_nil iid) hw1' hw3'
  have q2 := rd hf.writes (mi_ne_nil iid)
  generalize t1.get (metaIndexKey iid) = x at *
  obtain ⟨r, t2⟩ := x
  simp only at h2 hf2 q2
  subst h2
  have hun : IC.unmarshal w'.value = .ok d := by rw [hw2']; exact IC.law d
  simp only [Prog.run, hun, hb, delK]
  have hu2 : t2.env.update = true := by rw [hf2.env]
  have htb2 : t2.env.tooBig = env.tooBig := by rw [hf2.env]
  rcases delete_cases hu2 b hkb with ⟨t3, e, hx⟩ | ⟨t3, e, he3, hw3, hr3⟩
  · simp only [e]
    exact .inl ⟨_, rfl, _, htb2 ▸ hx⟩
  · simp only [e]
    rcases delete_cases (by rw [he3]; exact hu2) (metaIndexKey iid) (mi_ok iid) with ⟨t4, e, hx⟩ | ⟨t4, e, he4, hw4, hr4⟩
    · simp only [e]
      exact .inl ⟨_, rfl, _, htb2 ▸ he3 ▸ hx⟩
    · simp only [e]
      rcases delete_cases (by rw [he4, he3]; exact hu2) (indexName2IDKey cid n) hkn with ⟨t5, e, hx⟩ | ⟨t5, e, he5, hw5, hr5⟩
      · simp only [e]
        exact .inl ⟨_, rfl, _, htb2 ▸ he3 ▸ he4 ▸ hx⟩
      · simp only [e]
        refine .inr ⟨t5, rfl, ?_, ?_, ?_⟩
        · rw [hw5, hw4, hw3, hf2.writes]
          rfl
        · rw [hr5, hr4, hr3, q2, q1]; simp
        · rw [hr5, hr4, hr3, q2]; simp

theorem drop_some {IC : IndexCodec} {A : Cats} {snap : DB} (h : Rep IC A snap) {env : Env} {t : Txn} (ht : Fresh env snap t)
    {cid : Int64} {n : Bytes} {iid : Int64} {d : IndexDef} (hn : (A cid).get n = some (iid, d)) {b : Bytes}
    (hb : columnsIndexedKey cid d.fields = .ok b) :
    (∃ t', (dropIndexTxn IC cid n).run t = (.err .txnTooBig, t') ∧ ∃ i, env.tooBig i = true) ∨
    (∃ t', (dropIndexTxn IC cid n).run t = (.ok (some d), t') ∧
      t'.writes = [(b, none), (metaIndexKey iid, none), (indexName2IDKey cid n, none)]) :=
  (drop_some' h ht hn hb).imp id (fun ⟨t', h1, h2, _⟩ => ⟨t', h1, h2⟩)

/-! ### reading the catalogue -/

theorem Rep.live {IC : IndexCodec} {A : Cats} {db : DB} (h : Rep IC A db) (now : Int) : Rep IC A (DB.live now db) := by
  have hat : ∀ k v, At db k v → At (DB.live now db) k v := by
    rintro k v ⟨w, h1, h2, h3⟩
    refine ⟨w, ?_, h2, h3⟩
    rw [live_get, h1]
    simp [Option.filter, Val.live, h3]
  have hnone : ∀ k, db.get k = none → (DB.live now db).get k = none := by
    intro k h1; rw [live_get, h1]; rfl
  have hsome : ∀ k w, (DB.live now db).get k = some w → db.get k = some w := by
    intro k w h1
    rw [live_get] at h1
    exact (Option.filter_eq_some_iff.mp h1).1
  constructor
  case name =>
    intro cid n iid d hd
    obtain ⟨h1, h2, h3, h4, ⟨v, h5, h6⟩, h7, h8, b, h9, h10, h11⟩ := h.name cid n iid d hd
    exact ⟨h1, h2, h3, h4, ⟨v, h5, hat _ _ h6⟩, hat _ _ h7, h8, b, h9, h10, hat _ _ h11⟩
  case noName => exact fun cid n hn => hnone _ (h.noName cid n hn)
  case noCol =>
    intro cid fs b hb hg
    refine h.noCol cid fs b hb (fun h1 => hg (hnone _ h1))
  case col => exact h.col
  case id => exact h.id
  case clean => exact fun cid k v hk hp => h.clean cid k v (hsome k v hk) hp

theorem in_lt {cid : Int64} {n n' : Bytes} (h : n < n') : indexName2IDKey cid n < indexName2IDKey cid n' := by
  rw [indexName2IDKey_eq, indexName2IDKey_eq]
  simp only [append_lt]
  exact (C04_bytes_order.1 n n').mp h

/-- The stored names of a collection, in key order, are the catalogue's. -/
theorem scan_names {IC : IndexCodec} {A : Cats} {m : DB} (h : Rep IC A m) (cid : Int64) :
    (m.ents.filter (fun e => Key.hasPrefix e.1 (indexNameKeyPrefix cid))).map
        (fun e => (e.1, Res.ok e.2.value)) =
      (A cid).ents.map (fun p => (indexName2IDKey cid p.1, Compact.encodeVarint [] p.2.1)) := by
  apply OMap.ents_eq
  · rw [List.pairwise_map]; exact m.sorted.filter _
  · rw [List.pairwise_map]
    exact (A cid).sorted.imp (fun h => in_lt h)
  · rintro ⟨k, r⟩
    simp only [List.mem_map, List.mem_filter, Prod.mk.injEq, Prod.exists]
    constructor
    · rintro ⟨k', v, ⟨hm, hp⟩, rfl, rfl⟩
      have hg := OMap.mem_get hm
      obtain ⟨n, rfl⟩ := h.clean cid k' v hg ((Key.hasPrefix_iff _ _).mp hp)
      cases hd : (A cid).get n with
      | none => rw [h.noName cid n hd] at hg; cases hg
      | some x =>
        obtain ⟨iid, d⟩ := x
        obtain ⟨-, -, -, -, ⟨v', hv', w, hw, hw2, -⟩, -⟩ := h.name cid n iid d hd
        rw [hg] at hw; cases hw
        exact ⟨n, iid, d, (OMap.get_eq_some_iff _ _ _).mp hd, rfl, by rw [hv', hw2]⟩
    · rintro ⟨n, iid, d, hm, rfl, rfl⟩
      obtain ⟨-, -, -, -, ⟨v', hv', w, hw, hw2, -⟩, -⟩ := h.name cid n iid d (OMap.mem_get hm)
      exact ⟨_, w, ⟨(OMap.get_eq_some_iff _ _ _).mp hw, (Key.hasPrefix_iff _ _).mpr (in_prefix cid n)⟩, rfl,
        by rw [hv', hw2]⟩

theorem wp_loop {IC : IndexCodec} {A : Cats} {m : DB} {env : Env} (h : Rep IC A m) (cid : Int64)
    (l : List (Bytes × Val)) (ds : List (Bytes × (Int64 × IndexDef))) (hds : ∀ e ∈ ds, (A cid).get e.1 = some e.2)
    (hl : l.map (fun e => (e.1, Res.ok e.2.value)) =
      ds.map (fun p => (indexName2IDKey cid p.1, Compact.encodeVarint [] p.2.1))) :
    (getIndexesLoop IC cid l).wp env m (fun r m' => r = .ok (ds.map (fun p => p.2.2)) ∧ m' = m) := by
  induction l generalizing ds with
  | nil => cases ds with
    | nil => exact ⟨rfl, rfl⟩
    | cons _ _ => simp at hl
  | cons e l ih => cases ds with
    | nil => simp at hl
    | cons p ds =>
      obtain ⟨k, v⟩ := e
      obtain ⟨n, iid, d⟩ := p
      simp only [List.map_cons, List.cons.injEq, Prod.mk.injEq] at hl
      obtain ⟨⟨rfl, hv⟩, hl⟩ := hl
      have hn := hds _ List.mem_cons_self
      obtain ⟨-, -, -, -, -, ⟨w', hw1', hw2', -⟩, -⟩ := h.name cid n iid d hn
      have hdec : Compact.decodeVarint v.value = .ok ([], iid) := by
        obtain ⟨v', hv', -, -, -, hd, -⟩ := C08_varint_roundtrip iid
        rw [hv'] at hv; cases hv
        simpa using hd []
      have hun : IC.unmarshal w'.value = .ok d := by rw [hw2']; exact IC.law d
      unfold getIndexesLoop
      rw [(C40_indexName_decode (indexName2IDKey cid n) cid n).mpr rfl]
      simp only [ne_eq, not_true_eq_false, if_false, hdec, List.length_nil, gt_iff_lt, Nat.lt_irrefl, wp_bind, wp_getK,
        readRes, if_neg (mi_ne_nil iid), hw1', wp_ofRes, hun]
      refine wp_mono (ih ds (fun e he => hds e (List.mem_cons_of_mem _ he)) hl) ?_
      rintro r m' ⟨rfl, rfl⟩
      exact ⟨rfl, rfl⟩

/-- getIndexes lists the definitions in name order. -/
theorem getIndexes_run {IC : IndexCodec} {A : Cats} {t : Txn} (h : Rep IC A t.view) (cid : Int64) :
    ((getIndexes IC cid).run t).1 = .ok ((A cid).ents.map (fun p => p.2.2)) := by
  have := wp_sound (getIndexes IC cid) t (fun r m' => r = .ok ((A cid).ents.map (fun p => p.2.2)) ∧ m' = t.live) (by
    unfold getIndexes
    rw [wp_bind, wp_scanK]
    have hs := Scan.iterate_forward (prune := t.env.prune) t.live.sorted (indexNameKeyPrefix cid) [] (.inl rfl)
    simp only [List.nil_le, decide_true, Bool.and_true] at hs
    simp only [hs]
    exact wp_loop (h.live t.env.now) cid _ _ (fun e he => OMap.mem_get he) (scan_names (h.live t.env.now) cid))
  exact this.1

/-! ### histories -/

/-- DB objects over one store, and the catalogue that the answers so far amount to. -/
structure W where
  db : DB
  holders : List Seq := []
  cats : Cats := fun _ => .empty

inductive Ev where
  | openDB (c : Circ)
  /-- CreateIndex of collection `cid` in the i-th DB object -/
  | create (i : Nat) (cid : Int64) (d : IndexDef) (c cs : Circ)
  | drop (cid : Int64) (n : Bytes) (c : Circ)
  | close (i : Nat) (c : Circ)
  | crash (i : Nat)
  /-- any other transaction commits -/
  | other (db : DB)

def W.seqs (w : W) : World := { db := w.db, holders := w.holders }

def W.step (IC : IndexCodec) (w : W) : Ev → W
  | .openDB c =>
    let o := w.seqs.step indexSequenceKey (.new indexIDBandWidth c)
    { w with db := o.db, holders := o.holders }
  | .close i c =>
    let o := w.seqs.step indexSequenceKey (.release i c)
    { w with db := o.db, holders := o.holders }
  | .crash i => { w with holders := w.holders.eraseIdx i }
  | .other db => { w with db := db }
  | .create i cid d c cs => match w.holders[i]? with
    | none => w
    | some s =>
      let x := createIndex IC .open cid d s c cs .empty w.db
      { db := x.2.2.1, holders := w.holders.set i x.2.1, cats := match x.1 with
          | .ok iid => w.cats.upd cid ((w.cats cid).set d.name (iid, d))
          | _ => w.cats }
  | .drop cid n c =>
    let x := dropIndex IC .open cid n c .empty w.db
    { w with db := x.2.1, cats := match x.1 with
        | .ok true => w.cats.upd cid ((w.cats cid).del n)
        | _ => w.cats }

/-- The transaction reads the current catalogue: calls that change it do not overlap. -/
def Current (c : Circ) (w : W) : Prop := ∀ k, IsIndexKey k → c.snap.get k = w.db.get k

/-- CreateIndex is called with a name that is not in use and fits into a key, with distinct columns, and a
transaction that refused one write for its size refuses the next. -/
structure GoodCreate (w : W) (cid : Int64) (d : IndexDef) (c : Circ) : Prop where
  current : Current c w
  new : (w.cats cid).get d.name = none
  short : keyErr (indexName2IDKey cid d.name) = none
  nodup : (d.fields.map IndexField.name).Nodup
  len : ∀ b, columnsIndexedKey cid d.fields = .ok b → b.length < 2 ^ 63
  big : c.env.tooBig 1 = true → c.env.tooBig 2 = true

def Sound (w : W) : Ev → Prop
  | .openDB c => OldSeq.Sound indexSequenceKey w.seqs (.new indexIDBandWidth c)
  | .close _ _ | .crash _ => True
  | .other db => stored64 indexSequenceKey db = stored64 indexSequenceKey w.db ∧
      ∀ k, IsIndexKey k → db.get k = w.db.get k
  | .create i cid d c cs => GoodCreate w cid d c ∧ OldSeq.Sound indexSequenceKey w.seqs (.next i cs)
  | .drop _ _ c => Current c w

def run (IC : IndexCodec) : W → List Ev → W
  | w, [] => w
  | w, e :: es => run IC (w.step IC e) es

def AllSound (IC : IndexCodec) : W → List Ev → Prop
  | _, [] => True
  | w, e :: es => Sound w e ∧ AllSound IC (w.step IC e) es

structure Inv (IC : IndexCodec) (c₀ : UInt64) (w : W) (out : List UInt64) (st : UInt64) : Prop where
  seq : OldSeq.Inv indexSequenceKey c₀ { w.seqs with out := out } st
  rep : Rep IC w.cats w.db
  ids : ∀ cid n iid d, (w.cats cid).get n = some (iid, d) → iid.toUInt64 ∈ out

theorem hasColumns_iff {IC : IndexCodec} {A : Cats} {db : DB} (h : Rep IC A db) {cid : Int64} {fs : List IndexField} {b : Bytes}
    (hb : columnsIndexedKey cid fs = .ok b) (hlen : b.length < 2 ^ 63) :
    HasColumns A cid fs ↔ ∃ w, db.get b = some w ∧ w.expiresAt = 0 ∧ w.value ≠ [] := by
  constructor
  · rintro ⟨n, iid, d, hd, hs⟩
    obtain ⟨-, hne, -, hnd', -, -, -, b', hb', hkb, w, hw1, hw2, hw3⟩ := h.name cid n iid d hd
    have := (C40_keys_well_defined cid d.fields fs hnd' hs).1
    rw [hb', hb] at this
    cases this
    exact ⟨w, hw1, hw3, by rw [hw2]; exact hne⟩
  · rintro ⟨w, hw, -, -⟩
    obtain ⟨n, iid, d, hd, hb'⟩ := h.noCol cid fs b hb (by rw [hw]; simp)
    obtain ⟨-, -, -, hnd', -⟩ := h.name cid n iid d hd
    exact ⟨n, iid, d, hd, ((ci_iff hb' hlen hnd').mp hb).2⟩

/-- What CreateIndex answers and does in a state of a history. -/
theorem create_spec {IC : IndexCodec} {c₀ st : UInt64} {w : W} {out : List UInt64} (h : Inv IC c₀ w out st)
    {cid : Int64} {d : IndexDef} {c cs : Circ} {s : Seq} (mem : OMap IndexDef)
    (hg : GoodCreate w cid d c) (hname : d.name ≠ []) (hfields : d.fields ≠ []) :
    (HasColumns w.cats cid d.fields ∧
      createIndex IC .open cid d s c cs mem w.db = (.err errSameColumns, s, w.db, mem)) ∨
    (¬ HasColumns w.cats cid d.fields ∧
      ((∃ r, createIndex IC .open cid d s c cs mem w.db = (r, (s.nextId cs w.db).2.1, (s.nextId cs w.db).2.2, mem) ∧
        (∀ x, r ≠ .ok x) ∧ ¬ Calm cid d s c cs w.db) ∨
       (∃ u v b, (s.nextId cs w.db).1 = .ok u ∧ Compact.encodeVarint [] u.toInt64 = .ok v ∧
        columnsIndexedKey cid d.fields = .ok b ∧ keyErr b = none ∧
        createIndex IC .open cid d s c cs mem w.db = (.ok u.toInt64, (s.nextId cs w.db).2.1,
          (((s.nextId cs w.db).2.2.set b ⟨d.name, 0, 0⟩).set (indexName2IDKey cid d.name) ⟨v, 0, 0⟩).set
            (metaIndexKey u.toInt64) ⟨IC.marshal d, 0, 0⟩,
          mem.set d.name { d with fields := normFields d.fields })))) := by
  obtain ⟨b, hb⟩ := ci_ok cid d.fields
  have hcol := hasColumns_iff h.rep hb (hg.len b hb)
  have hsnap := hg.current b (.inr (.inr ⟨cid, _, hb⟩))
  rcases create_cases IC cid d s c cs mem w.db hname hfields hg.short hg.big hb with ⟨x, h1, h2, h3, h4⟩ | ⟨h1, h2⟩
  · left
    refine ⟨hcol.mpr ?_, h4⟩
    rw [hsnap] at h1
    obtain ⟨n, iid, d', hd, hb'⟩ := h.rep.noCol cid d.fields b hb (by rw [h1]; simp)
    obtain ⟨-, hne, -, -, -, -, -, b'', hb'', -, y, hy1, hy2, hy3⟩ := h.rep.name cid n iid d' hd
    rw [hb'] at hb''; cases hb''
    exact ⟨y, hy1, hy3, by rw [hy2]; exact hne⟩
  · right
    refine ⟨?_, ?_⟩
    · intro hc
      obtain ⟨x, hx1, hx2, hx3⟩ := hcol.mp hc
      exact hx3 (h1 x (by rw [hsnap]; exact hx1) (by simp [Val.live, hx2]))
    · rcases h2 with ⟨r, h3, h4⟩ | ⟨u, v, h3, h4, h5, -, h6⟩
      · exact .inl ⟨r, h3, h4⟩
      · exact .inr ⟨u, v, b, h3, h4, hb, h5, h6⟩

theorem start_fresh (env : Env) (db : DB) : Fresh env db (Txn.start { env with update := true } db) := ⟨rfl, rfl, rfl, rfl⟩

/-- What DropIndex answers and does in a state of a history. -/
theorem drop_spec {IC : IndexCodec} {A : Cats} {db : DB} (h : Rep IC A db) {cid : Int64} {n : Bytes} {c : Circ}
    (mem : OMap IndexDef) (hc : ∀ k, IsIndexKey k → c.snap.get k = db.get k) (hn : n ≠ []) :
    ((A cid).get n = none ∧ dropIndex IC .open cid n c mem db = (.ok false, db, mem)) ∨
    (∃ iid d, (A cid).get n = some (iid, d) ∧
      ((∃ e, dropIndex IC .open cid n c mem db = (.err e, db, mem) ∧ (c.fail ≠ none ∨ ∃ i, c.env.tooBig i = true)) ∨
       (∃ b, columnsIndexedKey cid d.fields = .ok b ∧ dropIndex IC .open cid n c mem db =
        (.ok true, ((db.del b).del (metaIndexKey iid)).del (indexName2IDKey cid n), mem.del n)))) := by
  have hs : Rep IC A c.snap := h.congr hc
  unfold dropIndex
  simp only [if_neg hn, checkState]
  cases hd : (A cid).get n with
  | none =>
    left
    have := drop_none hs (start_fresh c.env c.snap) hd
    generalize (dropIndexTxn IC cid n).run (Txn.start { c.env with update := true } c.snap) = x at *
    obtain ⟨r, t⟩ := x
    simp only at this
    subst this
    exact ⟨rfl, rfl⟩
  | some x =>
    obtain ⟨iid, d⟩ := x
    right
    obtain ⟨hdn, -⟩ := hs.name cid n iid d hd
    obtain ⟨b, hb⟩ := ci_ok cid d.fields
    refine ⟨iid, d, rfl, ?_⟩
    rcases drop_some hs (start_fresh c.env c.snap) hd hb with ⟨t', h1, h2⟩ | ⟨t', h1, h2⟩
    · rw [h1]; exact .inl ⟨_, rfl, .inr h2⟩
    · rw [h1]
      simp only [Txn.commit, h2, List.cons_ne_nil, if_false]
      cases hf : c.fail with
      | some e => exact .inl ⟨e, rfl, .inl (by simp)⟩
      | none => exact .inr ⟨b, hb, by rw [hdn]; rfl⟩

theorem Inv.step {IC : IndexCodec} {c₀ st : UInt64} {w : W} {out : List UInt64} (h : Inv IC c₀ w out st) (e : Ev)
    (hs : Sound w e) : ∃ out' st', Inv IC c₀ (w.step IC e) out' st' := by
  have hold : ∀ e', OldSeq.Sound indexSequenceKey w.seqs e' →
      OldSeq.Sound indexSequenceKey { w.seqs with out := out } e' := by
    intro e' h'; cases e' <;> exact h'
  have hnk : ∀ k, IsIndexKey k → k ≠ indexSequenceKey := by
    intro k hk e; subst e; exact seq_not_index hk
  cases e with
  | openDB c =>
    obtain ⟨st', h'⟩ := h.seq.step seq_ne (.new indexIDBandWidth c) (hold (.new indexIDBandWidth c) hs)
    refine ⟨out, st', h', h.rep.congr ?_, h.ids⟩
    intro k hk
    show (Seq.new indexSequenceKey indexIDBandWidth c w.db).2.2.get _ = _
    unfold Seq.new
    rw [if_neg (by decide)]
    exact OldSeq.updateLease_get _ _ _ (hnk k hk)
  | close i c =>
    obtain ⟨st', h'⟩ := h.seq.step seq_ne (.release i c) trivial
    refine ⟨out, st', ?_, h.rep.congr ?_, h.ids⟩
    · simp only [W.step, W.seqs, World.step] at h' ⊢
      split at h' <;> simp_all
    · intro k _
      simp only [W.step, W.seqs, World.step]
      split
      · rfl
      · simp only; rw [C37_release_keeps_db]
  | crash i =>
    obtain ⟨st', h'⟩ := h.seq.step seq_ne (.crash i) trivial
    exact ⟨out, st', h', h.rep, h.ids⟩
  | other db =>
    obtain ⟨st', h'⟩ := h.seq.step seq_ne (.other db) hs.1
    exact ⟨out, st', h', h.rep.congr hs.2, h.ids⟩
  | drop cid n c =>
    simp only [W.step]
    by_cases hn : n = []
    · subst hn
      simp only [dropIndex, if_true]
      exact ⟨out, st, h.seq, h.rep, h.ids⟩
    · rcases drop_spec h.rep .empty hs hn with ⟨-, h2⟩ | ⟨iid, d, hd, ⟨e, h2, -⟩ | ⟨b, hb, h2⟩⟩
      · rw [h2]; exact ⟨out, st, h.seq, h.rep, h.ids⟩
      · rw [h2]; exact ⟨out, st, h.seq, h.rep, h.ids⟩
      · rw [h2]
        refine ⟨out, st, ⟨?_, h.seq.holders, h.seq.ids⟩, h.rep.drop hd hb, ?_⟩
        · rw [← h.seq.stored]
          apply OldSeq.stored64_congr
          show (((OMap.del _ _).del _).del _).get _ = _
          rw [OMap.get_del, if_neg (in_ne_seq cid n), OMap.get_del, if_neg (mi_ne_seq iid), OMap.get_del, if_neg (ci_ne_seq hb)]
          rfl
        · intro c' n' i' d' hd'
          simp only [upd_del_get] at hd'
          split at hd'
          · cases hd'
          · exact h.ids c' n' i' d' hd'
  | create i cid d c cs =>
    obtain ⟨hg, hseq⟩ := hs
    simp only [W.step]
    cases hi : w.holders[i]? with
    | none => exact ⟨out, st, h⟩
    | some s =>
      simp only
      have hset : w.holders.set i s = w.holders := by
        apply List.ext_getElem?
        intro j
        rw [List.getElem?_set]
        split
        · rename_i e; subst e; rw [hi]; split <;> simp_all
        · rfl
      have hsame : ∀ r : Res Int64, (∀ x, r ≠ .ok x) →
          createIndex IC .open cid d s c cs .empty w.db = (r, s, w.db, .empty) →
          ∃ out' st', Inv IC c₀ { db := (createIndex IC .open cid d s c cs .empty w.db).2.2.1, holders := w.holders.set i (createIndex IC .open cid d s c cs .empty w.db).2.1, cats := match (createIndex IC .open cid d s c cs .empty w.db).1 with
            | .ok iid => w.cats.upd cid ((w.cats cid).set d.name (iid, d))
            | _ => w.cats } out' st' := by
        intro r hr hx
        rw [hx]
        simp only [hset]
        cases r with
        | ok x => exact absurd rfl (hr x)
        | err e => exact ⟨out, st, h⟩
        | panic => exact ⟨out, st, h⟩
      by_cases hname : d.name = []
      · exact hsame (.err errIndexNameEmpty) (by simp) (by simp only [createIndex, if_pos hname])
      by_cases hfields : d.fields = []
      · exact hsame (.err errIndexFieldsEmpty) (by simp) (by simp only [createIndex, if_neg hname, if_pos hfields])
      have hfresh := fun u => h.seq.fresh seq_ne (hold (.next i cs) hseq) hi (u := u)
      obtain ⟨st', hnext⟩ := h.seq.step seq_ne (.next i cs) (hold (.next i cs) hseq)
      have hkey : s.key = indexSequenceKey := (h.seq.holders s (List.mem_of_getElem? hi)).1
      have hget : ∀ k, IsIndexKey k → (s.nextId cs w.db).2.2.get k = w.db.get k :=
        fun k hk => OldSeq.nextId_get s cs w.db (by rw [hkey]; exact hnk k hk)
      simp only [World.step, W.seqs, hi] at hnext
      rcases create_spec h .empty hg hname hfields with ⟨-, hx⟩ | ⟨hcol, ⟨r, hx, hr, -⟩ | ⟨u, v, b, hu, hv, hb, hkb, hx⟩⟩
      · exact hsame _ (by simp) hx
      · rw [hx]
        refine ⟨match (s.nextId cs w.db).1 with | .ok v => v :: out | _ => out, st', ?_, ?_, ?_⟩
        · simp only [W.seqs]
          generalize s.nextId cs w.db = x at *
          obtain ⟨x, s', db'⟩ := x
          cases x <;> exact hnext
        · cases r with
          | ok x => exact absurd rfl (hr x)
          | err e => exact h.rep.congr hget
          | panic => exact h.rep.congr hget
        · have : ∀ cid n iid d, (w.cats cid).get n = some (iid, d) →
              iid.toUInt64 ∈ (match (s.nextId cs w.db).1 with | .ok v => v :: out | _ => out) := by
            intro c' n' i' d' hd'
            split
            · exact List.mem_cons_of_mem _ (h.ids c' n' i' d' hd')
            · exact h.ids c' n' i' d' hd'
          cases r with
          | ok x => exact absurd rfl (hr x)
          | err e => exact this
          | panic => exact this
      · rw [hx]
        rw [hu] at hnext
        refine ⟨u :: out, st', ⟨?_, hnext.holders, hnext.ids⟩, ?_, ?_⟩
        · rw [← hnext.stored]
          apply OldSeq.stored64_congr
          show (((OMap.set _ _ _).set _ _).set _ _).get _ = _
          rw [OMap.get_set, if_neg (mi_ne_seq _), OMap.get_set, if_neg (in_ne_seq cid _), OMap.get_set, if_neg (ci_ne_seq hb)]
        · refine (h.rep.congr hget).create hname hfields hg.nodup hg.new hcol ?_ hv hb hkb hg.short
          intro c' n' e he
          have := h.ids c' n' _ e he
          exact (hfresh u hu).1 (by simpa using this)
        · intro c' n' i' d' hd'
          simp only [upd_set_get] at hd'
          split at hd'
          · cases hd'; simp
          · exact List.mem_cons_of_mem _ (h.ids c' n' i' d' hd')

theorem Inv.run {IC : IndexCodec} {c₀ st : UInt64} {w : W} {out : List UInt64} (h : Inv IC c₀ w out st) (es : List Ev)
    (hs : AllSound IC w es) : ∃ out' st', Inv IC c₀ (run IC w es) out' st' := by
  induction es generalizing w out st with
  | nil => exact ⟨out, st, h⟩
  | cons e es ih =>
    obtain ⟨out', st', h'⟩ := h.step e hs.1
    exact ih h' hs.2

/-- The store holds no index. -/
def NoIndexes (db : DB) : Prop := ∀ k, IsIndexKey k → db.get k = none

theorem inv_init (IC : IndexCodec) {db : DB} {c₀ : UInt64} (h0 : stored64 indexSequenceKey db = some c₀) (hn : NoIndexes db) :
    Inv IC c₀ { db := db } [] c₀ := by
  refine ⟨⟨h0, by simp [W.seqs], ?_⟩, ?_, by simp⟩
  · intro v
    simp only [W.seqs, List.count_nil, List.map_nil, List.sum_nil, UInt64.lt_iff_toNat_lt, UInt64.le_iff_toNat_le]
    split <;> split <;> omega
  · constructor
    · intro _ _ _ _ h; simp at h
    · intro cid n _; exact hn _ (.inl ⟨cid, in_prefix cid n⟩)
    · intro cid fs b hb hg; exact absurd (hn b (.inr (.inr ⟨cid, fs, hb⟩))) hg
    · intro _ _ _ _ _ _ _ h; simp at h
    · intro _ _ _ _ _ _ _ h; simp at h
    · intro cid k v hk hp; simp only at hk; rw [hn k (.inl ⟨cid, hp⟩)] at hk; cases hk

end Idx
theorem createIndex_mem (IC : IndexCodec) (cid : Int64) (d : IndexDef) (s : Seq) (c cs : Circ) (mem mem' : OMap IndexDef)
    (db : DB) : (createIndex IC .open cid d s c cs mem db).1 = (createIndex IC .open cid d s c cs mem' db).1 := by
  unfold createIndex
  by_cases h1 : d.name = []
  · simp only [if_pos h1]
  by_cases h2 : d.fields = []
  · simp only [if_neg h1, if_pos h2]
  simp only [if_neg h1, if_neg h2, checkState]
  cases columnsIndexedKey cid d.fields with
  | err e => rfl
  | panic => rfl
  | ok b =>
    simp only
    generalize (checkColumns b).run (Txn.start { c.env with update := true } c.snap) = x
    obtain ⟨r, t⟩ := x
    cases r with
    | err e => rfl
    | panic => rfl
    | ok _ =>
      simp only
      generalize s.nextId cs db = x
      obtain ⟨r, s', db'⟩ := x
      cases r with
      | err e => rfl
      | panic => rfl
      | ok u =>
        simp only
        generalize (writeIndex IC cid u.toInt64 b d).run t = x
        obtain ⟨r, t'⟩ := x
        cases r with
        | err e => rfl
        | panic => rfl
        | ok _ =>
          simp only
          generalize t'.commit c.fail db' = x
          obtain ⟨r, db''⟩ := x
          cases r <;> rfl

theorem dropIndex_mem (IC : IndexCodec) (cid : Int64) (n : Bytes) (c : Circ) (mem mem' : OMap IndexDef)
    (db : DB) : (dropIndex IC .open cid n c mem db).1 = (dropIndex IC .open cid n c mem' db).1 := by
  unfold dropIndex
  by_cases h1 : n = []
  · simp only [if_pos h1]
  simp only [if_neg h1, checkState]
  generalize (dropIndexTxn IC cid n).run (Txn.start { c.env with update := true } c.snap) = x
  obtain ⟨r, t⟩ := x
  cases r with
  | err e => rfl
  | panic => rfl
  | ok o =>
    cases o with
    | none => rfl
    | some d =>
      simp only
      generalize t.commit c.fail db = x
      obtain ⟨r, db''⟩ := x
      cases r <;> rfl

open Idx

variable (IC : IndexCodec) (db : DB) (c₀ : UInt64) (es : List Idx.Ev)

/-- After any history, reading the catalogue of a collection (as opening it does) lists exactly the indexes
that were created and not dropped, in name order, with the definitions given to CreateIndex. -/
theorem C45_list (h0 : stored64 indexSequenceKey db = some c₀) (hn : NoIndexes db)
    (hs : Idx.AllSound IC { db := db } es) (cid : Int64) (env : Env) :
    ((getIndexes IC cid).run (Txn.start env (Idx.run IC { db := db } es).db)).1 =
      .ok (((Idx.run IC { db := db } es).cats cid).ents.map (fun p => p.2.2)) ∧
    ∀ n iid d, ((Idx.run IC { db := db } es).cats cid).get n = some (iid, d) → d.name = n := by
  obtain ⟨out, st, h⟩ := (inv_init IC h0 hn).run es hs
  exact ⟨getIndexes_run h.rep cid, fun n iid d hd => (h.rep.name cid n iid d hd).1⟩

/-- Names, columns and ids of the indexes correspond one-to-one: no two indexes of a collection have the
same columns, and no two indexes at all have the same id. -/
theorem C45_one_to_one (h0 : stored64 indexSequenceKey db = some c₀) (hn : NoIndexes db)
    (hs : Idx.AllSound IC { db := db } es) :
    let A := (Idx.run IC { db := db } es).cats
    (∀ cid n n' iid iid' d d', (A cid).get n = some (iid, d) → (A cid).get n' = some (iid', d') →
      SameColumns d.fields d'.fields → n = n') ∧
    (∀ cid cid' n n' iid d d', (A cid).get n = some (iid, d) → (A cid').get n' = some (iid, d') → cid = cid' ∧ n = n') := by
  obtain ⟨out, st, h⟩ := (inv_init IC h0 hn).run es hs
  exact ⟨h.rep.col, h.rep.id⟩

/-- CreateIndex after any history refuses exactly the definitions without a name, without fields, or on
columns that have an index already; otherwise, if the store plays along, it succeeds, with an id that no
index has. -/
theorem C45_create (h0 : stored64 indexSequenceKey db = some c₀) (hn : NoIndexes db)
    (hs : Idx.AllSound IC { db := db } es) (i : Nat) (s : Seq) (hi : (Idx.run IC { db := db } es).holders[i]? = some s)
    (cid : Int64) (d : IndexDef) (c cs : Circ) (mem : OMap IndexDef)
    (hg : GoodCreate (Idx.run IC { db := db } es) cid d c)
    (hseq : OldSeq.Sound indexSequenceKey (Idx.run IC { db := db } es).seqs (.next i cs)) :
    let w := Idx.run IC { db := db } es
    let r := (createIndex IC .open cid d s c cs mem w.db).1
    (d.name = [] → r = .err errIndexNameEmpty) ∧
    (d.name ≠ [] → d.fields = [] → r = .err errIndexFieldsEmpty) ∧
    (d.name ≠ [] → d.fields ≠ [] → HasColumns w.cats cid d.fields → r = .err errSameColumns) ∧
    (d.name ≠ [] → d.fields ≠ [] → ¬ HasColumns w.cats cid d.fields → Calm cid d s c cs w.db → ∃ iid, r = .ok iid) ∧
    (∀ iid, r = .ok iid → d.name ≠ [] ∧ d.fields ≠ [] ∧ ¬ HasColumns w.cats cid d.fields ∧
      ∀ cid' n d', (w.cats cid').get n ≠ some (iid, d')) := by
  obtain ⟨out, st, h⟩ := (inv_init IC h0 hn).run es hs
  generalize Idx.run IC { db := db } es = w at *
  have hold : OldSeq.Sound indexSequenceKey { w.seqs with out := out } (.next i cs) := hseq
  refine ⟨fun h1 => by simp only [createIndex, if_pos h1], fun h1 h2 => by simp only [createIndex, if_neg h1, if_pos h2], ?_, ?_, ?_⟩
  · intro h1 h2 h3
    rcases create_spec h (cs := cs) (s := s) mem hg h1 h2 with ⟨-, hx⟩ | ⟨hc, -⟩
    · simp only [hx]
    · exact absurd h3 hc
  · intro h1 h2 h3 h4
    rcases create_spec h (cs := cs) (s := s) mem hg h1 h2 with ⟨hc, -⟩ | ⟨-, ⟨r, -, -, hcalm⟩ | ⟨u, v, b, -, -, -, -, hx⟩⟩
    · exact absurd hc h3
    · exact absurd h4 hcalm
    · rw [hx]; exact ⟨_, rfl⟩
  · intro iid hr
    by_cases h1 : d.name = []
    · simp only [createIndex, if_pos h1] at hr; cases hr
    by_cases h2 : d.fields = []
    · simp only [createIndex, if_neg h1, if_pos h2] at hr; cases hr
    refine ⟨h1, h2, ?_⟩
    rcases create_spec h (cs := cs) (s := s) mem hg h1 h2 with ⟨hc, hx⟩ | ⟨hc, ⟨r, hx, hne, hcalm⟩ | ⟨u, v, b, hu, -, -, -, hx⟩⟩
    · simp only [hx] at hr; cases hr
    · simp only [hx] at hr; exact absurd hr (hne iid)
    · rw [hx] at hr
      cases hr
      refine ⟨hc, ?_⟩
      intro c' n' d' hd'
      have := h.ids c' n' _ d' hd'
      exact (h.seq.fresh seq_ne hold hi hu).1 (by simpa using this)

/-- DropIndex after any history says whether there was such an index, and fails only if the store does. -/
theorem C45_drop (h0 : stored64 indexSequenceKey db = some c₀) (hn : NoIndexes db)
    (hs : Idx.AllSound IC { db := db } es) (cid : Int64) (n : Bytes) (c : Circ) (mem : OMap IndexDef)
    (hc : Current c (Idx.run IC { db := db } es)) :
    let w := Idx.run IC { db := db } es
    let r := (dropIndex IC .open cid n c mem w.db).1
    (n = [] → r = .err errIndexNameEmpty) ∧
    (n ≠ [] → (w.cats cid).get n = none → r = .ok false) ∧
    (n ≠ [] → (w.cats cid).get n ≠ none → r = .ok true ∨ ∃ e, r = .err e ∧ (c.fail ≠ none ∨ ∃ i, c.env.tooBig i = true)) := by
  obtain ⟨out, st, h⟩ := (inv_init IC h0 hn).run es hs
  generalize Idx.run IC { db := db } es = w at *
  refine ⟨fun h1 => by simp only [dropIndex, if_pos h1], ?_, ?_⟩
  · intro h1 h2
    rcases drop_spec h.rep mem hc h1 with ⟨-, hx⟩ | ⟨iid, d, hd, -⟩
    · rw [hx]
    · rw [h2] at hd; cases hd
  · intro h1 h2
    rcases drop_spec h.rep mem hc h1 with ⟨h3, -⟩ | ⟨iid, d, hd, ⟨e, hx, he⟩ | ⟨b, -, hx⟩⟩
    · exact absurd h3 h2
    · right; exact ⟨e, by simp only [hx], he⟩
    · left; simp only [hx]

/-- The definitions an object keeps in memory (what GetIndexes returns): the right names, with the same
columns and options as given. -/
def MemOK (mem : OMap IndexDef) (m : OMap (Int64 × IndexDef)) : Prop :=
  ∀ n, match mem.get n, m.get n with
    | none, none => True
    | some d', some (_, d) => d'.name = d.name ∧ d'.unique = d.unique ∧ SameColumns d.fields d'.fields
    | _, _ => False

theorem sameColumns_norm (fs : List IndexField) : SameColumns fs (normFields fs) := by
  by_cases h : fs.length = 1
  · refine .inl ⟨h, ?_⟩
    match fs, h with
    | [f], _ => rfl
  · exact .inr ⟨h, by rw [normFields_of_ne_one h]; exact (sortFields_perm fs).symm⟩

theorem sameColumns_refl (fs : List IndexField) : SameColumns fs fs := by
  by_cases h : fs.length = 1
  · exact .inl ⟨h, rfl⟩
  · exact .inr ⟨h, .refl _⟩

/-- Opening a collection fills the memory correctly. -/
theorem C45_memory_open (h0 : stored64 indexSequenceKey db = some c₀) (hn : NoIndexes db)
    (hs : Idx.AllSound IC { db := db } es) (cid : Int64) (env : Env) :
    ∃ ds, ((getIndexes IC cid).run (Txn.start env (Idx.run IC { db := db } es).db)).1 = .ok ds ∧
      MemOK (memOf ds) ((Idx.run IC { db := db } es).cats cid) := by
  obtain ⟨h1, h2⟩ := C45_list IC db c₀ es h0 hn hs cid env
  refine ⟨_, h1, ?_⟩
  generalize (Idx.run IC { db := db } es).cats cid = m at *
  have key : ∀ (l : List (Bytes × (Int64 × IndexDef))) (acc : OMap IndexDef) (n : Bytes),
      (l.map Prod.fst).Nodup → (∀ e ∈ l, e.2.2.name = e.1) →
      ((l.map (fun p => p.2.2)).foldl (fun m d => m.set d.name d) acc).get n =
        match l.find? (fun e => e.1 == n) with | some e => some e.2.2 | none => acc.get n := by
    intro l
    induction l with
    | nil => intro acc n _ _; rfl
    | cons e l ih =>
      intro acc n hnd hname
      simp only [List.map_cons, List.foldl_cons, List.nodup_cons] at hnd ⊢
      rw [ih _ n hnd.2 (fun e he => hname e (List.mem_cons_of_mem _ he)), hname e List.mem_cons_self, OMap.get_set]
      by_cases hen : e.1 = n
      · subst hen
        have : l.find? (fun x => x.1 == e.1) = none := by
          rw [List.find?_eq_none]
          intro x hx hxe
          exact hnd.1 (List.mem_map.mpr ⟨x, hx, by simpa using hxe⟩)
        simp [this]
      · simp [hen]
  intro n
  have hk := key m.ents .empty n m.keys_nodup (fun e he => h2 e.1 e.2.1 e.2.2 (OMap.mem_get he))
  have : (memOf (m.ents.map (fun p => p.2.2))).get n = match m.ents.find? (fun e => e.1 == n) with
    | some e => some e.2.2 | none => (OMap.empty : OMap IndexDef).get n := hk
  rw [this]
  cases hf : m.ents.find? (fun e => e.1 == n) with
  | none =>
    have : m.get n = none := by
      rw [OMap.get_eq_none_iff]
      intro v hv
      rw [List.find?_eq_none] at hf
      exact hf (n, v) hv (by simp)
    simp [this]
  | some e =>
    have h3 := List.mem_of_find?_eq_some hf
    have h4 : e.1 = n := by simpa using List.find?_some hf
    have : m.get n = some e.2 := by rw [← h4]; exact OMap.mem_get h3
    simp only [this]
    exact ⟨trivial, trivial, sameColumns_refl _⟩

/-- CreateIndex keeps it so, whatever it answers, … -/
theorem C45_memory_create (h0 : stored64 indexSequenceKey db = some c₀) (hn : NoIndexes db)
    (hs : Idx.AllSound IC { db := db } es) (i : Nat) (s : Seq) (hi : (Idx.run IC { db := db } es).holders[i]? = some s)
    (cid : Int64) (d : IndexDef) (c cs : Circ) (mem : OMap IndexDef)
    (hg : GoodCreate (Idx.run IC { db := db } es) cid d c) (hm : MemOK mem ((Idx.run IC { db := db } es).cats cid)) :
    MemOK (createIndex IC .open cid d s c cs mem (Idx.run IC { db := db } es).db).2.2.2
      (((Idx.run IC { db := db } es).step IC (.create i cid d c cs)).cats cid) := by
  obtain ⟨out, st, h⟩ := (inv_init IC h0 hn).run es hs
  generalize Idx.run IC { db := db } es = w at *
  simp only [W.step, hi]
  by_cases h1 : d.name = []
  · simp only [createIndex, if_pos h1]; exact hm
  by_cases h2 : d.fields = []
  · simp only [createIndex, if_neg h1, if_pos h2]; exact hm
  -- the answer does not depend on the memory
  rcases create_spec h (cs := cs) (s := s) mem hg h1 h2 with ⟨hc, hx⟩ | ⟨hc, ⟨r, hx, hne, hcalm⟩ | ⟨u, v, b, hu, -, -, -, hx⟩⟩ <;>
  rcases create_spec h (cs := cs) (s := s) .empty hg h1 h2 with ⟨hc', hx'⟩ | ⟨hc', ⟨r', hx', hne', hcalm'⟩ | ⟨u', v', b', hu', -, -, -, hx'⟩⟩
  · rw [hx, hx']; exact hm
  · exact absurd hc hc'
  · exact absurd hc hc'
  · exact absurd hc' hc
  · rw [hx, hx']
    cases r' with
    | ok x => exact absurd rfl (hne' x)
    | err e => exact hm
    | panic => exact hm
  · exfalso
    have : (createIndex IC .open cid d s c cs mem w.db).1 = (createIndex IC .open cid d s c cs .empty w.db).1 :=
      createIndex_mem IC cid d s c cs mem .empty w.db
    rw [hx, hx'] at this
    exact hne _ this
  · exact absurd hc' hc
  · exfalso
    have : (createIndex IC .open cid d s c cs mem w.db).1 = (createIndex IC .open cid d s c cs .empty w.db).1 :=
      createIndex_mem IC cid d s c cs mem .empty w.db
    rw [hx, hx'] at this
    exact hne' _ this.symm
  · rw [hx, hx']
    simp only
    intro n
    rw [upd_set_get, OMap.get_set]
    by_cases e : d.name = n
    · rw [if_pos e, if_pos ⟨rfl, e⟩]
      exact ⟨rfl, rfl, sameColumns_norm _⟩
    · rw [if_neg e, if_neg (fun h => e h.2)]
      exact hm n

/-- … and so does DropIndex. -/
theorem C45_memory_drop (h0 : stored64 indexSequenceKey db = some c₀) (hn : NoIndexes db)
    (hs : Idx.AllSound IC { db := db } es) (cid : Int64) (n : Bytes) (c : Circ) (mem : OMap IndexDef)
    (hc : Current c (Idx.run IC { db := db } es)) (hm : MemOK mem ((Idx.run IC { db := db } es).cats cid)) :
    MemOK (dropIndex IC .open cid n c mem (Idx.run IC { db := db } es).db).2.2
      (((Idx.run IC { db := db } es).step IC (.drop cid n c)).cats cid) := by
  obtain ⟨out, st, h⟩ := (inv_init IC h0 hn).run es hs
  generalize Idx.run IC { db := db } es = w at *
  simp only [W.step]
  by_cases h1 : n = []
  · simp only [dropIndex, if_pos h1]; exact hm
  rcases drop_spec h.rep mem hc h1 with ⟨h3, hx⟩ | ⟨iid, d, hd, ⟨e, hx, he⟩ | ⟨b, hb, hx⟩⟩ <;>
  rcases drop_spec h.rep .empty hc h1 with ⟨h3', hx'⟩ | ⟨iid', d', hd', ⟨e', hx', he'⟩ | ⟨b', hb', hx'⟩⟩
  · rw [hx, hx']; exact hm
  · rw [h3] at hd'; cases hd'
  · rw [h3] at hd'; cases hd'
  · rw [h3'] at hd; cases hd
  · rw [hx, hx']; exact hm
  · exfalso
    have := dropIndex_mem IC cid n c mem .empty w.db
    rw [hx, hx'] at this
    cases this
  · rw [h3'] at hd; cases hd
  · exfalso
    have := dropIndex_mem IC cid n c mem .empty w.db
    rw [hx, hx'] at this
    cases this
  · rw [hx, hx']
    simp only
    intro m
    rw [upd_del_get, OMap.get_del]
    by_cases e : n = m
    · rw [if_pos e, if_pos ⟨rfl, e⟩]; trivial
    · rw [if_neg e, if_neg (fun h => e h.2)]
      exact hm m

/-! ### Demonstrations -/

namespace Idx

def encStr : Bytes → Bytes
  | [] => [0]
  | x :: l => 1 :: x :: encStr l

def decStr : Bytes → Option (Bytes × Bytes)
  | 0 :: r => some ([], r)
  | 1 :: x :: r => (decStr r).map (fun p => (x :: p.1, p.2))
  | _ => none

theorem decStr_enc (s r : Bytes) : decStr (encStr s ++ r) = some (s, r) := by
  induction s with
  | nil => rfl
  | cons x s ih => simp [encStr, decStr, ih]

def encFields : List IndexField → Bytes
  | [] => [0]
  | f :: l => 1 :: (if f.desc then 1 else 0) :: encStr f.name ++ encFields l

def decFields : Nat → Bytes → Res (List IndexField)
  | n + 1, 1 :: x :: r => match decStr r with
    | some (nm, r) => (decFields n r).map' (fun l => ⟨nm, x == 1⟩ :: l)
    | none => .err .parse
  | _ + 1, 0 :: _ => .ok []
  | _, _ => .err .parse

theorem decFields_enc (l : List IndexField) (n : Nat) (h : l.length < n) : decFields n (encFields l) = .ok l := by
  induction l generalizing n with
  | nil => cases n with
    | zero => simp at h
    | succ n => rfl
  | cons f l ih => cases n with
    | zero => simp at h
    | succ n =>
      obtain ⟨nm, desc⟩ := f
      simp only [encFields, List.cons_append, decFields, decStr_enc, ih n (by simpa using h), Res.map']
      cases desc <;> rfl

theorem encFields_len (l : List IndexField) : l.length < (encFields l).length := by
  induction l with
  | nil => simp [encFields]
  | cons f l ih => simp only [encFields, List.length_cons, List.cons_append, List.length_append]; omega

def demoIC : IndexCodec where
  marshal d := (if d.unique then 1 else 0) :: encStr d.name ++ encFields d.fields
  unmarshal b := match b with
    | [] => .err .parse
    | u :: r => match decStr r with
      | none => .err .parse
      | some (n, r) => (decFields r.length r).map' (fun fs => ⟨n, fs, u == 1⟩)
  law := by
    intro d
    obtain ⟨n, fs, u⟩ := d
    simp only [List.cons_append, decStr_enc, decFields_enc fs _ (encFields_len fs), Res.map']
    cases u <;> rfl

def fx : IndexField := ⟨[120], true⟩
def fy : IndexField := ⟨[121], false⟩
/-- One DB object on an empty store. -/
def demoOpen : W := ({ db := .empty } : W).step demoIC (.openDB (calmCirc .empty))
/-- CreateIndex by the first object, with nothing else going on. -/
def create (cid : Int64) (n : Bytes) (fs : List IndexField) (w : W) : Ev :=
  .create 0 cid ⟨n, fs, false⟩ (calmCirc w.db) (calmCirc w.db)
def drop (cid : Int64) (n : Bytes) (w : W) : Ev := .drop cid n (calmCirc w.db)
/-- Names and ids. -/
def listing (w : W) (cid : Int64) : List (Bytes × Int64) := (w.cats cid).ents.map (fun p => (p.1, p.2.1))
/-- What getIndexes lists. -/
def stored (w : W) (cid : Int64) : Res (List (Bytes × List IndexField)) :=
  ((getIndexes demoIC cid).run (Txn.start plainEnv w.db)).1.map' (·.map (fun d => (d.name, d.fields)))

def demo1 : W := demoOpen.step demoIC (create 1 [97] [fx] demoOpen)
def demo2 : W := demo1.step demoIC (create 1 [98] [fy, fx] demo1)
def demo3 : W := demo2.step demoIC (create 1 [99] [fx, fy] demo2)
def demo4 : W := demo3.step demoIC (drop 1 [97] demo3)
def demoEvents : List Ev := [.openDB (calmCirc .empty), create 1 [97] [fx] demoOpen, create 1 [98] [fy, fx] demo1,
  create 1 [99] [fx, fy] demo2, drop 1 [97] demo3]

set_option maxRecDepth 100000 in
/-- Three creations, the third on the columns of the second, and a drop. -/
theorem demo_catalogue : listing (run demoIC { db := .empty } demoEvents) 1 = [([98], 2)] ∧
    stored (run demoIC { db := .empty } demoEvents) 1 = .ok [([98], [fy, fx])] := by
  constructor <;> decide

theorem calm_next {w : W} {v : UInt64} {i : Nat} {s : Seq} (hv : stored64 indexSequenceKey w.db = some v)
    (hi : w.holders[i]? = some s) (hl : s.leased ≤ v) (hf : v.toNat + s.bandwidth.toNat < 2 ^ 64) :
    OldSeq.Sound indexSequenceKey w.seqs (.next i (calmCirc w.db)) := by
  intro s' hs
  have hs : w.holders[i]? = some s' := hs
  rw [hi] at hs
  cases hs
  exact ⟨fun v' h => by
    have h : stored64 indexSequenceKey w.db = some v' := h
    rw [hv] at h; cases h; exact hf, ⟨v, hv, hl⟩, fun _ _ _ _ => rfl⟩

theorem good {w : W} {cid : Int64} {n : Bytes} {fs : List IndexField} (h1 : (w.cats cid).get n = none)
    (h2 : keyErr (indexName2IDKey cid n) = none) (h3 : (fs.map IndexField.name).Nodup)
    (h4 : (match columnsIndexedKey cid fs with | .ok b => decide (b.length < 100) | _ => false) = true) :
    GoodCreate w cid ⟨n, fs, false⟩ (calmCirc w.db) where
  current := fun _ _ => rfl
  new := h1
  short := h2
  nodup := h3
  len := by
    intro b hb
    simp only at hb
    rw [hb] at h4
    simp only [decide_eq_true_eq] at h4
    omega
  big := by simp [calmCirc, plainEnv]

set_option maxRecDepth 100000 in
/-- The demonstration meets the assumptions of the theorems of C45. -/
example : AllSound demoIC { db := .empty } demoEvents ∧ NoIndexes .empty := by
  refine ⟨⟨?_, ⟨good rfl (by decide) (by decide) (by decide), ?_⟩, ⟨good rfl (by decide) (by decide) (by decide), ?_⟩,
    ⟨good (by decide) (by decide) (by decide) (by decide), ?_⟩, fun _ _ => rfl, trivial⟩, fun _ _ => by simp⟩
  · refine ⟨by decide, ?_, ⟨0, by decide, by decide⟩, fun _ _ _ _ => rfl⟩
    intro v hv
    have : stored64 indexSequenceKey OMap.empty = some 0 := by decide
    have hv : stored64 indexSequenceKey OMap.empty = some v := hv
    rw [this] at hv; cases hv; decide
  · exact calm_next (v := 50) (by decide) rfl (by decide) (by decide)
  · exact calm_next (v := 50) (by decide) rfl (by decide) (by decide)
  · exact calm_next (v := 50) (by decide) rfl (by decide) (by decide)

/-! CreateIndex does not check the name. -/

def reuse1 : W := demoOpen.step demoIC (create 1 [97] [fx] demoOpen)
def reuse2 : W := reuse1.step demoIC (create 1 [97] [fy] reuse1)
def reuse3 : W := reuse2.step demoIC (drop 1 [97] reuse2)

end Idx

set_option maxRecDepth 100000 in
/-- The assumption that the name is new is needed: CreateIndex("a" on x) and CreateIndex("a" on y) both
succeed and only the second is listed; after DropIndex("a") no index is listed, but CreateIndex("b" on x) is
refused for ever because of an index on the same columns. -/
theorem C45_name_reuse_false :
    Idx.stored Idx.reuse2 1 = .ok [([97], [fy])] ∧ Idx.stored Idx.reuse3 1 = .ok [] ∧
    ∃ s, Idx.reuse3.holders = [s] ∧
      (createIndex Idx.demoIC .open 1 ⟨[98], [fx], false⟩ s (calmCirc Idx.reuse3.db) (calmCirc Idx.reuse3.db) .empty Idx.reuse3.db).1
        = .err errSameColumns := by
  exact ⟨by decide, by decide, ⟨indexSequenceKey, 50, 2, 50⟩, rfl, by decide⟩

/-- The assumption that the name fits into a key is needed: with a name too long for that (more than 65000
bytes with its prefix), CreateIndex succeeds and remembers the index in memory, and blocks the columns, but
stores nothing under the name, so it is neither listed after reopening nor can it be dropped. -/
theorem C45_long_name_false (cid : Int64) (d : IndexDef) (s : Seq) (c cs : Circ) (mem : OMap IndexDef)
    (hlong : 65000 < (indexName2IDKey cid d.name).length) (hfields : d.fields ≠ [])
    (b : Bytes) (hb : columnsIndexedKey cid d.fields = .ok b) (hfree : c.snap.get b = none)
    (hcalm : Calm cid d s c cs db) :
    ∃ iid, (createIndex IC .open cid d s c cs mem db).1 = .ok iid ∧
      (createIndex IC .open cid d s c cs mem db).2.2.2.get d.name = some { d with fields := normFields d.fields } ∧
      (createIndex IC .open cid d s c cs mem db).2.2.1.get b = some ⟨d.name, 0, 0⟩ ∧
      (s.key = indexSequenceKey → (createIndex IC .open cid d s c cs mem db).2.2.1.get (indexName2IDKey cid d.name) =
        db.get (indexName2IDKey cid d.name)) := by
  have hname : d.name ≠ [] := by
    intro h
    rw [h, indexName2IDKey_eq] at hlong
    have : (encodeBytes [] []).length = 9 := by decide
    simp [collectionPrefix, encodeInt64_len, indexNamePrefix, this] at hlong
  have hkn : ∃ e, keyErr (indexName2IDKey cid d.name) = some e := by
    unfold keyErr
    split
    · exact ⟨_, rfl⟩
    · split
      · exact ⟨_, rfl⟩
      · exact ⟨_, rfl⟩
  obtain ⟨e, hkn⟩ := hkn
  obtain ⟨htb, hkb, ⟨u, hu⟩, hf⟩ := hcalm
  have hkb := hkb b hb
  obtain ⟨hcheck, hfresh⟩ := checkColumns_run c.env c.snap (ci_ne_nil hb)
  unfold createIndex
  simp only [if_neg hname, if_neg hfields, checkState, hb]
  generalize (checkColumns b).run (Txn.start { c.env with update := true } c.snap) = x at *
  obtain ⟨r, t⟩ := x
  rcases hcheck with ⟨w, h1, -⟩ | ⟨-, h2⟩
  · rw [hfree] at h1; cases h1
  simp only at h2
  subst h2
  have hx' : s.nextId cs db = (.ok u, (s.nextId cs db).2) := by rw [← hu]
  rw [hx']
  obtain ⟨v, hv, -⟩ := C08_varint_roundtrip u.toInt64
  have hupd : ∀ t : Txn, t.env = { c.env with update := true } → ∀ k w, keyErr k = none → t.modify k w =
      (.ok (), { t with view := applyWrite t.view (k, w), writes := t.writes ++ [(k, w)], attempts := t.attempts + 1 }) := by
    intro t ht k w hk
    simp only [Txn.modify, ht, hk, htb]; rfl
  have herr : ∀ t : Txn, t.env = { c.env with update := true } → ∀ k w e, keyErr k = some e → t.modify k w = (.err e, t) := by
    intro t ht k w e hk; simp only [Txn.modify, ht, hk]; rfl
  have hrun : ∃ t', (writeIndex IC cid u.toInt64 b d).run t = (.ok (), t') ∧
      t'.writes = [(b, some ⟨d.name, 0, 0⟩), (metaIndexKey u.toInt64, some ⟨IC.marshal d, 0, 0⟩)] := by
    have hprog : writeIndex IC cid u.toInt64 b d =
      .set b d.name none (fun r => match r with
        | .ok _ => .set (indexName2IDKey cid d.name) v none (fun r => match r with
          | .panic => .done .panic
          | _ => setK (metaIndexKey u.toInt64) (IC.marshal d))
        | .err e => .done (.err e)
        | .panic => .done .panic) := by
      unfold writeIndex
      rw [hv]
      show Prog.set b d.name none _ = _
      congr 1
      funext r
      cases r <;> rfl
    rw [hprog]
    simp only [Prog.run, Txn.set]
    rw [hupd t hfresh.env _ _ hkb]
    simp only [Prog.run, Txn.set]
    rw [herr _ (by exact hfresh.env) _ _ e hkn]
    simp only [Prog.run, Txn.set, setK]
    rw [hupd _ (by exact hfresh.env) _ _ (mi_ok _)]
    refine ⟨_, rfl, ?_⟩
    have hfw : t.writes = [] := hfresh.writes
    simp [hfw, mkVal]
  obtain ⟨t', hr, hw⟩ := hrun
  simp only [hr, Txn.commit, hw, List.cons_ne_nil, if_false, hf]
  refine ⟨_, rfl, by rw [OMap.get_set, if_pos rfl], ?_, ?_⟩
  · show ((OMap.set _ _ _).set _ _).get _ = _
    rw [OMap.get_set, if_neg (fun e => ci_ne_mi hb _ e.symm), OMap.get_set, if_pos rfl]
  · intro hkey
    show ((OMap.set _ _ _).set _ _).get _ = _
    rw [OMap.get_set, if_neg (fun e => in_ne_mi _ _ _ e.symm), OMap.get_set, if_neg (ci_ne_in hb _ _)]
    exact OldSeq.nextId_get s cs db (by rw [hkey]; exact in_ne_seq _ _)

set_option maxRecDepth 100000 in
/-- The definitions kept in memory by the object that created the index differ from what is stored (and from
what was asked for): of an index on one column the direction is lost, of several columns the order. -/
theorem C45_memory_false :
    (createIndex Idx.demoIC .open 1 ⟨[97], [fx], false⟩ ⟨indexSequenceKey, 50, 0, 50⟩ (calmCirc Idx.demoOpen.db)
      (calmCirc Idx.demoOpen.db) .empty Idx.demoOpen.db).2.2.2.get [97] = some ⟨[97], [⟨[120], false⟩], false⟩ ∧
    Idx.stored Idx.reuse1 1 = .ok [([97], [⟨[120], true⟩])] := by
  exact ⟨by decide, by decide⟩

end Mondis.Props
