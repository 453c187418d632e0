import Verif.Lemmas.SProg
import Verif.Spec.Meta
/-!
# The functions of package meta do what the specification says
-/
namespace Mondis

/-! ### Maps with prefixed keys -/

namespace OMap
variable {V W : Type}

/-- Prefix all keys and map all values. -/
def tag (p : Bytes) (f : V → W) (m : OMap V) : OMap W :=
  ⟨m.ents.map (fun e => (p ++ e.1, f e.2)), by
    rw [List.pairwise_map]
    exact m.sorted.imp (fun {a b} h => List.append_left_lt h)⟩

theorem get_tag_eq (p : Bytes) (f : V → W) (m : OMap V) (k : Bytes) (w : W) :
    (m.tag p f).get k = some w ↔ ∃ j v, m.get j = some v ∧ p ++ j = k ∧ f v = w := by
  rw [get_eq_some_iff]
  simp only [tag, List.mem_map, Prod.mk.injEq, Prod.exists]
  constructor
  · rintro ⟨j, v, h, h1, h2⟩; exact ⟨j, v, mem_get h, h1, h2⟩
  · rintro ⟨j, v, h, h1, h2⟩; exact ⟨j, v, (get_eq_some_iff _ _ _).mp h, h1, h2⟩

@[simp] theorem get_tag (p : Bytes) (f : V → W) (m : OMap V) (k : Bytes) :
    (m.tag p f).get (p ++ k) = (m.get k).map f := by
  cases h : m.get k with
  | some v => exact (get_tag_eq p f m _ _).mpr ⟨k, v, h, rfl, rfl⟩
  | none =>
    cases h' : (m.tag p f).get (p ++ k) with
    | none => rfl
    | some w =>
      obtain ⟨j, v, h1, h2, -⟩ := (get_tag_eq p f m _ _).mp h'
      rw [List.append_cancel_left h2, h] at h1; cases h1

theorem get_tag_none (p : Bytes) (f : V → W) (m : OMap V) (k : Bytes) (h : ∀ j, p ++ j ≠ k) :
    (m.tag p f).get k = none := by
  cases h' : (m.tag p f).get k with
  | none => rfl
  | some w =>
    obtain ⟨j, v, -, h2, -⟩ := (get_tag_eq p f m _ _).mp h'
    exact absurd h2 (h j)

theorem tag_set (p : Bytes) (f : V → W) (m : OMap V) (k : Bytes) (v : V) :
    (m.tag p f).set (p ++ k) (f v) = (m.set k v).tag p f := by
  ext1 j
  rw [get_set]
  by_cases h : ∃ i, p ++ i = j
  · obtain ⟨i, rfl⟩ := h
    rw [get_tag, get_tag, get_set]
    by_cases hk : k = i
    · simp [hk]
    · have : p ++ k ≠ p ++ i := fun e => hk (List.append_cancel_left e)
      simp [hk]
  · rw [get_tag_none _ _ _ _ (fun i hi => h ⟨i, hi⟩), get_tag_none _ _ _ _ (fun i hi => h ⟨i, hi⟩),
      if_neg (fun hi => h ⟨k, hi⟩)]

theorem tag_del (p : Bytes) (f : V → W) (m : OMap V) (k : Bytes) :
    (m.tag p f).del (p ++ k) = (m.del k).tag p f := by
  ext1 j
  rw [get_del]
  by_cases h : ∃ i, p ++ i = j
  · obtain ⟨i, rfl⟩ := h
    rw [get_tag, get_tag, get_del]
    by_cases hk : k = i
    · simp [hk]
    · have : p ++ k ≠ p ++ i := fun e => hk (List.append_cancel_left e)
      simp [hk]
  · rw [get_tag_none _ _ _ _ (fun i hi => h ⟨i, hi⟩), get_tag_none _ _ _ _ (fun i hi => h ⟨i, hi⟩)]
    split <;> rfl

theorem tag_snd (p : Bytes) (f : V → W) (m : OMap V) :
    (m.tag p f).ents.map Prod.snd = (m.ents.map Prod.snd).map f := by
  simp [tag]

end OMap

open Spec Structure Props Schema Meta SProg

/-! ### Changing one component -/

/-- Replace the string under a key. -/
def setStr (A : SState) (k : Bytes) (s : Option Bytes) : SState := A.upd k { A k with str := s }
/-- Replace the hash under a key. -/
def setHash (A : SState) (k : Bytes) (h : OMap Bytes) : SState := A.upd k { A k with hash := h }
/-- Replace the list under a key. -/
def setList (A : SState) (k : Bytes) (l : List Bytes) : SState := A.upd k { A k with list := l }

@[simp] theorem setStr_str (A : SState) (k s j) : (setStr A k s j).str = if j = k then s else (A j).str := by
  unfold setStr SState.upd; split <;> rfl
@[simp] theorem setStr_hash (A : SState) (k s j) : (setStr A k s j).hash = (A j).hash := by
  unfold setStr SState.upd; split
  · subst_vars; rfl
  · rfl
@[simp] theorem setStr_list (A : SState) (k s j) : (setStr A k s j).list = (A j).list := by
  unfold setStr SState.upd; split
  · subst_vars; rfl
  · rfl
@[simp] theorem setHash_hash (A : SState) (k h j) : (setHash A k h j).hash = if j = k then h else (A j).hash := by
  unfold setHash SState.upd; split <;> rfl
@[simp] theorem setHash_str (A : SState) (k h j) : (setHash A k h j).str = (A j).str := by
  unfold setHash SState.upd; split
  · subst_vars; rfl
  · rfl
@[simp] theorem setHash_list (A : SState) (k h j) : (setHash A k h j).list = (A j).list := by
  unfold setHash SState.upd; split
  · subst_vars; rfl
  · rfl
@[simp] theorem setList_list (A : SState) (k l j) : (setList A k l j).list = if j = k then l else (A j).list := by
  unfold setList SState.upd; split <;> rfl
@[simp] theorem setList_str (A : SState) (k l j) : (setList A k l j).str = (A j).str := by
  unfold setList SState.upd; split
  · subst_vars; rfl
  · rfl
@[simp] theorem setList_hash (A : SState) (k l j) : (setList A k l j).hash = (A j).hash := by
  unfold setList SState.upd; split
  · subst_vars; rfl
  · rfl

/-! ### Single operations -/

theorem intOf_textOf (n : Int64) : intOf (textOf n) = .ok n := by
  unfold intOf textOf
  rw [if_neg (format_ne_nil n), Numeric.parse_format]

section leaves
variable (A : SState)

theorem sem_hget (k f : Bytes) : (bytesOp (.hget k f)).sem A = match (A k).hash.get f with
    | some v => (.ok v, A)
    | none => (.err .keyNotFound, A) := by
  simp only [bytesOp, sem, SOp.step, SOp.sem, SOp.key]
  cases (A k).hash.get f <;> simp only [upd_self, sem]

theorem sem_get (k : Bytes) : (bytesOp (.get k)).sem A = match (A k).str with
    | some v => (.ok v, A)
    | none => (.err .keyNotFound, A) := by
  simp only [bytesOp, sem, SOp.step, SOp.sem, SOp.key]
  cases (A k).str <;> simp only [upd_self, sem]

theorem sem_getInt (k : Bytes) (n : Option Int64) (h : (A k).str = n.map textOf) :
    (intOp (.getInt k)).sem A = ((n.map Res.ok).getD (.err .keyNotFound), A) := by
  simp only [intOp, sem, SOp.step, SOp.sem, SOp.key, h]
  cases n with
  | none => simp only [Option.map_none, upd_self, sem]; rfl
  | some n => simp only [Option.map_some, intOf_textOf, Res.map', upd_self, sem, Int64.ofInt_toInt]; rfl

theorem sem_inc (k : Bytes) (s : Int64) (n : Option Int64) (h : (A k).str = n.map textOf) :
    (intOp (.inc k s)).sem A = (.ok (n.getD 0 + s), setStr A k (some (textOf (n.getD 0 + s)))) := by
  simp only [intOp, sem, SOp.step, SOp.sem, SOp.key, h]
  cases n with
  | none => simp only [Option.map_none, sem, Int64.ofInt_toInt, Option.getD_none, Int64.zero_add]; rfl
  | some n => simp only [Option.map_some, intOf_textOf, sem, Int64.ofInt_toInt, Option.getD_some]; rfl

theorem sem_setInt (k : Bytes) (v : Int64) :
    (unitOp (.setInt k v)).sem A = (.ok (), setStr A k (some (textOf v))) := rfl

theorem sem_set (k v : Bytes) : (unitOp (.set k v)).sem A = (.ok (), setStr A k (some v)) := rfl

theorem sem_hset (k f v : Bytes) :
    (unitOp (.hset k f v)).sem A = (.ok (), setHash A k ((A k).hash.set f v)) := rfl

theorem sem_hdel (k f : Bytes) :
    (unitOp (.hdel k [f])).sem A = (.ok (), setHash A k ((A k).hash.del f)) := rfl

theorem sem_hclear (k : Bytes) : (unitOp (.hclear k)).sem A = (.ok (), setHash A k OMap.empty) := rfl

theorem sem_hgetAll (k : Bytes) : (pairsOp (.hgetAll k)).sem A = (.ok (A k).hash.ents, A) := by
  simp only [pairsOp, sem, SOp.step, SOp.sem, SOp.key, upd_self]

theorem sem_hgetNDesc (k : Bytes) (n : Int) :
    (pairsOp (.hgetNDesc k n)).sem A = (.ok ((A k).hash.ents.reverse.take n.toNat), A) := by
  simp only [pairsOp, sem, SOp.step, SOp.sem, SOp.key, upd_self]

theorem sem_hgetInt (k f : Bytes) (n : Option Int64) (h : (A k).hash.get f = n.map textOf) :
    (intOp (.hgetInt k f)).sem A = ((n.map Res.ok).getD (.err .keyNotFound), A) := by
  simp only [intOp, sem, SOp.step, SOp.sem, SOp.key, h]
  cases n with
  | none => simp only [Option.map_none, upd_self, sem]; rfl
  | some n => simp only [Option.map_some, intOf_textOf, Res.map', upd_self, sem, Int64.ofInt_toInt]; rfl

theorem sem_hinc (k f : Bytes) (s : Int64) (n : Option Int64) (h : (A k).hash.get f = n.map textOf) :
    (intOp (.hinc k f s)).sem A =
      (.ok (n.getD 0 + s), setHash A k ((A k).hash.set f (textOf (n.getD 0 + s)))) := by
  have hf : fieldInt (A k).hash f = .ok (n.getD 0) := by
    unfold fieldInt
    rw [h]
    cases n with
    | none => rfl
    | some n =>
      simp only [Option.map_some, Option.getD_some]
      rw [if_neg (show textOf n ≠ [] from format_ne_nil n)]
      exact Numeric.parse_format n
  simp only [intOp, sem, SOp.step, SOp.sem, SOp.key, hf, Int64.ofInt_toInt]; rfl

theorem sem_rpush (k v : Bytes) :
    (unitOp (.rpush k [v])).sem A = (.ok (), setList A k ((A k).list ++ [v])) := rfl

theorem sem_lpop (k : Bytes) : (bytesOp (.lpop k)).sem A = match (A k).list with
    | [] => (.err .keyNotFound, A)
    | v :: l => (.ok v, setList A k l) := by
  simp only [bytesOp, sem, SOp.step, SOp.sem, SOp.key]
  cases (A k).list with
  | nil => simp only [upd_self, sem]
  | cons v l => rfl

theorem sem_llen (k : Bytes) : (intOp (.llen k)).sem A = (.ok (Int64.ofInt (A k).list.length), A) := by
  simp only [intOp, sem, SOp.step, SOp.sem, SOp.key, upd_self]

theorem sem_lgetAll (k : Bytes) : (listOp (.lgetAll k)).sem A = (.ok (A k).list.reverse, A) := by
  simp only [listOp, sem, SOp.step, SOp.sem, SOp.key, upd_self]

theorem position_index (l : List Bytes) (i : Int64) : position l i = index l.length i := rfl

theorem sem_lindex (k : Bytes) (i : Int64) : (bytesOp (.lindex k i)).sem A =
    if (A k).list = [] then (.err .keyNotFound, A)
    else if 0 ≤ index (A k).list.length i ∧ index (A k).list.length i < (A k).list.length then
      (.ok ((A k).list[(index (A k).list.length i).toNat]?.getD []), A)
    else (.ok [], A) := by
  by_cases h : (A k).list = []
  · have e : SOp.sem (A k) (.lindex k i) = (.err .keyNotFound, A k) := by
      show (if (A k).list = [] then _ else _) = _
      rw [if_pos h]
    rw [if_pos h]
    simp only [bytesOp, sem, SOp.step, SOp.key, e, upd_self]
  · rw [if_neg h]
    by_cases h2 : 0 ≤ index (A k).list.length i ∧ index (A k).list.length i < (A k).list.length
    · have e : SOp.sem (A k) (.lindex k i) =
          (.ok (.bytes ((A k).list[(index (A k).list.length i).toNat]?.getD [])), A k) := by
        show (if (A k).list = [] then _ else if _ then _ else _) = _
        rw [if_neg h, position_index, if_pos h2]
      rw [if_pos h2]
      simp only [bytesOp, sem, SOp.step, SOp.key, e, upd_self]
    · have e : SOp.sem (A k) (.lindex k i) = (.ok (.bytes []), A k) := by
        show (if (A k).list = [] then _ else if _ then _ else _) = _
        rw [if_neg h, position_index, if_neg h2]
      rw [if_neg h2]
      simp only [bytesOp, sem, SOp.step, SOp.key, e, upd_self]

theorem sem_lset (k : Bytes) (i : Int64) (v : Bytes) : (unitOp (.lset k i v)).sem A =
    if 0 ≤ index (A k).list.length i ∧ index (A k).list.length i < (A k).list.length then
      (.ok (), setList A k ((A k).list.set (index (A k).list.length i).toNat v))
    else (.err .keyNotFound, A) := by
  by_cases h2 : 0 ≤ index (A k).list.length i ∧ index (A k).list.length i < (A k).list.length
  · have e : SOp.sem (A k) (.lset k i v) =
        (.ok .unit, { A k with list := (A k).list.set (index (A k).list.length i).toNat v }) := by
      show (if _ then _ else _) = _
      rw [position_index, if_pos h2]
    rw [if_pos h2]
    simp only [unitOp, sem, SOp.step, SOp.key, e]; rfl
  · have e : SOp.sem (A k) (.lset k i v) = (.err .keyNotFound, A k) := by
      show (if _ then _ else _) = _
      rw [position_index, if_neg h2]
    rw [if_neg h2]
    simp only [unitOp, sem, SOp.step, SOp.key, e, upd_self, Res.map']

end leaves

theorem sem_bind {α β : Type} (p : SProg α) (f : α → SProg β) (A : SState) :
    (p >>= f).sem A = match (p.sem A).1 with
      | .ok a => (f a).sem (p.sem A).2
      | .err e => (.err e, (p.sem A).2)
      | .panic => (.panic, (p.sem A).2) := by
  show (p.andThen _).sem A = _
  rw [sem_andThen]
  cases (p.sem A).1 <;> rfl

theorem sem_pure {α : Type} (a : α) (A : SState) : (pure a : SProg α).sem A = (.ok a, A) := rfl
theorem sem_ofRes {α : Type} (r : Res α) (A : SState) : (SProg.ofRes r).sem A = (r, A) := rfl

theorem sem_notFoundIs {α : Type} (e : Err) (p : SProg α) (A : SState) :
    (notFoundIs e p).sem A = ((match (p.sem A).1 with
      | .err .keyNotFound => .err e
      | r => r), (p.sem A).2) := by
  unfold notFoundIs
  rw [sem_andThen]
  cases (p.sem A).1 with
  | ok a => rfl
  | err e => cases e <;> rfl
  | panic => rfl

theorem sem_notFoundNil {α : Type} (p : SProg α) (A : SState) :
    (notFoundNil p).sem A = ((match (p.sem A).1 with
      | .ok a => .ok (some a)
      | .err .keyNotFound => .ok none
      | .err e => .err e
      | .panic => .panic), (p.sem A).2) := by
  unfold notFoundNil
  rw [sem_andThen]
  cases (p.sem A).1 with
  | ok a => rfl
  | err e => cases e <;> rfl
  | panic => rfl

theorem sem_mustBeAbsent {α : Type} (e : Err) (p : SProg α) (A : SState) :
    (mustBeAbsent e p).sem A = ((match (p.sem A).1 with
      | .ok _ => .err e
      | .err .keyNotFound => .ok ()
      | .err e => .err e
      | .panic => .panic), (p.sem A).2) := by
  unfold mustBeAbsent
  rw [sem_andThen]
  cases (p.sem A).1 with
  | ok a => rfl
  | err e => cases e <;> rfl
  | panic => rfl

/-! ### Keys -/

theorem format_inj {a b : Int64} (h : Numeric.formatInt a = Numeric.formatInt b) : a = b := by
  have h1 := Numeric.parse_format a
  rw [h, Numeric.parse_format b] at h1
  exact (Res.ok.inj h1).symm

theorem idKey_inj {p : Bytes} {a b : Int64} : idKey p a = idKey p b ↔ a = b := by
  constructor
  · intro h
    have := List.append_cancel_left h
    exact format_inj (List.cons.inj this).2
  · rintro rfl; rfl

theorem idKey_split (p : Bytes) (a : Int64) : idKey p a = (p ++ [58]) ++ textOf a := by
  simp [idKey, textOf]

theorem formatUint_length (fuel n : Nat) (acc : Bytes) :
    (Numeric.formatUint fuel n acc).length ≤ fuel + acc.length := by
  induction fuel generalizing n acc with
  | zero => simp [Numeric.formatUint]
  | succ m ih =>
    unfold Numeric.formatUint
    split
    · simp; omega
    · have := ih (n / 10) (UInt8.ofNat (48 + n % 10) :: acc)
      rw [List.length_cons] at this; omega

theorem format_length (a : Int64) : (Numeric.formatInt a).length ≤ 21 := by
  unfold Numeric.formatInt
  split
  · have := formatUint_length 20 (-a.toInt).toNat []
    simp at this ⊢; omega
  · have := formatUint_length 20 a.toInt.toNat []
    simp at this ⊢; omega

theorem jobIDKey_eq (id : Int64) : jobIDKey id = MState.job.jobKey id := rfl

theorem jobIDKey_inj {a b : Int64} : jobIDKey a = jobIDKey b ↔ a = b := by
  constructor
  · intro h
    have := Memcomparable.putUint64_inj (show Memcomparable.putUint64 a.toUInt64 = Memcomparable.putUint64 b.toUInt64 from h)
    have := congrArg UInt64.toInt64 this
    simpa using this
  · rintro rfl; rfl

theorem jobIDKey_length (id : Int64) : (jobIDKey id).length = 8 := rfl
theorem jobEndKey_length (id : Int64) : (jobEndKey id).length = 12 := rfl

theorem jobEndKey_inj {a b : Int64} : jobEndKey a = jobEndKey b ↔ a = b := by
  constructor
  · intro h
    exact jobIDKey_inj.mp (List.append_cancel_right h)
  · rintro rfl; rfl

theorem jobIDKey_ne_end (a b : Int64) : jobIDKey a ≠ jobEndKey b := by
  intro h
  have := congrArg List.length h
  rw [jobIDKey_length, jobEndKey_length] at this
  cases this

/-! ### The correspondence -/

/-- "collectionInfo:" -/
abbrev collTag : Bytes := collectionInfoPrefix ++ [58]
/-- "didSequence:" -/
abbrev didTag : Bytes := didSequencePrefix ++ [58]
/-- "db:" -/
abbrev dbTag : Bytes := dbPrefix ++ [58]

/-- A job as found in the store. -/
def StoredJob (j : Job) : Prop := j.Text ∧ j.raw ≠ none ∧ j.arg = .null

/-- The structures `A` hold exactly the metadata `M`. -/
structure Abs (J : Json) (M : MState) (A : SState) : Prop where
  globalID : (A globalIDKey).str = M.globalID.map textOf
  version : (A schemaVersionKey).str = M.version.map textOf
  bootstrap : (A bootstrapKey).str = M.bootstrap.map textOf
  diffs : ∀ v, (A (schemaDiffKey v)).str = (M.diffs v).map J.diff
  dbs : (A dbsKey).hash = M.dbs.tag dbTag J.db
  colls : ∀ id f, (A (dbKeyByID id)).hash.get f =
    (((M.colls id).tag collTag J.coll).get f).or (((M.dids id).tag didTag textOf).get f)
  queue : ∀ l : ListKey, (A l.key).list = (M.queue l).map J.job
  history : (A ddlJobHistoryKey).hash = M.history.tag [] J.job
  reorgStart : ∀ id, (A ddlJobReorgKey).hash.get (jobIDKey id) = (M.reorgStart id).map textOf
  reorgEnd : ∀ id, (A ddlJobReorgKey).hash.get (jobEndKey id) = (M.reorgEnd id).map textOf
  tdiffs : ∀ v d, M.diffs v = some d → d.Text
  tdbs : ∀ k d, M.dbs.get k = some d → d.Text
  tcolls : ∀ id k c, (M.colls id).get k = some c → c.Text
  tqueue : ∀ l, ∀ j ∈ M.queue l, StoredJob j
  thistory : ∀ k j, M.history.get k = some j → StoredJob j

theorem abs_init (J : Json) : Abs J {} SState.init where
  globalID := rfl
  version := rfl
  bootstrap := rfl
  diffs := fun _ => rfl
  dbs := rfl
  colls := fun _ _ => rfl
  queue := fun _ => rfl
  history := rfl
  reorgStart := fun _ => rfl
  reorgEnd := fun _ => rfl
  tdiffs := by simp
  tdbs := by simp
  tcolls := by simp
  tqueue := by simp
  thistory := by simp

theorem coll_ne_did (a b : Bytes) : collTag ++ a ≠ didTag ++ b := by
  simp [collTag, didTag, collectionInfoPrefix, didSequencePrefix]

namespace Abs
variable {J : Json} {M : MState} {A : SState}

theorem get_db (h : Abs J M A) (id : Int64) : (A dbsKey).hash.get (dbKeyByID id) = (M.db id).map J.db := by
  rw [h.dbs, dbKeyByID, idKey_split]; exact OMap.get_tag _ _ _ _

theorem get_coll (h : Abs J M A) (db id : Int64) :
    (A (dbKeyByID db)).hash.get (collectionInfoKeyByID id) = (M.coll db id).map J.coll := by
  rw [h.colls, collectionInfoKeyByID, idKey_split, OMap.get_tag]
  rw [OMap.get_tag_none _ _ _ _ (fun j hj => coll_ne_did _ _ hj.symm), Option.or_none]
  rfl

theorem get_did (h : Abs J M A) (db id : Int64) :
    (A (dbKeyByID db)).hash.get (didSequenceKeyByID id) = ((M.dids db).get (textOf id)).map textOf := by
  rw [h.colls, didSequenceKeyByID, idKey_split, OMap.get_tag_none _ _ _ _ (fun j hj => coll_ne_did _ _ hj)]
  rw [OMap.get_tag]; rfl

end Abs
end Mondis
