import Verif.Props.DocumentIndex
/-!
# C76: cases
-/
namespace Mondis.DocDB
open Mondis Prog Doc Spec Props

/-! ### `Fair` can be checked -/

theorem name_short (cid : Int64) (n : Bytes) (h : (Memcomparable.encodeBytes [] n).length ≤ 60000) : keyErr (indexName2IDKey cid n) = none := by
  have e : indexName2IDKey cid n = collectionPrefix ++ (Memcomparable.encodeInt64 [] cid ++ (indexNamePrefix ++ Memcomparable.encodeBytes [] n)) := by
    unfold indexName2IDKey
    rw [C03_bytes_append, (C01_int64_append _ cid).1]
    simp
  rw [e]
  have hl := encodeInt64_len cid
  unfold keyErr
  rw [if_neg (by simp [collectionPrefix]), if_neg (by simp [collectionPrefix, Key.hasPrefix, badgerPrefix]), if_neg]
  simp only [List.length_append, hl, collectionPrefix, indexNamePrefix, List.length_cons, List.length_nil]
  omega

theorem columns_short {cid : Int64} {fs : List IndexField} {b : Bytes} (h : columnsIndexedKey cid fs = .ok b)
    (h0 : ∀ x, columnsIndexedKey 0 fs = .ok x → x.length < 2 ^ 63) : b.length < 2 ^ 63 := by
  obtain ⟨d, hd, -⟩ := encodeFields_total (normFields fs)
  unfold columnsIndexedKey at h h0
  rw [hd] at h
  have := h0 _ (hd _)
  cases h
  rw [(C01_int64_append _ _).1] at this ⊢
  simp only [List.length_append, encodeInt64_len] at this ⊢
  exact this

def unsettled (w : World) (i : Nat) (coll : Bytes) : Bool := w.pending.any (fun q => match q with
  | some q => decide (q.obj = i) && decide (q.name = coll) && (match q.stage with
    | .writing .. => false
    | _ => true)
  | none => false)

theorem unsettled_of {w : World} {i : Nat} {coll : Bytes} (h : unsettled w i coll = false) : ¬ Unsettled w i coll := by
  rintro ⟨p, q, h1, h2, h3, h4⟩
  have := List.any_eq_false.mp h _ (List.mem_of_getElem? h1)
  simp only [h2, h3, decide_true, Bool.true_and] at this
  exact this trivial

/-- The answer is a change of the collection's indexes. -/
def changes (coll : Bytes) : Answer Bytes → Bool
  | .stored n _ _ => decide (n = coll)
  | .erased n _ => decide (n = coll)
  | _ => false

theorem oneByOne_of {i : Nat} {coll : Bytes} {l : List (Ev Bytes)} {w : World}
    (h : ((List.range l.length).all fun k => match l[k]? with
      | some e => !changes coll ((run demoCodec Idx.demoIC (l.take k) w).2.step demoCodec Idx.demoIC e).1 ||
        (decide (actor (run demoCodec Idx.demoIC (l.take k) w).2 e = some i) && !unsettled (run demoCodec Idx.demoIC (l.take k) w).2 i coll)
      | none => true) = true) : OneByOne demoCodec Idx.demoIC i coll l w := by
  rintro l₁ e l₂ rfl hc
  have := List.all_eq_true.mp h l₁.length (List.mem_range.mpr (by simp))
  simp only [List.getElem?_append_right (Nat.le_refl _), Nat.sub_self, List.getElem?_cons_zero, List.take_left] at this
  have hch : changes coll ((run demoCodec Idx.demoIC l₁ w).2.step demoCodec Idx.demoIC e).1 = true := by
    rcases hc with ⟨iid, d, hc⟩ | ⟨n, hc⟩ <;> rw [hc] <;> exact decide_eq_true rfl
  rw [hch] at this
  simp only [Bool.not_true, Bool.false_or, Bool.and_eq_true, decide_eq_true_eq, Bool.not_eq_true'] at this
  exact ⟨this.1, unsettled_of this.2⟩

def saneDef (d : IndexDef) : Bool :=
  decide ((Memcomparable.encodeBytes [] d.name).length ≤ 60000) && decide ((d.fields.map IndexField.name).Nodup) &&
    (match columnsIndexedKey 0 d.fields with
    | .ok b => decide (b.length < 2 ^ 63)
    | _ => false)

theorem sane_of {d : IndexDef} (h : saneDef d = true) : Sane d plainEnv := by
  simp only [saneDef, Bool.and_eq_true, decide_eq_true_eq] at h
  refine ⟨fun cid => name_short cid _ h.1.1, h.1.2, fun cid b hb => columns_short hb (fun x hx => ?_), fun e => nomatch e⟩
  have := h.2
  rw [hx] at this
  exact of_decide_eq_true this

def reuses (as : List (Answer Bytes)) : Bool := (List.range as.length).any (fun k => match as[k]? with
  | some (.stored coll _ d) => ((catalogue (as.take k) coll).get d.name).isSome
  | _ => false)

theorem noReuse_of {as : List (Answer Bytes)} (h : reuses as = false) : NoReuse as := by
  intro k coll iid d hk
  have := List.any_eq_false.mp h k (List.mem_range.mpr (List.getElem?_eq_some_iff.mp hk).1)
  rw [hk] at this
  simpa using this

set_option maxRecDepth 100000

/-- Two definitions on the same column, and one on two columns. -/
def defA : IndexDef := ⟨[97], [⟨[98], false⟩], false⟩
def defC : IndexDef := ⟨[99], [⟨[98], false⟩], true⟩
def defD : IndexDef := ⟨[100], [⟨[99], true⟩, ⟨[98], false⟩], false⟩

/-- Two processes create an index on the same column of "x" at the same time; the second commits first.  Then the first tries again, in
vain; the second drops its index; and the first tries once more, with a larger one beside. -/
def indexing : List (Ev Bytes) := opening ++
  [.createIndex 0 nameX defA .usual 9 plainEnv (turn 9), .createIndex 1 nameX defC .usual 9 plainEnv (turn 9), .writeIndex 1 none, .writeIndex 0 none,
   .finish 1, .createIndex 0 nameX defA .usual 10 plainEnv (turn 10), .getIndexes 1 nameX,
   .dropIndex 1 nameX [99] .usual (turn 10), .finish 2, .createIndex 0 nameX defA .usual 11 plainEnv (turn 11),
   .createIndex 0 nameX defD .usual 11 plainEnv (turn 11), .writeIndex 3 none, .finish 3, .writeIndex 4 none, .finish 4, .getIndexes 0 nameX,
   .getIndexes 1 nameX, .dropIndex 0 nameX [99] .usual (turn 12)]

theorem modest_of {es : List (Ev Bytes)} (h : ∀ d env, (∃ i name how v c, .createIndex i name d how v env c ∈ es) → env = plainEnv ∧ saneDef d = true) :
    Modest es := by
  intro i name d how v env c hm
  obtain ⟨rfl, h⟩ := h d env ⟨i, name, how, v, c, hm⟩
  exact sane_of h

theorem begins_opening : ∀ env, .begin env ∈ opening → Roomy env := begins opening (by decide)

theorem fair_from {es : List (Ev Bytes)} (hl : es.length < 1000) (hb : ∀ env, .begin env ∈ es → Roomy env)
    (hm : ∀ d env, (∃ i name how v c, .createIndex i name d how v env c ∈ es) → env = plainEnv ∧ saneDef d = true)
    (hr : reuses (answers es) = false) : Fair demoCodec Idx.demoIC OMap.empty es :=
  ⟨blank, ⟨by omega, hb⟩, modest_of hm, noReuse_of hr⟩

theorem fair_indexing : Fair demoCodec Idx.demoIC OMap.empty indexing := by
  refine fair_from (by decide) (begins indexing (by decide)) ?_ (by decide +kernel)
  rintro d env ⟨i, name, how, v, c, hm⟩
  simp only [indexing, opening, List.cons_append, List.nil_append, List.mem_cons, Ev.createIndex.injEq, reduceCtorEq, false_or, or_false,
    List.not_mem_nil] at hm
  rcases hm with ⟨-, -, rfl, -, -, rfl, -⟩ | ⟨-, -, rfl, -, -, rfl, -⟩ | ⟨-, -, rfl, -, -, rfl, -⟩ | ⟨-, -, rfl, -, -, rfl, -⟩ | ⟨-, -, rfl, -, -, rfl, -⟩ <;>
    exact ⟨rfl, by decide +kernel⟩

/-- What a caller of CreateIndex or DropIndex is told, and what GetIndexes lists. -/
inductive Told' where
  | created (r : Res Int64)
  | dropped (r : Res Bool)
  | listed (l : List IndexDef)
  deriving DecidableEq

def tell (es : List (Ev Bytes)) : List Told' := (answers es).filterMap (fun a => match a with
  | .created r => some (.created r)
  | .dropped r => some (.dropped r)
  | .listed l => some (.listed l)
  | _ => none)

/-- One of the two is refused by its commit, later by its look at the columns; GetIndexes lists the fields in the order that they are
stored in; the second process does not see what the first has done. -/
example : tell indexing = [.created (.err .conflict), .created (.ok 51), .created (.err errSameColumns), .listed [defC], .dropped (.ok true),
    .created (.ok 2), .created (.ok 3), .listed [defA, { defD with fields := normFields defD.fields }], .listed [], .dropped (.ok false)] := by
  decide +kernel

example : iidsIn indexing (answers indexing) = [1, 51, 2, 3] := by decide +kernel

def cat (es : List (Ev Bytes)) : List (Bytes × Int64 × IndexDef) := ((catalogue (answers es)) nameX).ents

example : cat (indexing.take 23) = [([99], 51, defC)] ∧ cat (indexing.take 25) = [] ∧ cat indexing = [([97], 2, defA), ([100], 3, defD)] := by
  refine ⟨by decide +kernel, by decide +kernel, by decide +kernel⟩

example : ¬ ((2 : Int64) = 3) ∧ ¬ SameColumns defA.fields defD.fields := by
  have h := C76_one_to_one fair_indexing _ rfl nameX nameX [97] [100] 2 3 defA defD (by decide +kernel) (by decide +kernel)
  exact ⟨fun e => absurd (h.2.2.2.1 e).2 (by decide), fun e => absurd (h.2.2.2.2 rfl e) (by decide)⟩

/-- CreateIndex of `defA` at the same time as `defC`: at the moment of its commit there is no index on the column. -/
example : ¬ (catalogue (answers (indexing.take 28))).Taken nameX defA.fields := by
  have hf : Fair demoCodec Idx.demoIC OMap.empty (indexing.take 28 ++ [.writeIndex 3 none]) :=
    Fair.left (l' := indexing.drop 29) (by rw [List.append_assoc]; exact fair_indexing)
  have ha : ((world (indexing.take 28)).step demoCodec Idx.demoIC (.writeIndex 3 none)).1 = .stored nameX 2 defA := by
    have : (match ((world (indexing.take 28)).step demoCodec Idx.demoIC (.writeIndex 3 none)).1 with
      | .stored a b c => some (a, b, c)
      | _ => none) = some (nameX, 2, defA) := by decide +kernel
    split at this
    · rename_i h; rw [h]; cases this; rfl
    · cases this
  exact (C76_create hf ha _ rfl).1

/-- What `defC`'s caller is told: its number, which its own commit has stored. -/
example : ∃ k : Nat, ∃ f, (indexing.take 21)[k]? = some (Ev.writeIndex 1 f) := by
  have ha : ((world (indexing.take 21)).step demoCodec Idx.demoIC (.finish 1)).1 = .created (.ok 51) := by
    have : (match ((world (indexing.take 21)).step demoCodec Idx.demoIC (.finish 1)).1 with
      | .created r => some r
      | _ => none) = some (.ok 51) := by decide +kernel
    split at this
    · rename_i h; rw [h]; cases this; rfl
    · cases this
  obtain ⟨j, k, i, coll, d, how, v, env, c, f, h⟩ := (C76_calls (Fair.left (l' := indexing.drop 21) fair_indexing) 1).1 51 ha
  exact ⟨k, f, h.2.2.2.2.1⟩

/-- The index that DropIndex has erased was there. -/
example : (catalogue (answers (indexing.take 24)) nameX).get [99] ≠ none := by
  have hf : Fair demoCodec Idx.demoIC OMap.empty (indexing.take 24 ++ [.dropIndex 1 nameX [99] .usual (turn 10)]) :=
    Fair.left (l' := indexing.drop 25) (by rw [List.append_assoc]; exact fair_indexing)
  have ha : ((world (indexing.take 24)).step demoCodec Idx.demoIC (.dropIndex 1 nameX [99] .usual (turn 10))).1 = .erased nameX [99] := by
    have : (match ((world (indexing.take 24)).step demoCodec Idx.demoIC (.dropIndex 1 nameX [99] .usual (turn 10))).1 with
      | .erased a b => some (a, b)
      | _ => none) = some (nameX, [99]) := by decide +kernel
    split at this
    · rename_i h; rw [h]; cases this; rfl
    · cases this
  exact (C76_drop hf ha).1

/-- The refusal of the second attempt, whose snapshot is of the moment after the first one's commit. -/
example : ((world (indexing.take 22)).step demoCodec Idx.demoIC (.createIndex 0 nameX defA .usual 10 plainEnv (turn 10))).1.failed = true := by
  refine (C76_refused (i := 0) (coll := nameX) (d := defA) (how := .usual) (v := 10) (c := turn 10) (l := indexing.take 20) (l' := (indexing.take 22).drop 20) (Fair.left (l' := indexing.drop 22) fair_indexing) (by decide +kernel)
    (sane_of (by decide +kernel)) ⟨[99], 51, defC, by decide +kernel, .inl ⟨rfl, rfl⟩⟩ _ rfl).2.1

/-- DropIndex of an index that is gone. -/
example : (catalogue (answers (indexing.take 30)) nameX).get [99] = none := by
  refine (C76_absent (l := indexing.take 30) (l' := (indexing.take 34).drop 30) (i := 0) (how := .usual) (c := turn 12) (Fair.left (l' := indexing.drop 34) fair_indexing) (by decide +kernel)
    _ rfl).1 ?_
  have : (match ((world (indexing.take 34)).step demoCodec Idx.demoIC (.dropIndex 0 nameX [99] .usual (turn 12))).1 with
      | .dropped r => some r
      | _ => none) = some (.ok false) := by decide +kernel
  split at this
  · rename_i h; exact h.trans (by cases this; rfl)
  · cases this

/-- Between the calls of one object, the only one that changes the indexes, it knows them. -/
def alone : List (Ev Bytes) :=
  [.createIndex 0 nameX defA .usual 9 plainEnv (turn 9), .writeIndex 0 none, .finish 0, .createIndex 0 nameX defD .usual 10 plainEnv (turn 10),
   .writeIndex 1 none, .finish 1, .dropIndex 0 nameX [97] .usual (turn 11), .finish 2]

def before : List (Ev Bytes) := opening.take 9

theorem fair_alone : Fair demoCodec Idx.demoIC OMap.empty (before ++ .indexes 0 plainEnv :: (opening.drop 10 ++ alone)) := by
  refine fair_from (by decide) (begins _ (by decide)) ?_ (by decide +kernel)
  rintro d env ⟨i, name, how, v, c, hm⟩
  simp only [before, opening, alone, List.take, List.drop, List.cons_append, List.nil_append, List.mem_cons, Ev.createIndex.injEq, reduceCtorEq,
    false_or, or_false, List.not_mem_nil] at hm
  rcases hm with ⟨-, -, rfl, -, -, rfl, -⟩ | ⟨-, -, rfl, -, -, rfl, -⟩ <;> exact ⟨rfl, by decide +kernel⟩

def isCounted : Option Obj → Bool
  | some o => match o.making with
    | some (.counted n _ _) => decide (n = nameX)
    | _ => false
  | none => false

theorem counted_of {o : Option Obj} (h : isCounted o = true) : ∃ o' cid p, o = some o' ∧ o'.making = some (.counted nameX cid p) := by
  cases o with
  | none => cases h
  | some o =>
    simp only [isCounted] at h
    split at h
    · rename_i h'; obtain rfl := of_decide_eq_true h; exact ⟨o, _, _, rfl, h'⟩
    · cases h

def later : List (Ev Bytes) := opening.take 10 ++
  [.createIndex 0 nameX defA .usual 6 plainEnv (turn 6), .writeIndex 0 none, .finish 0, .lookup 1 nameX .usual 7 plainEnv (turn 7), .sequence 1 (turn 7)]

theorem fair_later : Fair demoCodec Idx.demoIC OMap.empty later := by
  refine fair_from (by decide) (begins _ (by decide)) ?_ (by decide +kernel)
  rintro d env ⟨i, name, how, v, c, hm⟩
  simp only [later, opening, List.take, List.cons_append, List.nil_append, List.mem_cons, Ev.createIndex.injEq, reduceCtorEq,
    false_or, or_false, List.not_mem_nil] at hm
  obtain ⟨-, -, rfl, -, -, rfl, -⟩ := hm
  exact ⟨rfl, by decide +kernel⟩

/-- When the object is made it knows that there are no indexes, and after the three calls it knows the one. -/
example : ∃ ds, ((world (before ++ .indexes 0 plainEnv :: (opening.drop 10 ++ alone))).step demoCodec Idx.demoIC (.getIndexes 0 nameX)).1 = .listed ds ∧
    Lists ds (catalogue (answers (before ++ .indexes 0 plainEnv :: (opening.drop 10 ++ alone)))) nameX := by
  obtain ⟨o, _, _, ho, hm⟩ := counted_of (o := (world before).obj 0) (by decide +kernel)
  exact C76_listed fair_alone ho hm (oneByOne_of (by decide +kernel)) _ rfl (unsettled_of (by decide +kernel))
    (fun e => absurd (congrArg Option.isSome e) (by decide +kernel))

example : cat (before ++ .indexes 0 plainEnv :: (opening.drop 10 ++ alone)) = [([100], 2, defD)] := by decide +kernel

/-- The second process opens "x" after an index was made. -/
example : ∃ ds, (run demoCodec Idx.demoIC [.indexes 1 plainEnv, .getIndexes 1 nameX] (world later)).1 = [.handle (.ok ()), .listed ds] ∧
    Lists ds (catalogue (answers later)) nameX ∧ cat later = [([97], 1, defA)] := by
  obtain ⟨o, _, _, ho, hm⟩ := counted_of (o := (world later).obj 1) (by decide +kernel)
  obtain ⟨ds, h1, h2, -⟩ := C76_opened fair_later plainEnv ho hm
  exact ⟨ds, h1, h2, by decide +kernel⟩

/-- CreateIndex and DropIndex on one object at the same time: the index is created, then dropped, but DropIndex is the first to get the
lock; GetIndexes goes on listing the index.  `OneByOne` cannot be left out of C76_listed. -/
def crossing : List (Ev Bytes) := opening ++
  [.createIndex 0 nameX defA .usual 9 plainEnv (turn 9), .writeIndex 0 none, .dropIndex 0 nameX [97] .usual (turn 10), .finish 1, .finish 0,
   .getIndexes 0 nameX]

example : tell crossing = [.dropped (.ok true), .created (.ok 1), .listed [defA]] ∧ cat crossing = [] := by
  refine ⟨by decide +kernel, by decide +kernel⟩

end Mondis.DocDB
