import Verif.Lemmas.Frame
import Verif.Lemmas.StructStep
/-!
# What the structure operations may write, in any state and whatever fails
-/
namespace Mondis.Structure
open Mondis.Memcomparable Mondis.Prog Mondis.Spec

/-- The stored keys of the structure an operation is about. -/
def Own (pfx : Bytes) : SOp → Bytes → Prop
  | .set k _ | .get k | .clear k | .getInt k | .setInt k _ | .inc k _ => SKey pfx k
  | .hset k _ _ | .hget k _ | .hinc k _ _ | .hgetInt k _ | .hsetInt k _ _ | .hlen k | .hdel k _
  | .hkeys k | .hgetN k _ | .hgetAll k | .hgetNDesc k _ | .hclear k => HKey pfx k
  | .lpush k _ | .rpush k _ | .lpop k | .rpop k | .llen k | .lgetAll k | .lindex k _ | .lset k _ _
  | .lclear k => LKey pfx k

theorem loadHashMeta_writes {P : Bytes → Prop} (k : Bytes) : (loadHashMeta k).Writes P := by
  unfold loadHashMeta
  refine (writes_getOpt _).bind (fun o => ?_)
  cases o with
  | none => trivial
  | some v => exact (writes_ofRes _).bind (fun _ => trivial)

theorem loadListMeta_writes {P : Bytes → Prop} (k : Bytes) : (loadListMeta k).Writes P := by
  unfold loadListMeta
  refine (writes_getOpt _).bind (fun o => ?_)
  cases o with
  | none => trivial
  | some v =>
    simp only
    split
    · trivial
    · exact (writes_ofRes _).bind (fun _ => (writes_ofRes _).bind (fun _ => trivial))

theorem updateHash_writes {β : Type} (pfx key f : Bytes) (fn : Option Bytes → Res (Bytes × β)) :
    (updateHash pfx key f fn).Writes (HKey pfx key) := by
  unfold updateHash
  refine (writes_getOpt _).bind (fun o => ?_)
  refine (writes_ofRes _).bind (fun b => ?_)
  simp only
  split
  · trivial
  · refine (writes_setK _ (.inr ⟨_, rfl⟩)).bind (fun _ => ?_)
    split
    · trivial
    · refine (loadHashMeta_writes _).bind (fun _ => ?_)
      exact (writes_setK _ (.inl rfl)).bind (fun _ => trivial)

theorem iterateHash_writes {P : Bytes → Prop} (pfx key : Bytes) (l : Option Nat) :
    (iterateHash pfx key l).Writes P :=
  (writes_scanK _).bind (fun _ => writes_ofRes _)

theorem iterateReverseHash_writes {P : Bytes → Prop} (pfx key : Bytes) (l : Option Nat) :
    (iterateReverseHash pfx key l).Writes P :=
  (writes_scanK _).bind (fun _ => writes_ofRes _)

theorem hdelLoop_writes (pfx key : Bytes) (fs : List Bytes) (c : Int64) :
    (hdelLoop pfx key fs c).Writes (HKey pfx key) := by
  induction fs generalizing c with
  | nil => trivial
  | cons f fs ih =>
    unfold hdelLoop
    refine (writes_getOpt _).bind (fun o => ?_)
    cases o with
    | none => exact ih c
    | some v => exact (writes_delK (.inr ⟨_, rfl⟩)).bind (fun _ => ih _)

theorem hdel_writes (pfx key : Bytes) (fs : List Bytes) :
    (hdel pfx key fs).Writes (HKey pfx key) := by
  unfold hdel
  refine (loadHashMeta_writes _).bind (fun o => ?_)
  cases o with
  | none => trivial
  | some c =>
    refine (hdelLoop_writes _ _ _ _).bind (fun c => ?_)
    split
    · exact writes_delK (.inl rfl)
    · exact writes_setK _ (.inl rfl)

theorem hclearLoop_writes (pfx key dp : Bytes) (st : Option Err) (l : List (Bytes × Val)) :
    (hclearLoop pfx key dp st l).Writes (HKey pfx key) := by
  induction l generalizing st with
  | nil => cases st <;> trivial
  | cons a l ih =>
    obtain ⟨k, v⟩ := a
    unfold hclearLoop
    split
    · cases st <;> trivial
    · split
      · trivial
      · trivial
      · exact (writes_delK (.inr ⟨_, rfl⟩)).bind (fun _ => ih _)

theorem hclearRest_writes (pfx key : Bytes) (st : Option Err) : (hclearRest pfx key st).Writes (HKey pfx key) :=
  (writes_scanK _).bind (fun _ => (hclearLoop_writes _ _ _ _ _).bind (fun _ => writes_delK (.inl rfl)))

theorem hclear_writes (pfx key : Bytes) : (hclear pfx key).Writes (HKey pfx key) := by
  unfold hclear
  refine (loadHashMeta_writes _).andThen (fun r => ?_)
  split
  · trivial
  · exact hclearRest_writes _ _ _
  · exact hclearRest_writes _ _ _
  · trivial

theorem listPushLoop_writes (pfx key : Bytes) (left : Bool) (vs : List Bytes) (m : ListMetaData) :
    (listPushLoop pfx key left vs m).Writes (LKey pfx key) := by
  induction vs generalizing m with
  | nil => trivial
  | cons v vs ih =>
    unfold listPushLoop
    exact (writes_setK _ (.inr ⟨_, rfl⟩)).bind (fun _ => ih _)

theorem listPush_writes (pfx key : Bytes) (left : Bool) (vs : List Bytes) :
    (listPush pfx key left vs).Writes (LKey pfx key) := by
  unfold listPush
  split
  · trivial
  · refine (loadListMeta_writes _).bind (fun o => ?_)
    exact (listPushLoop_writes _ _ _ _ _).bind (fun _ => writes_setK _ (.inl rfl))

theorem listPop_writes (pfx key : Bytes) (left : Bool) :
    (listPop pfx key left).Writes (LKey pfx key) := by
  unfold listPop
  refine (loadListMeta_writes _).bind (fun o => ?_)
  cases o with
  | none => trivial
  | some m =>
    refine (writes_getK _).bind (fun v => (writes_delK (.inr ⟨_, rfl⟩)).bind (fun _ => ?_))
    simp only
    split <;> split
    all_goals first
      | exact Writes.bind (P := LKey pfx key) (writes_setK _ (.inl rfl)) (fun _ => writes_pure _)
      | exact Writes.bind (P := LKey pfx key) (writes_delK (.inl rfl)) (fun _ => writes_pure _)

theorem lgetAllLoop_writes {P : Bytes → Prop} (pfx key : Bytes) (n : Nat) (i : Int64) :
    (lgetAllLoop pfx key n i).Writes P := by
  induction n generalizing i with
  | zero => trivial
  | succ n ih =>
    unfold lgetAllLoop
    exact (writes_getK _).bind (fun v => (ih _).bind (fun _ => trivial))

theorem lclearLoop_writes (pfx key : Bytes) (n : Nat) (i : Int64) :
    (lclearLoop pfx key n i).Writes (LKey pfx key) := by
  induction n generalizing i with
  | zero => trivial
  | succ n ih =>
    unfold lclearLoop
    exact (writes_delK (.inr ⟨_, rfl⟩)).bind (fun _ => ih _)

theorem mapOut_writes {α : Type} {P : Bytes → Prop} {f : α → Out} {p : Prog α} (h : p.Writes P) :
    (mapOut f p).Writes P := h.bind (fun _ => trivial)

/-- Every operation writes only keys of its own structure. -/
theorem exec_writes (pfx : Bytes) (op : SOp) : (exec pfx op).Writes (Own pfx op) := by
  cases op with
  | set k v => exact mapOut_writes (writes_setK _ rfl)
  | get k => exact mapOut_writes ((writes_getK _).bind (fun _ => trivial))
  | clear k => exact mapOut_writes (writes_delK rfl)
  | getInt k => exact mapOut_writes ((writes_getK _).bind (fun _ => trivial))
  | setInt k v => exact mapOut_writes (writes_setK _ rfl)
  | inc k s =>
    apply mapOut_writes
    unfold strInc KV.incInt64
    refine (writes_getOpt _).bind (fun o => ?_)
    cases o with
    | none => exact Writes.bind (P := SKey pfx k) (writes_setK _ rfl) (fun _ => writes_pure _)
    | some v =>
      refine Writes.bind (writes_ofRes _) (fun _ => ?_)
      exact Writes.bind (P := SKey pfx k) (writes_setK _ rfl) (fun _ => writes_pure _)
  | hset k f v => exact mapOut_writes (updateHash_writes _ _ _ _)
  | hget k f => exact mapOut_writes ((writes_getK _).bind (fun _ => trivial))
  | hinc k f s => exact mapOut_writes (updateHash_writes _ _ _ _)
  | hgetInt k f =>
    exact mapOut_writes (((writes_getK _).bind (fun _ => writes_pure _)).bind
      (fun _ => writes_ofRes _))
  | hsetInt k f v =>
    apply mapOut_writes
    exact updateHash_writes pfx k f (fun _ => .ok (Numeric.encode2Human v, ()))
  | hlen k => exact mapOut_writes ((loadHashMeta_writes _).bind (fun _ => trivial))
  | hdel k fs => exact mapOut_writes (hdel_writes _ _ _)
  | hkeys k => exact mapOut_writes ((iterateHash_writes _ _ _).bind (fun _ => trivial))
  | hgetN k n =>
    apply mapOut_writes
    unfold hgetN
    split
    · trivial
    · exact iterateHash_writes _ _ _
  | hgetAll k => exact mapOut_writes (iterateHash_writes _ _ _)
  | hgetNDesc k n =>
    apply mapOut_writes
    unfold hgetNDesc
    split
    · trivial
    · exact iterateReverseHash_writes _ _ _
  | hclear k => exact mapOut_writes (hclear_writes _ _)
  | lpush k vs => exact mapOut_writes (listPush_writes _ _ _ _)
  | rpush k vs => exact mapOut_writes (listPush_writes _ _ _ _)
  | lpop k => exact mapOut_writes (listPop_writes _ _ _)
  | rpop k => exact mapOut_writes (listPop_writes _ _ _)
  | llen k =>
    apply mapOut_writes
    refine (loadListMeta_writes _).bind (fun o => ?_)
    cases o <;> trivial
  | lgetAll k =>
    apply mapOut_writes
    refine (loadListMeta_writes _).bind (fun o => ?_)
    cases o with
    | none => trivial
    | some m =>
      simp only
      split
      · trivial
      · exact lgetAllLoop_writes _ _ _ _
  | lindex k i =>
    apply mapOut_writes
    refine (loadListMeta_writes _).bind (fun o => ?_)
    cases o with
    | none => trivial
    | some m =>
      simp only
      split
      · exact (writes_getK _).bind (fun _ => trivial)
      · trivial
  | lset k i v =>
    apply mapOut_writes
    refine (loadListMeta_writes _).bind (fun o => ?_)
    cases o with
    | none => trivial
    | some m =>
      simp only
      split
      · exact writes_setK _ (.inr ⟨_, rfl⟩)
      · trivial
  | lclear k =>
    apply mapOut_writes
    refine (loadListMeta_writes _).bind (fun o => ?_)
    cases o with
    | none => trivial
    | some m => exact (lclearLoop_writes _ _ _ _).bind (fun _ => writes_delK (.inl rfl))

/-- All these keys start with the prefix, followed by the encoded user key. -/
theorem Own.prefix {pfx : Bytes} {op : SOp} {k : Bytes} (h : Own pfx op k) :
    ∃ rest, k = pfx ++ (encodeGroups op.key ++ rest) := by
  have : Kind pfx op.key k := by
    cases op <;> first
      | exact .inl h
      | (rcases h with h | ⟨f, h⟩
         · exact .inr (.inl h)
         · exact .inr (.inr (.inl ⟨f, h⟩)))
      | (rcases h with h | ⟨f, h⟩
         · exact .inr (.inr (.inr (.inl h)))
         · exact .inr (.inr (.inr (.inr ⟨f, h⟩))))
  obtain ⟨flag, t, rfl⟩ := this.eq
  exact ⟨flag :: t, rfl⟩

end Mondis.Structure
