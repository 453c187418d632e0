import Verif.Lemmas.StructFrame
/-!
# What the structure operations may look up, in any state and whatever fails
-/
namespace Mondis
open Spec

namespace Prog

/-- Every key the program looks up, on every path, is in `P`. -/
def Gets {α : Type} (P : Bytes → Prop) : Prog α → Prop
  | done _ => True
  | get k c => P k ∧ ∀ r, (c r).Gets P
  | set _ _ _ c => ∀ r, (c r).Gets P
  | del _ c => ∀ r, (c r).Gets P
  | scan _ c => ∀ r, (c r).Gets P

theorem Gets.mono {α : Type} {P P' : Bytes → Prop} (h : ∀ k, P k → P' k) {p : Prog α} (hp : p.Gets P) : p.Gets P' := by
  induction p with
  | done r => trivial
  | get k c ih => exact ⟨h _ hp.1, fun r => ih r (hp.2 r)⟩
  | set k v m c ih => exact fun r => ih r (hp r)
  | del k c ih => exact fun r => ih r (hp r)
  | scan o c ih => exact fun r => ih r (hp r)

theorem Gets.andThen {α β : Type} {P : Bytes → Prop} {p : Prog α} {f : Res α → Prog β}
    (hp : p.Gets P) (hf : ∀ r, (f r).Gets P) : (p.andThen f).Gets P := by
  induction p with
  | done r => exact hf r
  | get k c ih => exact ⟨hp.1, fun r => ih r (hp.2 r)⟩
  | set k v m c ih => exact fun r => ih r (hp r)
  | del k c ih => exact fun r => ih r (hp r)
  | scan o c ih => exact fun r => ih r (hp r)

theorem Gets.bind {α β : Type} {P : Bytes → Prop} {p : Prog α} {f : α → Prog β}
    (hp : p.Gets P) (hf : ∀ a, (f a).Gets P) : (p >>= f).Gets P := by
  apply Gets.andThen hp
  intro r; cases r with
  | ok a => exact hf a
  | err e => trivial
  | panic => trivial

theorem gets_pure {α : Type} {P : Bytes → Prop} (a : α) : (pure a : Prog α).Gets P := trivial
theorem gets_ofRes {α : Type} {P : Bytes → Prop} (r : Res α) : (ofRes r : Prog α).Gets P := trivial
theorem gets_getK {P : Bytes → Prop} {k : Bytes} (h : P k) : (getK k).Gets P := ⟨h, fun _ => trivial⟩
theorem gets_getOpt {P : Bytes → Prop} {k : Bytes} (h : P k) : (getOpt k).Gets P := by
  refine ⟨h, fun r => ?_⟩
  cases r with
  | ok v => trivial
  | panic => trivial
  | err e => cases e <;> trivial
theorem gets_scanK {P : Bytes → Prop} (o : ScanOption) : (scanK o).Gets P := fun _ => trivial
theorem gets_setK {P : Bytes → Prop} (k v : Bytes) : (setK k v).Gets P := fun _ => trivial
theorem gets_delK {P : Bytes → Prop} (k : Bytes) : (delK k).Gets P := fun _ => trivial

/-- A run looks up keys in `P` only. -/
theorem run_gets {α : Type} {P : Bytes → Prop} {p : Prog α} (hp : p.Gets P) (t : Txn) :
    ∀ k ∈ (p.run t).2.reads, k ∈ t.reads ∨ P k := by
  induction p generalizing t with
  | done r => exact fun k hk => .inl hk
  | get k c ih =>
    intro j hj
    rcases ih (t.get k).1 (hp.2 _) (t.get k).2 j hj with h | h
    · have : (t.get k).2.reads = t.reads ∨ (t.get k).2.reads = k :: t.reads := by
        unfold Txn.get
        split
        · exact .inl rfl
        · dsimp only
          by_cases hm : k ∈ t.writes.map Prod.fst
          · rw [if_pos hm]
            left
            split
            · split <;> rfl
            · rfl
          · rw [if_neg hm]
            right
            split
            · split <;> rfl
            · rfl
      rcases this with e | e <;> rw [e] at h
      · exact .inl h
      · rcases List.mem_cons.mp h with rfl | h
        · exact .inr hp.1
        · exact .inl h
    · exact .inr h
  | set k v m c ih =>
    intro j hj
    have e : (t.set k v m).2.reads = t.reads := by
      unfold Txn.set Txn.modify
      repeat' split
      all_goals rfl
    rcases ih (t.set k v m).1 (hp _) (t.set k v m).2 j hj with h | h
    · exact .inl (e ▸ h)
    · exact .inr h
  | del k c ih =>
    intro j hj
    have e : (t.delete k).2.reads = t.reads := by
      unfold Txn.delete Txn.modify
      repeat' split
      all_goals rfl
    rcases ih (t.delete k).1 (hp _) (t.delete k).2 j hj with h | h
    · exact .inl (e ▸ h)
    · exact .inr h
  | scan o c ih => exact fun j hj => ih (t.scan o) (hp _) t j hj

end Prog

namespace Structure
open Mondis.Memcomparable Mondis.Prog Mondis.Spec

/-- A key of the structure at hand. -/
macro "own" : tactic => `(tactic| first | exact rfl | exact .inl rfl | exact .inr ⟨_, rfl⟩ | assumption)

theorem loadHashMeta_gets {P : Bytes → Prop} {k : Bytes} (h : P k) : (loadHashMeta k).Gets P := by
  unfold loadHashMeta
  refine (gets_getOpt (by own)).bind (fun o => ?_)
  cases o with
  | none => trivial
  | some v => exact (gets_ofRes _).bind (fun _ => trivial)

theorem loadListMeta_gets {P : Bytes → Prop} {k : Bytes} (h : P k) : (loadListMeta k).Gets P := by
  unfold loadListMeta
  refine (gets_getOpt (by own)).bind (fun o => ?_)
  cases o with
  | none => trivial
  | some v =>
    simp only
    split
    · trivial
    · exact (gets_ofRes _).bind (fun _ => (gets_ofRes _).bind (fun _ => trivial))

theorem updateHash_gets {β : Type} (pfx key f : Bytes) (fn : Option Bytes → Res (Bytes × β)) :
    (updateHash pfx key f fn).Gets (HKey pfx key) := by
  unfold updateHash
  refine (gets_getOpt (by own)).bind (fun o => ?_)
  refine (gets_ofRes _).bind (fun b => ?_)
  simp only
  split
  · trivial
  · refine (gets_setK _ _).bind (fun _ => ?_)
    split
    · trivial
    · refine (loadHashMeta_gets (by own)).bind (fun _ => ?_)
      exact (gets_setK _ _).bind (fun _ => trivial)

theorem iterateHash_gets {P : Bytes → Prop} (pfx key : Bytes) (l : Option Nat) :
    (iterateHash pfx key l).Gets P :=
  (gets_scanK _).bind (fun _ => gets_ofRes _)

theorem iterateReverseHash_gets {P : Bytes → Prop} (pfx key : Bytes) (l : Option Nat) :
    (iterateReverseHash pfx key l).Gets P :=
  (gets_scanK _).bind (fun _ => gets_ofRes _)

theorem hdelLoop_gets (pfx key : Bytes) (fs : List Bytes) (c : Int64) :
    (hdelLoop pfx key fs c).Gets (HKey pfx key) := by
  induction fs generalizing c with
  | nil => trivial
  | cons f fs ih =>
    unfold hdelLoop
    refine (gets_getOpt (by own)).bind (fun o => ?_)
    cases o with
    | none => exact ih c
    | some v => exact (gets_delK _).bind (fun _ => ih _)

theorem hdel_gets (pfx key : Bytes) (fs : List Bytes) :
    (hdel pfx key fs).Gets (HKey pfx key) := by
  unfold hdel
  refine (loadHashMeta_gets (by own)).bind (fun o => ?_)
  cases o with
  | none => trivial
  | some c =>
    refine (hdelLoop_gets _ _ _ _).bind (fun c => ?_)
    split
    · exact gets_delK _
    · exact gets_setK _ _

theorem hclearLoop_gets (pfx key dp : Bytes) (st : Option Err) (l : List (Bytes × Val)) :
    (hclearLoop pfx key dp st l).Gets (HKey pfx key) := by
  induction l generalizing st with
  | nil => cases st <;> trivial
  | cons a l ih =>
    obtain ⟨k, v⟩ := a
    unfold hclearLoop
    split
    · cases st <;> trivial
    · split
      · trivial
      · trivial
      · exact (gets_delK _).bind (fun _ => ih _)

theorem hclearRest_gets (pfx key : Bytes) (st : Option Err) : (hclearRest pfx key st).Gets (HKey pfx key) :=
  (gets_scanK _).bind (fun _ => (hclearLoop_gets _ _ _ _ _).bind (fun _ => gets_delK _))

theorem hclear_gets (pfx key : Bytes) : (hclear pfx key).Gets (HKey pfx key) := by
  unfold hclear
  refine (loadHashMeta_gets (by own)).andThen (fun r => ?_)
  split
  · trivial
  · exact hclearRest_gets _ _ _
  · exact hclearRest_gets _ _ _
  · trivial

theorem listPushLoop_gets (pfx key : Bytes) (left : Bool) (vs : List Bytes) (m : ListMetaData) :
    (listPushLoop pfx key left vs m).Gets (LKey pfx key) := by
  induction vs generalizing m with
  | nil => trivial
  | cons v vs ih =>
    unfold listPushLoop
    exact (gets_setK _ _).bind (fun _ => ih _)

theorem listPush_gets (pfx key : Bytes) (left : Bool) (vs : List Bytes) :
    (listPush pfx key left vs).Gets (LKey pfx key) := by
  unfold listPush
  split
  · trivial
  · refine (loadListMeta_gets (by own)).bind (fun o => ?_)
    exact (listPushLoop_gets _ _ _ _ _).bind (fun _ => gets_setK _ _)

theorem listPop_gets (pfx key : Bytes) (left : Bool) :
    (listPop pfx key left).Gets (LKey pfx key) := by
  unfold listPop
  refine (loadListMeta_gets (by own)).bind (fun o => ?_)
  cases o with
  | none => trivial
  | some m =>
    refine (gets_getK (by own)).bind (fun v => (gets_delK _).bind (fun _ => ?_))
    simp only
    split <;> split
    all_goals first
      | exact Gets.bind (P := LKey pfx key) (gets_setK _ _) (fun _ => gets_pure _)
      | exact Gets.bind (P := LKey pfx key) (gets_delK _) (fun _ => gets_pure _)

theorem lgetAllLoop_gets (pfx key : Bytes) (n : Nat) (i : Int64) :
    (lgetAllLoop pfx key n i).Gets (LKey pfx key) := by
  induction n generalizing i with
  | zero => trivial
  | succ n ih =>
    unfold lgetAllLoop
    exact (gets_getK (by own)).bind (fun v => (ih _).bind (fun _ => trivial))

theorem lclearLoop_gets (pfx key : Bytes) (n : Nat) (i : Int64) :
    (lclearLoop pfx key n i).Gets (LKey pfx key) := by
  induction n generalizing i with
  | zero => trivial
  | succ n ih =>
    unfold lclearLoop
    exact (gets_delK _).bind (fun _ => ih _)

theorem mapOut_gets {α : Type} {P : Bytes → Prop} {f : α → Out} {p : Prog α} (h : p.Gets P) :
    (mapOut f p).Gets P := h.bind (fun _ => trivial)

/-- Every operation looks up only keys of its own structure. -/
theorem exec_gets (pfx : Bytes) (op : SOp) : (exec pfx op).Gets (Own pfx op) := by
  cases op with
  | set k v => exact mapOut_gets (gets_setK _ _)
  | get k => exact mapOut_gets ((gets_getK (by own)).bind (fun _ => trivial))
  | clear k => exact mapOut_gets (gets_delK _)
  | getInt k => exact mapOut_gets ((gets_getK (by own)).bind (fun _ => trivial))
  | setInt k v => exact mapOut_gets (gets_setK _ _)
  | inc k s =>
    apply mapOut_gets
    unfold strInc KV.incInt64
    refine (gets_getOpt (by own)).bind (fun o => ?_)
    cases o with
    | none => exact Gets.bind (P := SKey pfx k) (gets_setK _ _) (fun _ => gets_pure _)
    | some v =>
      refine Gets.bind (gets_ofRes _) (fun _ => ?_)
      exact Gets.bind (P := SKey pfx k) (gets_setK _ _) (fun _ => gets_pure _)
  | hset k f v => exact mapOut_gets (updateHash_gets _ _ _ _)
  | hget k f => exact mapOut_gets ((gets_getK (by own)).bind (fun _ => trivial))
  | hinc k f s => exact mapOut_gets (updateHash_gets _ _ _ _)
  | hgetInt k f =>
    exact mapOut_gets (((gets_getK (by own)).bind (fun _ => gets_pure _)).bind
      (fun _ => gets_ofRes _))
  | hsetInt k f v =>
    apply mapOut_gets
    exact updateHash_gets pfx k f (fun _ => .ok (Numeric.encode2Human v, ()))
  | hlen k => exact mapOut_gets ((loadHashMeta_gets (by own)).bind (fun _ => trivial))
  | hdel k fs => exact mapOut_gets (hdel_gets _ _ _)
  | hkeys k => exact mapOut_gets ((iterateHash_gets _ _ _).bind (fun _ => trivial))
  | hgetN k n =>
    apply mapOut_gets
    unfold hgetN
    split
    · trivial
    · exact iterateHash_gets _ _ _
  | hgetAll k => exact mapOut_gets (iterateHash_gets _ _ _)
  | hgetNDesc k n =>
    apply mapOut_gets
    unfold hgetNDesc
    split
    · trivial
    · exact iterateReverseHash_gets _ _ _
  | hclear k => exact mapOut_gets (hclear_gets _ _)
  | lpush k vs => exact mapOut_gets (listPush_gets _ _ _ _)
  | rpush k vs => exact mapOut_gets (listPush_gets _ _ _ _)
  | lpop k => exact mapOut_gets (listPop_gets _ _ _)
  | rpop k => exact mapOut_gets (listPop_gets _ _ _)
  | llen k =>
    apply mapOut_gets
    refine (loadListMeta_gets (by own)).bind (fun o => ?_)
    cases o <;> trivial
  | lgetAll k =>
    apply mapOut_gets
    refine (loadListMeta_gets (by own)).bind (fun o => ?_)
    cases o with
    | none => trivial
    | some m =>
      simp only
      split
      · trivial
      · exact lgetAllLoop_gets _ _ _ _
  | lindex k i =>
    apply mapOut_gets
    refine (loadListMeta_gets (by own)).bind (fun o => ?_)
    cases o with
    | none => trivial
    | some m =>
      simp only
      split
      · exact (gets_getK (by own)).bind (fun _ => trivial)
      · trivial
  | lset k i v =>
    apply mapOut_gets
    refine (loadListMeta_gets (by own)).bind (fun o => ?_)
    cases o with
    | none => trivial
    | some m =>
      simp only
      split
      · exact gets_setK _ _
      · trivial
  | lclear k =>
    apply mapOut_gets
    refine (loadListMeta_gets (by own)).bind (fun o => ?_)
    cases o with
    | none => trivial
    | some m => exact (lclearLoop_gets _ _ _ _).bind (fun _ => gets_delK _)

end Structure

end Mondis
