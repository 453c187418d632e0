import Verif.Lemmas.DocDBIndex
import Verif.Lemmas.DocDBClosed
/-!
# Package document: what the objects remember of the indexes
-/
namespace Mondis.DocDB
open Mondis Prog Doc Spec Props

variable {D : Type} {C : Codec D} {IC : IndexCodec} {w w' : World} {i : Nat}

/-- The collection that Collection is at. -/
def naming : Option Making → Option Bytes
  | some (.drawn name ..) | some (.known name _) | some (.counted name ..) => some name
  | _ => none

/-- What a call notes in the object at its end. -/
def effect : Stage → Option (OMap IndexDef → OMap IndexDef)
  | .writing .. => none
  | .storing _ d => some (fun m => m.set d.name { d with fields := normFields d.fields })
  | .erasing n => some (fun m => m.del n)

/-- How an event changes an object. -/
inductive Became (IC : IndexCodec) (w : World) (i : Nat) (e : Ev D) (o o' : Obj) : Prop where
  | same : o'.colls = o.colls → (∀ name, naming o'.making = some name → naming o.making = some name ∨ o.colls.get name = none) →
      Became IC w i e o o'
  | opened (env : Env) (name : Bytes) (cid : Int64) (p : Nat) (ds : List IndexDef) : e = .indexes i env → o.making = some (.counted name cid p) →
      o'.making = none → (Util.body env false (getIndexes IC cid) w.store.db).1 = .ok ds → o'.colls = o.colls.set name ⟨cid, p, memOf ds⟩ →
      Became IC w i e o o'
  | noted (p : Nat) (name : Bytes) (st : Stage) (f : OMap IndexDef → OMap IndexDef) (cl : Coll) : e = .finish p →
      w.pending[p]? = some (some ⟨i, name, st⟩) → effect st = some f → o.colls.get name = some cl → o'.making = o.making →
      o'.colls = o.colls.set name { cl with indexMap := f cl.indexMap } → Became IC w i e o o'

/-- An object is new, or comes from one that was there; those that were there still are. -/
structure Came (IC : IndexCodec) (w : World) (e : Ev D) (w' : World) : Prop where
  back : ∀ i o', w'.obj i = some o' → (i = w.objs.length ∧ o'.colls = OMap.empty ∧ o'.making = none) ∨ ∃ o, w.obj i = some o ∧ Became IC w i e o o'
  fwd : ∀ i o, w.obj i = some o → e ≠ .crash i → ∃ o', w'.obj i = some o'
  len : w.objs.length ≤ w'.objs.length

theorem Became.refl (IC : IndexCodec) (w : World) (i : Nat) (e : Ev D) (o : Obj) : Became IC w i e o o := .same rfl (fun _ h => .inl h)

theorem Came.of {e : Ev D} (h : w'.objs = w.objs) : Came IC w e w' := by
  have h1 : ∀ i, w'.obj i = w.obj i := fun i => by unfold World.obj; rw [h]
  refine ⟨fun i o' ho => ?_, fun i o ho _ => ?_, by rw [h]; exact Nat.le_refl _⟩
  · rw [h1] at ho
    exact .inr ⟨o', ho, .refl ..⟩
  · exact ⟨o, by rw [h1]; exact ho⟩

theorem Came.putObj {e : Ev D} (h : w'.objs = w.objs) {j : Nat} {o o₂ : Obj} (ho : w.obj j = some o) (hb : Became IC w j e o o₂) :
    Came IC w e (w'.putObj j o₂) := by
  refine ⟨fun i o' ho' => ?_, fun i o₁ ho₁ _ => ?_, by show _ ≤ (w'.objs.set j (some o₂)).length; rw [List.length_set, h]; exact Nat.le_refl _⟩
  · have : ((w'.objs.set j (some o₂))[i]?).join = some o' := ho'
    by_cases hij : i = j
    · subst hij
      rw [List.getElem?_set, if_pos rfl] at this
      split at this
      · cases this; exact .inr ⟨o, ho, hb⟩
      · cases this
    · rw [join_set _ _ _ _ hij, h] at this
      exact .inr ⟨o', this, .refl ..⟩
  · show ∃ o', ((w'.objs.set j (some o₂))[i]?).join = some o'
    by_cases hij : i = j
    · subst hij
      have hlt : i < w.objs.length := by
        unfold World.obj at ho
        cases hx : w.objs[i]? with
        | none => rw [hx] at ho; cases ho
        | some y => exact (List.getElem?_eq_some_iff.mp hx).1
      rw [List.getElem?_set, if_pos rfl, if_pos (by rw [h]; exact hlt)]
      exact ⟨o₂, rfl⟩
    · rw [join_set _ _ _ _ hij, h]
      exact ⟨o₁, ho₁⟩

theorem Came.remember {p j : Nat} {name : Bytes} {st : Stage} {f : OMap IndexDef → OMap IndexDef} (h : w'.objs = w.objs)
    (hp : w.pending[p]? = some (some ⟨j, name, st⟩)) (hf : effect st = some f) : Came IC w (.finish (D := D) p) (w'.remember j name f) := by
  unfold World.remember
  have e1 : w'.obj j = w.obj j := by unfold World.obj; rw [h]
  rw [e1]
  split
  · exact .of h
  rename_i o ho
  split
  · exact .of h
  rename_i cl hcl
  exact .putObj h ho (.noted p name st f cl rfl hp hf hcl rfl rfl)

theorem step_came (e : Ev D) : Came IC w e (w.step C IC e).2 := by
  cases e with
  | newDB c =>
    simp only [World.step]
    split
    · exact .of rfl
    · rename_i h
      have hobjs := (newSequence_objs h).1
      refine ⟨fun i o' ho => ?_, fun i o ho _ => ?_, by simp [hobjs]⟩
      rotate_left
      · unfold World.obj at ho ⊢
        simp only [hobjs]
        have hlt : i < w.objs.length := by
          cases hx : w.objs[i]? with
          | none => rw [hx] at ho; cases ho
          | some y => exact (List.getElem?_eq_some_iff.mp hx).1
        rw [List.getElem?_append_left hlt]
        exact ⟨o, ho⟩
      unfold World.obj at ho
      simp only [hobjs] at ho
      rw [List.getElem?_append] at ho
      split at ho
      · exact .inr ⟨o', ho, .refl ..⟩
      · cases hx : ([some ({ cseq := w.gens.length } : Obj)] : List (Option Obj))[i - w.objs.length]? with
        | none => rw [hx] at ho; cases ho
        | some y =>
          have h0 := (List.getElem?_eq_some_iff.mp hx).1
          rw [hx] at ho
          have := List.mem_singleton.mp (List.mem_of_getElem? hx)
          subst this
          cases ho
          simp only [List.length_singleton] at h0
          exact .inl ⟨by omega, rfl, rfl⟩
  | newDB2 j c =>
    simp only [World.step]
    split
    · exact .of rfl
    rename_i o ho
    split
    · exact .of rfl
    split
    · exact .of rfl
    · rename_i h; exact .putObj (newSequence_objs h).1 ho (.same rfl (fun _ h => .inl h))
  | lookup j name how v env c =>
    simp only [World.step]
    split
    · exact .of rfl
    rename_i o ho
    split
    case isFalse => exact .of rfl
    unfold World.lookup
    split
    · exact .of rfl
    split
    · exact .of rfl
    split
    · exact .of rfl
    · exact .of rfl
    split
    · exact .of rfl
    split
    · exact .of rfl
    rename_i hno
    have hno : o.colls.get name = none := by simpa using hno
    have key : ∀ {o₂ : Obj}, o₂.colls = o.colls → (∀ n, naming o₂.making = some n → n = name) → Became IC w j (.lookup (D := D) j name how v env c) o o₂ := by
      intro o₂ h1 h2
      refine .same h1 (fun n hn => .inr ?_)
      rw [h2 n hn]; exact hno
    repeat' split
    all_goals first
      | exact .of rfl
      | (rename_i hd; exact .of (draw_objs hd).1)
      | exact .putObj rfl ho (key rfl (fun n h => by cases h <;> rfl))
      | (rename_i hd; exact .putObj (draw_objs hd).1 ho (key rfl (fun n h => by cases h <;> rfl)))
  | register j fail =>
    simp only [World.step]
    split
    case h_2 => exact .of rfl
    rename_i o ho
    split
    case h_2 => exact .of rfl
    rename_i name t v u hm
    have key : ∀ {o₂ : Obj}, o₂.colls = o.colls → (∀ n, naming o₂.making = some n → n = name) → Became IC w j (.register (D := D) j fail) o o₂ := by
      intro o₂ h1 h2
      refine .same h1 (fun n hn => .inl ?_)
      rw [h2 n hn, hm]; rfl
    unfold World.register
    repeat' split
    all_goals (dsimp only; refine .putObj ?_ ho ?_; rfl; refine key ?_ ?_; rfl; intro n h; cases h; try rfl)
  | sequence j c =>
    simp only [World.step]
    split
    case h_2 => exact .of rfl
    rename_i o ho
    split
    case h_2 => exact .of rfl
    rename_i name cid hm
    have key : ∀ {o₂ : Obj}, o₂.colls = o.colls → (∀ n, naming o₂.making = some n → n = name) → Became IC w j (.sequence (D := D) j c) o o₂ := by
      intro o₂ h1 h2
      refine .same h1 (fun n hn => .inl ?_)
      rw [h2 n hn, hm]; rfl
    unfold World.sequence
    split
    · exact .of rfl
    all_goals (rename_i hd; exact .putObj (newSequence_objs hd).1 ho (key rfl (fun n h => by cases h <;> rfl)))
  | indexes j env =>
    simp only [World.step]
    split
    case h_2 => exact .of rfl
    rename_i o ho
    split
    case h_2 => exact .of rfl
    rename_i name cid p hm
    unfold World.indexes
    split
    · rename_i ds hds
      exact .putObj rfl ho (.opened env name cid p ds rfl hm rfl hds rfl)
    · exact .putObj rfl ho (.same rfl (fun n h => by cases h))
    · exact .putObj rfl ho (.same rfl (fun n h => by cases h))
  | finish p =>
    simp only [World.step]
    split
    case h_2 => exact .of rfl
    rename_i q hq
    obtain ⟨j, name, st⟩ := q
    unfold World.finish
    split
    · exact .of rfl
    · rename_i hst; cases hst
      exact .remember (w := w) (w' := { w with pending := w.pending.set p none }) rfl (joined hq) rfl
    · rename_i hst; cases hst
      exact .remember (w := w) (w' := { w with pending := w.pending.set p none }) rfl (joined hq) rfl
  | close j =>
    simp only [World.step]
    split
    case h_2 => exact .of rfl
    rename_i o ho
    split
    · exact .putObj rfl ho (.same rfl (fun _ h => .inl h))
    · exact .of rfl
  | closed j env =>
    simp only [World.step]
    split
    case h_2 => exact .of rfl
    rename_i o ho
    split
    · exact .putObj (releases_objs _ _ _).1 ho (.same rfl (fun _ h => .inl h))
    · exact .of rfl
  | crash j =>
    refine ⟨fun i o' ho => ?_, fun i o ho hne => ?_, by show _ ≤ (w.objs.set j none).length; rw [List.length_set]; exact Nat.le_refl _⟩
    · have : ((w.objs.set j none)[i]?).join = some o' := ho
      rw [List.getElem?_set] at this
      split at this
      · split at this <;> cases this
      · exact .inr ⟨o', this, .refl ..⟩
    · show ∃ o', ((w.objs.set j none)[i]?).join = some o'
      rw [List.getElem?_set, if_neg (by rintro rfl; exact hne rfl)]
      exact ⟨o, ho⟩
  | begin env => exact .of rfl
  | insert k j name doc how c =>
    refine .of ?_
    simp only [World.step, World.insert]
    repeat' split
    all_goals first | rfl | (rename_i hd; exact (draw_objs hd).1)
  | op k j name o how =>
    refine .of ?_
    simp only [World.step]
    repeat' split
    all_goals rfl
  | commit k fail =>
    refine .of ?_
    simp only [World.step]
    repeat' split
    all_goals rfl
  | discard k =>
    refine .of ?_
    simp only [World.step]
    repeat' split
    all_goals rfl
  | createIndex j name d how v env c =>
    refine .of ?_
    simp only [World.step, World.createIndex]
    repeat' split
    all_goals first | rfl | (rename_i hd; exact (draw_objs hd).1) | (rename_i hd _ _ _ ; exact (draw_objs hd).1)  | (rename_i hd _ _  ; exact (draw_objs hd).1)| (rename_i hd _ _ _ _ ; exact (draw_objs hd).1)
  | writeIndex p fail =>
    refine .of ?_
    simp only [World.step, World.writeIndex]
    repeat' split
    all_goals rfl
  | dropIndex j name iname how c =>
    refine .of ?_
    simp only [World.step, World.dropIndex]
    repeat' split
    all_goals rfl
  | getIndexes j name =>
    refine .of ?_
    simp only [World.step]
    repeat' split
    all_goals rfl

/-! ### Calls are of objects that are there -/

structure Housed (w : World) : Prop where
  pend : ∀ (p : Nat) q, w.pending[p]? = some (some q) → ∃ o cl, w.obj q.obj = some o ∧ o.colls.get q.name = some cl
  apart : ∀ i o name, w.obj i = some o → naming o.making = some name → o.colls.get name = none

theorem Became.keeps {e : Ev D} {o o' : Obj} (h : Became IC w i e o o') {name : Bytes} {cl : Coll} (hc : o.colls.get name = some cl) :
    ∃ cl', o'.colls.get name = some cl' := by
  have set : ∀ (n : Bytes) (x : Coll), ∃ cl', (o.colls.set n x).get name = some cl' := by
    intro n x
    rw [OMap.get_set]
    split
    · exact ⟨_, rfl⟩
    · exact ⟨_, hc⟩
  cases h with
  | same h1 _ => rw [h1]; exact ⟨cl, hc⟩
  | opened env n cid p ds _ _ _ _ h1 => rw [h1]; exact set _ _
  | noted p n st f cl _ _ _ _ _ h1 => rw [h1]; exact set _ _

theorem call_obj {name : Bytes} {how : How} {o : Obj} {cl : Coll} {r : Res Unit} (hc : w.call i name how = some (o, cl, r)) :
    w.obj i = some o ∧ o.colls.get name = some cl := by
  unfold World.call at hc
  split at hc
  · cases hc
  rename_i o' h1
  split at hc
  · cases hc
  rename_i cl' h2
  split at hc <;> cases hc
  exact ⟨h1, h2⟩

theorem drawn_call {name : Bytes} {d : IndexDef} {how : How} {v : Nat} {env : Env} {c : Turn} {iid : Int64}
    (h : (w.step C IC (.createIndex i name d how v env c)).1 = .drawn iid) : ∃ o cl, w.obj i = some o ∧ o.colls.get name = some cl := by
  simp only [World.step] at h
  split at h
  · rename_i o cl r hc
    exact ⟨o, cl, call_obj hc⟩
  · cases h

theorem erased_call {name iname : Bytes} {how : How} {c : Turn} {a b : Bytes}
    (h : (w.step C IC (.dropIndex i name iname how c)).1 = .erased a b) : ∃ o cl, w.obj i = some o ∧ o.colls.get name = some cl := by
  simp only [World.step] at h
  split at h
  · rename_i o cl r hc
    exact ⟨o, cl, call_obj hc⟩
  · cases h

theorem mem_append_one {ps : List (Option Pending)} {x : Option Pending} {p : Nat} {y : Option Pending} (hp : (ps ++ [x])[p]? = some y) :
    ps[p]? = some y ∨ (p = ps.length ∧ y = x) := by
  rw [List.getElem?_append] at hp
  split at hp
  · exact .inl hp
  · have h0 := (List.getElem?_eq_some_iff.mp hp).1
    simp only [List.length_singleton] at h0
    exact .inr ⟨by omega, (List.mem_singleton.mp (List.mem_of_getElem? hp))⟩

theorem mem_set_one {ps : List (Option Pending)} {x : Option Pending} {p q : Nat} {y : Option Pending} (hp : (ps.set q x)[p]? = some y) :
    (ps[p]? = some y ∧ p ≠ q) ∨ (p = q ∧ y = x) := by
  rw [List.getElem?_set] at hp
  split at hp
  · split at hp
    · cases hp; rename_i h _; exact .inr ⟨h.symm, rfl⟩
    · cases hp
  · rename_i h; exact .inl ⟨hp, fun e => h e.symm⟩

theorem mem_crash {ps : List (Option Pending)} {j p : Nat} {q : Pending} (hp : (ps.map (fun q => match q with
      | some q => if q.obj = j then none else some q
      | none => none))[p]? = some (some q)) : ps[p]? = some (some q) ∧ q.obj ≠ j := by
  rw [List.getElem?_map, Option.map_eq_some_iff] at hp
  obtain ⟨x, h1, h2⟩ := hp
  rw [h1]
  split at h2
  · split at h2
    · cases h2
    · cases h2; rename_i h; exact ⟨rfl, h⟩
  · cases h2

theorem Housed.step (h : Housed w) {e : Ev D} (hc : Came IC w e w') {a : Answer D} (ha : (w.step C IC e).1 = a) (hm : Moves w e a w'.pending) : Housed w' := by
  have keep : ∀ (q : Pending), e ≠ .crash q.obj → (∃ o cl, w.obj q.obj = some o ∧ o.colls.get q.name = some cl) →
      ∃ o cl, w'.obj q.obj = some o ∧ o.colls.get q.name = some cl := by
    rintro q hne ⟨o, cl, h1, h2⟩
    obtain ⟨o', h3⟩ := hc.fwd _ o h1 hne
    rcases hc.back _ o' h3 with ⟨h4, -⟩ | ⟨o₁, h4, h5⟩
    · unfold World.obj at h1
      rw [h4, List.getElem?_eq_none (Nat.le_refl _)] at h1; cases h1
    · rw [h1] at h4; cases h4
      obtain ⟨cl', h6⟩ := h5.keeps h2
      exact ⟨o', cl', h3, h6⟩
  refine ⟨fun p q hp => ?_, fun i o' name ho hn => ?_⟩
  · generalize w'.pending = ps at hm hp
    have hcr : ∀ j, e = .crash j → q.obj ≠ j := by
      intro j hj
      subst hj
      cases hm with
      | same hx _ _ => exact absurd rfl (hx j)
      | crash => exact (mem_crash hp).2
    refine keep q (fun hx => hcr _ hx rfl) ?_
    cases hm with
    | same _ _ _ => exact h.pend p q hp
    | drawn =>
      rcases mem_append_one hp with hp | ⟨-, h2⟩
      · exact h.pend p q hp
      · cases h2; exact drawn_call ha
    | stored hq =>
      rcases mem_set_one hp with ⟨hp, -⟩ | ⟨-, h2⟩
      · exact h.pend p q hp
      · cases h2
        have := h.pend _ _ hq
        exact this
    | failed _ _ =>
      rcases mem_set_one hp with ⟨hp, -⟩ | ⟨-, h2⟩
      · exact h.pend p q hp
      · cases h2
    | erased =>
      rcases mem_append_one hp with hp | ⟨-, h2⟩
      · exact h.pend p q hp
      · cases h2; exact erased_call ha
    | created hq =>
      rcases mem_set_one hp with ⟨hp, -⟩ | ⟨-, h2⟩
      · exact h.pend p q hp
      · cases h2
    | dropped hq =>
      rcases mem_set_one hp with ⟨hp, -⟩ | ⟨-, h2⟩
      · exact h.pend p q hp
      · cases h2
    | crash => exact h.pend p q (mem_crash hp).1
  · rcases hc.back i o' ho with ⟨-, h2, h3⟩ | ⟨o, h1, h2⟩
    · rw [h3] at hn; cases hn
    · cases h2 with
      | same h3 h4 =>
        rw [h3]
        rcases h4 name hn with h5 | h5
        · exact h.apart i o name h1 h5
        · exact h5
      | opened env n cid p ds _ _ h3 _ _ => rw [h3] at hn; cases hn
      | noted p n st f cl _ _ _ h3 h4 h5 =>
        rw [h4] at hn
        have := h.apart i o name h1 hn
        rw [h5, OMap.get_set]
        split
        · rename_i hx; subst hx; rw [h3] at this; cases this
        · exact this

/-! ### What GetIndexes answers -/

/-- The call in this place is of object `i` on this collection, and has only to note what it did. -/
def Due (ps : List (Option Pending)) (i : Nat) (coll : Bytes) (p : Nat) (st : Stage) (f : OMap IndexDef → OMap IndexDef) : Prop :=
  ps[p]? = some (some ⟨i, coll, st⟩) ∧ effect st = some f

theorem unsettled_iff {coll : Bytes} : Unsettled w i coll ↔ ∃ p st f, Due w.pending i coll p st f := by
  constructor
  · rintro ⟨p, ⟨j, name, st⟩, h1, rfl, rfl, h2⟩
    cases st with
    | writing iid d t v => exact absurd rfl (h2 iid d t v)
    | storing iid d => exact ⟨p, _, _, h1, rfl⟩
    | erasing n => exact ⟨p, _, _, h1, rfl⟩
  · rintro ⟨p, st, f, h1, h2⟩
    refine ⟨p, _, h1, rfl, rfl, ?_⟩
    rintro iid d t v rfl
    cases h2

/-- The object knows the catalogue, or will know it when the one call that is due has ended. -/
structure Mem (w : World) (i : Nat) (coll : Bytes) (K : Catalogue) : Prop where
  lt : i < w.objs.length
  mem : ∀ o, w.obj i = some o → ∃ cl, o.colls.get coll = some cl ∧
    (((∀ p st f, ¬ Due w.pending i coll p st f) ∧ MemOK cl.indexMap (K coll)) ∨
      ∃ p st f, Due w.pending i coll p st f ∧ (∀ p' st' f', Due w.pending i coll p' st' f' → p' = p) ∧ MemOK (f cl.indexMap) (K coll))

theorem memOK_set {m : OMap IndexDef} {M : OMap (Int64 × IndexDef)} (h : MemOK m M) (iid : Int64) (d : IndexDef) :
    MemOK (m.set d.name { d with fields := normFields d.fields }) (M.set d.name (iid, d)) := by
  intro n
  rw [OMap.get_set, OMap.get_set]
  by_cases hn : d.name = n
  · rw [if_pos hn, if_pos hn]; exact ⟨rfl, rfl, sameColumns_norm _⟩
  · rw [if_neg hn, if_neg hn]; exact h n

theorem memOK_del {m : OMap IndexDef} {M : OMap (Int64 × IndexDef)} (h : MemOK m M) (n : Bytes) : MemOK (m.del n) (M.del n) := by
  intro k
  rw [OMap.get_del, OMap.get_del]
  by_cases hn : n = k
  · rw [if_pos hn, if_pos hn]; trivial
  · rw [if_neg hn, if_neg hn]; exact h k

/-- An event that is not the end of such a call leaves the collection's definitions alone. -/
theorem Became.quiet {e : Ev D} {o o' : Obj} (h : Became IC w i e o o') (hH : Housed w) (ho : w.obj i = some o) {coll : Bytes} {cl : Coll}
    (hc : o.colls.get coll = some cl) (hn : ∀ p st f, e = .finish p → ¬ Due w.pending i coll p st f) :
    ∃ cl', o'.colls.get coll = some cl' ∧ cl'.indexMap = cl.indexMap := by
  cases h with
  | same h1 _ => exact ⟨cl, by rw [h1]; exact hc, rfl⟩
  | opened env name cid p ds _ h1 _ _ h2 =>
    refine ⟨cl, ?_, rfl⟩
    rw [h2, OMap.get_set, if_neg]
    · exact hc
    · intro hx
      rw [hH.apart i o coll ho (by rw [h1, ← hx]; rfl)] at hc; cases hc
  | noted p name st f cl₁ h1 h2 h3 h4 _ h5 =>
    refine ⟨cl, ?_, rfl⟩
    rw [h5, OMap.get_set, if_neg]
    · exact hc
    · rintro rfl
      exact hn p st f h1 ⟨h2, h3⟩

/-- The end of such a call. -/
theorem finish_notes {p : Nat} {coll : Bytes} {st : Stage} {f : OMap IndexDef → OMap IndexDef} (h : Due w.pending i coll p st f) {o o' : Obj} {cl : Coll}
    (ho : w.obj i = some o) (hc : o.colls.get coll = some cl) (ho' : (w.step C IC (.finish (D := D) p)).2.obj i = some o') :
    ∃ cl', o'.colls.get coll = some cl' ∧ cl'.indexMap = f cl.indexMap := by
  obtain ⟨h1, h2⟩ := h
  have key : ∀ {w' : World}, w'.objs = w.objs → (w'.remember i coll f).obj i = some o' → ∃ cl', o'.colls.get coll = some cl' ∧ cl'.indexMap = f cl.indexMap := by
    intro w' he hr
    have e1 : w'.obj i = some o := by unfold World.obj at ho ⊢; rw [he]; exact ho
    unfold World.remember at hr
    simp only [e1, hc] at hr
    have : ((w'.objs.set i (some { o with colls := o.colls.set coll { cl with indexMap := f cl.indexMap } }))[i]?).join = some o' := hr
    rw [List.getElem?_set, if_pos rfl] at this
    split at this
    · cases this
      exact ⟨_, by rw [OMap.get_set, if_pos rfl], rfl⟩
    · cases this
  cases st with
  | writing => cases h2
  | storing iid d =>
    have e1 : w.step C IC (Ev.finish (D := D) p) = w.finish p ⟨i, coll, .storing iid d⟩ := by simp only [World.step, h1, Option.join_some]
    rw [e1] at ho'
    cases h2
    exact key (w' := { w with pending := w.pending.set p none }) rfl ho'
  | erasing n =>
    have e1 : w.step C IC (Ev.finish (D := D) p) = w.finish p ⟨i, coll, .erasing n⟩ := by simp only [World.step, h1, Option.join_some]
    rw [e1] at ho'
    cases h2
    exact key (w' := { w with pending := w.pending.set p none }) rfl ho'

theorem Mem.step {coll : Bytes} {K : Catalogue} (h : Mem w i coll K) (hH : Housed w) {e : Ev D}
    (hm : Moves w e (w.step C IC e).1 (w.step C IC e).2.pending)
    (hone : ((∃ iid d, (w.step C IC e).1 = .stored coll iid d) ∨ ∃ n, (w.step C IC e).1 = .erased coll n) → actor w e = some i ∧ ¬ Unsettled w i coll) :
    Mem (w.step C IC e).2 i coll (K.next (w.step C IC e).1) := by
  have hc := step_came (C := C) (IC := IC) (w := w) e
  refine ⟨Nat.lt_of_lt_of_le h.lt hc.len, fun o' ho' => ?_⟩
  rcases hc.back i o' ho' with ⟨h1, -⟩ | ⟨o, ho, hb⟩
  · exact absurd h1 (Nat.ne_of_lt h.lt)
  obtain ⟨cl, hcl, hmem⟩ := h.mem o ho
  -- nothing of the collection is touched
  have quiet : ∀ {ps : List (Option Pending)} {K' : Catalogue}, (∀ p st f, Due ps i coll p st f ↔ Due w.pending i coll p st f) → K' coll = K coll →
      (∀ p st f, e = .finish p → ¬ Due w.pending i coll p st f) →
      ∃ cl, o'.colls.get coll = some cl ∧ (((∀ p st f, ¬ Due ps i coll p st f) ∧ MemOK cl.indexMap (K' coll)) ∨
        ∃ p st f, Due ps i coll p st f ∧ (∀ p' st' f', Due ps i coll p' st' f' → p' = p) ∧ MemOK (f cl.indexMap) (K' coll)) := by
    intro ps K' h1 h2 h3
    obtain ⟨cl', h4, h5⟩ := hb.quiet hH ho hcl h3
    refine ⟨cl', h4, ?_⟩
    rw [h2, h5]
    rcases hmem with ⟨h6, h7⟩ | ⟨p, st, f, h6, h7, h8⟩
    · exact .inl ⟨fun p st f hd => h6 p st f ((h1 p st f).mp hd), h7⟩
    · exact .inr ⟨p, st, f, (h1 p st f).mpr h6, fun p' st' f' hd => h7 p' st' f' ((h1 p' st' f').mp hd), h8⟩
  -- it becomes due
  have due : ∀ {ps : List (Option Pending)} {K' : Catalogue} (p : Nat) (st : Stage) (f : OMap IndexDef → OMap IndexDef), ¬ Unsettled w i coll →
      (∀ p', e ≠ .finish p') → Due ps i coll p st f → (∀ p' st' f', Due ps i coll p' st' f' → Due w.pending i coll p' st' f' ∨ p' = p) →
      (∀ m, MemOK m (K coll) → MemOK (f m) (K' coll)) →
      ∃ cl, o'.colls.get coll = some cl ∧ (((∀ p st f, ¬ Due ps i coll p st f) ∧ MemOK cl.indexMap (K' coll)) ∨
        ∃ p st f, Due ps i coll p st f ∧ (∀ p' st' f', Due ps i coll p' st' f' → p' = p) ∧ MemOK (f cl.indexMap) (K' coll)) := by
    intro ps K' p st f h1 h2 h3 h4 h5
    rw [unsettled_iff] at h1
    obtain ⟨cl', h6, h7⟩ := hb.quiet hH ho hcl (fun p' _ _ he => absurd he (h2 p'))
    refine ⟨cl', h6, .inr ⟨p, st, f, h3, fun p' st' f' hd => ?_, ?_⟩⟩
    · rcases h4 p' st' f' hd with h8 | h8
      · exact absurd ⟨p', st', f', h8⟩ h1
      · exact h8
    · rw [h7]
      rcases hmem with ⟨_, h8⟩ | ⟨p', st', f', h8, _⟩
      · exact h5 _ h8
      · exact absurd ⟨p', st', f', h8⟩ h1
  -- it is done
  have done : ∀ (p : Nat) (st : Stage) (f : OMap IndexDef → OMap IndexDef) {K' : Catalogue}, e = .finish p → Due w.pending i coll p st f → K' coll = K coll →
      ∃ cl, o'.colls.get coll = some cl ∧ (((∀ q st f, ¬ Due (w.pending.set p none) i coll q st f) ∧ MemOK cl.indexMap (K' coll)) ∨
        ∃ q st f, Due (w.pending.set p none) i coll q st f ∧ (∀ p' st' f', Due (w.pending.set p none) i coll p' st' f' → p' = q) ∧ MemOK (f cl.indexMap) (K' coll)) := by
    intro p st f K' he hd hK
    subst he
    obtain ⟨cl', h4, h5⟩ := finish_notes hd ho hcl ho'
    rcases hmem with ⟨h6, _⟩ | ⟨p₀, st₀, f₀, h6, h7, h8⟩
    · exact absurd hd (h6 p st f)
    · have h9 := h7 p st f hd
      subst h9
      refine ⟨cl', h4, .inl ⟨fun q st' f' hq => ?_, ?_⟩⟩
      · obtain ⟨h10, h11⟩ := hq
        rcases mem_set_one h10 with ⟨h10, h12⟩ | ⟨-, h12⟩
        · exact h12 (h7 q st' f' ⟨h10, h11⟩)
        · cases h12
      · rw [hK, h5]
        have : f = f₀ := by
          obtain ⟨x1, x2⟩ := hd
          obtain ⟨y1, y2⟩ := h6
          rw [x1] at y1
          cases y1
          rw [x2] at y2
          exact Option.some.inj y2
        rw [this]; exact h8
  -- a place other than a due one of this collection
  have away : ∀ {p : Nat} {x : Option Pending} {q : Pending}, w.pending[p]? = some (some q) → (q.obj = i → q.name = coll → effect q.stage = none) →
      (∀ y, x = some y → y.obj = i → y.name = coll → effect y.stage = none) →
      ∀ p' st f, Due (w.pending.set p x) i coll p' st f ↔ Due w.pending i coll p' st f := by
    intro p x q hq h1 h2 p' st f
    constructor
    · rintro ⟨h3, h4⟩
      rcases mem_set_one h3 with ⟨h3, -⟩ | ⟨-, h5⟩
      · exact ⟨h3, h4⟩
      · rw [h2 _ h5.symm rfl rfl] at h4; cases h4
    · rintro ⟨h3, h4⟩
      refine ⟨?_, h4⟩
      rw [List.getElem?_set_ne]
      · exact h3
      · rintro rfl
        rw [hq] at h3
        cases h3
        rw [h1 rfl rfl] at h4; cases h4
  have more : ∀ {x : Pending}, (x.obj = i → x.name = coll → effect x.stage = none) →
      ∀ p' st f, Due (w.pending ++ [some x]) i coll p' st f ↔ Due w.pending i coll p' st f := by
    intro x h1 p' st f
    constructor
    · rintro ⟨h3, h4⟩
      rcases mem_append_one h3 with h3 | ⟨-, h5⟩
      · exact ⟨h3, h4⟩
      · cases h5
        rw [h1 rfl rfl] at h4; cases h4
    · rintro ⟨h3, h4⟩
      refine ⟨?_, h4⟩
      rw [List.getElem?_append_left (List.getElem?_eq_some_iff.mp h3).1]; exact h3
  generalize (w.step C IC e).2.pending = ps at hm ⊢
  generalize (w.step C IC e).1 = a at hm hone ⊢
  cases hm with
  | same h1 h2 h3 =>
    refine quiet (fun _ _ _ => .rfl) (by rw [h3]) ?_
    rintro p st f he ⟨h4, h5⟩
    obtain ⟨iid, d, t, v, h6⟩ := (h2 p he).2 _ h4
    simp only at h6
    subst h6
    cases h5
  | drawn => exact quiet (more (fun _ _ => rfl)) rfl (fun _ _ _ he => nomatch he)
  | @stored p f j name iid d t v hq =>
    by_cases hn : name = coll
    · subst hn
      obtain ⟨h1, h2⟩ := hone (.inl ⟨_, _, rfl⟩)
      simp only [actor, hq, Option.join_some, Option.map_some, Option.some.injEq] at h1
      subst h1
      refine due p (.storing iid d) _ h2 (fun _ he => nomatch he) ⟨?_, rfl⟩ ?_ ?_
      · rw [List.getElem?_set, if_pos rfl, if_pos (List.getElem?_eq_some_iff.mp hq).1]
      · rintro p' st' f' ⟨h3, h4⟩
        rcases mem_set_one h3 with ⟨h3, -⟩ | ⟨h3, -⟩
        · exact .inl ⟨h3, h4⟩
        · exact .inr h3
      · intro m hm
        have := memOK_set hm iid d
        simpa [Catalogue.next] using this
    · refine quiet (away hq (fun _ _ => rfl) ?_) ?_ (fun _ _ _ he => nomatch he)
      · intro y hy _ h2
        cases hy
        exact absurd h2 hn
      · show (if coll = name then _ else K coll) = K coll
        rw [if_neg (fun e => hn e.symm)]
  | failed hq h1 => exact quiet (away hq (fun _ _ => rfl) (fun _ hy => nomatch hy)) (by rw [h1]) (fun _ _ _ he => nomatch he)
  | @erased j name n how c =>
    by_cases hn : name = coll
    · subst hn
      obtain ⟨h1, h2⟩ := hone (.inr ⟨_, rfl⟩)
      simp only [actor, Option.some.injEq] at h1
      subst h1
      refine due w.pending.length (.erasing n) _ h2 (fun _ he => nomatch he) ⟨?_, rfl⟩ ?_ ?_
      · rw [List.getElem?_append_right (Nat.le_refl _), Nat.sub_self]; rfl
      · rintro p' st' f' ⟨h3, h4⟩
        rcases mem_append_one h3 with h3 | ⟨h3, -⟩
        · exact .inl ⟨h3, h4⟩
        · exact .inr h3
      · intro m hm
        have := memOK_del hm n
        simpa [Catalogue.next] using this
    · refine quiet (more (fun _ h2 => absurd h2 hn)) ?_ (fun _ _ _ he => nomatch he)
      show (if coll = name then _ else K coll) = K coll
      rw [if_neg (fun e => hn e.symm)]
  | @created p j name iid d hq =>
    by_cases hn : j = i ∧ name = coll
    · obtain ⟨rfl, rfl⟩ := hn
      exact done p _ _ rfl ⟨hq, rfl⟩ rfl
    · refine quiet (away hq (fun h1 h2 => absurd ⟨h1, h2⟩ hn) (fun _ hy => nomatch hy)) rfl ?_
      rintro p' st f he ⟨h3, h4⟩
      cases he
      rw [hq] at h3; cases h3
      exact hn ⟨rfl, rfl⟩
  | @dropped p j name n hq =>
    by_cases hn : j = i ∧ name = coll
    · obtain ⟨rfl, rfl⟩ := hn
      exact done p _ _ rfl ⟨hq, rfl⟩ rfl
    · refine quiet (away hq (fun h1 h2 => absurd ⟨h1, h2⟩ hn) (fun _ hy => nomatch hy)) rfl ?_
      rintro p' st f he ⟨h3, h4⟩
      cases he
      rw [hq] at h3; cases h3
      exact hn ⟨rfl, rfl⟩
  | @crash j =>
    have hij : i ≠ j := by
      rintro rfl
      have : ((w.objs.set i none)[i]?).join = some o' := ho'
      rw [List.getElem?_set, if_pos rfl] at this
      split at this <;> cases this
    refine quiet (fun p st f => ?_) rfl (fun _ _ _ he => nomatch he)
    constructor
    · rintro ⟨h1, h2⟩
      exact ⟨(mem_crash h1).1, h2⟩
    · rintro ⟨h1, h2⟩
      refine ⟨?_, h2⟩
      rw [List.getElem?_map, h1]
      simp [hij]

/-! ### Every history -/

theorem housed {db : DB} (es : List (Ev D)) (h : Fair C IC db es) : Housed (run C IC es (World.start db)).2 := by
  induction hl : es.length generalizing es with
  | zero =>
    cases es with
    | nil =>
      refine ⟨fun p q hp => ?_, fun i o name ho => ?_⟩
      · simp [run, World.start] at hp
      · simp [run, World.start, World.obj] at ho
    | cons _ _ => cases hl
  | succ n ih =>
    obtain ⟨l, e, rfl⟩ : ∃ l e, es = l ++ [e] :=
      ⟨es.dropLast, es.getLast (by rintro rfl; cases hl), (List.dropLast_concat_getLast _).symm⟩
    have hH := ih l h.left (by simpa using hl)
    obtain ⟨A, hA⟩ := catd l h.left
    obtain ⟨g, hg⟩ := told (C := C) IC h.blank l h.left.brief.1 h.left.brief.2
    have hm := step_moves (e := e) hA hg.kept (fun i name d how v env c he => h.modest i name d how v env c (by rw [he]; simp))
    rw [run_append]
    exact hH.step (step_came e) rfl hm

theorem memOf_ok {m : OMap (Int64 × IndexDef)} (h : ∀ n x, m.get n = some x → x.2.name = n) : MemOK (memOf (m.ents.map (fun p => p.2.2))) m ∧
    ∀ n d, (memOf (m.ents.map (fun p => p.2.2))).get n = some d → ∃ iid, m.get n = some (iid, d) := by
  have key : ∀ (l : List (Bytes × (Int64 × IndexDef))) (acc : OMap IndexDef) (n : Bytes),
      (l.map Prod.fst).Nodup → (∀ e ∈ l, e.2.2.name = e.1) →
      ((l.map (fun p => p.2.2)).foldl (fun m d => m.set d.name d) acc).get n =
        match l.find? (fun e => e.1 == n) with | some e => some e.2.2 | none => acc.get n := by
    intro l
    induction l with
    | nil => intro acc n _ _; rfl
    | cons e l ih =>
      intro acc n hnd hname
      simp only [List.map_cons, List.foldl_cons, List.nodup_cons] at hnd ⊢
      rw [ih _ n hnd.2 (fun e he => hname e (List.mem_cons_of_mem _ he)), hname e List.mem_cons_self, OMap.get_set]
      by_cases hen : e.1 = n
      · subst hen
        have : l.find? (fun x => x.1 == e.1) = none := by
          rw [List.find?_eq_none]
          intro x hx hxe
          exact hnd.1 (List.mem_map.mpr ⟨x, hx, by simpa using hxe⟩)
        simp [this]
      · simp [hen]
  have hget : ∀ n, (memOf (m.ents.map (fun p => p.2.2))).get n = (m.get n).map Prod.snd := by
    intro n
    have hk := key m.ents .empty n m.keys_nodup (fun e he => h e.1 e.2 (OMap.mem_get he))
    have : (memOf (m.ents.map (fun p => p.2.2))).get n = match m.ents.find? (fun e => e.1 == n) with
      | some e => some e.2.2 | none => (OMap.empty : OMap IndexDef).get n := hk
    rw [this]
    cases hf : m.ents.find? (fun e => e.1 == n) with
    | none =>
      have : m.get n = none := by
        rw [OMap.get_eq_none_iff]
        intro v hv
        rw [List.find?_eq_none] at hf
        exact hf (n, v) hv (by simp)
      simp [this]
    | some e =>
      have h3 := List.mem_of_find?_eq_some hf
      have h4 : e.1 = n := by simpa using List.find?_some hf
      have h5 := OMap.mem_get h3
      rw [h4] at h5
      rw [h5]; rfl
  refine ⟨fun n => ?_, fun n d hd => ?_⟩
  · rw [hget]
    cases hx : m.get n with
    | none => trivial
    | some x => exact ⟨rfl, rfl, sameColumns_refl _⟩
  · rw [hget] at hd
    cases hx : m.get n with
    | none => rw [hx] at hd; cases hd
    | some x => rw [hx] at hd; cases hd; exact ⟨x.1, rfl⟩

/-- Collection opens a collection. -/
theorem mem_opened {db : DB} {l : List (Ev D)} (h : Fair C IC db l) {o : Obj} {coll : Bytes} {cid : Int64} {p : Nat} (env : Env)
    (ho : (run C IC l (World.start db)).2.obj i = some o) (hm : o.making = some (.counted coll cid p)) :
    ∃ o' cl ds, ((run C IC l (World.start db)).2.step C IC (.indexes i env)).1 = .handle (.ok ()) ∧
      ((run C IC l (World.start db)).2.step C IC (.indexes i env)).2.obj i = some o' ∧ o'.colls.get coll = some cl ∧
      cl.indexMap = memOf ds ∧ ds = (catalogue (run C IC l (World.start db)).1 coll).ents.map (fun p => p.2.2) ∧
      (∀ n x, (catalogue (run C IC l (World.start db)).1 coll).get n = some x → x.2.name = n) ∧
      Mem ((run C IC l (World.start db)).2.step C IC (.indexes i env)).2 i coll (catalogue (run C IC l (World.start db)).1) := by
  obtain ⟨A, hA⟩ := catd l h
  obtain ⟨g, hg⟩ := told (C := C) IC h.blank l h.brief.1 h.brief.2
  have hH := housed l h
  generalize (run C IC l (World.start db)).1 = as at *
  generalize (run C IC l (World.start db)).2 = w at *
  have hn := ((hg.kept.objs i o ho).counted coll cid p hm).1
  have hs := hA.same coll cid hn
  have hget : (Util.body env false (getIndexes IC cid) w.store.db).1 = .ok ((A cid).ents.map (fun p => p.2.2)) :=
    Idx.getIndexes_run (t := Txn.start { env with update := false } w.store.db) hA.rep cid
  have hnm : ∀ n x, (catalogue as coll).get n = some x → x.2.name = n := by
    intro n x hx
    rw [hs] at hx
    exact (hA.rep.name cid n x.1 x.2 hx).1
  have hst : w.step C IC (Ev.indexes (D := D) i env) = (.handle (.ok ()), w.putObj i { o with making := none, colls := o.colls.set coll ⟨cid, p, memOf ((A cid).ents.map (fun p => p.2.2))⟩ }) := by
    simp only [World.step, ho, hm, World.indexes, hget]
  have hlt : i < w.objs.length := by
    unfold World.obj at ho
    cases hx : w.objs[i]? with
    | none => rw [hx] at ho; cases ho
    | some y => exact (List.getElem?_eq_some_iff.mp hx).1
  have hobj : (w.putObj i { o with making := none, colls := o.colls.set coll ⟨cid, p, memOf ((A cid).ents.map (fun p => p.2.2))⟩ }).obj i =
      some { o with making := none, colls := o.colls.set coll ⟨cid, p, memOf ((A cid).ents.map (fun p => p.2.2))⟩ } := by
    show ((w.objs.set i _)[i]?).join = _
    rw [List.getElem?_set, if_pos rfl, if_pos hlt]; rfl
  rw [hst]
  refine ⟨_, ⟨cid, p, memOf ((A cid).ents.map (fun p => p.2.2))⟩, _, rfl, hobj, by rw [OMap.get_set, if_pos rfl], rfl, by rw [hs], hnm, ?_, ?_⟩
  · show i < (w.objs.set i _).length
    rw [List.length_set]; exact hlt
  · intro o' ho'
    rw [hobj] at ho'
    cases ho'
    refine ⟨_, by rw [OMap.get_set, if_pos rfl], .inl ⟨?_, ?_⟩⟩
    · rintro p' st f ⟨h1, -⟩
      obtain ⟨o₁, cl, h2, h3⟩ := hH.pend p' _ h1
      simp only at h2 h3
      rw [ho] at h2; cases h2
      rw [hH.apart i _ coll ho (by rw [hm]; rfl)] at h3; cases h3
    · rw [hs]
      rw [hs] at hnm
      exact (memOf_ok hnm).1

theorem mem_run {db : DB} {l₀ l : List (Ev D)} (h : Fair C IC db (l₀ ++ l)) {coll : Bytes}
    (hm : Mem (run C IC l₀ (World.start db)).2 i coll (catalogue (run C IC l₀ (World.start db)).1))
    (hone : OneByOne C IC i coll l (run C IC l₀ (World.start db)).2) :
    Mem (run C IC (l₀ ++ l) (World.start db)).2 i coll (catalogue (run C IC (l₀ ++ l) (World.start db)).1) := by
  induction hl : l.length generalizing l with
  | zero =>
    cases l with
    | nil => rw [List.append_nil]; exact hm
    | cons _ _ => cases hl
  | succ n ih =>
    obtain ⟨l₁, e, rfl⟩ : ∃ l₁ e, l = l₁ ++ [e] :=
      ⟨l.dropLast, l.getLast (by rintro rfl; cases hl), (List.dropLast_concat_getLast _).symm⟩
    rw [← List.append_assoc] at h ⊢
    have h0 := ih h.left (fun l₂ e' l₃ he => hone l₂ e' (l₃ ++ [e]) (by rw [he]; simp)) (by simpa using hl)
    obtain ⟨A, hA⟩ := catd (l₀ ++ l₁) h.left
    obtain ⟨g, hg⟩ := told (C := C) IC h.blank (l₀ ++ l₁) h.left.brief.1 h.left.brief.2
    have hmv := step_moves (e := e) hA hg.kept (fun i name d how v env c he => h.modest i name d how v env c (by rw [he]; simp))
    have hH := housed (l₀ ++ l₁) h.left
    have h1 := hone l₁ e [] rfl
    have e1 : (run C IC l₁ (run C IC l₀ (World.start db)).2).2 = (run C IC (l₀ ++ l₁) (World.start db)).2 := by rw [run_append]
    rw [e1] at h1
    have h2 := h0.step hH hmv h1
    rw [run_append (es := l₀ ++ l₁)]
    dsimp only [run]
    rw [catalogue_append]
    exact h2

/-- What a map of definitions lists. -/
theorem lists_of {m : OMap IndexDef} {K : Catalogue} {coll : Bytes} (h : MemOK m (K coll)) (hn : ∀ n x, (K coll).get n = some x → x.2.name = n) :
    Lists (m.ents.map Prod.snd) K coll := by
  have hname : ∀ n d, m.get n = some d → ∃ iid d', (K coll).get n = some (iid, d') ∧ d.name = n ∧ d.unique = d'.unique ∧ SameColumns d'.fields d.fields := by
    intro n d hd
    have := h n
    rw [hd] at this
    cases hx : (K coll).get n with
    | none => rw [hx] at this; exact this.elim
    | some x =>
      rw [hx] at this
      obtain ⟨iid, d'⟩ := x
      exact ⟨iid, d', rfl, this.1.trans (hn n _ hx), this.2⟩
  have hmap : (m.ents.map Prod.snd).map IndexDef.name = m.ents.map Prod.fst := by
    rw [List.map_map]
    refine List.map_congr_left (fun e he => ?_)
    obtain ⟨_, _, _, h2, _⟩ := hname e.1 e.2 (OMap.mem_get he)
    exact h2
  refine ⟨by rw [hmap]; exact m.keys_nodup, fun n => ?_, fun d hd => ?_⟩
  · rw [hmap]
    constructor
    · intro hm hx
      obtain ⟨e, h1, rfl⟩ := List.mem_map.mp hm
      obtain ⟨_, _, h2, _⟩ := hname e.1 e.2 (OMap.mem_get h1)
      rw [hx] at h2; cases h2
    · intro hx
      have := h n
      cases hg : m.get n with
      | none =>
        rw [hg] at this
        cases hk : (K coll).get n with
        | none => exact absurd hk hx
        | some x => rw [hk] at this; exact this.elim
      | some d => exact List.mem_map.mpr ⟨(n, d), (OMap.get_eq_some_iff _ _ _).mp hg, rfl⟩
  · obtain ⟨e, h1, rfl⟩ := List.mem_map.mp hd
    obtain ⟨iid, d', h2, h3, h4⟩ := hname e.1 e.2 (OMap.mem_get h1)
    exact ⟨iid, d', by rw [h3]; exact h2, h4⟩

end Mondis.DocDB
