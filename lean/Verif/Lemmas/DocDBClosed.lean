import Verif.Lemmas.DocDBRun
/-!
# Package document: after Close
-/
namespace Mondis.DocDB
open Mondis Prog Doc Spec Props

variable {D : Type} {C : Codec D} {IC : IndexCodec} {w w' : World} {i : Nat}

/-- Object `i` is closed, and no call of it is under way. -/
structure Shut (w : World) (i : Nat) : Prop where
  lt : i < w.objs.length
  obj : ∀ o, w.obj i = some o → o.st = .closed ∧ (o.making = none ∨ o.making = some .stuck)
  pend : ∀ q, some q ∈ w.pending → q.obj ≠ i

theorem Shut.of (h : Shut w i) (ho : w'.objs = w.objs) (hp : w'.pending = w.pending) : Shut w' i where
  lt := by rw [ho]; exact h.lt
  obj := fun o => by unfold World.obj; rw [ho]; exact h.obj o
  pend := fun q => by rw [hp]; exact h.pend q

theorem Shut.putObj (h : Shut w i) {j : Nat} {o : Obj} (hj : j ≠ i) : Shut (w.putObj j o) i where
  lt := by show i < (w.objs.set j (some o)).length; rw [List.length_set]; exact h.lt
  obj := fun o' ho' => h.obj o' (by
    have : ((w.objs.set j (some o))[i]?).join = some o' := ho'
    rw [join_set _ _ _ _ (Ne.symm hj)] at this; exact this)
  pend := h.pend

theorem draw_objs {p : Nat} {c : Turn} {r : Res UInt64} (h : w.draw p c = some (r, w')) : w'.objs = w.objs ∧ w'.pending = w.pending := by
  unfold World.draw at h
  split at h
  · cases h
  split at h
  · cases h; exact ⟨rfl, rfl⟩
  · cases h

theorem newSequence_objs {k : Bytes} {bw : UInt64} {c : Turn} {r : Res Unit} (h : w.newSequence k bw c = some (r, w')) :
    w'.objs = w.objs ∧ w'.pending = w.pending := by
  unfold World.newSequence at h
  split at h
  · cases h; exact ⟨rfl, rfl⟩
  · cases h

theorem releases_objs (env : Env) (l : List Nat) (w : World) :
    (l.foldl (fun w p => w.release env p) w).objs = w.objs ∧ (l.foldl (fun w p => w.release env p) w).pending = w.pending := by
  induction l generalizing w with
  | nil => exact ⟨rfl, rfl⟩
  | cons p l ih =>
    have h : (w.release env p).objs = w.objs ∧ (w.release env p).pending = w.pending := by
      unfold World.release
      split <;> exact ⟨rfl, rfl⟩
    exact ⟨(ih _).1.trans h.1, (ih _).2.trans h.2⟩

theorem call_closed (h : Shut w i) {name : Bytes} {how : How} {o : Obj} {cl : Coll} {r : Res Unit} (hc : w.call i name how = some (o, cl, r)) :
    ∃ e, r = .err e := by
  unfold World.call at hc
  split at hc
  · cases hc
  rename_i o' ho
  split at hc
  · cases hc
  split at hc
  · cases hc
  rename_i he
  cases hc
  rw [(h.obj _ ho).1] at he
  cases how <;> simp [enter, checkState] at he
  · exact ⟨_, he.symm⟩
  · exact ⟨_, he.symm⟩

/-- Calls of the object do nothing. -/
theorem Shut.call (h : Shut w i) (e : Ev D) (he : callOf w i e) : (w.step C IC e).2 = w ∧
    ((w.step C IC e).1.failed = true ∨ ∃ name how v env c, e = .lookup i name how v env c ∧ how ≠ .usual) := by
  cases e with
  | newDB c => cases he
  | newDB2 j c => cases he
  | getIndexes j name => cases he
  | begin env => cases he
  | commit k f => cases he
  | discard k => cases he
  | crash j => cases he
  | lookup j name how v env c =>
    cases (show j = i from he)
    by_cases hu : how = .usual
    · subst hu
      simp only [World.step]
      split
      · exact ⟨rfl, .inl rfl⟩
      rename_i o ho
      split
      · simp only [World.lookup, if_true, (h.obj o ho).1, checkState]
        repeat' split
        all_goals first | exact ⟨rfl, .inl rfl⟩ | contradiction
      · exact ⟨rfl, .inl rfl⟩
    · refine ⟨?_, .inr ⟨name, how, v, env, c, rfl, hu⟩⟩
      simp only [World.step]
      split
      · rfl
      rename_i o ho
      split
      · have hst := (h.obj o ho).1
        have hen : ∀ r, enter o.st how = some r → ∃ e, r = .err e := by
          intro r hr
          rw [hst] at hr
          cases how with
          | usual => exact absurd rfl hu
          | late => simp [enter] at hr; exact ⟨_, hr.symm⟩
          | early => simp [enter] at hr
        simp only [World.lookup, if_neg hu]
        split
        · rfl
        split
        · rfl
        split
        · rfl
        split
        · rfl
        cases hr : enter o.st how with
        | none => rfl
        | some r =>
          obtain ⟨e, rfl⟩ := hen r hr
          rfl
      · rfl
  | register j f =>
    cases (show j = i from he)
    simp only [World.step]
    split
    · rename_i o ho
      rcases (h.obj o ho).2 with hm | hm <;> rw [hm] <;> exact ⟨rfl, .inl rfl⟩
    · exact ⟨rfl, .inl rfl⟩
  | sequence j c =>
    cases (show j = i from he)
    simp only [World.step]
    split
    · rename_i o ho
      rcases (h.obj o ho).2 with hm | hm <;> rw [hm] <;> exact ⟨rfl, .inl rfl⟩
    · exact ⟨rfl, .inl rfl⟩
  | indexes j env =>
    cases (show j = i from he)
    simp only [World.step]
    split
    · rename_i o ho
      rcases (h.obj o ho).2 with hm | hm <;> rw [hm] <;> exact ⟨rfl, .inl rfl⟩
    · exact ⟨rfl, .inl rfl⟩
  | insert k j name doc how c =>
    cases (show j = i from he)
    simp only [World.step]
    split
    · rename_i hc
      obtain ⟨e, rfl⟩ := call_closed h hc
      repeat' split
      all_goals first | exact ⟨rfl, .inl rfl⟩ | contradiction
    · exact ⟨rfl, .inl rfl⟩
  | op k j name o how =>
    cases (show j = i from he)
    simp only [World.step]
    split
    · rename_i hc
      obtain ⟨e, rfl⟩ := call_closed h hc
      repeat' split
      all_goals first | exact ⟨rfl, .inl rfl⟩ | contradiction
    · exact ⟨rfl, .inl rfl⟩
  | createIndex j name d how v env c =>
    cases (show j = i from he)
    simp only [World.step]
    split
    · rename_i hc
      obtain ⟨e, rfl⟩ := call_closed h hc
      repeat' split
      all_goals first | exact ⟨rfl, .inl rfl⟩ | contradiction
    · exact ⟨rfl, .inl rfl⟩
  | dropIndex j name iname how c =>
    cases (show j = i from he)
    simp only [World.step]
    split
    · rename_i hc
      obtain ⟨e, rfl⟩ := call_closed h hc
      repeat' split
      all_goals first | exact ⟨rfl, .inl rfl⟩ | contradiction
    · exact ⟨rfl, .inl rfl⟩
  | writeIndex p f =>
    simp only [World.step]
    split
    · rename_i hq
      exact absurd (he _ hq) (h.pend _ (pend_mem hq))
    · exact ⟨rfl, .inl rfl⟩
  | finish p =>
    simp only [World.step]
    split
    · rename_i q hq
      exact absurd (he q hq) (h.pend q (pend_mem hq))
    · exact ⟨rfl, .inl rfl⟩
  | close j =>
    cases (show j = i from he)
    simp only [World.step]
    split
    · rename_i o ho
      rw [(h.obj o ho).1, if_neg (by simp)]
      exact ⟨rfl, .inl rfl⟩
    · exact ⟨rfl, .inl rfl⟩
  | closed j env =>
    cases (show j = i from he)
    simp only [World.step]
    split
    · rename_i o ho
      rw [(h.obj o ho).1, if_neg (by simp)]
      exact ⟨rfl, .inl rfl⟩
    · exact ⟨rfl, .inl rfl⟩

theorem Shut.remember (h : Shut w i) {j : Nat} (hj : j ≠ i) (name : Bytes) (f : OMap IndexDef → OMap IndexDef) : Shut (w.remember j name f) i := by
  unfold World.remember
  repeat' split
  all_goals first | exact h | exact h.putObj hj

/-- It stays closed. -/
theorem Shut.step (h : Shut w i) (e : Ev D) : Shut (w.step C IC e).2 i := by
  by_cases he : callOf w i e
  · rw [(h.call e he).1]; exact h
  cases e with
  | newDB c =>
    simp only [World.step]
    split
    · exact h
    · rename_i w' hn
      obtain ⟨h1, h2⟩ := newSequence_objs hn
      have h' := h.of h1 h2
      refine ⟨?_, fun o ho => h'.obj o ?_, h'.pend⟩
      · show i < (w'.objs ++ [_]).length
        rw [List.length_append]; exact Nat.lt_of_lt_of_le h'.lt (Nat.le_add_right _ _)
      · have ho : ((w'.objs ++ [some _])[i]?).join = some o := ho
        rw [List.getElem?_append_left h'.lt] at ho
        exact ho
  | newDB2 j c =>
    simp only [World.step]
    repeat' split
    all_goals try exact h
    rename_i o ho _ _ _ w' hn
    obtain ⟨h1, h2⟩ := newSequence_objs hn
    have h' := h.of h1 h2
    by_cases hj : j = i
    · subst hj
      refine ⟨?_, fun o' ho' => ?_, h'.pend⟩
      · show _ < (w'.objs.set _ _).length
        rw [List.length_set]; exact h'.lt
      · have := join_set_self (l := w'.objs) ho'
        cases this
        exact h.obj o ho
    · exact h'.putObj hj
  | lookup j name how v env c =>
    have hj : j ≠ i := he
    simp only [World.step, World.lookup]
    repeat' split
    all_goals first
      | exact h
      | exact h.putObj hj
      | (rename_i hn; exact (h.of (draw_objs hn).1 (draw_objs hn).2).putObj hj)
      | (rename_i hn; exact h.of (draw_objs hn).1 (draw_objs hn).2)
  | register j f =>
    have hj : j ≠ i := he
    simp only [World.step, World.register]
    repeat' split
    all_goals first
      | exact h
      | exact h.putObj hj
      | (rename_i S _; exact (h.of (w' := { w with store := S }) rfl rfl).putObj hj)
  | sequence j c =>
    have hj : j ≠ i := he
    simp only [World.step, World.sequence]
    repeat' split
    all_goals first
      | exact h
      | (rename_i hn; exact (h.of (newSequence_objs hn).1 (newSequence_objs hn).2).putObj hj)
  | indexes j env =>
    have hj : j ≠ i := he
    simp only [World.step, World.indexes]
    repeat' split
    all_goals first | exact h | exact h.putObj hj
  | begin env => exact h.of rfl rfl
  | insert k j name doc how c =>
    simp only [World.step, World.insert]
    repeat' split
    all_goals first
      | exact h
      | (rename_i hn; exact h.of (draw_objs hn).1 (draw_objs hn).2)
  | op k j name o how =>
    simp only [World.step]
    repeat' split
    all_goals first | exact h | exact h.of rfl rfl
  | commit k f =>
    simp only [World.step]
    repeat' split
    all_goals first | exact h | exact h.of rfl rfl
  | discard k =>
    simp only [World.step]
    repeat' split
    all_goals first | exact h | exact h.of rfl rfl
  | createIndex j name d how v env c =>
    have hj : j ≠ i := he
    simp only [World.step, World.createIndex]
    repeat' split
    all_goals first
      | exact h
      | (rename_i hn; exact h.of (draw_objs hn).1 (draw_objs hn).2)
      | (rename_i hn _ _ _ _; exact h.of (draw_objs hn).1 (draw_objs hn).2)
      | (rename_i hn _ _ _; exact h.of (draw_objs hn).1 (draw_objs hn).2)
      | skip
    rename_i w' hn _ _ _ _
    have h' := h.of (draw_objs hn).1 (draw_objs hn).2
    refine ⟨h'.lt, h'.obj, fun q hq => ?_⟩
    rcases List.mem_append.mp hq with hq | hq
    · exact h'.pend q hq
    · cases List.mem_singleton.mp hq; exact hj
  | writeIndex p f =>
    simp only [World.step]
    split
    case h_2 => exact h
    rename_i j name iid d t v hq
    have hne : j ≠ i := fun e => he (fun q' hq' => by rw [hq] at hq'; cases hq'; exact e)
    have h0 : ∀ S x, (∀ q, x = some q → q.obj ≠ i) → Shut { w with store := S, pending := w.pending.set p x } i := fun S x hx => ⟨h.lt, h.obj, fun q' hq' => by
      rcases List.mem_or_eq_of_mem_set hq' with hq' | hq'
      · exact h.pend q' hq'
      · exact hx q' hq'.symm⟩
    unfold World.writeIndex
    split
    · exact h0 _ _ (fun q hq => by cases hq; exact hne)
    · exact h0 _ _ nofun
    · exact h0 _ _ nofun
  | finish p =>
    simp only [World.step]
    split
    case h_2 => exact h
    rename_i q hq
    have hne : q.obj ≠ i := fun e => he (fun q' hq' => by rw [hq] at hq'; cases hq'; exact e)
    have h0 : Shut { w with pending := w.pending.set p none } i := ⟨h.lt, h.obj, fun q' hq' => by
      rcases List.mem_or_eq_of_mem_set hq' with hq' | hq'
      · exact h.pend q' hq'
      · cases hq'⟩
    unfold World.finish
    split
    · exact h
    · dsimp only; exact h0.remember hne _ _
    · dsimp only; exact h0.remember hne _ _
  | getIndexes j name =>
    simp only [World.step]
    repeat' split
    all_goals exact h
  | dropIndex j name iname how c =>
    have hj : j ≠ i := he
    simp only [World.step, World.dropIndex]
    repeat' split
    all_goals first
      | exact h
      | exact h.of rfl rfl
      | (refine ⟨h.lt, h.obj, fun q hq => ?_⟩
         rcases List.mem_append.mp hq with hq | hq
         · exact h.pend q hq
         · cases List.mem_singleton.mp hq; exact hj)
  | close j =>
    have hj : j ≠ i := he
    simp only [World.step]
    repeat' split
    all_goals first | exact h | exact h.putObj hj
  | closed j env =>
    have hj : j ≠ i := he
    simp only [World.step]
    repeat' split
    all_goals first
      | exact h
      | exact (h.of (releases_objs _ _ _).1 (releases_objs _ _ _).2).putObj hj
  | crash j =>
    refine ⟨?_, fun o ho => ?_, fun q hq => ?_⟩
    · show i < (w.objs.set j none).length
      rw [List.length_set]; exact h.lt
    · have ho : ((w.objs.set j none)[i]?).join = some o := ho
      by_cases hj : i = j
      · subst hj
        have := join_set_self ho
        cases this
      · rw [join_set _ _ _ _ hj] at ho
        exact h.obj o ho
    · obtain ⟨x, hx, e⟩ := List.mem_map.mp hq
      cases x with
      | none => cases e
      | some x =>
        simp only at e
        split at e
        · cases e
        · cases e; exact h.pend _ hx

theorem Shut.run (h : Shut w i) (es : List (Ev D)) : Shut (run C IC es w).2 i := by
  induction es generalizing w with
  | nil => exact h
  | cons e es ih => exact ih (h.step e)

/-- Close has answered. -/
theorem shut_closed {env : Env} {a : Answer D} (h : w.step C IC (.closed i env) = (a, w')) (ha : a = .closed) : Shut w' i := by
  subst ha
  simp only [World.step] at h
  split at h
  case h_2 => cases h
  rename_i o ho
  split at h
  case isFalse => cases h
  rename_i hc
  obtain ⟨hc, hb⟩ := hc
  cases h
  have hlt : i < w.objs.length := by
    rcases Nat.lt_or_ge i w.objs.length with h | h
    · exact h
    · unfold World.obj at ho
      rw [List.getElem?_eq_none_iff.mpr h] at ho; cases ho
  unfold World.busy at hb
  rw [Bool.or_eq_false_iff] at hb
  obtain ⟨r1, r2⟩ := releases_objs env (o.cseq :: o.iseq.toList ++ o.colls.ents.map (fun e => e.2.seq)) w
  refine ⟨?_, fun o' ho' => ?_, fun q hq => ?_⟩
  · show i < ((w.releaseAll env o).objs.set i _).length
    rw [List.length_set]
    unfold World.releaseAll
    rw [r1]; exact hlt
  · have := join_set_self (l := (w.releaseAll env o).objs) ho'
    cases this
    refine ⟨rfl, ?_⟩
    have hm := hb.1
    show o.making = none ∨ o.making = some .stuck
    cases hx : o.making with
    | none => exact .inl rfl
    | some m =>
      rw [hx] at hm
      cases m <;> first | exact .inr rfl | cases hm
  · have hq : some q ∈ (w.releaseAll env o).pending := hq
    unfold World.releaseAll at hq
    rw [r2] at hq
    have := List.any_eq_false.mp hb.2 _ hq
    simpa using this

/-! ### Names that are refused -/

/-- A name that a collection can have. -/
def Proper (name : Bytes) : Prop := name ≠ [] ∧ reserved name = false

def Making.name : Making → Option Bytes
  | .drawn n _ _ _ | .known n _ | .counted n _ _ => some n
  | .stuck => none

structure ProperObj (o : Obj) : Prop where
  colls : ∀ name cl, o.colls.get name = some cl → Proper name
  making : ∀ m name, o.making = some m → m.name = some name → Proper name

def AllProper (w : World) : Prop := ∀ j o, w.obj j = some o → ProperObj o

theorem AllProper.of (h : AllProper w) (ho : w'.objs = w.objs) : AllProper w' := fun j o => by
  unfold World.obj; rw [ho]; exact h j o

theorem AllProper.put (h : AllProper w) {j : Nat} {o : Obj} (ho : ProperObj o) : AllProper (w.putObj j o) := by
  intro k o' ho'
  by_cases e : k = j
  · subst e
    have := join_set_self (l := w.objs) ho'
    cases this; exact ho
  · have ho' : ((w.objs.set j (some o))[k]?).join = some o' := ho'
    rw [join_set _ _ _ _ e] at ho'
    exact h k o' ho'

theorem ProperObj.idle {o : Obj} (h : ProperObj o) : ProperObj { o with making := none } := ⟨h.colls, nofun⟩

theorem ProperObj.stuck {o : Obj} (h : ProperObj o) : ProperObj { o with making := some .stuck } := ⟨h.colls, fun m name hm hn => by cases hm; cases hn⟩

theorem ProperObj.make {o : Obj} (h : ProperObj o) {m : Making} {name : Bytes} (hm : m.name = some name) (hp : Proper name) :
    ProperObj { o with making := some m } := ⟨h.colls, fun m' name' hm' hn' => by cases hm'; rw [hm] at hn'; cases hn'; exact hp⟩

theorem ProperObj.coll {o : Obj} (h : ProperObj o) {name : Bytes} (cl : Coll) (hp : Proper name) :
    ProperObj { o with colls := o.colls.set name cl } := by
  refine ⟨fun name' cl' hc => ?_, h.making⟩
  have hc' : (o.colls.set name cl).get name' = some cl' := hc
  rw [OMap.get_set] at hc'
  split at hc'
  · rename_i e; subst e; exact hp
  · exact h.colls name' cl' hc'

theorem AllProper.remember (h : AllProper w) (j : Nat) (name : Bytes) (f : OMap IndexDef → OMap IndexDef) : AllProper (w.remember j name f) := by
  unfold World.remember
  split
  · exact h
  rename_i o ho
  split
  · exact h
  rename_i cl hc
  exact h.put ((h j o ho).coll _ ((h j o ho).colls name cl hc))

theorem AllProper.step (h : AllProper w) (e : Ev D) : AllProper (w.step C IC e).2 := by
  cases e with
  | newDB c =>
    simp only [World.step]
    split
    · exact h
    · rename_i w' hn
      have h' := h.of (newSequence_objs hn).1
      intro j o ho
      have ho : ((w'.objs ++ [some { cseq := w.gens.length }])[j]?).join = some o := ho
      rcases Nat.lt_or_ge j w'.objs.length with hl | hl
      · rw [List.getElem?_append_left hl] at ho
        exact h' j o ho
      · rw [List.getElem?_append_right hl] at ho
        cases hz : j - w'.objs.length with
        | zero =>
          rw [hz] at ho
          have ho : some _ = some o := ho
          cases ho
          exact ⟨fun name cl hc => by simp [OMap.get_empty] at hc, nofun⟩
        | succ n => rw [hz] at ho; cases ho
  | newDB2 j c =>
    simp only [World.step]
    repeat' split
    all_goals try exact h
    rename_i o ho _ _ _ w' hn
    exact (h.of (newSequence_objs hn).1).put ⟨(h j o ho).colls, (h j o ho).making⟩
  | lookup j name how v env c =>
    simp only [World.step]
    split
    · exact h
    rename_i o ho
    split
    case isFalse => exact h
    unfold World.lookup
    split
    · exact h
    rename_i hn0
    split
    · exact h
    rename_i hn1
    have hp : Proper name := ⟨hn0, by simpa using hn1⟩
    have hpo := h j o ho
    repeat' split
    all_goals first
      | exact h
      | exact h.put hpo.stuck
      | exact h.put (hpo.make rfl hp)
      | (rename_i hn; exact h.of (draw_objs hn).1)
      | (rename_i hn; exact (h.of (draw_objs hn).1).put hpo.stuck)
      | (rename_i hn; exact (h.of (draw_objs hn).1).put (hpo.make rfl hp))
  | register j f =>
    simp only [World.step]
    split
    case h_2 => exact h
    rename_i o ho
    split
    case h_2 => exact h
    rename_i name t v u hm
    have hpo := h j o ho
    have hp := hpo.making _ name hm rfl
    unfold World.register
    repeat' split
    all_goals first
      | exact h.put hpo.idle
      | exact h.put hpo.stuck
      | (rename_i S _; exact (h.of (w' := { w with store := S }) rfl).put (hpo.make rfl hp))
      | (rename_i S _; exact (h.of (w' := { w with store := S }) rfl).put hpo.idle)
      | (rename_i S _; exact (h.of (w' := { w with store := S }) rfl).put hpo.stuck)
  | sequence j c =>
    simp only [World.step]
    split
    case h_2 => exact h
    rename_i o ho
    split
    case h_2 => exact h
    rename_i name cid hm
    have hpo := h j o ho
    have hp := hpo.making _ name hm rfl
    unfold World.sequence
    repeat' split
    all_goals first
      | exact h
      | (rename_i hn; exact (h.of (newSequence_objs hn).1).put (hpo.make rfl hp))
      | (rename_i hn; exact (h.of (newSequence_objs hn).1).put hpo.idle)
      | (rename_i hn; exact (h.of (newSequence_objs hn).1).put hpo.stuck)
  | indexes j env =>
    simp only [World.step]
    split
    case h_2 => exact h
    rename_i o ho
    split
    case h_2 => exact h
    rename_i name cid p hm
    have hpo := h j o ho
    have hp := hpo.making _ name hm rfl
    unfold World.indexes
    repeat' split
    all_goals first
      | exact h.put (hpo.idle.coll _ hp)
      | exact h.put hpo.idle
      | exact h.put hpo.stuck
  | begin env => exact h.of rfl
  | insert k j name doc how c =>
    simp only [World.step, World.insert]
    repeat' split
    all_goals first
      | exact h
      | (rename_i hn; exact h.of (draw_objs hn).1)
  | op k j name o how =>
    simp only [World.step]
    repeat' split
    all_goals first | exact h | exact h.of rfl
  | commit k f =>
    simp only [World.step]
    repeat' split
    all_goals first | exact h | exact h.of rfl
  | discard k =>
    simp only [World.step]
    repeat' split
    all_goals first | exact h | exact h.of rfl
  | createIndex j name d how v env c =>
    simp only [World.step, World.createIndex]
    repeat' split
    all_goals first
      | exact h
      | (rename_i hn; exact h.of (draw_objs hn).1)
      | (rename_i hn _ _ _ _; exact h.of (draw_objs hn).1)
      | (rename_i hn _ _ _; exact h.of (draw_objs hn).1)
  | writeIndex p f =>
    simp only [World.step]
    split
    case h_2 => exact h
    unfold World.writeIndex
    split <;> exact h.of rfl
  | finish p =>
    simp only [World.step]
    split
    case h_2 => exact h
    unfold World.finish
    split
    · exact h
    · dsimp only; exact AllProper.remember (w := { w with pending := w.pending.set p none }) (h.of rfl) _ _ _
    · dsimp only; exact AllProper.remember (w := { w with pending := w.pending.set p none }) (h.of rfl) _ _ _
  | getIndexes j name =>
    simp only [World.step]
    repeat' split
    all_goals exact h
  | dropIndex j name iname how c =>
    simp only [World.step, World.dropIndex]
    repeat' split
    all_goals first
      | exact h
      | exact h.of rfl
  | close j =>
    simp only [World.step]
    split
    case h_2 => exact h
    rename_i o ho
    split
    · exact h.put ⟨(h j o ho).colls, (h j o ho).making⟩
    · exact h
  | closed j env =>
    simp only [World.step]
    split
    case h_2 => exact h
    rename_i o ho
    split
    · exact (h.of (releases_objs _ _ _).1).put ⟨(h j o ho).colls, (h j o ho).making⟩
    · exact h
  | crash j =>
    intro k o ho
    have ho : ((w.objs.set j none)[k]?).join = some o := ho
    by_cases hj : k = j
    · subst hj
      have := join_set_self ho
      cases this
    · rw [join_set _ _ _ _ hj] at ho
      exact h k o ho

theorem AllProper.run (h : AllProper w) (es : List (Ev D)) : AllProper (run C IC es w).2 := by
  induction es generalizing w with
  | nil => exact h
  | cons e es ih => exact ih (h.step e)

end Mondis.DocDB
