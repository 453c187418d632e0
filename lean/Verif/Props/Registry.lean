import Verif.Model.Registry
import Verif.Props.Sequence
import Verif.Lemmas.StructHash
import Verif.Lemmas.MetaStep
/-!
# C80: the sequences of document ids, dropped and created again
-/
namespace Mondis.Registry
open Mondis Util Sequence Props Ddl Meta

variable {w : World} {es : List Ev}

theorem run_append (es es' : List Ev) (w : World) : run (es ++ es') w = ((run es w).1 ++ (run es' (run es w).2).1, (run es' (run es w).2).2) := by
  induction es generalizing w with
  | nil => rfl
  | cons e es ih => simp only [List.cons_append, run, ih]

/-! ### The map -/

/-- What a call and its answer say about that. -/
def registers (p : Nat) (cid : Int64) (b : Bool) : Ev → Answer → Bool
  | .create q _ c _ _, .made (.ok _) => if q = p ∧ c = cid then true else b
  | .drop q c _ _, _ => if q = p ∧ c = cid then false else b
  | .dropIfExists q c _ _, _ => if q = p ∧ c = cid then false else b
  | .crash q, _ => if q = p then false else b
  | _, _ => b

/-- Has the process a sequence for the collection, judged by what its callers were told? -/
def registered (p : Nat) (cid : Int64) : Bool → List Ev → List Answer → Bool
  | b, e :: es, a :: as => registered p cid (registers p cid b e a) es as
  | b, _, _ => b

/-- The map and the objects: what is in the map is an open object of this process and collection, and every open object is there. -/
structure Tab (w : World) : Prop where
  tab : ∀ p c x, w.tables p c = some x → ∃ o, w.obj x = some o ∧ o.proc = p ∧ o.cid = c ∧ o.seq.closed = false
  opn : ∀ x o, w.obj x = some o → o.seq.closed = false → w.tables o.proc o.cid = some x

theorem obj_lt {x : Nat} {o : Obj} (h : w.obj x = some o) : x < w.objs.length := by
  unfold World.obj at h
  cases hx : w.objs[x]? with
  | none => rw [hx] at h; cases h
  | some y => exact (List.getElem?_eq_some_iff.mp hx).1

theorem obj_get {x : Nat} {o : Obj} (h : w.obj x = some o) : w.objs[x]? = some (some o) := by
  unfold World.obj at h
  cases hx : w.objs[x]? with
  | none => rw [hx] at h; cases h
  | some y => rw [hx] at h; exact congrArg some h

theorem obj_set (l : List (Option Obj)) (x y : Nat) (o : Option Obj) :
    ((l.set x o)[y]?).join = if x = y ∧ x < l.length then o else (l[y]?).join := by
  rw [List.getElem?_set]
  by_cases h : x = y
  · subst h
    by_cases hl : x < l.length
    · simp [hl]
    · simp [hl]
  · simp [h]

theorem renew_keeps (s : Seq) (c : Sequence.Circ) (step : Int64) (db : DB) : (s.renewLease c step db).2.1.closed = s.closed ∧
    (s.renewLease c step db).2.1.cell = s.cell ∧ (s.renewLease c step db).2.1.bandwidth = s.bandwidth := by
  unfold Seq.renewLease
  dsimp only
  split <;> exact ⟨rfl, rfl, rfl⟩

theorem nextId_keeps (s : Seq) (c : Sequence.Circ) (db : DB) : (s.nextId c db).2.1.closed = s.closed ∧ (s.nextId c db).2.1.cell = s.cell ∧
    (s.nextId c db).2.1.bandwidth = s.bandwidth := by
  have h := renew_keeps s c 0 db
  unfold Seq.nextId
  split
  · exact ⟨rfl, rfl, rfl⟩
  · split
    · exact ⟨rfl, rfl, rfl⟩
    · by_cases hge : s.next ≥ s.leased
      · rw [if_pos hge]
        generalize s.renewLease c 0 db = z at h
        obtain ⟨r, s', db'⟩ := z
        cases r <;> exact h
      · rw [if_neg hge]
        exact ⟨rfl, rfl, rfl⟩

theorem close_closes (s : Seq) (b : Bool) (c : Sequence.Circ) (db : DB) : (s.close b c db).2.1.closed = true ∧ (s.close b c db).2.1.cell = s.cell ∧
    (s.close b c db).2.1.bandwidth = s.bandwidth := by
  unfold Seq.close Seq.releaseRemainingLocked Seq.updateLeased
  split
  · rename_i h; exact ⟨h, rfl, rfl⟩
  · split
    · split
      · exact ⟨rfl, rfl, rfl⟩
      · split <;> exact ⟨rfl, rfl, rfl⟩
    · exact ⟨rfl, rfl, rfl⟩

/-- Next, as one thing. -/
theorem step_next (w : World) (x : Nat) (c : Sequence.Circ) : w.step (.next x c) = match w.obj x with
    | none => (.none, w)
    | some o => (.id (o.seq.nextId c w.db).1, { w.put x o (o.seq.nextId c w.db) with out := (match (o.seq.nextId c w.db).1 with
        | .ok v => [(o.cid, v)]
        | _ => []) ++ w.out }) := by
  simp only [World.step]
  cases w.obj x with
  | none => rfl
  | some o =>
    simp only
    cases h : o.seq.nextId c w.db with
    | mk r z => cases r <;> rfl

/-- A change of one object that leaves it open or closed. -/
theorem Tab.put (h : Tab w) {x : Nat} {o : Obj} (hx : w.obj x = some o) (s : Seq) (hs : s.closed = o.seq.closed) {db : DB}
    {out back : List (Int64 × Int64)} : Tab { w with db := db, objs := w.objs.set x (some { o with seq := s }), out := out, back := back } := by
  have hl := obj_lt hx
  refine ⟨?_, ?_⟩
  · intro p c y hy
    obtain ⟨o', h1, h2, h3, h4⟩ := h.tab p c y hy
    show ∃ o', ((w.objs.set x _)[y]?).join = some o' ∧ _
    rw [obj_set]
    by_cases e : x = y
    · subst e
      rw [hx] at h1; cases h1
      rw [if_pos ⟨rfl, hl⟩]
      exact ⟨_, rfl, h2, h3, hs.trans h4⟩
    · rw [if_neg (fun h => e h.1)]
      exact ⟨o', h1, h2, h3, h4⟩
  · intro y o' ho hc
    have ho : ((w.objs.set x (some { o with seq := s }))[y]?).join = some o' := ho
    rw [obj_set] at ho
    by_cases e : x = y
    · subst e
      rw [if_pos ⟨rfl, hl⟩] at ho
      cases ho
      exact h.opn x o hx (hs.symm.trans hc)
    · rw [if_neg (fun h => e h.1)] at ho
      exact h.opn y o' ho hc

theorem Tab.discard (h : Tab w) {p : Nat} {cid : Int64} {x : Nat} (hx : w.tables p cid = some x) (b : Bool) (c : Sequence.Circ) :
    ∃ o, w.obj x = some o ∧ o.proc = p ∧ o.cid = cid ∧ o.seq.closed = false ∧
      w.discard p cid x b c = ((o.seq.close b c w.db).1, (w.enter p cid none).put x o (o.seq.close b c w.db)) ∧
      Tab ((w.enter p cid none).put x o (o.seq.close b c w.db)) := by
  obtain ⟨o, h1, h2, h3, h4⟩ := h.tab p cid x hx
  have hl := obj_lt h1
  refine ⟨o, h1, h2, h3, h4, ?_, ?_, ?_⟩
  · unfold World.discard
    rw [show (w.enter p cid none).obj x = some o from h1]
  · intro q d y hy
    have hy : (if q = p ∧ d = cid then none else w.tables q d) = some y := hy
    split at hy
    · cases hy
    rename_i hne
    obtain ⟨o', g1, g2, g3, g4⟩ := h.tab q d y hy
    refine ⟨o', ?_, g2, g3, g4⟩
    show ((w.objs.set x _)[y]?).join = some o'
    rw [obj_set, if_neg]
    · exact g1
    · rintro ⟨rfl, -⟩
      rw [h1] at g1; cases g1
      exact hne ⟨g2.symm.trans h2, g3.symm.trans h3⟩
  · intro y o' ho hc
    have ho : ((w.objs.set x (some { o with seq := (o.seq.close b c w.db).2.1 }))[y]?).join = some o' := ho
    rw [obj_set] at ho
    by_cases e : x = y
    · subst e
      rw [if_pos ⟨rfl, hl⟩] at ho
      cases ho
      have := (close_closes o.seq b c w.db).1
      rw [show (o.seq.close b c w.db).2.1.closed = false from hc] at this
      cases this
    · rw [if_neg (fun h => e h.1)] at ho
      have := h.opn y o' ho hc
      show (if o'.proc = p ∧ o'.cid = cid then none else w.tables o'.proc o'.cid) = some y
      rw [if_neg]
      · exact this
      · rintro ⟨e1, e2⟩
        rw [e1, e2, hx] at this
        cases this
        exact e rfl

/-- The cases of CreateSequence. -/
theorem create_cases (w : World) (p : Nat) (dbID cid b : Int64) (c : Sequence.Circ) :
    ((w.tables p cid).isSome = true ∧ w.create p dbID cid b c = (.err errSequenceAlreadyExists, w)) ∨
    (w.tables p cid = none ∧ (∃ s db, Seq.new (didCell dbID cid) (bandwidthOf b) c w.db = (.ok (), some s, db) ∧
      w.create p dbID cid b c = (.ok (), { w with db := db, objs := w.objs ++ [some (⟨p, cid, s⟩ : Obj)] }.enter p cid (some w.objs.length)))) ∨
    (w.tables p cid = none ∧ (∃ r, w.create p dbID cid b c = (r, { w with db := (Seq.new (didCell dbID cid) (bandwidthOf b) c w.db).2.2 }) ∧ r ≠ .ok ())) := by
  unfold World.create
  cases ht : w.tables p cid with
  | some x => exact .inl ⟨rfl, rfl⟩
  | none =>
    right
    simp only [Option.isSome_none, Bool.false_eq_true, if_false, true_and]
    cases hn : Seq.new (didCell dbID cid) (bandwidthOf b) c w.db with
    | mk r z =>
      obtain ⟨o, db⟩ := z
      cases r with
      | ok u =>
        cases o with
        | some s => exact .inl ⟨s, db, rfl, rfl⟩
        | none => exact .inr ⟨_, rfl, by simp⟩
      | err e => exact .inr ⟨_, rfl, by simp⟩
      | panic => exact .inr ⟨_, rfl, by simp⟩

theorem new_open {cell : Cell} {b : Int64} {c : Sequence.Circ} {db db' : DB} {s : Seq} {r : Res Unit} (h : Seq.new cell b c db = (r, some s, db')) :
    s.closed = false ∧ s.cell = cell ∧ s.bandwidth = b := by
  unfold Seq.new at h
  split at h
  · cases h
  · split at h
    · cases h
    · have hk := renew_keeps { cell := cell, bandwidth := b } c 0 db
      generalize Seq.renewLease { cell := cell, bandwidth := b } c 0 db = z at h hk
      obtain ⟨r', s', db''⟩ := z
      cases h
      exact hk

theorem obj_append (l : List (Option Obj)) (o : Option Obj) (y : Nat) :
    ((l ++ [o])[y]?).join = if y = l.length then o else (l[y]?).join := by
  by_cases h : y < l.length
  · rw [List.getElem?_append_left h, if_neg (by omega)]
  · by_cases e : y = l.length
    · subst e; simp
    · rw [if_neg e, List.getElem?_append_right (by omega), List.getElem?_eq_none (by simp; omega), List.getElem?_eq_none (by omega)]

theorem Tab.step (h : Tab w) (e : Ev) : Tab (w.step e).2 := by
  cases e with
  | create p dbID cid b c =>
    simp only [World.step]
    rcases create_cases w p dbID cid b c with ⟨-, h1⟩ | ⟨ht, s, db, h1, h2⟩ | ⟨-, r, h1, -⟩
    · rw [h1]; exact h
    · rw [h2]
      have hs := (new_open h1).1
      refine ⟨?_, ?_⟩
      · intro q d y hy
        have hy : (if q = p ∧ d = cid then some w.objs.length else w.tables q d) = some y := hy
        show ∃ o, ((w.objs ++ [some (⟨p, cid, s⟩ : Obj)])[y]?).join = some o ∧ _
        rw [obj_append]
        split at hy
        · rename_i e
          cases hy
          rw [if_pos rfl]
          exact ⟨_, rfl, e.1.symm, e.2.symm, hs⟩
        · obtain ⟨o, g1, g⟩ := h.tab q d y hy
          rw [if_neg (by have := obj_lt g1; omega)]
          exact ⟨o, g1, g⟩
      · intro y o ho hc
        have ho : ((w.objs ++ [some (⟨p, cid, s⟩ : Obj)])[y]?).join = some o := ho
        show (if o.proc = p ∧ o.cid = cid then some w.objs.length else w.tables o.proc o.cid) = some y
        rw [obj_append] at ho
        split at ho
        · rename_i e
          cases ho
          rw [if_pos ⟨rfl, rfl⟩, e]
        · have := h.opn y o ho hc
          rw [if_neg]
          · exact this
          · rintro ⟨e1, e2⟩
            rw [e1, e2, ht] at this; cases this
    · rw [h1]; exact ⟨h.tab, h.opn⟩
  | get p cid => exact h
  | drop p cid l c =>
    simp only [World.step]
    cases ht : w.tables p cid with
    | none => exact h
    | some x =>
      obtain ⟨o, -, -, -, -, h1, h2⟩ := h.discard ht l c
      simp only
      rw [h1]; exact h2
  | dropIfExists p cid l c =>
    simp only [World.step]
    cases ht : w.tables p cid with
    | none => exact h
    | some x =>
      obtain ⟨o, -, -, -, -, h1, h2⟩ := h.discard ht l c
      simp only
      rw [h1]; exact h2
  | next x c =>
    rw [step_next]
    cases hx : w.obj x with
    | none => exact h
    | some o => exact h.put hx _ (nextId_keeps _ _ _).1
  | putBack x vals =>
    simp only [World.step]
    cases hx : w.obj x with
    | none => exact h
    | some o => exact h.put hx (o.seq.putBack vals) rfl
  | crash p =>
    have hget : ∀ y, (World.step w (.crash p)).2.obj y = (w.obj y).bind (fun o => if o.proc = p then none else some o) := by
      intro y
      show ((w.objs.map _)[y]?).join = _
      rw [List.getElem?_map]
      unfold World.obj
      cases w.objs[y]? <;> rfl
    refine ⟨?_, ?_⟩
    · intro q d y hy
      have hy : (if q = p then none else w.tables q d) = some y := hy
      split at hy
      · cases hy
      · rename_i hne
        obtain ⟨o, g1, g2, g3⟩ := h.tab q d y hy
        refine ⟨o, ?_, g2, g3⟩
        rw [hget, g1]
        show (if o.proc = p then none else some o) = some o
        rw [if_neg (by rw [g2]; exact hne)]
    · intro y o ho hc
      rw [hget] at ho
      cases hy : w.obj y with
      | none => rw [hy] at ho; cases ho
      | some o' =>
        rw [hy] at ho
        have ho : (if o'.proc = p then none else some o') = some o := ho
        split at ho
        · cases ho
        · rename_i hne
          have ho : o' = o := Option.some.inj ho
          subst ho
          show (if o'.proc = p then none else w.tables o'.proc o'.cid) = some y
          rw [if_neg hne]
          exact h.opn y o' hy hc
  | other db => exact ⟨h.tab, h.opn⟩

theorem Tab.run (h : Tab w) (es : List Ev) : Tab (run es w).2 := by
  induction es generalizing w with
  | nil => exact h
  | cons e es ih => exact ih (h.step e)

theorem Tab.start (db : DB) : Tab { db := db } := by
  refine ⟨fun p c x h => ?_, fun x o h => ?_⟩
  · cases h
  · unfold World.obj at h
    simp at h

theorem registered_tab (p : Nat) (cid : Int64) (es : List Ev) (w : World) (h : Tab w) :
    ((run es w).2.tables p cid).isSome = registered p cid (w.tables p cid).isSome es (run es w).1 := by
  induction es generalizing w with
  | nil => rfl
  | cons e es ih =>
    show ((run es (w.step e).2).2.tables p cid).isSome = registered p cid (registers p cid _ e (w.step e).1) es (run es (w.step e).2).1
    rw [ih _ (h.step e)]
    congr 1
    cases e with
    | create q dbID d b c =>
      simp only [World.step]
      rcases create_cases w q dbID d b c with ⟨-, h1⟩ | ⟨-, s, db, -, h1⟩ | ⟨-, r, h1, h2⟩
      · rw [h1]; rfl
      · rw [h1]
        show (if p = q ∧ cid = d then some w.objs.length else w.tables p cid).isSome = if q = p ∧ d = cid then true else _
        by_cases e : q = p ∧ d = cid
        · rw [if_pos e, if_pos ⟨e.1.symm, e.2.symm⟩]; rfl
        · rw [if_neg e, if_neg (fun h => e ⟨h.1.symm, h.2.symm⟩)]
      · rw [h1]
        cases r with
        | ok u => exact absurd rfl h2
        | err e => rfl
        | panic => rfl
    | get q d => rfl
    | drop q d l c =>
      simp only [World.step]
      cases ht : w.tables q d with
      | none =>
        show (w.tables p cid).isSome = if q = p ∧ d = cid then false else _
        by_cases e : q = p ∧ d = cid
        · rw [if_pos e, ← e.1, ← e.2, ht]; rfl
        · rw [if_neg e]
      | some x =>
        obtain ⟨o, -, -, -, -, h1, -⟩ := h.discard ht l c
        simp only
        rw [h1]
        show (if p = q ∧ cid = d then none else w.tables p cid).isSome = if q = p ∧ d = cid then false else _
        by_cases e : q = p ∧ d = cid
        · rw [if_pos e, if_pos ⟨e.1.symm, e.2.symm⟩]; rfl
        · rw [if_neg e, if_neg (fun h => e ⟨h.1.symm, h.2.symm⟩)]
    | dropIfExists q d l c =>
      simp only [World.step]
      cases ht : w.tables q d with
      | none =>
        show (w.tables p cid).isSome = if q = p ∧ d = cid then false else _
        by_cases e : q = p ∧ d = cid
        · rw [if_pos e, ← e.1, ← e.2, ht]; rfl
        · rw [if_neg e]
      | some x =>
        obtain ⟨o, -, -, -, -, h1, -⟩ := h.discard ht l c
        simp only
        rw [h1]
        show (if p = q ∧ cid = d then none else w.tables p cid).isSome = if q = p ∧ d = cid then false else _
        by_cases e : q = p ∧ d = cid
        · rw [if_pos e, if_pos ⟨e.1.symm, e.2.symm⟩]; rfl
        · rw [if_neg e, if_neg (fun h => e ⟨h.1.symm, h.2.symm⟩)]
    | next x c =>
      rw [step_next]
      cases w.obj x <;> rfl
    | putBack x vals =>
      simp only [World.step]
      cases w.obj x <;> rfl
    | crash q =>
      show (if p = q then none else w.tables p cid).isSome = if q = p then false else _
      by_cases e : q = p
      · rw [if_pos e, if_pos e.symm]; rfl
      · rw [if_neg e, if_neg (Ne.symm e)]
    | other db => rfl

/-- C80: the map.  After any history, in each process and for each collection: GetSequence gives an object exactly if one was created
and neither it was dropped nor the process died since.  Where there is
one CreateSequence fails with ErrSequenceAlreadyExists and does nothing; where there is none it makes one or, failing, leaves none.  DropSequence fails with ErrSequenceNotExists exactly if there is none, and DropSequenceIfExists then
succeeds, both doing nothing. -/
theorem C80_map (db : DB) (hw : w = (run es { db := db }).2) (p : Nat) (cid : Int64) (b : Bool) (hb : b = registered p cid false es (run es { db := db }).1) :
    (∃ x, w.step (.get p cid) = (.got x, w) ∧ x.isSome = b) ∧
    (∀ dbID bw c, b = true → w.step (.create p dbID cid bw c) = (.made (.err errSequenceAlreadyExists), w)) ∧
    (∀ dbID bw c, b = false → (w.step (.create p dbID cid bw c)).1 ≠ .made (.ok ()) →
      ((w.step (.create p dbID cid bw c)).2.step (.get p cid)).1 = .got none) ∧
    (∀ l c, b = false → w.step (.drop p cid l c) = (.dropped (.err Dml.errSequenceNotExists), w)) ∧
    (∀ l c, b = false → w.step (.dropIfExists p cid l c) = (.dropped (.ok ()), w)) ∧
    (∀ l c, b = true → w.step (.dropIfExists p cid l c) = w.step (.drop p cid l c) ∧
      ((w.step (.drop p cid l c)).2.step (.get p cid)).1 = .got none) := by
  have hT : Tab w := hw ▸ (Tab.start db).run es
  have h := registered_tab p cid es { db := db } (Tab.start db)
  rw [← hw] at h
  have h : (w.tables p cid).isSome = b := h.trans hb.symm
  refine ⟨⟨_, rfl, h⟩, ?_, ?_, ?_, ?_, ?_⟩
  · intro dbID bw c e
    simp only [World.step, World.create]
    rw [if_pos (h.trans e)]
  · intro dbID bw c e hne
    have hnone : w.tables p cid = none := by rw [e] at h; simpa using h
    simp only [World.step] at hne ⊢
    rcases create_cases w p dbID cid bw c with ⟨-, h1⟩ | ⟨-, s, db, -, h1⟩ | ⟨-, r, h1, h2⟩
    · rw [h1, hnone]
    · rw [h1] at hne; exact absurd rfl hne
    · rw [h1]
      show Answer.got (w.tables p cid) = _
      rw [hnone]
  · intro l c e
    have hnone : w.tables p cid = none := by rw [e] at h; simpa using h
    simp only [World.step, hnone]
  · intro l c e
    have hnone : w.tables p cid = none := by rw [e] at h; simpa using h
    simp only [World.step, hnone]
  · intro l c e
    obtain ⟨x, hx⟩ := Option.isSome_iff_exists.mp (h.trans e)
    obtain ⟨o, -, -, -, -, h1, -⟩ := hT.discard hx l c
    refine ⟨by simp only [World.step, hx], ?_⟩
    simp only [World.step, hx, h1]
    show Answer.got (if p = p ∧ cid = cid then none else _) = _
    rw [if_pos ⟨rfl, rfl⟩]

/-- An object stays what it is until its process dies, and closed once it is closed. -/
theorem later (hT : Tab w) (e : Ev) {x : Nat} (hx : x < w.objs.length) : x < (w.step e).2.objs.length ∧
    ∀ o', (w.step e).2.obj x = some o' → ∃ o, w.obj x = some o ∧ o'.proc = o.proc ∧ o'.cid = o.cid ∧ (o.seq.closed = true → o'.seq.closed = true) := by
  have same : ∀ w' : World, w'.objs = w.objs → x < w'.objs.length ∧
      ∀ o', w'.obj x = some o' → ∃ o, w.obj x = some o ∧ o'.proc = o.proc ∧ o'.cid = o.cid ∧ (o.seq.closed = true → o'.seq.closed = true) := by
    intro w' h
    unfold World.obj
    rw [h]
    exact ⟨hx, fun o' h => ⟨o', h, rfl, rfl, id⟩⟩
  have hset : ∀ (w' : World) (y : Nat) (o : Obj) (s : Seq), w.obj y = some o → w'.objs = w.objs.set y (some { o with seq := s }) →
      (o.seq.closed = true → s.closed = true) → x < w'.objs.length ∧
      ∀ o', w'.obj x = some o' → ∃ o, w.obj x = some o ∧ o'.proc = o.proc ∧ o'.cid = o.cid ∧ (o.seq.closed = true → o'.seq.closed = true) := by
    intro w' y o s ho e hc
    unfold World.obj
    rw [e, List.length_set]
    refine ⟨hx, fun o' h => ?_⟩
    rw [obj_set] at h
    split at h
    · rename_i e
      cases h
      obtain ⟨rfl, -⟩ := e
      exact ⟨o, ho, rfl, rfl, hc⟩
    · exact ⟨o', h, rfl, rfl, id⟩
  cases e with
  | create p dbID cid b c =>
    simp only [World.step]
    rcases create_cases w p dbID cid b c with ⟨-, h1⟩ | ⟨-, s, db, -, h1⟩ | ⟨-, r, h1, h2⟩
    · rw [h1]; exact same _ rfl
    · rw [h1]
      refine ⟨?_, fun o' h => ?_⟩
      · show x < (w.objs ++ [_]).length
        rw [List.length_append]; omega
      · have h : ((w.objs ++ [some (⟨p, cid, s⟩ : Obj)])[x]?).join = some o' := h
        rw [obj_append, if_neg (by omega)] at h
        exact ⟨o', h, rfl, rfl, id⟩
    · rw [h1]; exact same _ rfl
  | get p cid => exact same _ rfl
  | drop p cid l c =>
    simp only [World.step]
    cases ht : w.tables p cid with
    | none => exact same _ rfl
    | some y =>
      obtain ⟨o, h1, -, -, -, h2, -⟩ := hT.discard ht l c
      simp only
      rw [h2]
      exact hset _ y o _ h1 rfl (fun _ => (close_closes _ _ _ _).1)
  | dropIfExists p cid l c =>
    simp only [World.step]
    cases ht : w.tables p cid with
    | none => exact same _ rfl
    | some y =>
      obtain ⟨o, h1, -, -, -, h2, -⟩ := hT.discard ht l c
      simp only
      rw [h2]
      exact hset _ y o _ h1 rfl (fun _ => (close_closes _ _ _ _).1)
  | next y c =>
    rw [step_next]
    cases hy : w.obj y with
    | none => exact same _ rfl
    | some o => exact hset _ y o _ hy rfl (fun h => (nextId_keeps _ _ _).1.trans h)
  | putBack y vals =>
    simp only [World.step]
    cases hy : w.obj y with
    | none => exact same _ rfl
    | some o => exact hset _ y o (o.seq.putBack vals) hy rfl id
  | crash p =>
    have hget : (World.step w (.crash p)).2.obj x = (w.obj x).bind (fun o => if o.proc = p then none else some o) := by
      show ((w.objs.map _)[x]?).join = _
      rw [List.getElem?_map]
      unfold World.obj
      cases w.objs[x]? <;> rfl
    refine ⟨?_, fun o' h => ?_⟩
    · show x < (w.objs.map _).length
      rw [List.length_map]; exact hx
    · rw [hget] at h
      cases hy : w.obj x with
      | none => rw [hy] at h; cases h
      | some o =>
        rw [hy] at h
        have h : (if o.proc = p then none else some o) = some o' := h
        split at h
        · cases h
        · cases h
          exact ⟨_, rfl, rfl, rfl, id⟩
  | other db => exact same _ rfl

theorem later_run (hT : Tab w) (es : List Ev) {x : Nat} (hx : x < w.objs.length) : x < (run es w).2.objs.length ∧
    ∀ o', (run es w).2.obj x = some o' → ∃ o, w.obj x = some o ∧ o'.proc = o.proc ∧ o'.cid = o.cid ∧ (o.seq.closed = true → o'.seq.closed = true) := by
  induction es generalizing w with
  | nil => exact ⟨hx, fun o h => ⟨o, h, rfl, rfl, id⟩⟩
  | cons e es ih =>
    obtain ⟨h1, h2⟩ := later hT e hx
    obtain ⟨h3, h4⟩ := ih (hT.step e) h1
    refine ⟨h3, fun o' h => ?_⟩
    obtain ⟨o₁, g1, g2, g3, g4⟩ := h4 o' h
    obtain ⟨o, k1, k2, k3, k4⟩ := h2 o₁ g1
    exact ⟨o, k1, g2.trans k2, g3.trans k3, fun h => g4 (k4 h)⟩

/-- C80: a sequence that was dropped is of no more use.  If GetSequence gave an object in any history, and then DropSequence was called
for it, then after whatever happens Next on the object fails with ErrSequenceClosed and does nothing (unless its process is gone). -/
theorem C80_dropped (db : DB) (es es' : List Ev) (p : Nat) (cid : Int64) (x : Nat) (l : Bool) (c c' : Sequence.Circ)
    (hx : ((run es { db := db }).2.step (.get p cid)).1 = .got (some x)) (hw : w = (run (es ++ .drop p cid l c :: es') { db := db }).2) :
    w.step (.next x c') = (.id (.err Sequence.errClosed), w) ∨ w.step (.next x c') = (.none, w) := by
  rw [run_append] at hw
  have hT := (Tab.start db).run es
  generalize (run es { db := db }).2 = w₀ at *
  have ht : w₀.tables p cid = some x := by
    have := hx
    simp only [World.step, Answer.got.injEq] at this
    exact this
  obtain ⟨o, h1, -, -, -, h2, h3⟩ := hT.discard ht l c
  have hs : (w₀.step (.drop p cid l c)).2 = (w₀.enter p cid none).put x o (o.seq.close l c w₀.db) := by
    simp only [World.step, ht, h2]
  have hobj : ((w₀.enter p cid none).put x o (o.seq.close l c w₀.db)).obj x = some { o with seq := (o.seq.close l c w₀.db).2.1 } := by
    show ((w₀.objs.set x _)[x]?).join = _
    rw [obj_set, if_pos ⟨rfl, obj_lt h1⟩]
  have hw : w = (run es' ((w₀.enter p cid none).put x o (o.seq.close l c w₀.db))).2 := by
    rw [hw]
    show (run es' (w₀.step (.drop p cid l c)).2).2 = _
    rw [hs]
  obtain ⟨-, h4⟩ := later_run h3 es' (obj_lt hobj)
  rw [← hw] at h4
  rw [step_next]
  cases ho : w.obj x with
  | none => exact .inr rfl
  | some o' =>
    obtain ⟨o₁, g1, -, -, g4⟩ := h4 o' ho
    rw [hobj] at g1
    cases g1
    have hc := g4 (close_closes _ _ _ _).1
    left
    have hn : o'.seq.nextId c' w.db = (.err Sequence.errClosed, o'.seq, w.db) := by
      unfold Seq.nextId
      rw [if_pos hc]
    simp only [hn, World.put, List.nil_append]
    have : w.objs.set x (some o') = w.objs := by
      apply List.ext_getElem?
      intro i
      rw [List.getElem?_set]
      split
      · rename_i e; subst e
        rw [if_pos (obj_lt ho), obj_get ho]
      · rfl
    rw [this]

/-! ### Ids -/

/-- The ids of a collection. -/
def idsOf (cid : Int64) (l : List (Int64 × Int64)) : List Int64 := (l.filter (fun x => x.1 = cid)).map Prod.snd

/-- What is assumed of an event in any number of processes: a collection belongs to one database; the counters stay below 2^63; the storage's
guarantee; a sequence is dropped with its remainder released only by the holder of the newest lease; other transactions leave the
counters alone.  Nothing is assumed about which transactions commit, or about crashes. -/
def Sound (home : Int64 → Int64) (w : World) : Ev → Prop
  | .create _ dbID cid b c => dbID = home cid ∧ Fits (didCell dbID cid) w.db (bandwidthOf b) ∧
      Fair (didCell dbID cid) c ((didCell dbID cid).inc (bandwidthOf b)) w.db
  | .next x c => ∀ o, w.obj x = some o → Fits (didCell (home o.cid) o.cid) w.db o.seq.bandwidth ∧
      Fair (didCell (home o.cid) o.cid) c ((didCell (home o.cid) o.cid).inc o.seq.bandwidth) w.db
  | .drop p cid l c | .dropIfExists p cid l c => l = true → ∀ x o, w.tables p cid = some x → w.obj x = some o →
      Newest (didCell (home cid) cid) o.seq w.db ∧ Fair (didCell (home cid) cid) c ((didCell (home cid) cid).put o.seq.next) w.db
  | .other db => ∀ cid, stored (didCell (home cid) cid) db = stored (didCell (home cid) cid) w.db
  | _ => True

def AllSound (home : Int64 → Int64) : World → List Ev → Prop
  | _, [] => True
  | w, e :: es => Sound home w e ∧ AllSound home (w.step e).2 es

/-! #### One counter changes, the others do not -/

theorem updateHash_only {β : Type} (pfx k f : Bytes) (fn : Option Bytes → Res (Bytes × β)) :
    (Structure.updateHash pfx k f fn).Writes (fun x => x = Structure.hashMetaKey pfx k ∨ x = Structure.hashDataKey pfx k f) := by
  unfold Structure.updateHash
  refine Prog.Writes.bind (Prog.writes_getOpt _) ?_
  intro o
  refine Prog.Writes.bind (Prog.writes_ofRes _) ?_
  rintro ⟨nv, b⟩
  dsimp only
  split
  · exact Prog.writes_pure _
  · refine Prog.Writes.bind (Prog.writes_setK _ (.inr rfl)) ?_
    intro _
    split
    · exact Prog.writes_pure _
    · refine Prog.Writes.bind ?_ ?_
      · unfold Structure.loadHashMeta
        refine Prog.Writes.bind (Prog.writes_getOpt _) ?_
        intro o
        cases o with
        | none => exact Prog.writes_pure _
        | some v => exact Prog.Writes.bind (Prog.writes_ofRes _) (fun _ => Prog.writes_pure _)
      · intro m
        exact Prog.Writes.bind (Prog.writes_setK _ (.inl rfl)) (fun _ => Prog.writes_pure _)

/-- The keys of one sequence. -/
def Mine (d cid : Int64) (x : Bytes) : Prop := x = Structure.hashMetaKey Sequence.metaPrefix (dbKeyByID d) ∨
  x = Structure.hashDataKey Sequence.metaPrefix (dbKeyByID d) (didSequenceKeyByID cid)

theorem inc_only (d cid n : Int64) : ((didCell d cid).inc n).Writes (Mine d cid) := by
  show (Structure.hinc _ _ _ _).Writes _
  unfold Structure.hinc
  exact updateHash_only _ _ _ _
theorem put_only (d cid n : Int64) : ((didCell d cid).put n).Writes (Mine d cid) := by
  show (Structure.hsetInt64 _ _ _ _).Writes _
  unfold Structure.hsetInt64 Structure.hset
  exact updateHash_only _ _ _ _

theorem not_mine {d cid d' cid' : Int64} (h : cid ≠ cid') : ¬ Mine d cid (didCell d' cid').dataKey := by
  rintro (e | e)
  · rw [show (didCell d' cid').dataKey = Structure.hashDataKey Sequence.metaPrefix (dbKeyByID d') (didSequenceKeyByID cid') from rfl,
      Structure.hashDataKey_eq, Structure.hashMetaKey_eq, Structure.skey_inj] at e
    exact absurd e.2.1 (by decide)
  · rw [show (didCell d' cid').dataKey = Structure.hashDataKey Sequence.metaPrefix (dbKeyByID d') (didSequenceKeyByID cid') from rfl,
      Structure.hashDataKey_eq, Structure.hashDataKey_eq, Structure.skey_inj, Structure.encodeGroups_inj] at e
    exact h (idKey_inj.mp e.2.2).symm

theorem update_keeps {α : Type} {P : Bytes → Prop} {p : Prog α} (hp : p.Writes P) (env : Env) (fail : Option Err) (snap db : DB)
    {k : Bytes} (hk : ¬ P k) : (runInNewUpdateTxn env fail p snap db).2.get k = db.get k := by
  unfold runInNewUpdateTxn body
  obtain ⟨ws, h1, h2⟩ := Prog.run_writes hp (Txn.start { env with update := true } snap)
  generalize p.run (Txn.start { env with update := true } snap) = z at h1
  obtain ⟨r, t⟩ := z
  cases r with
  | err e => rfl
  | panic => rfl
  | ok a =>
    have : ∀ r db', t.commit fail db = (r, db') → db'.get k = db.get k := by
      intro r db' hc
      unfold Txn.commit at hc
      split at hc
      · cases hc; rfl
      · split at hc
        · cases hc; rfl
        · cases hc
          refine Prog.get_applyWrites_of_not_mem ?_
          intro hm
          obtain ⟨w, hw, e⟩ := List.mem_map.mp hm
          rw [show t.writes = _ from h1] at hw
          exact hk (e ▸ (h2 w hw).1)
    cases hc : t.commit fail db with
    | mk r' db' =>
      have := this _ _ hc
      simp only [hc]
      cases r' <;> exact this

theorem stored_of_get {cell : Cell} {db db' : DB} (h : db'.get cell.dataKey = db.get cell.dataKey) : stored cell db' = stored cell db := by
  unfold stored counter
  rw [h]

theorem renew_other {s : Seq} {d cid d' cid' : Int64} (hs : s.cell = didCell d cid) (h : cid ≠ cid') (c : Sequence.Circ) (step : Int64) (db : DB) :
    stored (didCell d' cid') (s.renewLease c step db).2.2 = stored (didCell d' cid') db := by
  apply stored_of_get
  unfold Seq.renewLease
  dsimp only
  rw [hs]
  have := update_keeps (inc_only d cid (if step = 0 then s.bandwidth else step)) c.env c.fail c.snap db (not_mine (d' := d') h)
  generalize runInNewUpdateTxn c.env c.fail _ c.snap db = z at *
  obtain ⟨r, db'⟩ := z
  cases r <;> exact this

theorem nextId_other {s : Seq} {d cid d' cid' : Int64} (hs : s.cell = didCell d cid) (h : cid ≠ cid') (c : Sequence.Circ) (db : DB) :
    stored (didCell d' cid') (s.nextId c db).2.2 = stored (didCell d' cid') db := by
  have hr := renew_other (d' := d') hs h c 0 db
  unfold Seq.nextId
  split
  · rfl
  · split
    · rfl
    · by_cases hge : s.next ≥ s.leased
      · rw [if_pos hge]
        generalize s.renewLease c 0 db = z at hr
        obtain ⟨r, s', db'⟩ := z
        cases r <;> exact hr
      · rw [if_neg hge]

theorem close_other {s : Seq} {d cid d' cid' : Int64} (hs : s.cell = didCell d cid) (h : cid ≠ cid') (b : Bool) (c : Sequence.Circ) (db : DB) :
    stored (didCell d' cid') (s.close b c db).2.2 = stored (didCell d' cid') db := by
  unfold Seq.close
  split
  · rfl
  · split
    · unfold Seq.releaseRemainingLocked
      split
      · rfl
      · apply stored_of_get
        unfold Seq.updateLeased
        dsimp only
        rw [hs]
        have := update_keeps (put_only d cid s.next) c.env c.fail c.snap db (not_mine (d' := d') h)
        generalize runInNewUpdateTxn c.env c.fail _ c.snap db = z at *
        obtain ⟨r, db'⟩ := z
        cases r <;> exact this
    · rfl

theorem new_other {d cid d' cid' : Int64} (h : cid ≠ cid') (b : Int64) (c : Sequence.Circ) (db : DB) :
    stored (didCell d' cid') (Seq.new (didCell d cid) b c db).2.2 = stored (didCell d' cid') db := by
  unfold Seq.new
  split
  · rfl
  · split
    · rfl
    · exact renew_other (s := { cell := didCell d cid, bandwidth := b }) rfl h c 0 db

/-! #### What the methods do to the ids -/

/-- Next, by its result. -/
theorem next_cases {cell : Cell} {s : Seq} {c : Sequence.Circ} {db : DB} {st : Int64} (hcell : s.cell = cell) (hb : 0 < s.bandwidth.toInt)
    (hle : s.next.toInt ≤ s.leased.toInt) (hst : stored cell db = some st) (hfit : Fits cell db s.bandwidth) (hfair : Fair cell c (cell.inc s.bandwidth) db) :
    ∃ st', stored cell (s.nextId c db).2.2 = some st' ∧ (s.nextId c db).2.1.next.toInt ≤ (s.nextId c db).2.1.leased.toInt ∧
      (((s.nextId c db).2.1.leased = s.leased ∧ st' = st) ∨ (s.nextId c db).2.1.leased = st') ∧
      ∀ v : Int64, (match (s.nextId c db).1 with
        | .ok u => if u = v then 1 else 0
        | _ => 0) + weight v (s.nextId c db).2.1 + (if st'.toInt < v.toInt then 1 else 0) ≤ weight v s + (if st.toInt < v.toInt then 1 else 0) := by
  unfold Seq.nextId
  by_cases hc : s.closed
  · rw [if_pos hc]
    exact ⟨st, hst, hle, .inl ⟨rfl, rfl⟩, fun v => by simp⟩
  rw [if_neg hc]
  cases hl : s.putbacks.getLast? with
  | some u =>
    obtain ⟨pb, hpb⟩ := List.getLast?_eq_some_iff.mp hl
    refine ⟨st, hst, hle, .inl ⟨rfl, rfl⟩, fun v => ?_⟩
    simp only [weight, hpb, List.dropLast_concat, List.count_append, count_cons_eq, List.count_nil]
    omega
  | none =>
    dsimp only
    by_cases hge : s.next ≥ s.leased
    · rw [if_pos hge]
      rcases renew_cases cell s c db st hcell hb hst hfit hfair with ⟨db', st', hr, hst', hi'⟩ | ⟨r, hr, hne⟩
      · rw [hr]
        have hlt : st.toInt < st'.toInt := by omega
        have h1 := succ_toInt hlt
        refine ⟨st', hst', ?_, .inr rfl, fun v => ?_⟩
        · show (st + 1).toInt ≤ st'.toInt
          omega
        · have h2 := take_weight (s := { s with leased := st', next := st }) v hlt
          have h3 := renew_weight v hb hi'
          simp only at h2 h3 ⊢
          omega
      · rw [hr]
        cases r with
        | ok u => exact absurd rfl hne
        | err e => exact ⟨st, hst, hle, .inl ⟨rfl, rfl⟩, fun v => by simp⟩
        | panic => exact ⟨st, hst, hle, .inl ⟨rfl, rfl⟩, fun v => by simp⟩
    · rw [if_neg hge]
      have hlt : s.next.toInt < s.leased.toInt := by
        have := mt Int64.le_iff_toInt_le.mpr hge
        omega
      have h1 := succ_toInt hlt
      refine ⟨st, hst, ?_, .inl ⟨rfl, rfl⟩, fun v => ?_⟩
      · show (s.next + 1).toInt ≤ s.leased.toInt
        omega
      · have h2 := take_weight v hlt
        simp only
        omega

/-- Close. -/
theorem close_cases {cell : Cell} {s : Seq} {c : Sequence.Circ} {db : DB} {st : Int64} (hcell : s.cell = cell)
    (hle : s.next.toInt ≤ s.leased.toInt) (hst : stored cell db = some st) (b : Bool)
    (hrel : b = true → Newest cell s db ∧ Fair cell c (cell.put s.next) db) :
    ∃ st', stored cell (s.close b c db).2.2 = some st' ∧ (s.close b c db).2.1.next.toInt ≤ (s.close b c db).2.1.leased.toInt ∧
      ∀ v : Int64, weight v (s.close b c db).2.1 + (if st'.toInt < v.toInt then 1 else 0) ≤ weight v s + (if st.toInt < v.toInt then 1 else 0) := by
  unfold Seq.close
  by_cases hc : s.closed
  · rw [if_pos hc]
    exact ⟨st, hst, hle, fun v => by simp⟩
  rw [if_neg hc]
  cases b with
  | false => exact ⟨st, hst, hle, fun v => by simp [weight]⟩
  | true =>
    simp only [if_true]
    obtain ⟨hdb, hfair⟩ := hrel rfl
    have hdb : stored cell db = some s.leased := hdb
    have hs : st = s.leased := by rw [hdb] at hst; injection hst with h; exact h.symm
    rcases release_any cell { s with closed := true } c db hcell hdb hfair with ⟨db', hr, hst' | rfl⟩ | ⟨r, hr, _⟩
    · rw [hr]
      refine ⟨s.next, hst', by simp, fun v => ?_⟩
      simp only [weight, hs]
      rw [if_neg (by omega)]
      split <;> split <;> split <;> omega
    · rw [hr]
      refine ⟨st, hst, by simp, fun v => ?_⟩
      simp only [weight, hs]
      rw [if_neg (by omega)]
      split <;> split <;> omega
    · rw [hr]
      exact ⟨st, hst, hle, fun v => by simp [weight]⟩

/-- NewHash. -/
theorem new_cases {cell : Cell} {b : Int64} {c : Sequence.Circ} {db : DB} {st : Int64} (hb : 0 < b.toInt) (hst : stored cell db = some st)
    (hfit : Fits cell db b) (hfair : Fair cell c (cell.inc b) db) :
    ∃ st', stored cell (Seq.new cell b c db).2.2 = some st' ∧ st.toInt ≤ st'.toInt ∧
      ∀ s db', Seq.new cell b c db = (.ok (), some s, db') → s.next.toInt ≤ s.leased.toInt ∧ s.leased = st' ∧
        ∀ v : Int64, weight v s + (if st'.toInt < v.toInt then 1 else 0) ≤ (if st.toInt < v.toInt then 1 else 0) := by
  unfold Seq.new
  by_cases hv : cell.valid = false
  · rw [if_pos hv]
    exact ⟨st, hst, Int.le_refl _, fun s db' h => by cases h⟩
  rw [if_neg hv]
  by_cases h0 : b = 0
  · rw [h0] at hb; simp at hb
  rw [if_neg h0]
  rcases renew_cases cell { cell := cell, bandwidth := b } c db st rfl hb hst hfit hfair with ⟨db', st', hr, hst', hi⟩ | ⟨r, hr, hne⟩
  · rw [hr]
    simp only at hi
    refine ⟨st', hst', by omega, fun s db'' h => ?_⟩
    cases h
    refine ⟨by simp only; omega, rfl, fun v => ?_⟩
    simp only [weight, List.count_nil]
    split <;> split <;> split <;> omega
  · rw [hr]
    refine ⟨st, hst, Int.le_refl _, fun s db'' h => ?_⟩
    cases h
    exact absurd rfl hne

theorem bandwidthOf_pos (b : Int64) : 0 < (bandwidthOf b).toInt := by
  unfold bandwidthOf
  split
  · decide
  · rename_i h
    have := mt Int64.le_iff_toInt_le.mpr h
    simp only [Int64.toInt_zero] at this
    omega

/-- What an object can still hand out of a collection. -/
def share (cid v : Int64) : Option Obj → Nat
  | some o => if o.cid = cid then weight v o.seq else 0
  | none => 0

structure Inv (home c₀ : Int64 → Int64) (w : World) (st : Int64 → Int64) : Prop where
  stored : ∀ cid, stored (didCell (home cid) cid) w.db = some (st cid)
  objs : ∀ x o, w.obj x = some o → o.seq.cell = didCell (home o.cid) o.cid ∧ 0 < o.seq.bandwidth.toInt ∧ o.seq.next.toInt ≤ o.seq.leased.toInt
  ids : ∀ cid v : Int64, (idsOf cid w.out).count v + (w.objs.map (share cid v)).sum + (if (st cid).toInt < v.toInt then 1 else 0) +
    (if v.toInt ≤ (c₀ cid).toInt then 1 else 0) ≤ (idsOf cid w.back).count v + 1

theorem sum_share {l : List (Option Obj)} {x : Nat} {o o' : Option Obj} (f : Option Obj → Nat) (h : l[x]? = some o) :
    ((l.set x o').map f).sum + f o = (l.map f).sum + f o' := by
  induction l generalizing x with
  | nil => simp at h
  | cons a l ih =>
    cases x with
    | zero => simp at h; subst h; simp; omega
    | succ x =>
      simp at h
      have := ih h
      simp only [List.set_cons_succ, List.map_cons, List.sum_cons]
      omega

variable {home c₀ st : Int64 → Int64}

/-- One object and its counter change. -/
theorem Inv.put (h : Inv home c₀ w st) {x : Nat} {o : Obj} (hx : w.obj x = some o) {s : Seq} {db : DB} {n : Int64}
    {out back : List (Int64 × Int64)}
    (hdb : Props.stored (didCell (home o.cid) o.cid) db = some n)
    (hoth : ∀ cid, o.cid ≠ cid → Props.stored (didCell (home cid) cid) db = Props.stored (didCell (home cid) cid) w.db)
    (hs : s.cell = o.seq.cell ∧ s.bandwidth = o.seq.bandwidth ∧ s.next.toInt ≤ s.leased.toInt)
    (hout : ∀ cid, o.cid ≠ cid → idsOf cid out = idsOf cid w.out) (hback : ∀ cid, o.cid ≠ cid → idsOf cid back = idsOf cid w.back)
    (hids : ∀ v : Int64, (idsOf o.cid out).count v + weight v s + (if n.toInt < v.toInt then 1 else 0) + (idsOf o.cid w.back).count v ≤
      (idsOf o.cid w.out).count v + weight v o.seq + (if (st o.cid).toInt < v.toInt then 1 else 0) + (idsOf o.cid back).count v)
    {tables : Nat → Int64 → Option Nat} :
    Inv home c₀ { db := db, objs := w.objs.set x (some { o with seq := s }), tables := tables, out := out, back := back }
      (fun c => if c = o.cid then n else st c) := by
  refine ⟨?_, ?_, ?_⟩
  · intro cid
    by_cases e : cid = o.cid
    · rw [if_pos e]; subst e; exact hdb
    · rw [if_neg e]
      exact (hoth cid (Ne.symm e)).trans (h.stored cid)
  · intro y o' hy
    have hy : ((w.objs.set x (some { o with seq := s }))[y]?).join = some o' := hy
    rw [obj_set] at hy
    split at hy
    · cases hy
      obtain ⟨g1, g2, -⟩ := h.objs x o hx
      exact ⟨hs.1.trans g1, by rw [hs.2.1]; exact g2, hs.2.2⟩
    · exact h.objs y o' hy
  · intro cid v
    have h1 := h.ids cid v
    have h3 := sum_share (o' := some { o with seq := s }) (share cid v) (obj_get hx)
    by_cases e : cid = o.cid
    · rw [if_pos e]
      subst e
      have h2 := hids v
      simp only [share, if_true] at h3 ⊢
      have : (w.objs.map (share o.cid v)).sum = (w.objs.map (fun o' => share o.cid v o')).sum := rfl
      omega
    · rw [if_neg e, hout cid (Ne.symm e), hback cid (Ne.symm e)]
      simp only [share, if_neg (Ne.symm e)] at h3 ⊢
      omega

theorem Inv.tables (h : Inv home c₀ w st) (tables : Nat → Int64 → Option Nat) : Inv home c₀ { w with tables := tables } st :=
  ⟨h.stored, h.objs, h.ids⟩

theorem idsOf_cons (cid c v : Int64) (l : List (Int64 × Int64)) : idsOf cid ((c, v) :: l) = if c = cid then v :: idsOf cid l else idsOf cid l := by
  unfold idsOf
  by_cases e : c = cid
  · simp [e]
  · simp [e]

theorem idsOf_append (cid : Int64) (l l' : List (Int64 × Int64)) : idsOf cid (l ++ l') = idsOf cid l ++ idsOf cid l' := by
  simp [idsOf]

theorem idsOf_map (cid c : Int64) (l : List Int64) : idsOf cid (l.map (fun v => (c, v))) = if c = cid then l else [] := by
  induction l with
  | nil => simp [idsOf]
  | cons a l ih => rw [List.map_cons, idsOf_cons, ih]; split <;> rfl

theorem Inv.discard (h : Inv home c₀ w st) (hT : Tab w) {p : Nat} {cid : Int64} {x : Nat} {l : Bool} {c : Sequence.Circ}
    (hx : w.tables p cid = some x)
    (hs : l = true → ∀ x o, w.tables p cid = some x → w.obj x = some o →
      Newest (didCell (home cid) cid) o.seq w.db ∧ Fair (didCell (home cid) cid) c ((didCell (home cid) cid).put o.seq.next) w.db) :
    ∃ st', Inv home c₀ (w.discard p cid x l c).2 st' := by
  obtain ⟨o, h1, -, h3, -, h5, -⟩ := hT.discard hx l c
  subst h3
  obtain ⟨g1, g2, g3⟩ := h.objs x o h1
  obtain ⟨n, k1, k2, k3⟩ := close_cases (c := c) g1 g3 (h.stored o.cid) l (fun hl => hs hl x o hx h1)
  obtain ⟨-, k4, k5⟩ := close_closes o.seq l c w.db
  rw [h5]
  refine ⟨_, h.put h1 (n := n) (s := (o.seq.close l c w.db).2.1) k1 (fun cid hne => close_other g1 hne l c w.db) ⟨k4, k5, k2⟩
    (fun _ _ => rfl) (fun _ _ => rfl) ?_⟩
  intro v
  have := k3 v
  show (idsOf o.cid w.out).count v + _ + _ + (idsOf o.cid w.back).count v ≤ _ + _ + _ + (idsOf o.cid w.back).count v
  omega

theorem Inv.step (h : Inv home c₀ w st) (hT : Tab w) (e : Ev) (hs : Sound home w e) : ∃ st', Inv home c₀ (w.step e).2 st' := by
  cases e with
  | create p dbID cid b c =>
    obtain ⟨hd, hfit, hfair⟩ := hs
    subst hd
    simp only [World.step]
    obtain ⟨n, k1, k2, k3⟩ := new_cases (bandwidthOf_pos b) (h.stored cid) hfit hfair
    have oth : ∀ c', (if c' = cid then n else st c') = (if c' = cid then n else st c') := fun _ => rfl
    have hst : ∀ cid', Props.stored (didCell (home cid') cid') (Seq.new (didCell (home cid) cid) (bandwidthOf b) c w.db).2.2 =
        some (if cid' = cid then n else st cid') := by
      intro cid'
      by_cases e : cid' = cid
      · rw [if_pos e]; subst e; exact k1
      · rw [if_neg e, new_other (Ne.symm e)]
        exact h.stored cid'
    rcases create_cases w p (home cid) cid b c with ⟨-, h1⟩ | ⟨ht, s, db, h1, h2⟩ | ⟨-, r, h1, -⟩
    · rw [h1]; exact ⟨st, h⟩
    · rw [h2]
      obtain ⟨m1, m2, m3⟩ := k3 s db h1
      obtain ⟨-, m4, m5⟩ := new_open h1
      rw [h1] at hst
      refine ⟨fun c' => if c' = cid then n else st c', hst, ?_, ?_⟩
      · intro y o hy
        have hy : ((w.objs ++ [some (⟨p, cid, s⟩ : Obj)])[y]?).join = some o := hy
        rw [obj_append] at hy
        split at hy
        · cases hy
          exact ⟨m4, by rw [m5]; exact bandwidthOf_pos b, m1⟩
        · exact h.objs y o hy
      · intro cid' v
        have g1 := h.ids cid' v
        have g2 := m3 v
        show (idsOf cid' w.out).count v + ((w.objs ++ [some (⟨p, cid, s⟩ : Obj)]).map (share cid' v)).sum + _ + _ ≤ (idsOf cid' w.back).count v + 1
        simp only [List.map_append, List.sum_append, List.map_cons, List.map_nil, List.sum_cons, List.sum_nil, share]
        by_cases e : cid' = cid
        · subst e
          simp only [if_true]
          omega
        · rw [if_neg (Ne.symm e), if_neg e]
          omega
    · rw [h1]
      refine ⟨fun c' => if c' = cid then n else st c', hst, h.objs, ?_⟩
      intro cid' v
      have g1 := h.ids cid' v
      by_cases e : cid' = cid
      · subst e
        simp only [if_true]
        have : (if n.toInt < v.toInt then 1 else 0) ≤ (if (st cid').toInt < v.toInt then 1 else 0) := by split <;> split <;> omega
        omega
      · simp only [if_neg e]
        exact g1
  | get p cid => exact ⟨st, h⟩
  | drop p cid l c =>
    simp only [World.step]
    cases hx : w.tables p cid with
    | none => exact ⟨st, h⟩
    | some x => exact h.discard hT hx hs
  | dropIfExists p cid l c =>
    simp only [World.step]
    cases hx : w.tables p cid with
    | none => exact ⟨st, h⟩
    | some x => exact h.discard hT hx hs
  | next x c =>
    rw [step_next]
    cases hx : w.obj x with
    | none => exact ⟨st, h⟩
    | some o =>
      obtain ⟨hfit, hfair⟩ := hs o hx
      obtain ⟨g1, g2, g3⟩ := h.objs x o hx
      obtain ⟨n, k1, k2, -, k3⟩ := next_cases g1 g2 g3 (h.stored o.cid) hfit hfair
      obtain ⟨-, k4, k5⟩ := nextId_keeps o.seq c w.db
      have ho := fun cid' (hne : o.cid ≠ cid') => nextId_other (d' := home cid') g1 hne c w.db
      dsimp only
      generalize o.seq.nextId c w.db = z at *
      obtain ⟨r, s, db⟩ := z
      dsimp only [World.put]
      refine ⟨_, h.put hx (n := n) (s := s) k1 ho ⟨k4, k5, k2⟩ ?_ (fun _ _ => rfl) ?_⟩
      · intro cid' hne
        cases r <;> simp [idsOf_cons, hne]
      · intro v
        have := k3 v
        cases r with
        | ok u =>
          simp only [List.singleton_append, idsOf_cons, if_true, count_cons_eq] at this ⊢
          show _ + _ + _ + (idsOf o.cid w.back).count v ≤ _ + _ + _ + (idsOf o.cid w.back).count v
          omega
        | err e =>
          simp only [List.nil_append] at this ⊢
          show _ + _ + _ + (idsOf o.cid w.back).count v ≤ _ + _ + _ + (idsOf o.cid w.back).count v
          omega
        | panic =>
          simp only [List.nil_append] at this ⊢
          show _ + _ + _ + (idsOf o.cid w.back).count v ≤ _ + _ + _ + (idsOf o.cid w.back).count v
          omega
  | putBack x vals =>
    simp only [World.step]
    cases hx : w.obj x with
    | none => exact ⟨st, h⟩
    | some o =>
      obtain ⟨g1, g2, g3⟩ := h.objs x o hx
      refine ⟨_, h.put hx (n := st o.cid) (s := o.seq.putBack vals) (h.stored o.cid) (fun _ _ => rfl) ?_ (fun _ _ => rfl) ?_ ?_⟩
      · exact ⟨rfl, rfl, g3⟩
      · intro cid' hne
        rw [idsOf_append, idsOf_map, if_neg hne, List.nil_append]
      · intro v
        rw [idsOf_append, idsOf_map, if_pos rfl, List.count_append]
        have : weight v (o.seq.putBack vals) ≤ weight v o.seq + vals.count v := by
          unfold Seq.putBack
          simp only [weight, List.count_append]; omega
        omega
  | crash p =>
    refine ⟨st, h.stored, ?_, ?_⟩
    · intro y o hy
      have hy : ((w.objs.map (fun o : Option Obj => o.bind (fun o => if o.proc = p then none else some o)))[y]?).join = some o := hy
      rw [List.getElem?_map] at hy
      apply h.objs y o
      unfold World.obj
      cases hg : w.objs[y]? with
      | none => rw [hg] at hy; cases hy
      | some a =>
        rw [hg] at hy
        cases a with
        | none => cases hy
        | some a =>
          have hy : (if a.proc = p then none else some a) = some o := hy
          split at hy
          · cases hy
          · exact hy
    · intro cid v
      have h1 := h.ids cid v
      have : ∀ l : List (Option Obj), ((l.map (fun o : Option Obj => o.bind (fun o => if o.proc = p then none else some o))).map (share cid v)).sum ≤
          (l.map (share cid v)).sum := by
        intro l
        induction l with
        | nil => exact Nat.le_refl _
        | cons a l ih =>
          simp only [List.map_cons, List.sum_cons]
          refine Nat.add_le_add ?_ ih
          cases a with
          | none => exact Nat.le_refl _
          | some a =>
            simp only [Option.bind_some]
            split
            · exact Nat.zero_le _
            · exact Nat.le_refl _
      have := this w.objs
      simp only [World.step]
      omega
  | other db =>
    exact ⟨st, fun cid => (hs cid).trans (h.stored cid), h.objs, h.ids⟩

theorem Inv.run (h : Inv home c₀ w st) (hT : Tab w) (es : List Ev) (hs : AllSound home w es) : ∃ st', Inv home c₀ (run es w).2 st' := by
  induction es generalizing w st with
  | nil => exact ⟨st, h⟩
  | cons e es ih =>
    obtain ⟨st', h'⟩ := h.step hT e hs.1
    exact ih h' (hT.step e) hs.2

theorem Inv.start {db : DB} (h : ∀ cid, Props.stored (didCell (home cid) cid) db = some (c₀ cid)) : Inv home c₀ { db := db } c₀ := by
  refine ⟨h, ?_, ?_⟩
  · intro x o hx
    simp [World.obj] at hx
  · intro cid v
    simp only [idsOf, List.filter_nil, List.map_nil, List.count_nil, List.sum_nil]
    split <;> split <;> omega

/-- C80: in any history of any number of processes that create sequences of document ids, ask for them, take ids, give ids back, drop
sequences and create them again, and die: no id of a collection is handed out more often than one plus the number of times it was given back,
and every id is greater than the collection's stored counter at the start, unless it was given back. -/
theorem C80_unique (db : DB) (h : ∀ cid, stored (didCell (home cid) cid) db = some (c₀ cid)) (es : List Ev) (hs : AllSound home { db := db } es)
    (hw : w = (run es { db := db }).2) (cid v : Int64) : (idsOf cid w.out).count v ≤ (idsOf cid w.back).count v + 1 ∧
      (v ∈ idsOf cid w.out → v ∉ idsOf cid w.back → (c₀ cid).toInt < v.toInt) := by
  obtain ⟨st', hi⟩ := (Inv.start h).run (Tab.start db) es hs
  subst hw
  have := hi.ids cid v
  refine ⟨by omega, fun hm hn => ?_⟩
  have h1 := List.count_pos_iff.mpr hm
  have h2 := List.count_eq_zero.mpr hn
  rw [h2] at this
  by_cases hle : v.toInt ≤ (c₀ cid).toInt
  · rw [if_pos hle] at this; omega
  · omega

/-! #### One process -/

/-- The counter of an open object is where the object's lease ends. -/
def Held (home : Int64 → Int64) (w : World) : Prop :=
  ∀ x o, w.obj x = some o → o.seq.closed = false → stored (didCell (home o.cid) o.cid) w.db = some o.seq.leased

/-- The process of an event. -/
def Ev.by : Ev → Option Nat
  | .create p _ _ _ _ | .get p _ | .drop p _ _ _ | .dropIfExists p _ _ _ | .crash p => some p
  | _ => none

/-- What is assumed of an event if there is one process: nothing about who holds the newest lease. -/
def SoundAlone (home : Int64 → Int64) (w : World) : Ev → Prop
  | .drop p cid l c | .dropIfExists p cid l c => l = true → ∀ x o, w.tables p cid = some x → w.obj x = some o →
      Fair (didCell (home cid) cid) c ((didCell (home cid) cid).put o.seq.next) w.db
  | e => Sound home w e

def AllSoundAlone (home : Int64 → Int64) : World → List Ev → Prop
  | _, [] => True
  | w, e :: es => SoundAlone home w e ∧ AllSoundAlone home (w.step e).2 es

/-- All objects are in process `p`. -/
def In (p : Nat) (w : World) : Prop := ∀ x o, w.obj x = some o → o.proc = p

theorem In.put {p : Nat} (h : In p w) {x : Nat} {o : Obj} (hx : w.obj x = some o) {s : Seq} {db : DB} {tables : Nat → Int64 → Option Nat}
    {out back : List (Int64 × Int64)} :
    In p { db := db, objs := w.objs.set x (some { o with seq := s }), tables := tables, out := out, back := back } := by
  intro y o' hy
  have hy : ((w.objs.set x (some { o with seq := s }))[y]?).join = some o' := hy
  rw [obj_set] at hy
  split at hy
  · cases hy; exact h x o hx
  · exact h y o' hy

theorem Held.put (h : Held home w) (hT : Tab w) {p : Nat} (hp : In p w) {x : Nat} {o : Obj} (hx : w.obj x = some o) {s : Seq} {db : DB}
    {tables : Nat → Int64 → Option Nat} {out back : List (Int64 × Int64)}
    (hs : s.closed = false → o.seq.closed = false ∧ Props.stored (didCell (home o.cid) o.cid) db = some s.leased)
    (hold : o.seq.closed = true → Props.stored (didCell (home o.cid) o.cid) db = Props.stored (didCell (home o.cid) o.cid) w.db)
    (hoth : ∀ cid, o.cid ≠ cid → Props.stored (didCell (home cid) cid) db = Props.stored (didCell (home cid) cid) w.db) :
    Held home { db := db, objs := w.objs.set x (some { o with seq := s }), tables := tables, out := out, back := back } := by
  intro y o' hy hc
  have hy : ((w.objs.set x (some { o with seq := s }))[y]?).join = some o' := hy
  rw [obj_set] at hy
  split at hy
  · cases hy
    exact (hs hc).2
  · rename_i hne
    by_cases e : o.cid = o'.cid
    · cases hoc : o.seq.closed with
      | true =>
        rw [← h y o' hy hc, ← e]
        exact hold hoc
      | false =>
        have h1 := hT.opn x o hx hoc
        have h2 := hT.opn y o' hy hc
        rw [hp x o hx, e] at h1
        rw [hp y o' hy, h1] at h2
        cases h2
        exact absurd ⟨rfl, obj_lt hx⟩ hne
    · rw [← h y o' hy hc]
      exact hoth _ e

theorem Held.step (h : Held home w) (hT : Tab w) (hI : Inv home c₀ w st) {p : Nat} (hp : In p w) (e : Ev) (he : ∀ q, e.by = some q → q = p)
    (hs : SoundAlone home w e) : Sound home w e ∧ Held home (w.step e).2 ∧ In p (w.step e).2 := by
  have disc : ∀ {cid x l c}, w.tables p cid = some x →
      Held home (w.discard p cid x l c).2 ∧ In p (w.discard p cid x l c).2 := by
    intro cid x l c hx
    obtain ⟨o, h1, -, h3, h4, h5, -⟩ := hT.discard hx l c
    subst h3
    rw [h5]
    refine ⟨h.put hT hp h1 (s := (o.seq.close l c w.db).2.1) ?_ ?_ (fun cid hne => close_other (hI.objs x o h1).1 hne l c w.db), hp.put h1⟩
    · intro hc
      rw [(close_closes _ _ _ _).1] at hc
      cases hc
    · intro hc
      rw [h4] at hc
      cases hc
  have sd : ∀ {cid : Int64} {l : Bool} {c : Sequence.Circ}, (l = true → ∀ x o, w.tables p cid = some x → w.obj x = some o →
      Fair (didCell (home cid) cid) c ((didCell (home cid) cid).put o.seq.next) w.db) → (l = true → ∀ x o, w.tables p cid = some x → w.obj x = some o →
      Newest (didCell (home cid) cid) o.seq w.db ∧ Fair (didCell (home cid) cid) c ((didCell (home cid) cid).put o.seq.next) w.db) := by
    intro cid l c hf hl x o h1 h2
    refine ⟨?_, hf hl x o h1 h2⟩
    obtain ⟨o', g1, -, g3, g4⟩ := hT.tab p cid x h1
    rw [h2] at g1; cases g1
    subst g3
    exact h x o h2 g4
  cases e with
  | create q dbID cid b c =>
    have := he q rfl; subst this
    refine ⟨hs, ?_⟩
    obtain ⟨hd, hfit, hfair⟩ := hs
    subst hd
    simp only [World.step]
    obtain ⟨n, k1, k2, k3⟩ := new_cases (bandwidthOf_pos b) (hI.stored cid) hfit hfair
    have old : w.tables q cid = none → ∀ x o, w.obj x = some o → o.seq.closed = false →
        Props.stored (didCell (home o.cid) o.cid) (Seq.new (didCell (home cid) cid) (bandwidthOf b) c w.db).2.2 = some o.seq.leased := by
      intro ht x o hx hc
      rw [← h x o hx hc]
      refine new_other ?_ _ _ _
      rintro rfl
      have := hT.opn x o hx hc
      rw [hp x o hx, ht] at this
      cases this
    rcases create_cases w q (home cid) cid b c with ⟨-, h1⟩ | ⟨ht, s, db, h1, h2⟩ | ⟨ht, r, h1, -⟩
    · rw [h1]; exact ⟨h, hp⟩
    · rw [h2]
      obtain ⟨-, m2, -⟩ := k3 s db h1
      have old := old ht
      rw [h1] at k1 old
      refine ⟨?_, ?_⟩
      · intro y o hy hc
        have hy : ((w.objs ++ [some (⟨q, cid, s⟩ : Obj)])[y]?).join = some o := hy
        rw [obj_append] at hy
        split at hy
        · cases hy
          show Props.stored (didCell (home cid) cid) db = some s.leased
          rw [m2]; exact k1
        · exact old y o hy hc
      · intro y o hy
        have hy : ((w.objs ++ [some (⟨q, cid, s⟩ : Obj)])[y]?).join = some o := hy
        rw [obj_append] at hy
        split at hy
        · cases hy; rfl
        · exact hp y o hy
    · rw [h1]
      exact ⟨old ht, hp⟩
  | get q cid => exact ⟨trivial, h, hp⟩
  | drop q cid l c =>
    have := he q rfl; subst this
    refine ⟨sd hs, ?_⟩
    simp only [World.step]
    cases hx : w.tables q cid with
    | none => exact ⟨h, hp⟩
    | some x => exact disc hx
  | dropIfExists q cid l c =>
    have := he q rfl; subst this
    refine ⟨sd hs, ?_⟩
    simp only [World.step]
    cases hx : w.tables q cid with
    | none => exact ⟨h, hp⟩
    | some x => exact disc hx
  | next x c =>
    refine ⟨hs, ?_⟩
    rw [step_next]
    cases hx : w.obj x with
    | none => exact ⟨h, hp⟩
    | some o =>
      obtain ⟨hfit, hfair⟩ := hs o hx
      obtain ⟨g1, g2, g3⟩ := hI.objs x o hx
      obtain ⟨n, k1, -, k2, -⟩ := next_cases g1 g2 g3 (hI.stored o.cid) hfit hfair
      obtain ⟨k3, -, -⟩ := nextId_keeps o.seq c w.db
      refine ⟨h.put hT hp hx (s := (o.seq.nextId c w.db).2.1) (db := (o.seq.nextId c w.db).2.2) ?_ ?_
        (fun cid' hne => nextId_other (d' := home cid') g1 hne c w.db), hp.put hx⟩
      · intro hc
        have hc' : o.seq.closed = false := k3.symm.trans hc
        refine ⟨hc', ?_⟩
        rcases k2 with ⟨e1, e2⟩ | e1
        · rw [k1, e1, e2, ← hI.stored o.cid]
          exact h x o hx hc'
        · rw [k1, e1]
      · intro hc
        have : o.seq.nextId c w.db = (.err Sequence.errClosed, o.seq, w.db) := by
          unfold Seq.nextId
          rw [if_pos hc]
        rw [this]
  | putBack x vals =>
    refine ⟨trivial, ?_⟩
    simp only [World.step]
    cases hx : w.obj x with
    | none => exact ⟨h, hp⟩
    | some o =>
      refine ⟨h.put hT hp hx (s := o.seq.putBack vals) (db := w.db) ?_ (fun _ => rfl) (fun _ _ => rfl), hp.put hx⟩
      intro hc
      exact ⟨hc, h x o hx hc⟩
  | crash q =>
    have key : ∀ y o, (w.step (.crash q)).2.obj y = some o → w.obj y = some o := by
      intro y o hy
      have hy : ((w.objs.map (fun o : Option Obj => o.bind (fun o => if o.proc = q then none else some o)))[y]?).join = some o := hy
      rw [List.getElem?_map] at hy
      unfold World.obj
      cases hg : w.objs[y]? with
      | none => rw [hg] at hy; cases hy
      | some a =>
        rw [hg] at hy
        cases a with
        | none => cases hy
        | some a =>
          have hy : (if a.proc = q then none else some a) = some o := hy
          split at hy
          · cases hy
          · exact hy
    exact ⟨trivial, fun y o hy hc => h y o (key y o hy) hc, fun y o hy => hp y o (key y o hy)⟩
  | other db => exact ⟨hs, fun y o hy hc => (hs o.cid).trans (h y o hy hc), hp⟩

theorem alone_run (h : Held home w) (hT : Tab w) (hI : Inv home c₀ w st) {p : Nat} (hp : In p w) (es : List Ev) (he : ∀ e ∈ es, ∀ q, e.by = some q → q = p)
    (hs : AllSoundAlone home w es) : AllSound home w es := by
  induction es generalizing w st with
  | nil => trivial
  | cons e es ih =>
    obtain ⟨h1, h2, h3⟩ := h.step hT hI hp e (he e List.mem_cons_self) hs.1
    obtain ⟨st', h4⟩ := hI.step hT e h1
    exact ⟨h1, ih h2 (hT.step e) h4 h3 (fun e he' => he e (List.mem_cons_of_mem _ he')) hs.2⟩

/-- C80: with one process, dropping a sequence always releases the newest lease, so nothing is assumed about it: in any history of creating,
dropping (with or without releasing the remainder), creating again, taking ids and restarting, no id that was not given back is handed out twice. -/
theorem C80_one_process (db : DB) (h : ∀ cid, stored (didCell (home cid) cid) db = some (c₀ cid)) (p : Nat) (es : List Ev)
    (hp : ∀ e ∈ es, ∀ q, e.by = some q → q = p) (hs : AllSoundAlone home { db := db } es)
    (hw : w = (run es { db := db }).2) (cid v : Int64) : (idsOf cid w.out).count v ≤ (idsOf cid w.back).count v + 1 ∧
      (v ∈ idsOf cid w.out → v ∉ idsOf cid w.back → (c₀ cid).toInt < v.toInt) := by
  refine C80_unique db h es ?_ hw cid v
  refine alone_run ?_ (Tab.start db) (Inv.start h) (p := p) ?_ es hp hs
  · intro x o hx; simp [World.obj] at hx
  · intro x o hx; simp [World.obj] at hx

/-! ### Examples -/

/-- Calls one after another, each transaction starting from the current database. -/
inductive Do where
  | create (p : Nat) (cid : Int64) (bandwidth : Int64 := 0) | get (p : Nat) (cid : Int64) | drop (p : Nat) (cid : Int64) (l : Bool)
  | next (x : Nat) | crash (p : Nat)

def Do.ev (db : DB) : Do → Ev
  | .create p cid b => .create p 7 cid b (calmCirc db)
  | .get p cid => .get p cid
  | .drop p cid l => .drop p cid l (calmCirc db)
  | .next x => .next x (calmCirc db)
  | .crash p => .crash p

def evs : World → List Do → List Ev
  | _, [] => []
  | w, d :: ds => d.ev w.db :: evs (w.step (d.ev w.db)).2 ds

def Do.by : Do → Option Nat
  | .create p _ _ | .get p _ | .drop p _ _ | .crash p => some p
  | .next _ => none

/-- The counters of collections 1 and 2 stay below 2^63. -/
def Do.fits (w : World) : Do → Bool
  | .create _ cid b => match stored (didCell 7 cid) w.db with
    | some v => decide (v.toInt + (bandwidthOf b).toInt < 2 ^ 63)
    | none => false
  | .next x => match w.obj x with
    | none => true
    | some o => match stored (didCell 7 o.cid) w.db with
      | some v => decide (v.toInt + o.seq.bandwidth.toInt < 2 ^ 63)
      | none => false
  | .drop p cid _ => (stored (didCell 7 cid) w.db).isSome
  | _ => true

def allFit : World → List Do → Bool
  | _, [] => true
  | w, d :: ds => d.fits w && allFit (w.step (d.ev w.db)).2 ds

theorem evs_alone {w : World} {ds : List Do} (h : allFit w ds = true) : AllSoundAlone (fun _ => 7) w (evs w ds) := by
  induction ds generalizing w with
  | nil => trivial
  | cons d ds ih =>
    simp only [allFit, Bool.and_eq_true] at h
    refine ⟨?_, ih h.2⟩
    have h := h.1
    cases d with
    | create p cid b =>
      simp only [Do.fits] at h
      cases hs : stored (didCell 7 cid) w.db with
      | none => rw [hs] at h; cases h
      | some v =>
        rw [hs] at h
        refine ⟨rfl, ?_, calm_fair _ _ _ hs⟩
        intro v' hv
        rw [hs] at hv; cases hv
        exact of_decide_eq_true h
    | get p cid => trivial
    | drop p cid l =>
      obtain ⟨v, hv⟩ := Option.isSome_iff_exists.mp h
      exact fun _ x o _ _ => calm_fair _ _ _ hv
    | next x =>
      simp only [Do.fits] at h
      intro o ho
      rw [ho] at h
      simp only at h
      cases hs : stored (didCell 7 o.cid) w.db with
      | none => rw [hs] at h; cases h
      | some v =>
        rw [hs] at h
        refine ⟨?_, calm_fair _ _ _ hs⟩
        intro v' hv
        rw [hs] at hv; cases hv
        exact of_decide_eq_true h
    | crash p => trivial

theorem evs_by {w : World} {ds : List Do} {p : Nat} (h : ds.all (fun d => d.by.all (· == p)) = true) : ∀ e ∈ evs w ds, ∀ q, e.by = some q → q = p := by
  induction ds generalizing w with
  | nil => intro e he; cases he
  | cons d ds ih =>
    simp only [List.all_cons, Bool.and_eq_true] at h
    intro e he q hq
    rcases List.mem_cons.mp he with rfl | he
    · cases d with
      | next x => cases hq
      | create p cid b => cases hq; simpa [Do.by] using h.1
      | get p cid => cases hq; simpa [Do.by] using h.1
      | drop p cid l => cases hq; simpa [Do.by] using h.1
      | crash p => cases hq; simpa [Do.by] using h.1
    · exact ih h.2 e he q hq

/-- A process makes sequences for two collections, drops one with the remainder released and one without, and makes them again. -/
def aHistory : List Do :=
  [.create 0 1 3, .create 0 2, .next 0, .next 1, .next 0, .drop 0 1 true, .drop 0 2 false, .next 0, .create 0 1 3, .create 0 2, .next 2, .next 3]

def played (ds : List Do) : List Answer × World := run (evs { db := .empty } ds) { db := .empty }

set_option maxRecDepth 20000 in
example : allFit { db := .empty } aHistory = true ∧ (played aHistory).2.out = [(2, 1001), (1, 3), (1, 2), (2, 1), (1, 1)] := by decide +kernel

set_option maxRecDepth 20000 in
example : (played (aHistory ++ [.create 0 1, .get 0 1, .drop 0 3 true, .crash 0, .get 0 1])).1 =
    [.made (.ok ()), .made (.ok ()), .id (.ok 1), .id (.ok 1), .id (.ok 2), .dropped (.ok ()), .dropped (.ok ()), .id (.err Sequence.errClosed),
      .made (.ok ()), .made (.ok ()), .id (.ok 3), .id (.ok 1001), .made (.err errSequenceAlreadyExists), .got (some 2),
      .dropped (.err Dml.errSequenceNotExists), .none, .got none] := by decide +kernel

theorem empty_stored (cid : Int64) : stored (didCell 7 cid) .empty = some 0 := rfl

example (cid v : Int64) : (idsOf cid (played aHistory).2.out).count v ≤ (idsOf cid (played aHistory).2.back).count v + 1 :=
  (C80_one_process .empty empty_stored 0 _ (evs_by (by decide)) (evs_alone (by decide +kernel)) rfl cid v).1

/-- C80: nothing can be said if a process releases an old lease: two processes make sequences for the same collection, one drops its sequence and
makes a new one, and hands out an id that the other one has handed out. -/
theorem C80_release_false : (played [.create 0 1 2, .create 1 1 2, .next 1, .drop 0 1 true, .create 0 1 5, .next 2, .next 2, .next 2]).2.out =
    [(1, 3), (1, 2), (1, 1), (1, 3)] := by
  decide +kernel

end Mondis.Registry
