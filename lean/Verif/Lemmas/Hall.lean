import Verif.Spec.Hall
/-!
# Several databases served by one process
-/
namespace Mondis.Hall
open Mondis Schema Meta Spec Ddl Props Structure Util

variable {J : Json}

/-! ### Sequences stay -/

theorem createSequence_stays {w : World} {d c : Int64} {env : Env} {fail : Option Err} {x : Int64} (h : (w.seqs x).isSome) :
    ((createSequence d c env fail w).2.seqs x).isSome := by
  unfold createSequence
  by_cases hc : (w.seqs c).isSome
  · rw [if_pos hc]; exact h
  · rw [if_neg hc]
    have key : ∀ s, ((w.seqs.set c s) x).isSome := by
      intro s
      show (if x = c then some s else w.seqs x).isSome
      split
      · rfl
      · exact h
    split
    · exact key _
    · exact h
    · exact h
    · exact h

theorem createSequence_made {w : World} {d c : Int64} {env : Env} {fail : Option Err}
    (h : (createSequence d c env fail w).1 = .ok ()) : ((createSequence d c env fail w).2.seqs c).isSome := by
  unfold createSequence at h ⊢
  by_cases hc : (w.seqs c).isSome
  · rw [if_pos hc] at h; cases h
  · rw [if_neg hc] at h ⊢
    split at h
    · show (if c = c then _ else w.seqs c).isSome
      rw [if_pos rfl]; rfl
    · cases h
    · cases h
    · cases h

theorem createSequence_same (w : World) (d c : Int64) (env : Env) (fail : Option Err) :
    (createSequence d c env fail w).2.up = w.up ∧ (createSequence d c env fail w).2.vars = w.vars ∧
    (createSequence d c env fail w).2.stuck = w.stuck := by
  unfold createSequence
  split
  · exact ⟨rfl, rfl, rfl⟩
  · split <;> exact ⟨rfl, rfl, rfl⟩

theorem initSequences_stays {env : Env} {fail : Int64 → Option Err} {x : Int64} (l : List (Int64 × Int64)) :
    ∀ {w : World}, (w.seqs x).isSome → ((initSequences env fail l w).2.seqs x).isSome := by
  induction l with
  | nil => exact fun h => h
  | cons p l ih =>
    intro w h
    obtain ⟨d, c⟩ := p
    have h1 := createSequence_stays (d := d) (c := c) (env := env) (fail := fail c) h
    rw [initSequences]
    cases hx : createSequence d c env (fail c) w with
    | mk r w' =>
      rw [hx] at h1
      cases r with
      | ok _ => exact ih h1
      | err e => exact h1
      | panic => exact h1

/-- If they all were made, none was there before, and all are there then. -/
theorem initSequences_made {env : Env} {fail : Int64 → Option Err} (l : List (Int64 × Int64)) :
    ∀ {w : World}, (initSequences env fail l w).1 = .ok () →
      ∀ p ∈ l, w.seqs p.2 = none ∧ ((initSequences env fail l w).2.seqs p.2).isSome := by
  induction l with
  | nil => intro w _ p hp; cases hp
  | cons q l ih =>
    intro w h p hp
    obtain ⟨d, c⟩ := q
    have hm := createSequence_made (w := w) (d := d) (c := c) (env := env) (fail := fail c)
    have hs := fun x h => createSequence_stays (w := w) (d := d) (c := c) (env := env) (fail := fail c) (x := x) h
    have hfree : ∀ s, w.seqs c = some s → (createSequence d c env (fail c) w).1 ≠ .ok () := by
      intro s e e'
      rw [createSequence_taken e] at e'; cases e'
    rw [initSequences] at h ⊢
    cases hx : createSequence d c env (fail c) w with
    | mk r w' =>
      rw [hx] at hm hs h hfree
      cases r with
      | ok u =>
        cases u
        simp only at h hm hs hfree ⊢
        rcases List.mem_cons.mp hp with rfl | hp
        · refine ⟨?_, initSequences_stays l (hm trivial)⟩
          cases e : w.seqs c with
          | none => rfl
          | some s => exact absurd rfl (hfree s e)
        · obtain ⟨h1, h2⟩ := ih h p hp
          refine ⟨?_, h2⟩
          cases e : w.seqs p.2 with
          | none => rfl
          | some s =>
            have := hs p.2 (by rw [e]; rfl)
            rw [h1] at this; cases this
      | err e => cases h
      | panic => cases h

theorem initSequences_same {env : Env} {fail : Int64 → Option Err} (l : List (Int64 × Int64)) :
    ∀ (w : World), (initSequences env fail l w).2.up = w.up ∧ (initSequences env fail l w).2.stuck = w.stuck := by
  induction l with
  | nil => exact fun w => ⟨rfl, rfl⟩
  | cons p l ih =>
    intro w
    obtain ⟨d, c⟩ := p
    obtain ⟨h1, -, h3⟩ := createSequence_same w d c env (fail c)
    rw [initSequences]
    cases hx : createSequence d c env (fail c) w with
    | mk r w' =>
      rw [hx] at h1 h3
      cases r with
      | ok _ => exact ⟨(ih w').1.trans h1, (ih w').2.trans h3⟩
      | err e => exact ⟨h1, h3⟩
      | panic => exact ⟨h1, h3⟩

theorem afterCommit_stays {env : Env} {x : Int64} (l : List (Int64 × Int64)) :
    ∀ {w : World}, (w.seqs x).isSome → ((afterCommit env l w).seqs x).isSome := by
  induction l with
  | nil => exact fun h => h
  | cons p l ih =>
    intro w h
    obtain ⟨d, c⟩ := p
    have h1 := createSequence_stays (d := d) (c := c) (env := env) (fail := none) h
    rw [afterCommit]
    cases hx : createSequence d c env none w with
    | mk r w' =>
      rw [hx] at h1
      cases r with
      | ok _ => exact ih h1
      | err e => exact h1
      | panic => exact h1

theorem afterCommit_up {env : Env} (l : List (Int64 × Int64)) : ∀ (w : World), (afterCommit env l w).up = w.up := by
  induction l with
  | nil => exact fun w => rfl
  | cons p l ih =>
    intro w
    obtain ⟨d, c⟩ := p
    obtain ⟨h1, -, -⟩ := createSequence_same w d c env none
    rw [afterCommit]
    cases hx : createSequence d c env none w with
    | mk r w' =>
      rw [hx] at h1
      cases r with
      | ok _ => exact (ih w').trans h1
      | err e => exact h1
      | panic => exact h1

theorem afterCommit_stuck {env : Env} (l : List (Int64 × Int64)) :
    ∀ {w : World}, w.stuck = true → (afterCommit env l w).stuck = true := by
  induction l with
  | nil => exact fun h => h
  | cons p l ih =>
    intro w h
    obtain ⟨d, c⟩ := p
    obtain ⟨-, -, h1⟩ := createSequence_same w d c env none
    rw [afterCommit]
    cases hx : createSequence d c env none w with
    | mk r w' =>
      rw [hx] at h1
      cases r with
      | ok _ => exact ih (h1.trans h)
      | err e => rfl
      | panic => rfl

/-- If one of them is there before, the worker never gets past it. -/
theorem afterCommit_hangs {env : Env} (l : List (Int64 × Int64)) :
    ∀ {w : World} {p : Int64 × Int64}, p ∈ l → (w.seqs p.2).isSome → (afterCommit env l w).stuck = true := by
  induction l with
  | nil => intro w p hp; cases hp
  | cons q l ih =>
    intro w p hp h
    obtain ⟨d, c⟩ := q
    have h1 := createSequence_stays (d := d) (c := c) (env := env) (fail := none) h
    have ht : ∀ s, w.seqs c = some s → (createSequence d c env none w).1 ≠ .ok () := by
      intro s e e'
      rw [createSequence_taken e] at e'; cases e'
    rw [afterCommit]
    cases hx : createSequence d c env none w with
    | mk r w' =>
      rw [hx] at h1 ht
      cases r with
      | ok u =>
        cases u
        rcases List.mem_cons.mp hp with rfl | hp
        · cases e : w.seqs c with
          | none => rw [e] at h; cases h
          | some s => exact absurd rfl (ht s e)
        · exact ih hp h1
      | err e => rfl
      | panic => rfl

/-- If the worker got past all of them, they are there. -/
theorem afterCommit_made {env : Env} (l : List (Int64 × Int64)) :
    ∀ {w : World}, (afterCommit env l w).stuck = false → ∀ p ∈ l, ((afterCommit env l w).seqs p.2).isSome := by
  induction l with
  | nil => intro w _ p hp; cases hp
  | cons q l ih =>
    intro w h p hp
    obtain ⟨d, c⟩ := q
    have hm := createSequence_made (w := w) (d := d) (c := c) (env := env) (fail := none)
    rw [afterCommit] at h ⊢
    cases hx : createSequence d c env none w with
    | mk r w' =>
      rw [hx] at hm h
      cases r with
      | ok u =>
        cases u
        rcases List.mem_cons.mp hp with rfl | hp
        · exact afterCommit_stays l (hm rfl)
        · exact ih h p hp
      | err e => cases h
      | panic => cases h

/-- A sequence, once there, stays until the process dies. -/
theorem step_stays (w : World) {e : Ev} (he : e ≠ .crash) {x : Int64} (h : (w.seqs x).isSome) : ((w.step J e).2.seqs x).isSome := by
  cases e with
  | createSchema o i c => exact h
  | addIndex i c => exact h
  | getJob id c => exact h
  | work o₁ o₂ o₃ c env =>
    simp only [World.step]
    split
    · exact h
    · split
      · exact afterCommit_stays _ h
      · exact h
  | draw cid c =>
    simp only [World.step]
    split
    · exact h
    · show (if x = cid then some _ else w.seqs x).isSome
      split
      · rfl
      · exact h
  | crash => exact absurd rfl he
  | init o env fail =>
    simp only [World.step]
    split
    · split
      · exact initSequences_stays _ h
      · exact initSequences_stays _ h
    · exact h
    · exact h

/-- A worker that hangs does so until the process dies. -/
theorem step_stuck (w : World) {e : Ev} (he : e ≠ .crash) (h : w.stuck = true) : (w.step J e).2.stuck = true := by
  cases e with
  | createSchema o i c => exact h
  | addIndex i c => exact h
  | getJob id c => exact h
  | work o₁ o₂ o₃ c env =>
    simp only [World.step]
    rw [if_pos (.inl h)]; exact h
  | draw cid c =>
    simp only [World.step]
    split
    · exact h
    · exact h
  | crash => exact absurd rfl he
  | init o env fail =>
    simp only [World.step]
    split
    · split
      · exact (initSequences_same _ _).2.trans h
      · exact (initSequences_same _ _).2.trans h
    · exact h
    · exact h

/-! ### One event of the hall -/

theorem step_on {h : Hall} {i : Nat} {e : Ev} (hd : ∀ c r, e ≠ .draw c r) (hc : e ≠ .crash) :
    h.step J i e = (((h.at i).step J e).1, h.back i ((h.at i).step J e).2) := by
  cases e with
  | draw c r => exact absurd rfl (hd c r)
  | crash => exact absurd rfl hc
  | _ => rfl

theorem step_draw_none {h : Hall} {i : Nat} {c : Int64} {r : Ddl.Circ} (ht : h.table c = none) :
    h.step J i (.draw c r) = (.none, h) := by
  simp only [Hall.step, ht]

theorem step_draw_some {h : Hall} {i o : Nat} {c : Int64} {r : Ddl.Circ} {s : Sequence.Seq} (ht : h.table c = some (o, s)) :
    h.step J i (.draw c r) = (((h.at o).step J (.draw c r)).1, h.back o ((h.at o).step J (.draw c r)).2) := by
  simp only [Hall.step, ht]

theorem back_table_isSome (h : Hall) (i : Nat) (w : World) (x : Int64) : ((h.back i w).table x).isSome = (w.seqs x).isSome := by
  simp only [Hall.back, Option.isSome_map]

theorem at_isSome (h : Hall) (i : Nat) (x : Int64) : ((h.at i).seqs x).isSome = (h.table x).isSome := by
  simp only [Hall.at, Option.isSome_map]

theorem hall_stays {h : Hall} {i : Nat} {e : Ev} (hc : e ≠ .crash) {x : Int64} (hx : (h.table x).isSome) :
    ((h.step J i e).2.table x).isSome := by
  have key : ∀ j e, e ≠ .crash → ((h.back j ((h.at j).step J e).2).table x).isSome := by
    intro j e he
    rw [back_table_isSome]
    exact step_stays _ he ((at_isSome h j x).trans hx)
  cases e with
  | draw c r =>
    cases ht : h.table c with
    | none => rw [step_draw_none ht]; exact hx
    | some p => obtain ⟨o, s⟩ := p; rw [step_draw_some ht]; exact key o _ hc
  | crash => exact absurd rfl hc
  | _ => exact key i _ hc

theorem run_stays (es : List (Nat × Ev)) : ∀ {h : Hall}, (∀ p ∈ es, p.2 ≠ .crash) → ∀ {x : Int64}, (h.table x).isSome →
    ((run J es h).2.table x).isSome := by
  induction es with
  | nil => exact fun _ _ hx => hx
  | cons p es ih =>
    intro h hc x hx
    exact ih (fun p hp => hc p (List.mem_cons_of_mem _ hp)) (hall_stays (hc _ List.mem_cons_self) hx)

theorem back_self (h : Hall) (i : Nat) (w : World) : (h.back i w).dbs i = { w with seqs := fun _ => none } := if_pos rfl
theorem back_other {h : Hall} {i j : Nat} {w : World} (hj : j ≠ i) : (h.back i w).dbs j = h.dbs j := if_neg hj

theorem hall_stuck {h : Hall} {i : Nat} {e : Ev} (hc : e ≠ .crash) {j : Nat} (hj : (h.dbs j).stuck = true) :
    ((h.step J i e).2.dbs j).stuck = true := by
  have key : ∀ k e, e ≠ .crash → ((h.back k ((h.at k).step J e).2).dbs j).stuck = true := by
    intro k e he
    by_cases hk : j = k
    · subst hk
      rw [back_self]
      exact step_stuck _ he hj
    · rw [back_other hk]; exact hj
  cases e with
  | draw c r =>
    cases ht : h.table c with
    | none => rw [step_draw_none ht]; exact hj
    | some p => obtain ⟨o, s⟩ := p; rw [step_draw_some ht]; exact key o _ hc
  | crash => exact absurd rfl hc
  | _ => exact key i _ hc

theorem run_stuck (es : List (Nat × Ev)) : ∀ {h : Hall}, (∀ p ∈ es, p.2 ≠ .crash) → ∀ {j : Nat}, (h.dbs j).stuck = true →
    ((run J es h).2.dbs j).stuck = true := by
  induction es with
  | nil => exact fun _ _ hx => hx
  | cons p es ih =>
    intro h hc x hx
    exact ih (fun p hp => hc p (List.mem_cons_of_mem _ hp)) (hall_stuck (hc _ List.mem_cons_self) hx)

theorem run_append (es₁ es₂ : List (Nat × Ev)) (h : Hall) :
    run J (es₁ ++ es₂) h = ((run J es₁ h).1 ++ (run J es₂ (run J es₁ h).2).1, (run J es₂ (run J es₁ h).2).2) := by
  induction es₁ generalizing h with
  | nil => rfl
  | cons p es ih =>
    obtain ⟨i, e⟩ := p
    simp only [List.cons_append, run, ih]

theorem run_length (es : List (Nat × Ev)) : ∀ (h : Hall), (run J es h).1.length = es.length := by
  induction es with
  | nil => exact fun _ => rfl
  | cons p es ih => intro h; show _ + 1 = _ + 1; rw [ih]

/-! ### A database among others -/

/-- The world, with further sequences. -/
def over (f : Int64 → Option Sequence.Seq) (w : World) : World :=
  { w with seqs := fun c => match w.seqs c with
      | some s => some s
      | none => f c }

theorem over_free {f : Int64 → Option Sequence.Seq} {w : World} {c : Int64} (h : f c = none) : (over f w).seqs c = w.seqs c := by
  simp only [over, h]
  cases w.seqs c <;> rfl

theorem over_set (f : Int64 → Option Sequence.Seq) (w : World) (c : Int64) (s : Sequence.Seq) (db : DB) :
    ({ over f w with db := db, seqs := (over f w).seqs.set c s } : World) = over f { w with db := db, seqs := w.seqs.set c s } := by
  simp only [over]
  congr 1
  funext x
  simp only [Dml.Seqs.set]
  by_cases hx : x = c
  · rw [if_pos hx, if_pos hx]
  · rw [if_neg hx, if_neg hx]

theorem over_createSequence {f : Int64 → Option Sequence.Seq} {w : World} {d c : Int64} {env : Env} {fail : Option Err} (h : f c = none) :
    createSequence d c env fail (over f w) = ((createSequence d c env fail w).1, over f (createSequence d c env fail w).2) := by
  unfold createSequence
  rw [over_free h]
  by_cases hc : (w.seqs c).isSome
  · rw [if_pos hc, if_pos hc]
  · rw [if_neg hc, if_neg hc]
    show (match Sequence.Seq.new (didCell d c) defaultDIDBandWidth ⟨env, w.db, fail⟩ w.db with
      | (.ok _, some s, db) => (Res.ok (), { over f w with db := db, seqs := (over f w).seqs.set c s })
      | (.ok _, none, db) => (.panic, { over f w with db := db })
      | (.err e, _, db) => (.err e, { over f w with db := db })
      | (.panic, _, db) => (.panic, { over f w with db := db })) = _
    cases Sequence.Seq.new (didCell d c) defaultDIDBandWidth ⟨env, w.db, fail⟩ w.db with
    | mk r x =>
      obtain ⟨s, db⟩ := x
      cases r with
      | ok _ =>
        cases s with
        | none => rfl
        | some s => simp only [over_set]
      | err e => rfl
      | panic => rfl

theorem over_afterCommit {f : Int64 → Option Sequence.Seq} {env : Env} (l : List (Int64 × Int64)) :
    ∀ {w : World}, (∀ p ∈ l, f p.2 = none) → afterCommit env l (over f w) = over f (afterCommit env l w) := by
  induction l with
  | nil => exact fun _ => rfl
  | cons p l ih =>
    intro w h
    obtain ⟨d, c⟩ := p
    rw [afterCommit, afterCommit, over_createSequence (h (d, c) List.mem_cons_self)]
    cases createSequence d c env none w with
    | mk r w' =>
      cases r with
      | ok _ => exact ih (fun p hp => h p (List.mem_cons_of_mem _ hp))
      | err e => rfl
      | panic => rfl

theorem over_initSequences {f : Int64 → Option Sequence.Seq} {env : Env} {fail : Int64 → Option Err} (l : List (Int64 × Int64)) :
    ∀ {w : World}, (∀ p ∈ l, f p.2 = none) →
      initSequences env fail l (over f w) = ((initSequences env fail l w).1, over f (initSequences env fail l w).2) := by
  induction l with
  | nil => exact fun _ => rfl
  | cons p l ih =>
    intro w h
    obtain ⟨d, c⟩ := p
    rw [initSequences, initSequences, over_createSequence (h (d, c) List.mem_cons_self)]
    cases createSequence d c env (fail c) w with
    | mk r w' =>
      cases r with
      | ok _ => exact ih (fun p hp => h p (List.mem_cons_of_mem _ hp))
      | err e => rfl
      | panic => rfl

/-- One event, among others. -/
theorem over_step {f : Int64 → Option Sequence.Seq} {w : World} {e : Ev} (hc : e ≠ .crash)
    (hdraw : ∀ c r, e = .draw c r → f c = none)
    (hwork : ∀ o₁ o₂ o₃ c env, e = .work o₁ o₂ o₃ c env → ∀ out,
      ((⟨true, c.env, c.fail, workTxn o₁ o₂ o₃ w.vars⟩ : MetaTxn WorkOut).run J w.db).1 = .ok out → w.stuck = false → w.up = true →
      ∀ p ∈ out.after, f p.2 = none)
    (hinit : ∀ o env fail, e = .init o env fail → ∀ l,
      ((⟨true, env, none, Client.one .listDatabases⟩ : MetaTxn (List DBInfo)).run J w.db).1 = .ok l →
      ∀ d ∈ l, ∀ x ∈ d.collections.ents, f x.2.id = none) :
    (over f w).step J e = ((w.step J e).1, over f (w.step J e).2) := by
  cases e with
  | createSchema o i c => rfl
  | addIndex i c => rfl
  | getJob id c => rfl
  | work o₁ o₂ o₃ c env =>
    have hwork := hwork _ _ _ _ _ rfl
    simp only [World.step]
    by_cases hs : w.stuck = true ∨ w.up = false
    · rw [if_pos hs, if_pos (show (over f w).stuck = true ∨ (over f w).up = false from hs)]
    · rw [if_neg hs, if_neg (show ¬ ((over f w).stuck = true ∨ (over f w).up = false) from hs)]
      have e1 : (over f w).db = w.db := rfl
      have e2 : (over f w).vars = w.vars := rfl
      rw [e1, e2]
      have hst : w.stuck = false ∧ w.up = true := by
        refine ⟨?_, ?_⟩
        · cases h : w.stuck with
          | false => rfl
          | true => exact absurd (.inl h) hs
        · cases h : w.up with
          | true => rfl
          | false => exact absurd (.inr h) hs
      cases hx : (⟨true, c.env, c.fail, workTxn o₁ o₂ o₃ w.vars⟩ : MetaTxn WorkOut).run J w.db with
      | mk r db =>
        rw [hx] at hwork
        cases r with
        | ok out =>
          refine congrArg (Prod.mk _) ?_
          exact over_afterCommit out.after (w := { w with db := db, vars := if out.nojob then {} else out.vars }) (hwork out rfl hst.1 hst.2)
        | err e => rfl
        | panic => rfl
  | draw cid c =>
    simp only [World.step]
    rw [over_free (hdraw _ _ rfl)]
    cases hx : w.seqs cid with
    | none => rfl
    | some s =>
      refine congrArg (Prod.mk _) ?_
      exact over_set f w cid _ _
  | crash => exact absurd rfl hc
  | init o env fail =>
    have hinit := hinit _ _ _ rfl
    simp only [World.step]
    have e1 : (over f w).db = w.db := rfl
    rw [e1]
    cases hx : (⟨true, env, none, Client.one .listDatabases⟩ : MetaTxn (List DBInfo)).run J w.db with
    | mk r db =>
      rw [hx] at hinit
      cases r with
      | ok l =>
        have hl : ∀ p ∈ l.flatMap (fun d => ((o d).visit d.collections.ents).map (fun e => (d.id, e.2.id))), f p.2 = none := by
          intro p hp
          obtain ⟨d, hd, hp⟩ := List.mem_flatMap.mp hp
          obtain ⟨x, hx, rfl⟩ := List.mem_map.mp hp
          exact hinit l rfl d hd x (((o d).perm _).mem_iff.mp hx)
        have key := over_initSequences (env := env) (fail := fail) _ (w := { w with db := db }) hl
        simp only
        change (match (initSequences env fail _ (over f { w with db := db })).1 with
          | .ok _ => (Answer.inited (.ok ()), { (initSequences env fail _ (over f { w with db := db })).2 with up := true })
          | r => (Answer.inited r, (initSequences env fail _ (over f { w with db := db })).2)) = _
        rw [key]
        cases initSequences env fail (l.flatMap (fun d => ((o d).visit d.collections.ents).map (fun e => (d.id, e.2.id)))) { w with db := db } with
        | mk r w' => cases r <;> rfl
      | err e => rfl
      | panic => rfl

/-! ### What the databases list -/

theorem mem_idsListed {l : List DBInfo} {c : Int64} : c ∈ idsListed l ↔ ∃ d ∈ l, ∃ x ∈ d.collections.ents, x.2.id = c := by
  simp only [idsListed, List.mem_flatMap, List.mem_map]

theorem lists_iff {K : Nat} {P : Proc} {w : World} (h : Serves J K (2 ^ 62) P w) (c : Int64) :
    Lists J w.db c ↔ ∃ p ∈ P.state.collections, p.2 = c := by
  constructor
  · rintro ⟨env, l, hl, hc⟩
    obtain ⟨d, hd, x, hx, rfl⟩ := mem_idsListed.mp hc
    exact ⟨_, listed_coll h hl hd hx, rfl⟩
  · rintro ⟨p, hp, rfl⟩
    obtain ⟨M, h3, h4, -⟩ := h.kept
    obtain ⟨d, hd, x, hx, rfl⟩ := mem_collections.mp hp
    refine ⟨⟨false, 0, fun _ => false, fun _ => false⟩, _, asks_kept h4 _ .listDatabases rfl trivial, mem_idsListed.mpr ?_⟩
    refine ⟨_, (mem_listing h3 _).mpr ⟨d, hd, rfl⟩, (x.1, publicColl x.2), ?_, rfl⟩
    exact List.mem_map.mpr ⟨x, hx, rfl⟩

/-- The collections Init finds are those of the state. -/
theorem init_coll {K : Nat} {P : Proc} {w : World} (h : Serves J K (2 ^ 62) P w) {env : Env} (hr : Roomy env) {l : List DBInfo}
    (hl : ((⟨true, env, none, Client.one .listDatabases⟩ : MetaTxn (List DBInfo)).run J w.db).1 = .ok l)
    {d : DBInfo} (hd : d ∈ l) {x : Bytes × CollectionInfo} (hx : x ∈ d.collections.ents) : (d.id, x.2.id) ∈ P.state.collections := by
  obtain ⟨M, h3, h4, -⟩ := h.kept
  have hruns : Runs (Client.one .listDatabases) M 1 (.ok (M.dbs.ents.map Prod.snd)) M := Runs.one trivial rfl
  rcases txn_quiet J ⟨true, env, none, Client.one .listDatabases⟩ h4 rfl hr hruns (by omega) with ⟨e1, -⟩ | ⟨e, hfail, -⟩
  case inr => cases hfail
  rw [e1] at hl
  cases hl
  obtain ⟨d', hd', rfl⟩ := (mem_listing h3 d).mp hd
  obtain ⟨y, hy, rfl⟩ : ∃ y ∈ d'.collections.ents, (y.1, publicColl y.2) = x := List.mem_map.mp hx
  exact mem_collections.mpr ⟨d', hd', y, hy, rfl⟩

theorem coll_step {P Q : Proc} (s1 : P.state.Sane) {e : Ev} {a : Ddl.Answer} (h : P.Step e a Q) {p : Int64 × Int64}
    (hp : p ∈ P.state.collections) : p ∈ Q.state.collections := by
  rcases step_cases s1 h with ⟨-, e | e⟩ | ⟨j, r, -, -, hd, -⟩
  · rw [e]; exact hp
  · rw [e]; exact collections_work_sub s1 hp
  · unfold DState.collections at hp ⊢; rw [hd]; exact hp

/-- What is listed stays listed. -/
theorem lists_mono {K : Nat} {db : DB} (hdb : Fresh Sequence.metaPrefix db) {a b : List Ev} (hb : Brief K (a ++ b)) {c : Int64}
    (h : Lists J (Ddl.run J a { db := db }).2.db c) : Lists J (Ddl.run J (a ++ b) { db := db }).2.db c := by
  obtain ⟨P, Q, h1, h2, h3, h4⟩ := run_serves_two J hdb hb
  obtain ⟨p, hp, e⟩ := (lists_iff h2 c).mp h
  exact (lists_iff h4 c).mpr ⟨p, h3.inv (I := fun X => p ∈ X.state.collections)
    (fun P e a Q s1 _ hs hp => coll_step s1 hs hp) hp, e⟩

/-! ### Databases that do not meet -/

/-- Each database is as if it were alone, and the sequences of the process are those of its databases. -/
structure Apart (h : Hall) (W : Nat → World) : Prop where
  same : ∀ i, h.dbs i = { W i with seqs := fun _ => none }
  table : ∀ c i s, h.table c = some (i, s) ↔ (W i).seqs c = some s

/-- The sequences of other databases. -/
def foreign (h : Hall) (i : Nat) (c : Int64) : Option Sequence.Seq := match h.table c with
  | some (j, s) => if j = i then none else some s
  | none => none

theorem foreign_none {h : Hall} {i : Nat} {c : Int64} : foreign h i c = none ↔ ∀ j s, h.table c = some (j, s) → j = i := by
  unfold foreign
  cases ht : h.table c with
  | none => exact ⟨fun _ j s e => (by cases e), fun _ => rfl⟩
  | some p =>
    obtain ⟨j, s⟩ := p
    simp only
    by_cases hj : j = i
    · rw [if_pos hj]
      exact ⟨fun _ j' s' e => (by cases e; exact hj), fun _ => rfl⟩
    · rw [if_neg hj]
      exact ⟨fun e => (by cases e), fun e => absurd (e j s rfl) hj⟩

theorem Apart.start (dbs : Nat → DB) : Apart (opened dbs) (fun i => { db := dbs i }) where
  same _ := rfl
  table c i s := ⟨nofun, nofun⟩

theorem Apart.at {h : Hall} {W : Nat → World} (a : Apart h W) (i : Nat) : h.at i = over (foreign h i) (W i) := by
  unfold Hall.at over
  rw [a.same i]
  simp only
  congr 1
  funext c
  cases hw : (W i).seqs c with
  | some s => rw [(a.table c i s).mpr hw]; rfl
  | none =>
    unfold foreign
    cases ht : h.table c with
    | none => rfl
    | some p =>
      obtain ⟨j, s⟩ := p
      simp only [Option.map_some]
      by_cases hj : j = i
      · subst hj
        rw [(a.table c j s).mp ht] at hw; cases hw
      · rw [if_neg hj]

/-- A database `i` that keeps clear of the sequences of others. -/
theorem Apart.put {h : Hall} {W : Nat → World} (a : Apart h W) (i : Nat) {w : World}
    (hs : ∀ c, ((W i).seqs c).isSome → (w.seqs c).isSome)
    (hf : ∀ c, (w.seqs c).isSome → foreign h i c = none) :
    Apart (h.back i (over (foreign h i) w)) (fun j => if j = i then w else W j) := by
  refine ⟨?_, ?_⟩
  · intro j
    by_cases hj : j = i
    · subst hj
      rw [back_self, if_pos rfl]; rfl
    · rw [back_other hj, if_neg hj, a.same j]
  · intro c j s
    show ((over (foreign h i) w).seqs c).map _ = _ ↔ _
    cases hw : w.seqs c with
    | some s' =>
      have hfc := hf c (by rw [hw]; rfl)
      have e1 : (over (foreign h i) w).seqs c = some s' := by rw [over_free hfc, hw]
      have e2 : ((h.table c).map Prod.fst).getD i = i := by
        cases ht : h.table c with
        | none => rfl
        | some p => exact foreign_none.mp hfc p.1 p.2 ht
      rw [e1, Option.map_some, e2]
      by_cases hj : j = i
      · subst hj
        rw [if_pos rfl, hw]
        exact ⟨fun h => (by cases h; rfl), fun h => (by cases h; rfl)⟩
      · rw [if_neg hj]
        constructor
        · intro h; cases h; exact absurd rfl hj
        · intro h
          exact absurd (foreign_none.mp hfc j s ((a.table c j s).mpr h)) hj
    | none =>
      have hnone : (W i).seqs c = none := by
        cases e' : (W i).seqs c with
        | none => rfl
        | some s' =>
          have := hs c (by rw [e']; rfl)
          rw [hw] at this; cases this
      have e1 : (over (foreign h i) w).seqs c = foreign h i c := by simp only [over, hw]
      rw [e1]
      by_cases hj : j = i
      · subst hj
        rw [if_pos rfl, hw]
        refine ⟨fun h' => ?_, fun h => by cases h⟩
        unfold foreign at h'
        cases ht : h.table c with
        | none => rw [ht] at h'; cases h'
        | some p =>
          obtain ⟨k, s'⟩ := p
          rw [ht] at h'
          simp only at h'
          by_cases hk : k = j
          · rw [if_pos hk] at h'; cases h'
          · rw [if_neg hk] at h'
            simp only [Option.map_some, Option.getD_some] at h'
            exact absurd (Prod.mk.inj (Option.some.inj h')).1 hk
      · rw [if_neg hj, ← a.table c j s]
        unfold foreign
        cases ht : h.table c with
        | none => exact ⟨nofun, nofun⟩
        | some p =>
          obtain ⟨k, s'⟩ := p
          simp only
          by_cases hk : k = i
          · rw [if_pos hk]
            constructor
            · intro h; cases h
            · intro h; cases h; exact absurd hk hj
          · rw [if_neg hk]
            exact Iff.rfl

/-- A step at `i` that keeps clear of the sequences of others. -/
theorem Apart.step {h : Hall} {W : Nat → World} (a : Apart h W) (i : Nat) {e : Ev} (hc : e ≠ .crash)
    (hs : (over (foreign h i) (W i)).step J e = (((W i).step J e).1, over (foreign h i) ((W i).step J e).2))
    (hf : ∀ c, (((W i).step J e).2.seqs c).isSome → foreign h i c = none) :
    Apart (h.back i ((h.at i).step J e).2) (fun j => if j = i then ((W i).step J e).2 else W j) := by
  rw [a.at i, hs]
  exact a.put i (fun c h => step_stays (W i) hc h) hf

/-- A step at `i`, when the collections `i` has then are its own. -/
theorem Apart.event {h : Hall} {W : Nat → World} (a : Apart h W) {K : Nat} {i : Nat} {e : Ev} (hc : e ≠ .crash) (hfit : EvFits K e)
    {P Q : Proc} (h1 : Serves J K (2 ^ 62) P (W i)) (h2 : P.Step e ((W i).step J e).1 Q)
    (h3 : Serves J K (2 ^ 62) Q ((W i).step J e).2)
    (hdraw : ∀ c r, e = .draw c r → foreign h i c = none)
    (hf : ∀ p ∈ Q.state.collections, foreign h i p.2 = none) :
    (h.step J i e).1 = ((W i).step J e).1 ∧
    Apart (h.step J i e).2 (fun j => if j = i then ((W i).step J e).2 else W j) := by
  have hfs : ∀ c, (((W i).step J e).2.seqs c).isSome → foreign h i c = none := by
    intro c hs
    cases hx : ((W i).step J e).2.seqs c with
    | none => rw [hx] at hs; cases hs
    | some s => obtain ⟨d, hd, -⟩ := h3.seqs c s hx; exact hf _ hd
  have hs : (over (foreign h i) (W i)).step J e = (((W i).step J e).1, over (foreign h i) ((W i).step J e).2) := by
    refine over_step hc hdraw ?_ ?_
    · intro o₁ o₂ o₃ c env he out hout hst hup p hp
      refine hfs _ ?_
      have hfree := h3.free
      subst he
      simp only [World.step] at hfree ⊢
      rw [if_neg (by rw [hst, hup]; simp)] at hfree ⊢
      rw [hout] at hfree ⊢
      exact afterCommit_made _ hfree p hp
    · intro o env fail he l hl d hd x hx
      subst he
      have := init_coll h1 hfit hl hd hx
      exact hf _ (coll_step h1.sane h2 this)
  have key := a.step i hc hs hfs
  have kat := a.at i
  cases e with
  | draw c r =>
    cases ht : h.table c with
    | none =>
      rw [step_draw_none ht]
      have hw : (W i).seqs c = none := by
        cases hx : (W i).seqs c with
        | none => rfl
        | some s => rw [(a.table c i s).mpr hx] at ht; cases ht
      have e1 : (W i).step J (.draw c r) = (.none, W i) := by simp only [World.step, hw]
      rw [e1]
      refine ⟨rfl, ?_⟩
      have : (fun j => if j = i then W i else W j) = W := by
        funext j; split
        · rename_i hj; rw [hj]
        · rfl
      show Apart h (fun j => if j = i then W i else W j)
      rw [this]; exact a
    | some p =>
      obtain ⟨o, s⟩ := p
      have ho : o = i := foreign_none.mp (hdraw c r rfl) o s ht
      subst ho
      rw [step_draw_some ht]
      refine ⟨?_, key⟩
      rw [kat, hs]
  | crash => exact absurd rfl hc
  | createSchema o i' c => rw [step_on (fun _ _ => Ev.noConfusion) hc]; exact ⟨by rw [kat, hs], key⟩
  | addIndex i' c => rw [step_on (fun _ _ => Ev.noConfusion) hc]; exact ⟨by rw [kat, hs], key⟩
  | getJob id c => rw [step_on (fun _ _ => Ev.noConfusion) hc]; exact ⟨by rw [kat, hs], key⟩
  | work o₁ o₂ o₃ c env => rw [step_on (fun _ _ => Ev.noConfusion) hc]; exact ⟨by rw [kat, hs], key⟩
  | init o env fail => rw [step_on (fun _ _ => Ev.noConfusion) hc]; exact ⟨by rw [kat, hs], key⟩

theorem Apart.crash {h : Hall} {W : Nat → World} (a : Apart h W) (i : Nat) :
    Apart (h.step J i .crash).2 (fun j => ((W j).step J .crash).2) where
  same j := by
    show ({ db := (h.dbs j).db } : World) = _
    rw [a.same j]
    rfl
  table c j s := ⟨nofun, nofun⟩

/-! ### Histories -/

theorem only_append (i : Nat) (a b : List (Nat × Ev)) : only i (a ++ b) = only i a ++ only i b := by
  simp only [only, List.filter_append, List.map_append]

theorem told_append (i : Nat) {a b : List (Nat × Ev)} {as bs : List Ddl.Answer} (h : as.length = a.length) :
    told i (a ++ b) (as ++ bs) = told i a as ++ told i b bs := by
  simp only [told, List.zip_append h.symm, List.filter_append, List.map_append]

theorem concerns_other {i j : Nat} {e : Ev} (hj : j ≠ i) (hc : e ≠ .crash) : concerns i (j, e) = false := by
  cases e with
  | crash => exact absurd rfl hc
  | _ => exact decide_eq_false hj

theorem concerns_self {i : Nat} {e : Ev} : concerns i (i, e) = true := by
  cases e with
  | crash => rfl
  | _ => exact decide_eq_true rfl

theorem only_self (i : Nat) (e : Ev) : only i [(i, e)] = [e] := by simp only [only, List.filter_cons, concerns_self, if_true, List.filter_nil, List.map_cons, List.map_nil]
theorem only_crash (i j : Nat) : only i [(j, .crash)] = [.crash] := rfl
theorem only_other {i j : Nat} {e : Ev} (hj : j ≠ i) (hc : e ≠ .crash) : only i [(j, e)] = [] := by
  simp only [only, List.filter_cons, concerns_other hj hc, Bool.false_eq_true, if_false, List.filter_nil, List.map_nil]

theorem told_self (i : Nat) (e : Ev) (a : Ddl.Answer) : told i [(i, e)] [a] = [a] := by
  simp only [told, List.zip_cons_cons, List.zip_nil_left, List.filter_cons, concerns_self, if_true, List.filter_nil, List.map_cons, List.map_nil]
theorem told_other {i j : Nat} {e : Ev} {a : Ddl.Answer} (hj : j ≠ i) (hc : e ≠ .crash) : told i [(j, e)] [a] = [] := by
  simp only [told, List.zip_cons_cons, List.zip_nil_left, List.filter_cons, concerns_other hj hc, Bool.false_eq_true, if_false, List.filter_nil, List.map_nil]

theorem Strangers.grows {K : Nat} {dbs : Nat → DB} {a b : List (Nat × Ev)} (h : Strangers J K dbs (a ++ b)) {i : Nat} {c : Int64}
    (hl : Lists J (alone J dbs a i).db c) : Lists J (alone J dbs (a ++ b) i).db c := by
  have hb := h.brief i
  unfold alone at hl ⊢
  rw [only_append] at hb ⊢
  exact lists_mono (h.fresh i) hb hl

theorem apart_step {K : Nat} {dbs : Nat → DB} {es₁ es₂ : List (Nat × Ev)} {x : Nat × Ev}
    (h : Strangers J K dbs ((es₁ ++ [x]) ++ es₂))
    (a : Apart (run J es₁ (opened dbs)).2 (alone J dbs es₁)) :
    (∀ i, told i [x] [((run J es₁ (opened dbs)).2.step J x.1 x.2).1] = (Ddl.run J (only i [x]) (alone J dbs es₁ i)).1) ∧
    Apart (run J (es₁ ++ [x]) (opened dbs)).2 (alone J dbs (es₁ ++ [x])) := by
  obtain ⟨i, e⟩ := x
  have hrun : (run J (es₁ ++ [(i, e)]) (opened dbs)).2 = ((run J es₁ (opened dbs)).2.step J i e).2 := by rw [run_append]; rfl
  have hal : ∀ j, alone J dbs (es₁ ++ [(i, e)]) j = (Ddl.run J (only j [(i, e)]) (alone J dbs es₁ j)).2 := by
    intro j
    unfold alone
    rw [only_append, Ddl.run_append]
  rw [hrun]
  by_cases hc : e = .crash
  · subst hc
    refine ⟨fun j => rfl, ?_⟩
    have e1 : alone J dbs (es₁ ++ [(i, .crash)]) = fun j => ((alone J dbs es₁ j).step J .crash).2 := by
      funext j; rw [hal j]; rfl
    rw [e1]
    exact a.crash i
  · have e1 : alone J dbs (es₁ ++ [(i, e)]) = fun j => if j = i then ((alone J dbs es₁ i).step J e).2 else alone J dbs es₁ j := by
      funext j
      rw [hal j]
      by_cases hj : j = i
      · subst hj
        rw [only_self, if_pos rfl]; rfl
      · rw [only_other (Ne.symm hj) hc, if_neg hj]; rfl
    have hb := h.brief i
    rw [only_append] at hb
    have hb := brief_left hb
    rw [only_append, only_self] at hb
    obtain ⟨P, Q, h1, h2, h3⟩ := one_more (J := J) (h.fresh i) hb
    have h3' : Serves J K (2 ^ 62) Q (alone J dbs (es₁ ++ [(i, e)]) i) := by
      rw [e1]
      simp only [if_true]
      exact h3
    have hlist : ∀ p ∈ Q.state.collections, Lists J (alone J dbs ((es₁ ++ [(i, e)]) ++ es₂) i).db p.2 := by
      intro p hp
      exact h.grows ((lists_iff h3' p.2).mpr ⟨p, hp, rfl⟩)
    have hfor : ∀ c, Lists J (alone J dbs ((es₁ ++ [(i, e)]) ++ es₂) i).db c → foreign (run J es₁ (opened dbs)).2 i c = none := by
      intro c hl
      rw [foreign_none]
      intro j s ht
      have hs := (a.table c j s).mp ht
      have hbj := h.brief j
      rw [List.append_assoc, only_append] at hbj
      obtain ⟨R, -, hR⟩ := run_serves J (h.fresh j) (brief_left hbj)
      obtain ⟨d, hd, -⟩ := hR.seqs c s hs
      have l1 : Lists J (alone J dbs es₁ j).db c := (lists_iff hR c).mpr ⟨_, hd, rfl⟩
      have l2 : Lists J (alone J dbs ((es₁ ++ [(i, e)]) ++ es₂) j).db c := by
        have h' := h
        rw [List.append_assoc] at h' ⊢
        exact h'.grows l1
      exact h.differ j i c l2 hl
    have key := a.event (K := K) hc (hb.1 e (List.mem_append_right _ List.mem_cons_self)) h1 h2 h3 ?_ ?_
    · rw [e1]
      refine ⟨fun j => ?_, key.2⟩
      by_cases hj : j = i
      · subst hj
        rw [only_self, told_self, key.1]; rfl
      · rw [only_other (Ne.symm hj) hc, told_other (Ne.symm hj) hc]; rfl
    · intro c r he
      subst he
      exact hfor c (h.draws i c r (List.mem_append_left _ (List.mem_append_right _ List.mem_cons_self)))
    · exact fun p hp => hfor p.2 (hlist p hp)

theorem run_apart_from {K : Nat} {dbs : Nat → DB} (es₂ : List (Nat × Ev)) : ∀ {es₁ : List (Nat × Ev)},
    Strangers J K dbs (es₁ ++ es₂) → Apart (run J es₁ (opened dbs)).2 (alone J dbs es₁) →
    (∀ i, told i es₁ (run J es₁ (opened dbs)).1 = (Ddl.run J (only i es₁) { db := dbs i }).1) →
    Apart (run J (es₁ ++ es₂) (opened dbs)).2 (alone J dbs (es₁ ++ es₂)) ∧
    ∀ i, told i (es₁ ++ es₂) (run J (es₁ ++ es₂) (opened dbs)).1 = (Ddl.run J (only i (es₁ ++ es₂)) { db := dbs i }).1 := by
  induction es₂ with
  | nil => intro es₁ _ ha ht; rw [List.append_nil]; exact ⟨ha, ht⟩
  | cons x es₂ ih =>
    intro es₁ h ha ht
    have e : es₁ ++ x :: es₂ = (es₁ ++ [x]) ++ es₂ := by rw [List.append_assoc]; rfl
    rw [e] at h ⊢
    obtain ⟨h1, h2⟩ := apart_step h ha
    refine ih h h2 (fun i => ?_)
    rw [run_append, told_append i (run_length _ _), ht i, only_append, Ddl.run_append]
    refine congrArg (_ ++ ·) ?_
    exact h1 i

/-- Databases that do not meet are as if each were alone. -/
theorem run_apart {K : Nat} {dbs : Nat → DB} {es : List (Nat × Ev)} (h : Strangers J K dbs es) :
    Apart (run J es (opened dbs)).2 (alone J dbs es) ∧
    ∀ i, told i es (run J es (opened dbs)).1 = (Ddl.run J (only i es) { db := dbs i }).1 :=
  run_apart_from es (es₁ := []) h (Apart.start dbs) (fun _ => rfl)

theorem afterCommit_origin {env : Env} {x : Int64} (l : List (Int64 × Int64)) :
    ∀ {w : World}, ((afterCommit env l w).seqs x).isSome → (w.seqs x).isSome ∨ ∃ p ∈ l, p.2 = x := by
  induction l with
  | nil => exact fun h => .inl h
  | cons p l ih =>
    intro w h
    obtain ⟨d, c⟩ := p
    by_cases hx : c = x
    · exact .inr ⟨(d, c), List.mem_cons_self, hx⟩
    · have h1 : (createSequence d c env none w).2.seqs x = w.seqs x := by
        unfold createSequence
        split
        · rfl
        · split
          · exact if_neg (fun e => hx e.symm)
          · rfl
          · rfl
          · rfl
      rw [afterCommit] at h
      cases hc : createSequence d c env none w with
      | mk r w' =>
        rw [hc] at h1 h
        have h1 : w'.seqs x = w.seqs x := h1
        cases r with
        | ok _ =>
          rcases ih h with h | ⟨p, hp, e⟩
          · rw [h1] at h; exact .inl h
          · exact .inr ⟨p, List.mem_cons_of_mem _ hp, e⟩
        | err e => left; rw [← h1]; exact h
        | panic => left; rw [← h1]; exact h

/-- The worker meets the sequence of another database. -/
theorem worker_meets {K : Nat} {dbs : Nat → DB} {es : List (Nat × Ev)} (h : Strangers J K dbs es) {i j : Nat}
    {o₁ o₂ o₃ : Order} {c : Ddl.Circ} {env : Env} (hb : Brief K (only i es ++ [.work o₁ o₂ o₃ c env])) {x : Int64}
    (hj : Lists J (alone J dbs es j).db x) (hup : ((run J es (opened dbs)).2.dbs j).up = true) (hij : i ≠ j)
    (hi : Lists J ((alone J dbs es i).step J (.work o₁ o₂ o₃ c env)).2.db x) :
    ∃ out, ((⟨true, c.env, c.fail, workTxn o₁ o₂ o₃ (alone J dbs es i).vars⟩ : MetaTxn WorkOut).run J
      (alone J dbs es i).db).1 = .ok out ∧ ¬ ((alone J dbs es i).stuck = true ∨ (alone J dbs es i).up = false) ∧
      ∃ p ∈ out.after, ∃ s, (run J es (opened dbs)).2.table p.2 = some (j, s) := by
  obtain ⟨a, -⟩ := run_apart h
  obtain ⟨P, Q, h1, h2, h3⟩ := one_more (J := J) (h.fresh i) hb
  obtain ⟨R, -, hR⟩ := run_serves J (h.fresh j) (h.brief j)
  have hjup : (alone J dbs es j).up = true := by
    have := hup
    rw [a.same j] at this; exact this
  obtain ⟨pj, hpj, rfl⟩ := (lists_iff hR x).mp hj
  have hjs := hR.all (hR.up.symm.trans hjup) pj hpj
  rw [← hR.has] at hjs
  obtain ⟨s, hs⟩ := Option.isSome_iff_exists.mp hjs
  have ht := (a.table pj.2 j s).mpr hs
  -- the collection is new at `i`
  have hnew : (alone J dbs es i).seqs pj.2 = none := by
    cases hx : (alone J dbs es i).seqs pj.2 with
    | none => rfl
    | some s' =>
      have := (a.table pj.2 i s').mpr hx
      rw [ht] at this
      exact absurd (Prod.mk.inj (Option.some.inj this)).1.symm hij
  have hQ := (lists_iff h3 pj.2).mp hi
  have hnot : ¬ Lists J (alone J dbs es i).db pj.2 := fun hl => hij (h.differ i j _ hl hj)
  have hhang : ∃ out, ((⟨true, c.env, c.fail, workTxn o₁ o₂ o₃ (alone J dbs es i).vars⟩ : MetaTxn WorkOut).run J
      (alone J dbs es i).db).1 = .ok out ∧ ¬ ((alone J dbs es i).stuck = true ∨ (alone J dbs es i).up = false) ∧
      ∃ p ∈ out.after, p.2 = pj.2 := by
    change Serves J K (2 ^ 62) P (alone J dbs es i) at h1
    change Serves J K (2 ^ 62) Q ((alone J dbs es i).step J _).2 at h3
    change P.Step _ ((alone J dbs es i).step J _).1 Q at h2
    have hrun : P.running = true := by
      generalize ((alone J dbs es i).step J (.work o₁ o₂ o₃ c env)).1 = ans at h2
      cases h2 with
      | work hr _ _ => exact hr
      | workRefused hr _ => exact hr
      | workNot _ => exact absurd ((lists_iff h1 pj.2).mpr hQ) hnot
    have hQrun : Q.running = true := by
      generalize ((alone J dbs es i).step J (.work o₁ o₂ o₃ c env)).1 = ans at h2
      cases h2 with
      | work hr _ _ => exact hr
      | workRefused hr _ => exact hr
      | workNot _ => exact hrun
    have hns : ¬ ((alone J dbs es i).stuck = true ∨ (alone J dbs es i).up = false) := by
      rw [h1.free, h1.up, hrun]; simp
    obtain ⟨q, hq, hqx⟩ := hQ
    have hsome := h3.all hQrun q hq
    rw [← h3.has, hqx] at hsome
    simp only [World.step] at hsome
    rw [if_neg hns] at hsome
    cases hx : ((⟨true, c.env, c.fail, workTxn o₁ o₂ o₃ (alone J dbs es i).vars⟩ : MetaTxn WorkOut).run J
      (alone J dbs es i).db).1 with
    | ok out =>
      rw [hx] at hsome
      refine ⟨out, rfl, hns, ?_⟩
      rcases afterCommit_origin _ hsome with h | h
      · have h : ((alone J dbs es i).seqs pj.2).isSome := h
        rw [hnew] at h; cases h
      · exact h
    | err e =>
      rw [hx] at hsome
      have h : ((alone J dbs es i).seqs pj.2).isSome := hsome
      rw [hnew] at h; cases h
    | panic =>
      rw [hx] at hsome
      have h : ((alone J dbs es i).seqs pj.2).isSome := hsome
      rw [hnew] at h; cases h
  obtain ⟨out, hout, hns, p, hp, hpx⟩ := hhang
  exact ⟨out, hout, hns, p, hp, s, by rw [hpx]; exact ht⟩

end Mondis.Hall
