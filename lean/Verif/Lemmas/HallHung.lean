import Verif.Lemmas.Hall
/-!
# A database whose worker hangs on the sequence of another
-/
namespace Mondis.Hall
open Mondis Schema Meta Spec Ddl Props Structure Util

variable {J : Json}

/-! ### Sequences are not replaced -/

theorem createSequence_keeps {w : World} {d c : Int64} {env : Env} {fail : Option Err} {x : Int64} {s : Sequence.Seq} (h : w.seqs x = some s) :
    (createSequence d c env fail w).2.seqs x = some s := by
  unfold createSequence
  by_cases hc : (w.seqs c).isSome
  · rw [if_pos hc]; exact h
  · rw [if_neg hc]
    have hne : x ≠ c := by
      rintro rfl
      rw [h] at hc; exact hc rfl
    split
    · exact (if_neg hne).trans h
    · exact h
    · exact h
    · exact h

theorem initSequences_keeps {env : Env} {fail : Int64 → Option Err} {x : Int64} {s : Sequence.Seq} (l : List (Int64 × Int64)) :
    ∀ {w : World}, w.seqs x = some s → (initSequences env fail l w).2.seqs x = some s := by
  induction l with
  | nil => exact fun h => h
  | cons p l ih =>
    intro w h
    obtain ⟨d, c⟩ := p
    have h1 := createSequence_keeps (d := d) (c := c) (env := env) (fail := fail c) h
    rw [initSequences]
    cases hx : createSequence d c env (fail c) w with
    | mk r w' =>
      rw [hx] at h1
      cases r with
      | ok _ => exact ih h1
      | err e => exact h1
      | panic => exact h1

theorem afterCommit_keeps {env : Env} {x : Int64} {s : Sequence.Seq} (l : List (Int64 × Int64)) :
    ∀ {w : World}, w.seqs x = some s → (afterCommit env l w).seqs x = some s := by
  induction l with
  | nil => exact fun h => h
  | cons p l ih =>
    intro w h
    obtain ⟨d, c⟩ := p
    have h1 := createSequence_keeps (d := d) (c := c) (env := env) (fail := none) h
    rw [afterCommit]
    cases hx : createSequence d c env none w with
    | mk r w' =>
      rw [hx] at h1
      cases r with
      | ok _ => exact ih h1
      | err e => exact h1
      | panic => exact h1

theorem step_keeps (w : World) {e : Ev} (he : e ≠ .crash) {x : Int64} (hd : ∀ r, e ≠ .draw x r) {s : Sequence.Seq} (h : w.seqs x = some s) :
    (w.step J e).2.seqs x = some s := by
  cases e with
  | createSchema o i c => exact h
  | addIndex i c => exact h
  | getJob id c => exact h
  | work o₁ o₂ o₃ c env =>
    simp only [World.step]
    split
    · exact h
    · split
      · exact afterCommit_keeps _ h
      · exact h
  | draw cid c =>
    have hne : x ≠ cid := fun e => hd c (by rw [e])
    simp only [World.step]
    split
    · exact h
    · exact (if_neg hne).trans h
  | crash => exact absurd rfl he
  | init o env fail =>
    simp only [World.step]
    split
    · split
      · exact initSequences_keeps _ h
      · exact initSequences_keeps _ h
    · exact h
    · exact h

/-! ### What happens elsewhere -/

/-- The sequences of `i`. -/
def own (h : Hall) (i : Nat) (c : Int64) : Option Sequence.Seq := match h.table c with
  | some (j, s) => if j = i then some s else none
  | none => none

theorem own_some {h : Hall} {i : Nat} {c : Int64} {s : Sequence.Seq} : own h i c = some s ↔ h.table c = some (i, s) := by
  unfold own
  cases ht : h.table c with
  | none => exact ⟨nofun, nofun⟩
  | some p =>
    obtain ⟨j, s'⟩ := p
    simp only
    by_cases hj : j = i
    · rw [if_pos hj, hj]
      exact ⟨fun e => (by cases e; rfl), fun e => (by cases e; rfl)⟩
    · rw [if_neg hj]
      exact ⟨nofun, fun e => (by cases e; exact absurd rfl hj)⟩

/-- Something happens at `k`. -/
theorem Apart.other {h : Hall} {W : Nat → World} (a : Apart h W) (k : Nat) {w : World}
    (hkeep : ∀ c s j, j ≠ k → h.table c = some (j, s) → w.seqs c = some s) :
    Apart (h.back k w) (fun j => if j = k then { w with seqs := own (h.back k w) k } else W j) := by
  refine ⟨?_, ?_⟩
  · intro j
    by_cases hj : j = k
    · subst hj
      rw [back_self, if_pos rfl]
    · rw [back_other hj, if_neg hj, a.same j]
  · intro c j s
    by_cases hj : j = k
    · subst hj
      rw [if_pos rfl]
      exact own_some.symm
    · rw [if_neg hj, ← a.table c j s]
      show (w.seqs c).map _ = _ ↔ _
      constructor
      · intro e
        obtain ⟨s', hs', e⟩ := Option.map_eq_some_iff.mp e
        obtain ⟨e1, rfl⟩ := Prod.mk.inj e
        cases ht : h.table c with
        | none => rw [ht] at e1; exact absurd e1.symm hj
        | some p =>
          obtain ⟨o, s0⟩ := p
          rw [ht] at e1
          have e1 : o = j := e1
          subst e1
          have := hkeep c s0 o hj ht
          rw [hs'] at this
          rw [Option.some.inj this]
      · intro e
        rw [hkeep c s j hj e, e]; rfl

/-! ### Init among others -/

/-- The worker's variables aside. -/
def mask (w : World) : World := { w with up := false, stuck := false }

theorem refused_same {α : Type} (env : Env) (e : Err) (p : Prog α) (db : DB) : (runInNewUpdateTxn env (some e) p db db).2 = db := by
  unfold runInNewUpdateTxn
  have hv : (body env true p db).2.view = applyWrites db (body env true p db).2.writes := Prog.run_start_view _ _ _
  cases hb : body env true p db with
  | mk r t =>
    cases r with
    | err e => rfl
    | panic => rfl
    | ok a =>
      simp only [Txn.commit]
      by_cases hw : t.writes = []
      · rw [if_pos hw]
      · rw [if_neg hw]

theorem renew_refused_same (s : Sequence.Seq) (env : Env) (e : Err) (db : DB) :
    (s.renewLease ⟨env, db, some e⟩ 0 db).2.2 = db := by
  unfold Sequence.Seq.renewLease
  simp only [if_pos]
  have h := refused_same env e (s.cell.inc s.bandwidth) db
  cases hx : runInNewUpdateTxn env (some e) (s.cell.inc s.bandwidth) db db with
  | mk r db' =>
    rw [hx] at h
    cases r <;> exact h

theorem createSequence_refused_same (w : World) (d c : Int64) (env : Env) (e : Err) :
    (createSequence d c env (some e) w).2.db = w.db := by
  unfold createSequence
  by_cases hs : (w.seqs c).isSome
  · rw [if_pos hs]
  · rw [if_neg hs]
    have hz : ¬ defaultDIDBandWidth = 0 := by decide
    unfold Sequence.Seq.new
    rw [didCell_valid]
    simp only [Bool.not_true, Bool.false_eq_true, if_false, if_neg hz]
    have h := renew_refused_same { cell := didCell d c, bandwidth := defaultDIDBandWidth } env e w.db
    cases hx : Sequence.Seq.renewLease { cell := didCell d c, bandwidth := defaultDIDBandWidth } ⟨env, w.db, some e⟩ 0 w.db with
    | mk r x =>
      obtain ⟨s, db'⟩ := x
      rw [hx] at h
      cases r <;> exact h

/-- A refused commit is reported and nothing changes. -/
theorem createSequence_refused {B : Nat} {M : MState} {w : World} {d c : Int64} {env : Env} {e : Err}
    (h : Keeps J B M w.db) (hs : w.seqs c = none) (hbig : Roomy env) (hB : B + 4 < 2 ^ 63)
    (hd : 0 ≤ did M d c) (hd' : did M d c + 2000 < 2 ^ 63) : createSequence d c env (some e) w = (.err e, w) := by
  have hsame := createSequence_refused_same w d c env e
  obtain ⟨db', M', h1, h2, ⟨s, hr, h3, hl1, hl2, hdid⟩ | ⟨hM, e', hf, h3⟩⟩ :=
    createSequence_free J (d := d) (fail := some e) h hs hbig (by omega) hd (by omega)
  · exfalso
    rw [h3] at hsame
    have hsame : db' = w.db := hsame
    subst hsame
    obtain ⟨_, _, _, _, ⟨s₁, -, g1, g2, -⟩ | ⟨-, _, hf, -⟩⟩ :=
      createSequence_free J (d := d) (c := c) (fail := none) h hs hbig (by omega) hd (by omega)
    case inr => cases hf
    have hM' : did M' d c = did M d c + 1000 := by rw [hdid, if_pos ⟨rfl, rfl⟩]
    obtain ⟨_, _, _, _, ⟨s₂, -, k1, k2, -⟩ | ⟨-, _, hf, -⟩⟩ :=
      createSequence_free J (d := d) (c := c) (fail := none) h2 hs hbig (by omega) (by omega) (by omega)
    case inr => cases hf
    rw [g1] at k1
    have e1 := congrArg (fun x : Res Unit × World => x.2.seqs c) k1
    have e1 : (w.seqs.set c s₁) c = (w.seqs.set c s₂) c := e1
    simp only [Dml.Seqs.set, if_true] at e1
    rw [Option.some.inj e1] at g2
    omega
  · cases hf
    rw [h3] at hsame ⊢
    have hsame : db' = w.db := hsame
    rw [hsame]

/-- Sequences that others have look to Init as if the engine refused to make them. -/
def refusing (f : Int64 → Option Sequence.Seq) (fail : Int64 → Option Err) (c : Int64) : Option Err :=
  if (f c).isSome then some errSequenceAlreadyExists else fail c

theorem over_initSequences_refusing {f : Int64 → Option Sequence.Seq} {env : Env} (hbig : Roomy env) {fail : Int64 → Option Err}
    (l : List (Int64 × Int64)) : ∀ {B : Nat} {M : MState} {w : World}, Keeps J B M w.db → (l.map Prod.snd).Nodup →
      B + 2 * l.length + 4 < 2 ^ 63 → (∀ p ∈ l, 0 ≤ did M p.1 p.2 ∧ did M p.1 p.2 + 2000 < 2 ^ 63) →
      initSequences env fail l (over f w) =
        ((initSequences env (refusing f fail) l w).1, over f (initSequences env (refusing f fail) l w).2) := by
  induction l with
  | nil => exact fun _ _ _ _ => rfl
  | cons p l ih =>
    intro B M w h hn hB hdid
    obtain ⟨d, c⟩ := p
    rw [List.map_cons, List.nodup_cons] at hn
    rw [List.length_cons] at hB
    obtain ⟨b1, b2⟩ := hdid (d, c) List.mem_cons_self
    have b1 : 0 ≤ did M d c := b1
    have b2 : did M d c + 2000 < 2 ^ 63 := b2
    cases hf : f c with
    | some s =>
      have hov : ∃ s', (over f w).seqs c = some s' := by
        cases hw : w.seqs c with
        | some s' => exact ⟨s', by simp only [over, hw]⟩
        | none => exact ⟨s, by simp only [over, hw, hf]⟩
      obtain ⟨s', hs'⟩ := hov
      have hr : refusing f fail c = some errSequenceAlreadyExists := if_pos (by rw [hf]; rfl)
      rw [initSequences, initSequences, createSequence_taken hs', hr]
      cases hw : w.seqs c with
      | some s'' => rw [createSequence_taken hw]
      | none => rw [createSequence_refused h hw hbig (by omega) b1 b2]
    | none =>
      have hr : refusing f fail c = fail c := if_neg (by rw [hf]; simp)
      rw [initSequences, initSequences, over_createSequence hf, hr]
      cases hw : w.seqs c with
      | some s => rw [createSequence_taken hw]
      | none =>
        obtain ⟨db', M', h1, h2, ⟨s, -, h3, -, -, hdid'⟩ | ⟨-, e, -, h3⟩⟩ :=
          createSequence_free J (d := d) (fail := fail c) h hw hbig (by omega) b1 (by omega)
        · rw [h3]
          refine ih (w := { w with db := db', seqs := w.seqs.set c s }) h2 hn.2 (by omega) ?_
          intro p hp
          have hne : p.2 ≠ c := fun e => hn.1 (List.mem_map.mpr ⟨p, hp, e⟩)
          rw [hdid', if_neg (fun h => hne h.2)]
          have := hdid p (List.mem_cons_of_mem _ hp)
          omega
        · rw [h3]

/-- What others have is not made. -/
theorem refusing_new {f : Int64 → Option Sequence.Seq} {env : Env} (hbig : Roomy env) {fail : Int64 → Option Err} {x : Int64}
    (l : List (Int64 × Int64)) : ∀ {B : Nat} {M : MState} {w : World}, Keeps J B M w.db → (l.map Prod.snd).Nodup →
      B + 2 * l.length + 4 < 2 ^ 63 → (∀ p ∈ l, 0 ≤ did M p.1 p.2 ∧ did M p.1 p.2 + 2000 < 2 ^ 63) →
      ((initSequences env (refusing f fail) l w).2.seqs x).isSome → (w.seqs x).isSome ∨ f x = none := by
  induction l with
  | nil => exact fun _ _ _ _ h => .inl h
  | cons p l ih =>
    intro B M w h hn hB hdid hx
    obtain ⟨d, c⟩ := p
    rw [List.map_cons, List.nodup_cons] at hn
    rw [List.length_cons] at hB
    obtain ⟨b1, b2⟩ := hdid (d, c) List.mem_cons_self
    have b1 : 0 ≤ did M d c := b1
    have b2 : did M d c + 2000 < 2 ^ 63 := b2
    rw [initSequences] at hx
    cases hw : w.seqs c with
    | some s => rw [createSequence_taken hw] at hx; exact .inl hx
    | none =>
      cases hf : f c with
      | some s =>
        have hr : refusing f fail c = some errSequenceAlreadyExists := if_pos (by rw [hf]; rfl)
        rw [hr, createSequence_refused h hw hbig (by omega) b1 b2] at hx
        exact .inl hx
      | none =>
        obtain ⟨db', M', h1, h2, ⟨s, -, h3, -, -, hdid'⟩ | ⟨-, e, -, h3⟩⟩ :=
          createSequence_free J (d := d) (fail := refusing f fail c) h hw hbig (by omega) b1 (by omega)
        · rw [h3] at hx
          have key := ih (w := { w with db := db', seqs := w.seqs.set c s }) h2 hn.2 (by omega) (by
            intro p hp
            have hne : p.2 ≠ c := fun e => hn.1 (List.mem_map.mpr ⟨p, hp, e⟩)
            rw [hdid', if_neg (fun h => hne h.2)]
            have := hdid p (List.mem_cons_of_mem _ hp)
            omega) hx
          rcases key with key | key
          · by_cases hxc : x = c
            · rw [hxc]; exact .inr hf
            · have e1 : (w.seqs.set c s) x = w.seqs x := if_neg hxc
              left; rw [← e1]; exact key
          · exact .inr key
        · rw [h3] at hx
          exact .inl hx

/-- Init, among others. -/
theorem over_init {K B : Nat} {P : Proc} {f : Int64 → Option Sequence.Seq} {w : World} (h : Serves J K B P (mask w)) {o : DBInfo → Order} {env : Env}
    (hroom : Roomy env) {fail : Int64 → Option Err} (hB : B + Ddl.cost K P.state + 2000 < 2 ^ 63) :
    (over f w).step J (.init o env fail) =
      ((w.step J (.init o env (refusing f fail))).1, over f (w.step J (.init o env (refusing f fail))).2) ∧
    ∀ x, ((w.step J (.init o env (refusing f fail))).2.seqs x).isSome → (w.seqs x).isSome ∨ f x = none := by
  obtain ⟨M, hh, hk, hlease⟩ := h.kept
  have hk : Keeps J B M w.db := hk
  have hr : Runs (Client.one .listDatabases) M 1 (.ok (M.dbs.ents.map Prod.snd)) M := Runs.one trivial rfl
  have hq := txn_quiet J ⟨true, env, none, Client.one .listDatabases⟩ hk rfl hroom hr (by unfold Ddl.cost at hB; omega)
  simp only [World.step]
  have e1 : (over f w).db = w.db := rfl
  rw [e1]
  rcases hq with ⟨e1, hk'⟩ | ⟨e, hfail, -⟩
  case inr => cases hfail
  cases hx : (⟨true, env, none, Client.one .listDatabases⟩ : MetaTxn (List DBInfo)).run J w.db with
  | mk r db =>
    rw [hx] at e1 hk'
    simp only at e1 hk'
    subst e1
    have hlen : (initList o M).length ≤ P.state.lastID + 1 := by
      have := few ((initList o M).map Prod.snd) (n := P.state.lastID) (initList_nodup o h.sane hh) (by
        intro x hx
        obtain ⟨p, hp, rfl⟩ := List.mem_map.mp hx
        exact collID_bound h.sane ((mem_initList o hh p).mp hp))
      rwa [List.length_map] at this
    have key := over_initSequences_refusing (J := J) (f := f) hroom (fail := fail) (initList o M) (w := { w with db := db }) hk'
      (initList_nodup o h.sane hh) (by unfold Ddl.cost at hB; omega)
      (fun p _ => by have := hlease.range p.1 p.2; show 0 ≤ did M p.1 p.2 ∧ did M p.1 p.2 + 2000 < _; omega)
    have hnew := fun x => refusing_new (J := J) (f := f) hroom (fail := fail) (x := x) (initList o M) (w := { w with db := db }) hk'
      (initList_nodup o h.sane hh) (by unfold Ddl.cost at hB; omega)
      (fun p _ => by have := hlease.range p.1 p.2; show 0 ≤ did M p.1 p.2 ∧ did M p.1 p.2 + 2000 < _; omega)
    simp only
    change (match (initSequences env fail (initList o M) (over f { w with db := db })).1 with
      | .ok _ => (Answer.inited (.ok ()), { (initSequences env fail (initList o M) (over f { w with db := db })).2 with up := true })
      | r => (Answer.inited r, (initSequences env fail (initList o M) (over f { w with db := db })).2)) =
      ((match (initSequences env (refusing f fail) (initList o M) { w with db := db }).1 with
        | .ok _ => (Answer.inited (.ok ()), { (initSequences env (refusing f fail) (initList o M) { w with db := db }).2 with up := true })
        | r => (Answer.inited r, (initSequences env (refusing f fail) (initList o M) { w with db := db }).2)).1,
       over f (match (initSequences env (refusing f fail) (initList o M) { w with db := db }).1 with
        | .ok _ => (Answer.inited (.ok ()), { (initSequences env (refusing f fail) (initList o M) { w with db := db }).2 with up := true })
        | r => (Answer.inited r, (initSequences env (refusing f fail) (initList o M) { w with db := db }).2)).2) ∧
      ∀ x, ((match (initSequences env (refusing f fail) (initList o M) { w with db := db }).1 with
        | .ok _ => (Answer.inited (.ok ()), { (initSequences env (refusing f fail) (initList o M) { w with db := db }).2 with up := true })
        | r => (Answer.inited r, (initSequences env (refusing f fail) (initList o M) { w with db := db }).2)).2.seqs x).isSome →
        (w.seqs x).isSome ∨ f x = none
    rw [key]
    revert hnew
    cases initSequences env (refusing f fail) (initList o M) { w with db := db } with
    | mk r w' => intro hnew; cases r <;> exact ⟨rfl, fun x => hnew x⟩

/-! ### The worker hangs -/

theorem afterCommit_append {env : Env} (a b : List (Int64 × Int64)) : ∀ {w : World}, (afterCommit env a w).stuck = false →
    afterCommit env (a ++ b) w = afterCommit env b (afterCommit env a w) := by
  induction a with
  | nil => exact fun _ => rfl
  | cons p a ih =>
    intro w h
    obtain ⟨d, c⟩ := p
    rw [List.cons_append, afterCommit, afterCommit]
    rw [afterCommit] at h
    cases hx : createSequence d c env none w with
    | mk r w' =>
      rw [hx] at h
      cases r with
      | ok _ => exact ih h
      | err e => cases h
      | panic => cases h

/-- The first of a list that others have. -/
theorem first_met {f : Int64 → Option Sequence.Seq} (l : List (Int64 × Int64)) (h : ∃ p ∈ l, f p.2 ≠ none) :
    ∃ a p b, l = a ++ p :: b ∧ (∀ q ∈ a, f q.2 = none) ∧ f p.2 ≠ none := by
  induction l with
  | nil => obtain ⟨p, hp, -⟩ := h; cases hp
  | cons q l ih =>
    by_cases hq : f q.2 = none
    · obtain ⟨p, hp, hf⟩ := h
      rcases List.mem_cons.mp hp with rfl | hp
      · exact absurd hq hf
      · obtain ⟨a, p, b, rfl, h1, h2⟩ := ih ⟨p, hp, hf⟩
        refine ⟨q :: a, p, b, rfl, ?_, h2⟩
        intro x hx
        rcases List.mem_cons.mp hx with rfl | hx
        · exact hq
        · exact h1 x hx
    · exact ⟨[], q, l, rfl, nofun, hq⟩

/-- When a turn creates a database, nothing is finished by it. -/
theorem work_new_finished {A : DState} (hs : A.Sane) {p : Int64 × Int64} (h1 : p ∈ A.work.collections) (h2 : p ∉ A.collections) :
    A.work.finished = A.finished := by
  have key : A.work.dbs = A.dbs → A.work.finished = A.finished := by
    intro e
    unfold DState.collections at h1 h2
    rw [e] at h1
    exact absurd h1 h2
  rcases head_cases hs with hq | ⟨j, d, q, hq⟩ | ⟨j, d, q, hq⟩ | ⟨j, d, q, hq⟩ | ⟨j, i, s, q, hq, hst⟩
  · exact key (by rw [work_nil hq])
  · exact key (by rw [work_failed hq])
  · exact key (by rw [work_done hq])
  · by_cases hh : A.Has d.name
    · exact key (by rw [work_taken hq hh])
    · rw [work_create hq hh]
  · exact key (by rw [work_index hq (by rcases hst with rfl | rfl <;> decide)])

/-- A turn that gets only part of the way through the sequences. -/
theorem part_way {K B : Nat} {P : Proc} {w : World} (h : Serves J K B P w) {o₁ o₂ o₃ : Order} {c : Ddl.Circ} {env : Env}
    (hf : EvFits K (.work o₁ o₂ o₃ c env)) (hB : B + Ddl.cost K P.state < 2 ^ 63) {out : WorkOut}
    (hout : ((⟨true, c.env, c.fail, workTxn o₁ o₂ o₃ w.vars⟩ : MetaTxn WorkOut).run J w.db).1 = .ok out)
    {l₁ l₂ : List (Int64 × Int64)} (hl : out.after = l₁ ++ l₂) :
    ∃ db' q, afterCommit env l₁ { w with db := ((⟨true, c.env, c.fail, workTxn o₁ o₂ o₃ w.vars⟩ : MetaTxn WorkOut).run J w.db).2,
                                         vars := if out.nojob then {} else out.vars } =
        { w with db := db', vars := if out.nojob then {} else out.vars, seqs := q } ∧
      Serves J K (B + Ddl.cost K P.state) { state := P.state.work, running := false, has := fun x => (q x).isSome, last := P.last }
        (mask { w with db := db', vars := if out.nojob then {} else out.vars, seqs := q }) ∧
      (∀ p ∈ out.after, p ∈ P.state.work.collections ∧ p ∉ P.state.collections) ∧
      (∀ x, (q x).isSome → (w.seqs x).isSome ∨ ∃ p ∈ l₁, p.2 = x) ∧ ∀ x, (w.seqs x).isSome → (q x).isSome := by
  obtain ⟨hroom, hroom'⟩ := hf
  obtain ⟨M, hh, hk, hlease⟩ := h.kept
  obtain ⟨r, M', hr, hc⟩ := runs_work o₁ o₂ o₃ h.vars h.sane h.small hh
  have hq := txn_quiet J ⟨true, c.env, c.fail, workTxn o₁ o₂ o₃ w.vars⟩ hk rfl hroom hr (by unfold Ddl.cost at hB; omega)
  rcases hq with ⟨e1, hk'⟩ | ⟨e, -, e1, -⟩
  case inr => rw [e1] at hout; cases hout
  rw [e1] at hout
  rcases hc with ⟨e, rfl, -⟩ | ⟨out', rfl, hw1, hw2, hw3, hw4, hw5, -⟩
  · cases hout
  cases hout
  have hsub : ∀ p ∈ l₁, p ∈ out.after := fun p hp => by rw [hl]; exact List.mem_append_left _ hp
  have hlen : l₁.length ≤ K := by
    rw [hl, List.length_append] at hw4; omega
  have hnod : (l₁.map Prod.snd).Nodup := by
    rw [hl, List.map_append] at hw3
    exact (List.nodup_append.mp hw3).1
  have hfree : ∀ p ∈ out.after, w.seqs p.2 = none := by
    intro p hp
    cases hx : w.seqs p.2 with
    | none => rfl
    | some s =>
      obtain ⟨d, hd, -⟩ := h.seqs _ _ hx
      have := collection_unique (sane_work h.sane) (collections_work_sub h.sane hd) ((hw5 p).mp hp).1 rfl
      exact absurd (this ▸ hd) ((hw5 p).mp hp).2
  have hdids : ∀ d c, did M' d c = did M d c := did_congr (hr.dids (only_work _ _ _ _))
  have hB' : B + 1000 < 2 ^ 63 := by unfold Ddl.cost at hB; omega
  obtain ⟨db'', q, M'', g1, g2, g3, g4, g5, g6⟩ := afterCommit_ok J env hroom' l₁
    (w := { w with db := ((⟨true, c.env, c.fail, workTxn o₁ o₂ o₃ w.vars⟩ : MetaTxn WorkOut).run J w.db).2,
                   vars := if out.nojob then {} else out.vars })
    hk' hnod (fun p hp => hfree p (hsub p hp)) (by unfold Ddl.cost at hB; omega)
    (fun p _ => by show 0 ≤ did M' p.1 p.2 ∧ did M' p.1 p.2 + 1000 < _; rw [hdids]; have := hlease.range p.1 p.2; omega)
  have g6 : ∀ d c, did M'' d c = did M d c + (if (d, c) ∈ l₁ then 1000 else 0) := fun d c => by
    rw [g6]; show did M' d c + _ = _; rw [hdids]
  have g5 : ∀ c, c ∉ l₁.map Prod.snd → q c = w.seqs c := g5
  have hleased : Leased (B + Ddl.cost K P.state) P.state.work.collections M'' q P.last := by
    refine ⟨?_, hlease.low, ?_, ?_, ?_⟩
    · intro d c
      have := hlease.range d c
      rw [g6]
      unfold Ddl.cost
      split <;> omega
    · intro c hn
      exact hlease.fresh c (fun d hm => hn d (collections_work_sub h.sane hm))
    · intro d c hm
      rw [g6]
      by_cases hc : (d, c) ∈ P.state.collections
      · have := hlease.stored d c hc
        split <;> omega
      · have hz : P.last c = 0 := hlease.fresh c (fun d' hm' => by
          have := collection_unique (sane_work h.sane) (collections_work_sub h.sane hm') hm rfl
          exact hc (this ▸ hm'))
        have := hlease.range d c
        rw [hz]
        split <;> omega
    · intro d c s hm hs
      by_cases hc : (d, c) ∈ l₁
      · obtain ⟨s', a1, a2, a3, a4⟩ := g4 (d, c) hc
        have hs' : q c = some s' := a1
        rw [hs'] at hs; cases hs
        have hz : P.last c = 0 := hlease.fresh c (fun d' hm' => by
          have := collection_unique (sane_work h.sane) (collections_work_sub h.sane hm') hm rfl
          exact ((hw5 _).mp (hsub _ hc)).2 (this ▸ hm'))
        have hr := hlease.range d c
        have a3 : s.next.toInt = did M' d c := a3
        have a4 : s.leased.toInt = did M' d c + 1000 := a4
        rw [hdids] at a3 a4
        rw [g6, if_pos hc]
        omega
      · have hnot : c ∉ l₁.map Prod.snd := by
          intro hx
          obtain ⟨p, hp, e⟩ := List.mem_map.mp hx
          have := collection_unique (sane_work h.sane) ((hw5 p).mp (hsub p hp)).1 hm e
          exact hc (this ▸ hp)
        rw [g5 c hnot] at hs
        have hcold : (d, c) ∈ P.state.collections := by
          obtain ⟨d', hd', -⟩ := h.seqs c s hs
          have := collection_unique (sane_work h.sane) (collections_work_sub h.sane hd') hm rfl
          exact this ▸ hd'
        have := hlease.leases d c s hcold hs
        rw [g6, if_neg hc]
        omega
  refine ⟨db'', q, g3, ⟨sane_work h.sane, small_work h.sane h.small, ⟨M'', g1.holds hw1, Keeps.mono g2 (by unfold Ddl.cost; omega), hleased⟩,
    rfl, ?_, fun c => rfl, ?_, (fun hr => by cases hr), rfl⟩, fun p hp => (hw5 p).mp hp, ?_, ?_⟩
  · show VarsOK P.state.work (if out.nojob then {} else out.vars)
    split
    · exact fun x => absurd rfl x
    · exact hw2
  · intro x s hs
    have hs : q x = some s := hs
    by_cases hx : x ∈ l₁.map Prod.snd
    · obtain ⟨p, hp, rfl⟩ := List.mem_map.mp hx
      obtain ⟨s', hs', hreg, -⟩ := g4 p hp
      rw [hs'] at hs; cases hs
      exact ⟨p.1, ((hw5 p).mp (hsub p hp)).1, hreg⟩
    · rw [g5 x hx] at hs
      obtain ⟨d, hd, hreg⟩ := h.seqs x s hs
      exact ⟨d, collections_work_sub h.sane hd, hreg⟩
  · intro x hs
    by_cases hx : x ∈ l₁.map Prod.snd
    · exact .inr (List.mem_map.mp hx)
    · rw [g5 x hx] at hs; exact .inl hs
  · intro x hs
    by_cases hx : x ∈ l₁.map Prod.snd
    · obtain ⟨p, hp, rfl⟩ := List.mem_map.mp hx
      obtain ⟨s', hs', -⟩ := g4 p hp
      rw [hs']; rfl
    · rw [g5 x hx]; exact hs

/-! ### A hung worker -/

theorem Serves.off {K B : Nat} {P : Proc} {w : World} (h : Serves J K B P w) : Serves J K B { P with running := false } (mask w) :=
  ⟨h.sane, h.small, h.kept, rfl, h.vars, h.has, h.seqs, nofun, rfl⟩

theorem createSequence_mask (w : World) (d c : Int64) (env : Env) (fail : Option Err) :
    createSequence d c env fail (mask w) = ((createSequence d c env fail w).1, mask (createSequence d c env fail w).2) := by
  unfold createSequence
  by_cases hc : (w.seqs c).isSome
  · rw [if_pos hc, if_pos (show ((mask w).seqs c).isSome = true from hc)]
  · rw [if_neg hc, if_neg (show ¬ ((mask w).seqs c).isSome = true from hc)]
    show (match Sequence.Seq.new (didCell d c) defaultDIDBandWidth ⟨env, w.db, fail⟩ w.db with
      | (.ok _, some s, db) => (Res.ok (), { mask w with db := db, seqs := (mask w).seqs.set c s })
      | (.ok _, none, db) => (.panic, { mask w with db := db })
      | (.err e, _, db) => (.err e, { mask w with db := db })
      | (.panic, _, db) => (.panic, { mask w with db := db })) = _
    cases Sequence.Seq.new (didCell d c) defaultDIDBandWidth ⟨env, w.db, fail⟩ w.db with
    | mk r x =>
      obtain ⟨s, db⟩ := x
      cases r with
      | ok _ => cases s <;> rfl
      | err e => rfl
      | panic => rfl

theorem initSequences_mask {env : Env} {fail : Int64 → Option Err} (l : List (Int64 × Int64)) : ∀ (w : World),
    initSequences env fail l (mask w) = ((initSequences env fail l w).1, mask (initSequences env fail l w).2) := by
  induction l with
  | nil => exact fun _ => rfl
  | cons p l ih =>
    intro w
    obtain ⟨d, c⟩ := p
    rw [initSequences, initSequences, createSequence_mask]
    cases createSequence d c env (fail c) w with
    | mk r w' =>
      cases r with
      | ok _ => exact ih w'
      | err e => rfl
      | panic => rfl

theorem mask_step (w : World) {e : Ev} (hc : e ≠ .crash) (hs : w.stuck = true) : mask (w.step J e).2 = mask ((mask w).step J e).2 := by
  cases e with
  | createSchema o i c => rfl
  | addIndex i c => rfl
  | getJob id c => rfl
  | work o₁ o₂ o₃ c env =>
    simp only [World.step]
    rw [if_pos (.inl hs), if_pos (.inr rfl)]
    rfl
  | draw cid c =>
    simp only [World.step]
    have e1 : (mask w).seqs = w.seqs := rfl
    rw [e1]
    cases w.seqs cid with
    | none => rfl
    | some s => rfl
  | crash => exact absurd rfl hc
  | init o env fail =>
    simp only [World.step]
    have e1 : (mask w).db = w.db := rfl
    rw [e1]
    cases hx : (⟨true, env, none, Client.one .listDatabases⟩ : MetaTxn (List DBInfo)).run J w.db with
    | mk r db =>
      cases r with
      | ok l =>
        have key := initSequences_mask (env := env) (fail := fail)
          (l.flatMap (fun d => ((o d).visit d.collections.ents).map (fun e => (d.id, e.2.id)))) { w with db := db }
        simp only
        change _ = mask (match (initSequences env fail _ (mask { w with db := db })).1 with
          | .ok _ => (Answer.inited (.ok ()), { (initSequences env fail _ (mask { w with db := db })).2 with up := true })
          | r => (Answer.inited r, (initSequences env fail _ (mask { w with db := db })).2)).2
        rw [key]
        cases initSequences env fail (l.flatMap (fun d => ((o d).visit d.collections.ents).map (fun e => (d.id, e.2.id)))) { w with db := db } with
        | mk r w' => cases r <;> rfl
      | err e => rfl
      | panic => rfl

/-- Without a worker nothing is finished. -/
theorem step_finished {P Q : Proc} {e : Ev} {a : Ddl.Answer} (h : P.Step e a Q) (hr : P.running = false) :
    Q.state.finished = P.state.finished := by
  cases h with
  | create h => cases h <;> rfl
  | index h => cases h <;> rfl
  | work h => rw [hr] at h; cases h
  | _ => rfl

/-- The worker of database `i` hangs; without it the database is as `P` says. -/
structure Hung (J : Json) (K B : Nat) (i : Nat) (P : Proc) (h : Hall) : Prop where
  apart : ∃ W, Apart h W ∧ (W i).stuck = true ∧ Serves J K B P (mask (W i))
  off : P.running = false

theorem own_foreign {h : Hall} {W : Nat → World} (a : Apart h W) {i : Nat} {c : Int64} (hs : ((W i).seqs c).isSome) :
    foreign h i c = none := by
  obtain ⟨s, hs⟩ := Option.isSome_iff_exists.mp hs
  rw [foreign_none, (a.table c i s).mpr hs]
  intro j s' e
  cases e; rfl

/-- One event at `i`. -/
theorem Hung.at {K B i : Nat} {P : Proc} {h : Hall} (g : Hung J K B i P h) {e : Ev} (hc : e ≠ .crash) (hfit : EvFits K e)
    (hown : ∀ c r, e = .draw c r → foreign h i c = none)
    (hB : B + Ddl.cost K P.state + 2000 < 2 ^ 63) (hid : P.state.lastID + K + 2 < 2 ^ 63) :
    ∃ Q, Hung J K (B + Ddl.cost K P.state) i Q (h.back i ((h.at i).step J e).2) ∧ Q.state.finished = P.state.finished ∧
      Q.state.lastID ≤ P.state.lastID + K + 2 := by
  obtain ⟨⟨W, a, hst, hs⟩, hoff⟩ := g
  -- what Init finds taken by others looks refused
  have key : ∃ e', e' ≠ .crash ∧ EvFits K e' ∧
      (over (foreign h i) (W i)).step J e = (((W i).step J e').1, over (foreign h i) ((W i).step J e').2) ∧
      ∀ c, (((W i).step J e').2.seqs c).isSome → foreign h i c = none := by
    cases e with
    | init o env fail =>
      obtain ⟨k1, k2⟩ := over_init (f := foreign h i) (o := o) (fail := fail) hs hfit hB
      refine ⟨.init o env (refusing (foreign h i) fail), Ev.noConfusion, hfit, k1, ?_⟩
      intro c hx
      rcases k2 c hx with hx | hx
      · exact own_foreign a hx
      · exact hx
    | work o₁ o₂ o₃ c env =>
      refine ⟨_, hc, hfit, over_step hc hown ?_ (fun _ _ _ e => by cases e), ?_⟩
      · intro _ _ _ _ _ _ _ _ h'
        rw [hst] at h'; cases h'
      · intro x hx
        simp only [World.step] at hx
        rw [if_pos (.inl hst)] at hx
        exact own_foreign a hx
    | draw c r =>
      refine ⟨_, hc, hfit, over_step hc hown (fun _ _ _ _ _ e => by cases e) (fun _ _ _ e => by cases e), ?_⟩
      intro x hx
      by_cases hxc : x = c
      · rw [hxc]; exact hown c r rfl
      · refine own_foreign a ?_
        simp only [World.step] at hx
        split at hx
        · exact hx
        · rename_i s hs'
          have e1 : ((W i).seqs.set c (s.nextId ⟨r.env, (W i).db, r.fail⟩ (W i).db).2.1) x = (W i).seqs x := if_neg hxc
          rw [← e1]; exact hx
    | crash => exact absurd rfl hc
    | _ => exact ⟨_, hc, hfit, rfl, fun c hs => own_foreign a hs⟩
  obtain ⟨e', hc', hfit', h1, h2⟩ := key
  obtain ⟨Q, q1, q2, q3⟩ := step_serves J hs hfit' (by omega) hid
  refine ⟨{ Q with running := false }, ⟨⟨fun j => if j = i then ((W i).step J e').2 else W j, ?_, ?_, ?_⟩, rfl⟩,
    (show Q.state.finished = _ from step_finished q1 hoff), q3⟩
  · rw [a.at i, h1]
    exact a.put i (fun c hs => step_stays (W i) hc' hs) h2
  · simp only [if_true]
    exact step_stuck _ hc' hst
  · simp only [if_true]
    rw [mask_step _ hc' hst]
    exact Serves.off q2

theorem Hung.mono {K B B' i : Nat} {P : Proc} {h : Hall} (g : Hung J K B i P h) (hB : B ≤ B') : Hung J K B' i P h := by
  obtain ⟨⟨W, a, hst, hs⟩, hoff⟩ := g
  exact ⟨⟨W, a, hst, hs.mono hB⟩, hoff⟩

/-- Something at `k`, elsewhere. -/
theorem Hung.away {K B i : Nat} {P : Proc} {h : Hall} (g : Hung J K B i P h) {k : Nat} (hk : i ≠ k) {w : World}
    (hkeep : ∀ c s j, j ≠ k → h.table c = some (j, s) → w.seqs c = some s) : Hung J K B i P (h.back k w) := by
  obtain ⟨⟨W, a, hst, hs⟩, hoff⟩ := g
  refine ⟨⟨_, a.other k hkeep, ?_, ?_⟩, hoff⟩
  · rw [if_neg hk]; exact hst
  · rw [if_neg hk]; exact hs

/-- One event anywhere. -/
theorem Hung.step {K B i : Nat} {P : Proc} {h : Hall} (g : Hung J K B i P h) {k : Nat} {e : Ev} (hc : e ≠ .crash) (hfit : EvFits K e)
    (hB : B + Ddl.cost K P.state + 2000 < 2 ^ 63) (hid : P.state.lastID + K + 2 < 2 ^ 63) :
    ∃ Q, Hung J K (B + Ddl.cost K P.state) i Q (h.step J k e).2 ∧ Q.state.finished = P.state.finished ∧
      Q.state.lastID ≤ P.state.lastID + K + 2 := by
  have hat : ∀ (x : Int64) (s : Sequence.Seq) (j k : Nat), h.table x = some (j, s) → (h.at k).seqs x = some s := by
    intro x s j k ht
    show (h.table x).map Prod.snd = some s
    rw [ht]; rfl
  by_cases hd : ∃ c r, e = .draw c r
  · obtain ⟨c, r, rfl⟩ := hd
    cases ht : h.table c with
    | none =>
      rw [step_draw_none ht]
      exact ⟨P, g.mono (by omega), rfl, by omega⟩
    | some p =>
      obtain ⟨o, s⟩ := p
      rw [step_draw_some ht]
      by_cases ho : o = i
      · subst ho
        refine g.at hc hfit ?_ hB hid
        intro c' r' e'
        cases e'
        rw [foreign_none, ht]
        intro j s' e'
        cases e'; rfl
      · refine ⟨P, (g.away (Ne.symm ho) ?_).mono (by omega), rfl, by omega⟩
        intro x s' j hj hx
        refine step_keeps _ hc ?_ (hat x s' j o hx)
        intro r' e'
        cases e'
        rw [ht] at hx
        cases hx
        exact hj rfl
  · have hd' : ∀ c r, e ≠ .draw c r := fun c r e' => hd ⟨c, r, e'⟩
    rw [step_on hd' hc]
    by_cases hk : i = k
    · subst hk
      exact g.at hc hfit (fun c r e' => absurd e' (hd' c r)) hB hid
    · refine ⟨P, (g.away hk ?_).mono (by omega), rfl, by omega⟩
      intro x s' j hj hx
      exact step_keeps _ hc (hd' x) (hat x s' j k hx)

theorem Hung.run {K i c : Nat} (es : List (Nat × Ev)) : ∀ {B : Nat} {P : Proc} {h : Hall}, Hung J K B i P h →
    (∀ x ∈ es, x.2 ≠ .crash ∧ EvFits K x.2) → B + es.length * c + 2000 < 2 ^ 63 →
    4 * K + 1026 + 2 * (P.state.lastID + es.length * (K + 2)) ≤ c → P.state.lastID + es.length * (K + 2) < 2 ^ 63 →
    ∃ Q, Hung J K (B + es.length * c) i Q (run J es h).2 ∧ Q.state.finished = P.state.finished ∧
      Q.state.lastID ≤ P.state.lastID + es.length * (K + 2) := by
  induction es with
  | nil => exact fun g _ _ _ _ => ⟨_, g.mono (by simp), rfl, by simp⟩
  | cons x es ih =>
    intro B P h g hf hB hc hid
    obtain ⟨k, e⟩ := x
    rw [List.length_cons] at hB hc hid ⊢
    have e1 : (es.length + 1) * (K + 2) = es.length * (K + 2) + (K + 2) := Nat.succ_mul _ _
    have e2 : (es.length + 1) * c = es.length * c + c := Nat.succ_mul _ _
    rw [e1] at hc hid ⊢
    rw [e2] at hB ⊢
    have hcost : Ddl.cost K P.state ≤ c := by unfold Ddl.cost; omega
    obtain ⟨hx1, hx2⟩ := hf _ List.mem_cons_self
    obtain ⟨Q, q1, q2, q3⟩ := g.step (k := k) hx1 hx2 (by omega) (by omega)
    obtain ⟨R, r1, r2, r3⟩ := ih (q1.mono (B' := B + c) (by omega)) (fun x hx => hf x (List.mem_cons_of_mem _ hx)) (by omega) (by omega) (by omega)
    exact ⟨R, r1.mono (by omega), r2.trans q2, by omega⟩

/-- What GetHistoryJob answers. -/
theorem getJob_answer {K B : Nat} {P : Proc} {w : World} (h : Serves J K B P w) {id : Int64} {c : Ddl.Circ} (hc : Roomy c.env)
    (hB : B + Ddl.cost K P.state < 2 ^ 63) (hid : P.state.lastID + K + 2 < 2 ^ 63) :
    (w.step J (.getJob id c)).1 = .found (.ok (P.state.finishedJob id)) ∨
    ∃ e, c.fail = some e ∧ (w.step J (.getJob id c)).1 = .found (.err e) := by
  obtain ⟨Q, q1, -, -⟩ := step_serves J h (e := .getJob id c) hc hB hid
  generalize (w.step J (.getJob id c)).1 = a at q1
  cases q1 with
  | getJob => exact .inl rfl
  | getJobRefused hf => exact .inr ⟨_, hf, rfl⟩

theorem step_getJob_at {h : Hall} {W : Nat → World} (a : Apart h W) (i : Nat) (id : Int64) (c : Ddl.Circ) :
    (h.step J i (.getJob id c)).1 = ((W i).step J (.getJob id c)).1 := by
  rw [step_on (fun _ _ => Ev.noConfusion) Ev.noConfusion]
  show ((h.at i).step J (.getJob id c)).1 = _
  rw [a.at i]
  rfl

/-- The turn that meets the sequence of another database, and what follows. -/
theorem hung_start {K : Nat} {dbs : Nat → DB} {es : List (Nat × Ev)} (h : Strangers J K dbs es) {i j : Nat}
    {o₁ o₂ o₃ : Order} {c : Ddl.Circ} {env : Env} (hfit : EvFits K (.work o₁ o₂ o₃ c env))
    {B : Nat} {P : Proc} (h1 : Serves J K B P (alone J dbs es i)) (hB : B + Ddl.cost K P.state < 2 ^ 63)
    (hmeet : ∃ out, ((⟨true, c.env, c.fail, workTxn o₁ o₂ o₃ (alone J dbs es i).vars⟩ : MetaTxn WorkOut).run J
      (alone J dbs es i).db).1 = .ok out ∧ ¬ ((alone J dbs es i).stuck = true ∨ (alone J dbs es i).up = false) ∧
      ∃ p ∈ out.after, ∃ s, (Hall.run J es (opened dbs)).2.table p.2 = some (j, s)) (hij : i ≠ j) :
    ∃ Q, Hung J K (B + Ddl.cost K P.state) i Q ((Hall.run J es (opened dbs)).2.step J i (.work o₁ o₂ o₃ c env)).2 ∧
      Q.state.finished = P.state.finished ∧ Q.state.lastID = P.state.work.lastID := by
  obtain ⟨a, -⟩ := run_apart h
  obtain ⟨out, hout, hns, p, hp, s, ht⟩ := hmeet
  generalize hh : (Hall.run J es (opened dbs)).2 = H at a ht ⊢
  generalize hw : alone J dbs es i = w at h1 hout hns
  have hfor : foreign H i p.2 ≠ none := by
    intro e
    exact hij (foreign_none.mp e j s ht).symm
  obtain ⟨l₁, q, l₂, hl, hl1, hq⟩ := first_met (f := foreign H i) out.after ⟨p, hp, hfor⟩
  obtain ⟨db', qs, g1, g2, g3, g4, g5⟩ := part_way h1 hfit hB hout hl
  refine ⟨{ state := P.state.work, running := false, has := fun x => (qs x).isSome, last := P.last },
    ⟨⟨fun k => if k = i then { w with db := db', vars := if out.nojob then {} else out.vars, seqs := qs, stuck := true }
    else alone J dbs es k, ?_, ?_, ?_⟩, rfl⟩, ?_, ?_⟩
  · rw [step_on (fun _ _ => Ev.noConfusion) Ev.noConfusion]
    show Apart (H.back i ((H.at i).step J (.work o₁ o₂ o₃ c env)).2) _
    have hst : ((H.at i).step J (.work o₁ o₂ o₃ c env)).2 =
        over (foreign H i) { w with db := db', vars := if out.nojob then {} else out.vars, seqs := qs, stuck := true } := by
      rw [a.at i, hw]
      simp only [World.step]
      rw [if_neg (show ¬ ((over (foreign H i) w).stuck = true ∨ (over (foreign H i) w).up = false) from hns)]
      have e1 : (over (foreign H i) w).db = w.db := rfl
      have e2 : (over (foreign H i) w).vars = w.vars := rfl
      rw [e1, e2]
      cases hx : (⟨true, c.env, c.fail, workTxn o₁ o₂ o₃ w.vars⟩ : MetaTxn WorkOut).run J w.db with
      | mk r db1 =>
        rw [hx] at hout g1
        simp only at hout g1
        subst hout
        simp only
        show afterCommit env out.after (over (foreign H i) { w with db := db1, vars := if out.nojob then {} else out.vars }) = _
        have e3 := over_afterCommit (f := foreign H i) (env := env) l₁
          (w := { w with db := db1, vars := if out.nojob then {} else out.vars }) hl1
        have hfree : w.stuck = false := by
          cases hs : w.stuck with
          | false => rfl
          | true => exact absurd (.inl hs) hns
        rw [hl, afterCommit_append l₁ (q :: l₂) (by rw [e3, g1]; exact hfree), e3, g1]
        obtain ⟨d, x⟩ := q
        have hov : ∃ s', (over (foreign H i) { w with db := db', vars := if out.nojob then {} else out.vars, seqs := qs }).seqs x = some s' := by
          cases hq' : qs x with
          | some s' => exact ⟨s', by simp only [over, hq']⟩
          | none =>
            obtain ⟨s', hs'⟩ := Option.ne_none_iff_exists'.mp hq
            exact ⟨s', by simp only [over, hq']; exact hs'⟩
        obtain ⟨s', hs'⟩ := hov
        rw [afterCommit, createSequence_taken hs']
        rfl
    rw [hst]
    refine a.put i (fun x hx => g5 x (by rw [hw] at hx; exact hx)) ?_
    intro x hx
    rcases g4 x hx with hx | ⟨p', hp', rfl⟩
    · exact own_foreign a (by rw [hw]; exact hx)
    · exact hl1 p' hp'
  · simp only [if_true]
  · simp only [if_true]
    exact g2
  · obtain ⟨k1, k2⟩ := g3 p hp
    exact work_new_finished h1.sane k1 k2
  · rfl

/-- Who waits when the worker meets the sequence of another database waits until the process dies. -/
theorem never_returns {K : Nat} {dbs : Nat → DB} {es : List (Nat × Ev)} (h : Strangers J K dbs es) {i j : Nat}
    {o₁ o₂ o₃ : Order} {c : Ddl.Circ} {env : Env} {es' : List (Nat × Ev)}
    (hb : Brief K (only i es ++ .work o₁ o₂ o₃ c env :: es'.map Prod.snd)) (hes : ∀ x ∈ es', x.2 ≠ .crash) {x : Int64}
    (hj : Lists J (alone J dbs es j).db x) (hup : ((Hall.run J es (opened dbs)).2.dbs j).up = true) (hij : i ≠ j)
    (hi : Lists J ((alone J dbs es i).step J (.work o₁ o₂ o₃ c env)).2.db x) :
    ((Hall.run J (es ++ (i, .work o₁ o₂ o₃ c env) :: es') (opened dbs)).2.dbs i).stuck = true ∧
    ∀ (id : Int64) (c₀ c₁ : Ddl.Circ), Roomy c₀.env → Roomy c₁.env →
      ((Hall.run J es (opened dbs)).2.step J i (.getJob id c₀)).1 = .found (.ok none) →
      ∃ r, ((Hall.run J (es ++ (i, .work o₁ o₂ o₃ c env) :: es') (opened dbs)).2.step J i (.getJob id c₁)).1 = .found r ∧
        (r = .ok none ∨ ∃ e, c₁.fail = some e ∧ r = .err e) := by
  have hb1 : Brief K (only i es ++ [.work o₁ o₂ o₃ c env]) := by
    have e : only i es ++ .work o₁ o₂ o₃ c env :: es'.map Prod.snd = (only i es ++ [.work o₁ o₂ o₃ c env]) ++ es'.map Prod.snd := by
      rw [List.append_assoc]; rfl
    rw [e] at hb
    exact brief_left hb
  have hm := worker_meets h hb1 hj hup hij hi
  obtain ⟨k1, k2⟩ := brief_budget hb (by rw [List.length_append]; exact Nat.le_add_left_of_le (Nat.le_add_left _ _))
  obtain ⟨hf, hn⟩ := hb
  generalize hc : 4 * ((only i es ++ .work o₁ o₂ o₃ c env :: es'.map Prod.snd).length + 1) * (K + 300) = C at k1 hn
  rw [List.length_append, List.length_cons, List.length_map] at k1 k2 hn
  have e1 : ((only i es).length + (es'.length + 1)) * (K + 2) = (only i es).length * (K + 2) + (es'.length * (K + 2) + (K + 2)) := by
    rw [Nat.add_mul, Nat.succ_mul]
  have e2 : ((only i es).length + (es'.length + 1)) * C = (only i es).length * C + (es'.length * C + C) := by
    rw [Nat.add_mul, Nat.succ_mul]
  rw [e1] at k1 k2
  rw [e2] at hn
  obtain ⟨P, -, p2, p3⟩ := run_serves_from J C (only i es) (Serves.start J K (h.fresh i)) (fun e he => hf e (List.mem_append_left _ he))
    (by omega) (by show 4 * K + 1026 + 2 * (0 + _) ≤ _; omega) (by show 0 + _ < _; omega)
  have p3 : P.state.lastID ≤ 0 + (only i es).length * (K + 2) := p3
  have hcost : Ddl.cost K P.state ≤ C := by unfold Ddl.cost; omega
  obtain ⟨Q, q1, q2, q3⟩ := hung_start h (hf _ (List.mem_append_right _ List.mem_cons_self)) p2 (by omega) hm hij
  rw [work_lastID p2.sane] at q3
  obtain ⟨R, r1, r2, r3⟩ := Hung.run (c := C) es' (q1.mono (B' := (only i es).length * C + C) (by omega))
    (fun x hx => ⟨hes x hx, hf _ (List.mem_append_right _ (List.mem_cons_of_mem _ (List.mem_map.mpr ⟨x, hx, rfl⟩)))⟩)
    (by omega) (by omega) (by omega)
  have hrun : (Hall.run J (es ++ (i, .work o₁ o₂ o₃ c env) :: es') (opened dbs)).2 =
      (Hall.run J es' ((Hall.run J es (opened dbs)).2.step J i (.work o₁ o₂ o₃ c env)).2).2 := by rw [run_append]; rfl
  rw [hrun]
  have hcost' : Ddl.cost K R.state ≤ C := by unfold Ddl.cost; omega
  obtain ⟨⟨W, a, hst, hs⟩, -⟩ := r1
  refine ⟨?_, ?_⟩
  · rw [a.same i]; exact hst
  · intro id c₀ c₁ hc₀ hc₁ hask
    rw [step_getJob_at (run_apart h).1 i] at hask
    have hnone : P.state.finishedJob id = none := by
      rcases getJob_answer p2 (id := id) hc₀ (by omega) (by omega) with h | ⟨e, -, h⟩
      · have h := h.symm.trans hask
        injection h with h
        injection h
      · exact absurd (h.symm.trans hask) (fun h => by cases h)
    have hnone' : R.state.finishedJob id = none := by
      unfold DState.finishedJob at hnone ⊢
      rw [r2, q2]; exact hnone
    rw [step_getJob_at a i]
    have hsame : ((W i).step J (.getJob id c₁)).1 = ((mask (W i)).step J (.getJob id c₁)).1 := rfl
    rw [hsame]
    rcases getJob_answer hs (id := id) hc₁ (by omega) (by omega) with h | ⟨e, he, h⟩
    · exact ⟨_, h, .inl (by rw [hnone'])⟩
    · exact ⟨_, h, .inr ⟨e, he, rfl⟩⟩

end Mondis.Hall
