import Verif.Lemmas.DdlLoop
/-!
# C89: when the DDL worker works
-/
namespace Mondis.Loop
open Mondis Spec Schema Meta Structure Ddl Spec.Loop

variable {J : Json} {K : Nat} {db : DB}

/-- A database, before any process was started on it. -/
def fresh (db : DB) : Loop := { world := { db := db } }

/-! ## Only turns are left out -/

theorem history_from (as : List Act) : ∀ L : Loop, ∃ es, es.Sublist (events as) ∧ calls es = calls (events as) ∧
    (run J as L).answers = L.answers ++ (Ddl.run J es L.world).1 ∧ (run J as L).world = (Ddl.run J es L.world).2 := by
  induction as with
  | nil => exact fun L => ⟨[], .slnil, rfl, (List.append_nil _).symm, rfl⟩
  | cons a as ih =>
    intro L
    obtain ⟨es, h1, h2, h3, h4⟩ := ih (L.step J a)
    cases a with
    | tick => exact ⟨es, h1, h2, h3, h4⟩
    | ev e b =>
      by_cases hs : isTurn e = true ∧ L.awake = false
      · have e1 : L.step J (.ev e b) = L := by simp only [Loop.step]; exact if_pos hs
        rw [e1] at h3 h4
        refine ⟨es, h1.cons _, ?_, ?_, ?_⟩
        · rw [h2]
          show _ = List.filter _ (e :: events as)
          rw [List.filter_cons, hs.1]; rfl
        · rw [← h3]; exact congrArg (fun x => (run J as x).answers) e1
        · rw [← h4]; exact congrArg (fun x => (run J as x).world) e1
      · have e1 : L.step J (.ev e b) =
            ⟨(L.world.step J e).2, awakeAfter L.awake b (L.world.step J e).1 e, L.answers ++ [(L.world.step J e).1]⟩ := by
          simp only [Loop.step]; exact if_neg hs
        rw [e1] at h3 h4
        refine ⟨e :: es, h1.cons_cons _, ?_, ?_, ?_⟩
        · show List.filter _ _ = List.filter _ (e :: events as)
          rw [List.filter_cons, List.filter_cons]
          split
          · exact congrArg _ h2
          · exact h2
        · show (run J as (L.step J _)).answers = L.answers ++ (_ :: _)
          rw [e1, h3, List.append_assoc]; rfl
        · show (run J as (L.step J _)).world = _
          rw [e1, h4]; rfl

/-- Whatever happens is a history as in `Model/Ddl`: all calls, and those turns for which the worker was awake.  What is
proved of every such history holds here. -/
theorem C89_history (as : List Act) : ∃ es, es.Sublist (events as) ∧ calls es = calls (events as) ∧
    Ddl.run J es { db := db } = ((run J as (fresh db)).answers, (run J as (fresh db)).world) := by
  obtain ⟨es, h1, h2, h3, h4⟩ := history_from (J := J) as (fresh db)
  exact ⟨es, h1, h2, Prod.ext_iff.mpr ⟨h3.symm, h4.symm⟩⟩

/-! ## Asleep -/

/-- A sleeping worker makes no turn before it is woken: by a tick, or by an accepted request that finds it waiting.
However many turns it is offered, only a look at the queue it was told about could make it start. -/
theorem C89_asleep (as : List Act) (hw : wakes as = 0) : ∀ L : Loop, L.awake = false →
    (run J as L).awake = false ∧ ∃ new, (run J as L).answers = L.answers ++ new ∧ made new = 0 := by
  induction as with
  | nil => exact fun L h => ⟨h, [], (List.append_nil _).symm, rfl⟩
  | cons a as ih =>
    intro L h
    cases a with
    | tick =>
      rw [wakes, List.countP_cons_of_pos rfl] at hw
      exact absurd hw (Nat.succ_ne_zero _)
    | ev e b =>
      have hb : b = false := by
        cases b with
        | false => rfl
        | true =>
          rw [wakes, List.countP_cons_of_pos rfl] at hw
          exact absurd hw (Nat.succ_ne_zero _)
      subst hb
      have hw' : wakes as = 0 := by
        rw [wakes, List.countP_cons_of_neg (by simp)] at hw
        exact hw
      by_cases hs : isTurn e = true ∧ L.awake = false
      · have e1 : L.step J (.ev e false) = L := by simp only [Loop.step]; exact if_pos hs
        have := ih hw' (L.step J (.ev e false)) (by rw [e1]; exact h)
        rw [e1] at this
        show (run J as (L.step J (.ev e false))).awake = false ∧ ∃ new, (run J as (L.step J (.ev e false))).answers = _ ∧ _
        rw [e1]; exact this
      · have e1 : L.step J (.ev e false) =
            ⟨(L.world.step J e).2, awakeAfter L.awake false (L.world.step J e).1 e, L.answers ++ [(L.world.step J e).1]⟩ := by
          simp only [Loop.step]; exact if_neg hs
        have ht : isTurn e = false := by
          cases ht : isTurn e with
          | false => rfl
          | true => exact absurd ⟨ht, h⟩ hs
        have ha : (L.step J (.ev e false)).awake = false := by
          rw [e1]
          show awakeAfter L.awake false (L.world.step J e).1 e = false
          rw [h]
          cases e <;> first | rfl | cases ht
        have hm : made [(L.world.step J e).1] = 0 := by
          generalize hx : (L.world.step J e).1 = x
          cases x with
          | worked r =>
            exfalso
            cases e <;> simp only [World.step] at hx <;> first
              | (cases ht; done)
              | cases hx
              | (split at hx <;> first
                  | cases hx
                  | (split at hx <;> cases hx))
          | _ => rfl
        obtain ⟨g1, new, g2, g3⟩ := ih hw' (L.step J (.ev e false)) ha
        refine ⟨g1, (L.world.step J e).1 :: new, ?_, ?_⟩
        · show (run J as (L.step J (.ev e false))).answers = _
          rw [g2, e1, List.append_assoc]; rfl
        · rw [show (L.world.step J e).1 :: new = [(L.world.step J e).1] ++ new from rfl, made, List.countP_append]
          show made [(L.world.step J e).1] + made new = 0
          rw [hm, g3]

/-- A tick wakes the worker of a process whose Init succeeded; so does a call of CreateSchema or AddIndex that is accepted
when the worker waits at its channel.  (C89_serves and C89_spins say what comes then.) -/
theorem C89_wakes (as : List Act) (a : Act) (h : (a = .tick ∧ (run J as (fresh db)).world.up = true) ∨
      ∃ e j, a = .ev e true ∧ (run J (as ++ [a]) (fresh db)).answers = (run J as (fresh db)).answers ++ [.job (.ok j)]) :
    (run J (as ++ [a]) (fresh db)).awake = true := by
  rw [run_append] at h ⊢
  generalize run J as (fresh db) = L at h ⊢
  rcases h with ⟨rfl, h⟩ | ⟨e, j, rfl, h⟩
  · show (L.awake || L.world.up) = true
    rw [h, Bool.or_true]
  · have h : (L.step J (.ev e true)).answers = _ := h
    show (L.step J (.ev e true)).awake = true
    simp only [Loop.step] at h ⊢
    split at h
    · have := congrArg List.length h
      simp at this
    · rename_i hs
      rw [if_neg hs]
      have h : (L.world.step J e).1 = .job (.ok j) := by simpa using h
      show awakeAfter L.awake true (L.world.step J e).1 e = true
      rw [h]
      cases e with
      | crash => cases h
      | work o₁ o₂ o₃ c env => rfl
      | _ => exact Bool.or_true _

/-! ## Awake, with sound requests -/

/-- The job is in the history, synced: the caller that looks is told of success. -/
def Served (J : Json) (w : World) (j : Job) : Prop := ∀ c, Roomy c.env → c.fail = none →
  ∃ r, (w.step J (.getJob j.id c)).1 = .found r ∧ checkOnce r = some (.ok ())

theorem served {P : Proc} {w : World} (h : Serves J K (2 ^ 62) P w) {j : Job} {d : DBInfo} (hm : (j.id, d) ∈ P.state.finished) :
    Served J w j := by
  intro c hf hc
  obtain ⟨M, hh, hk, -⟩ := h.kept
  have hq := txn_quiet J ⟨true, c.env, c.fail, getHistoryJob j.id⟩ hk rfl hf (finishedJob_eq h.sane hh j.id).2 (by omega)
  rcases hq with ⟨e1, -⟩ | ⟨e, hfail, -⟩
  · refine ⟨_, by simp only [World.step]; rw [e1], ?_⟩
    unfold DState.finishedJob
    cases hx : P.state.finished.find? (fun f => decide (f.1 = j.id)) with
    | none =>
      have := List.find?_eq_none.mp hx _ hm
      simp at this
    | some f => rfl
  · rw [hc] at hfail; cases hfail

theorem told_idle {out : WorkOut} (ho : out.nojob = true) : told [.worked (.ok out)] = [] := by simp [told, onChanged, ho]
theorem told_well {out : WorkOut} (ho : out.nojob = false) (he : out.vars.err = none) : told [.worked (.ok out)] = [true] := by
  simp [told, onChanged, ho, he]
theorem told_ill (e : Err) : told [.worked (.err e)] = [false] := rfl
theorem told_call {a : Ddl.Answer} (h : ∀ r, a ≠ .worked r) : told [a] = [] ∧ made [a] = 0 := by
  cases a with
  | worked r => exact absurd rfl (h r)
  | _ => exact ⟨rfl, rfl⟩

/-- Only turns are answered as turns. -/
theorem not_worked {P Q : Proc} {e : Ev} {a : Ddl.Answer} (h : P.Step e a Q) (ht : isTurn e = false) : ∀ r, a ≠ .worked r := by
  intro r hr
  subst hr
  cases h <;> cases ht

theorem made_append (as bs : List Ddl.Answer) : made (as ++ bs) = made as + made bs := List.countP_append

theorem wakes_tick (as : List Act) : wakes (.tick :: as) = wakes as + 1 := List.countP_cons_of_pos rfl
theorem wakes_ev (e : Ev) (b : Bool) (as : List Act) : wakes (.ev e b :: as) = wakes as + (if b = true then 1 else 0) := List.countP_cons
theorem offered_tick (as : List Act) : offered (.tick :: as) = offered as := List.countP_cons_of_neg (by simp)
theorem offered_ev (e : Ev) (b : Bool) (as : List Act) : offered (.ev e b :: as) = offered as + (if isTurn e = true then 1 else 0) := List.countP_cons

theorem told_append (as bs : List Ddl.Answer) : told (as ++ bs) = told as ++ told bs := List.filterMap_append

/-- Once the worker is awake, with requests that are all for different databases, no call having panicked: as long as the
engine refuses nothing, OnChanged is told that all is well after every turn (but the last, after which the worker sleeps);
after two turns for each request all are served; and after one more turn the worker sleeps.  It does not matter which notifications reached it. -/
theorem C89_serves (hdb : Props.Fresh Sequence.metaPrefix db) {as ws : List Act} (hb : Spec.Loop.Brief K (as ++ ws))
    (hcalm : ∀ a ∈ (run J as (fresh db)).answers, a ≠ .job .panic)
    (hacc : ∀ j ∈ accepted (run J as (fresh db)).answers, (dbOf j).isSome)
    (hnames : ((accepted (run J as (fresh db)).answers).filterMap (fun j => (dbOf j).map (·.name))).Nodup)
    (hup : (run J as (fresh db)).awake = true) (hturns : ∀ a ∈ ws, Turn a) :
    (∃ new, (run J (as ++ ws) (fresh db)).answers = (run J as (fresh db)).answers ++ new ∧ (∀ b ∈ told new, b = true) ∧
      made new = (told new).length + (if (run J (as ++ ws) (fresh db)).awake = true then 0 else 1)) ∧
    (2 * (accepted (run J as (fresh db)).answers).length ≤ ws.length →
      ∀ j ∈ accepted (run J as (fresh db)).answers, Served J (run J (as ++ ws) (fresh db)).world j) ∧
    (2 * (accepted (run J as (fresh db)).answers).length < ws.length → (run J (as ++ ws) (fresh db)).awake = false) := by
  obtain ⟨B, P, h1, h2, h3⟩ := loop_two J hdb hb
  generalize hL : run J as (fresh db) = L at *
  have hL' : run J as { world := { db := db } } = L := hL
  rw [hL'] at h1 h2 h3
  obtain ⟨es, hes⟩ := h2.steps
  obtain ⟨k1, k2, -, k4⟩ := clean_steps hes ⟨fun r hr => absurd hr List.not_mem_nil, List.nodup_nil⟩ hcalm hacc hnames
  have k2 : P.state.queue.length ≤ 0 + (accepted L.answers).length := k2
  generalize hn : (accepted L.answers).length = n at *
  let I : List Act → Loop → Proc → Prop := fun rest L' P' => (∀ a ∈ rest, Turn a) ∧ Clean P'.state ∧
    (∀ id d, Known id d P.state → Known id d P'.state) ∧
    (L'.awake = true → Ddl.turns P'.state.queue + (ws.length - rest.length) ≤ 2 * n ∧ rest.length ≤ ws.length) ∧
    (L'.awake = false → P'.state.queue = []) ∧
    ∃ new, L'.answers = L.answers ++ new ∧ (∀ b ∈ told new, b = true) ∧
      made new = (told new).length + (if L'.awake = true then 0 else 1)
  have hI : ∀ a as B P L L' Q, Serves J K B P L.world → Base L P → Base L' Q → L' = L.step J a → Moves L P a L' Q → I (a :: as) L P → I as L' Q := by
    rintro a rest B' P₁ L₁ L₂ Q s1 s2 s3 - hm ⟨i1, i2, i3, i4, i5, new, i6, i7, i8⟩
    have it : ∀ a ∈ rest, Turn a := fun a ha => i1 a (List.mem_cons_of_mem _ ha)
    obtain ⟨o₁, o₂, o₃, c, env, b, rfl, hc⟩ := i1 a List.mem_cons_self
    cases hm with
    | sleeps a1 a2 => exact ⟨it, i2, i3, fun h => by (rw [a2] at h; cases h), i5, new, i6, i7, i8⟩
    | call a1 => cases a1
    | @turn _ _ _ _ _ _ r _ _ a1 a2 a3 a4 a5 =>
      have a2 := a2.resolve_right (fun ⟨e, he, _⟩ => by rw [hc] at he; cases he)
      have hQ : Q.state = P₁.state.work := by
        cases a5 with
        | work _ _ _ => rfl
        | workRefused _ he => rw [hc] at he; cases he
      obtain ⟨c1, c2, c3⟩ := clean_work i2
      obtain ⟨i4, i4'⟩ := i4 a1
      rw [List.length_cons] at i4 i4'
      have cl : ∀ x q, P₁.state.queue ≠ (x, .failed) :: q := by
        intro x q e
        rcases i2.creates _ (by rw [e]; exact List.mem_cons_self) with ⟨_, _, h⟩ | ⟨_, _, h⟩ <;> cases h
      have cl' : ∀ x q, P₁.state.work.queue ≠ (x, .failed) :: q := by
        intro x q e
        rcases c1.creates _ (by rw [e]; exact List.mem_cons_self) with ⟨_, _, h⟩ | ⟨_, _, h⟩ <;> cases h
      refine ⟨it, by rw [hQ]; exact c1, fun id d h => by rw [hQ]; exact c3 id d (i3 id d h), ?_⟩
      rcases a2 with ⟨hq, out, rfl, ho⟩ | ⟨⟨x, q, hq⟩, -⟩ | ⟨x, s, q, hq, -, out, rfl, ho, he⟩
      · have hz : L₂.awake = false := by rw [a4]; show (!out.nojob) = false; rw [ho]; rfl
        refine ⟨fun h => (by rw [hz] at h; cases h), fun _ => by rw [hQ, work_nil hq]; exact hq,
          new ++ [.worked (.ok out)], by rw [a3, i6, List.append_assoc], fun b hb => ?_, by
            rw [made_append, told_append, told_idle ho, List.append_nil, hz, i8, a1]; rfl⟩
        have e1 : told [.worked (.ok out)] = [] := by exact told_idle ho
        rw [told_append, e1, List.append_nil] at hb
        exact i7 b hb
      · exact absurd hq (cl x q)
      · have hpos : Ddl.turns P₁.state.queue ≠ 0 := fun h => by have := turns_zero h; rw [hq] at this; cases this
        have hz : L₂.awake = true := by rw [a4]; show (!out.nojob) = true; rw [ho]; rfl
        refine ⟨fun _ => ⟨by rw [hQ, c2]; omega, by omega⟩, fun h => (by rw [hz] at h; cases h),
          new ++ [.worked (.ok out)], by rw [a3, i6, List.append_assoc], ?_⟩
        have he : out.vars.err = none := by
          cases hv : out.vars.err with
          | none => rfl
          | some e =>
            obtain ⟨x', q', h'⟩ := he (by rw [hv]; simp)
            exact absurd h' (cl' x' q')
        have e1 : told [.worked (.ok out)] = [true] := by exact told_well ho he
        refine ⟨fun b hb => ?_, ?_⟩
        · rw [told_append, e1] at hb
          rcases List.mem_append.mp hb with hb | hb
          · exact i7 b hb
          · exact List.mem_singleton.mp hb
        · rw [made_append, told_append, e1, List.length_append, i8, hz, a1]; rfl
  obtain ⟨Q, g1, -, g2, g3, g4, g5, new, g6, g7, g8⟩ := h3 I hI
    ⟨hturns, k1, fun _ _ h => h, fun _ => ⟨by have := turns_le P.state.queue; omega, Nat.le_refl _⟩, fun h => by (rw [hup] at h; cases h),
      [], (List.append_nil _).symm, fun b hb => absurd hb List.not_mem_nil, by rw [hup]; rfl⟩
  refine ⟨⟨new, g6, g7, g8⟩, fun hlen j hj => ?_, fun hlen => ?_⟩
  · have hz : Q.state.queue = [] := by
      cases ha : (run J (as ++ ws) { world := { db := db } }).awake with
      | false => exact g5 ha
      | true =>
        have := (g4 ha).1
        rw [List.length_nil] at this
        exact turns_zero (by omega)
    cases hd : dbOf j with
    | none => have := hacc j hj; rw [hd] at this; cases this
    | some d =>
      rcases g3 _ _ (k4 j hj d hd) with ⟨s, h⟩ | h
      · rw [hz] at h; exact absurd h List.not_mem_nil
      · exact served g1 h
  · cases ha : (run J (as ++ ws) (fresh db)).awake with
    | false => rfl
    | true =>
      have := (g4 ha).1
      rw [List.length_nil] at this
      omega

/-! ## A failed request -/

/-- The first request has failed. -/
def Failed (A : DState) : Prop := ∃ x q, A.queue = (x, .failed) :: q

theorem failed_step {P Q : Proc} (hs : P.state.Sane) {e : Ev} {a : Ddl.Answer} (h : P.Step e a Q) (hf : Failed P.state) : Failed Q.state := by
  obtain ⟨x, q, hq⟩ := hf
  rcases step_cases hs h with ⟨-, e2 | e2⟩ | ⟨j, r, -, hq', -⟩
  · exact ⟨x, q, by rw [e2]; exact hq⟩
  · exact ⟨x, q, by rw [e2, work_failed hq]; exact hq⟩
  · exact ⟨x, q ++ [(r, .waiting)], by rw [hq', hq]; rfl⟩

/-- Once a turn that the engine did not refuse ended in an error, every later turn does, whatever happens in between:
requests, restarts.  OnChanged hears of nothing but errors, and the worker makes at most one turn each time it is
woken. -/
theorem C89_failed (hdb : Props.Fresh Sequence.metaPrefix db) {as₁ as₂ : List Act} {o₁ o₂ o₃ : Order} {c : Circ} {env : Env} {b : Bool}
    {e : Err} (hb : Spec.Loop.Brief K (as₁ ++ .ev (.work o₁ o₂ o₃ c env) b :: as₂)) (hc : c.fail = none)
    (ht : (run J (as₁ ++ [.ev (.work o₁ o₂ o₃ c env) b]) (fresh db)).answers = (run J as₁ (fresh db)).answers ++ [.worked (.err e)]) :
    ∃ new, (run J (as₁ ++ .ev (.work o₁ o₂ o₃ c env) b :: as₂) (fresh db)).answers =
        (run J as₁ (fresh db)).answers ++ [.worked (.err e)] ++ new ∧
      (∀ x ∈ told new, x = false) ∧ made new = (told new).length ∧ made new ≤ wakes as₂ := by
  obtain ⟨B, P, h1, h2, h3⟩ := loop_two J hdb hb
  rw [run_append] at ht
  have ht : ((run J as₁ (fresh db)).step J (.ev (.work o₁ o₂ o₃ c env) b)).answers = _ := ht
  have hL' : run J as₁ { world := { db := db } } = run J as₁ (fresh db) := rfl
  rw [hL'] at h1 h2 h3
  generalize run J as₁ (fresh db) = L at *
  let I : List Act → Loop → Proc → Prop := fun rest L' P' => (rest = .ev (.work o₁ o₂ o₃ c env) b :: as₂ ∧ L' = L) ∨
    (Failed P'.state ∧ ∃ new, L'.answers = L.answers ++ [.worked (.err e)] ++ new ∧ (∀ x ∈ told new, x = false) ∧
      made new = (told new).length ∧ made new + (if L'.awake then 1 else 0) + wakes rest ≤ wakes as₂)
  have hI : ∀ a as B P L L' Q, Serves J K B P L.world → Base L P → Base L' Q → L' = L.step J a → Moves L P a L' Q → I (a :: as) L P → I as L' Q := by
    rintro a rest B' P₁ L₁ L₂ Q s1 s2 s3 heq hm hi
    rcases hi with ⟨hr, rfl⟩ | ⟨hf, new, i1, i2, i3, i4⟩
    · obtain ⟨rfl, rfl⟩ := List.cons.inj hr
      have ht : L₂.answers = L₁.answers ++ [.worked (.err e)] := by rw [heq]; exact ht
      refine .inr ?_
      cases hm with
      | sleeps a1 a2 =>
        have := congrArg List.length ht
        simp at this
      | call a1 => cases a1
      | @turn _ _ _ _ _ _ r _ _ a1 a2 a3 a4 a5 =>
        rw [a3] at ht
        have hr : r = .err e := by simpa using ht
        have a2 := a2.resolve_right (fun ⟨e, he, _⟩ => by rw [hc] at he; cases he)
        have hf : Failed P₁.state := by
          rcases a2 with ⟨-, out, h, -⟩ | ⟨h, -⟩ | ⟨x, s, q, -, -, out, h, -⟩
          · rw [hr] at h; cases h
          · exact h
          · rw [hr] at h; cases h
        have ha : L₂.awake = false := by rw [a4, hr]; rfl
        refine ⟨failed_step s1.sane a5 hf, [], by rw [a3, hr, List.append_nil], fun x hx => absurd hx List.not_mem_nil, rfl, ?_⟩
        rw [ha]
        show 0 + 0 + wakes rest ≤ _
        omega
    · refine .inr ?_
      cases hm with
      | tick a1 a2 =>
        refine ⟨hf, new, by rw [a1]; exact i1, i2, i3, ?_⟩
        rw [wakes_tick] at i4
        split <;> split at i4 <;> omega
      | @sleeps e' b' a1 a2 =>
        refine ⟨hf, new, i1, i2, i3, ?_⟩
        rw [wakes_ev] at i4
        omega
      | @call e' b' x _ _ a1 a2 a3 a4 =>
        obtain ⟨t1, t2⟩ := told_call (not_worked a2 a1)
        refine ⟨failed_step s1.sane a2 hf, new ++ [x], by rw [a3, i1, List.append_assoc], ?_, ?_, ?_⟩
        · rw [told_append, t1, List.append_nil]; exact i2
        · rw [told_append, made_append, t1, t2, List.append_nil]; exact i3
        · rw [made_append, t2, a4]
          rw [wakes_ev] at i4
          have : (if awakeAfter L₁.awake b' x e' = true then 1 else 0) ≤ (if L₁.awake = true then 1 else 0) + (if b' = true then 1 else 0) := by
            cases e' <;> cases ha : L₁.awake <;> cases b' <;> cases hn : notifies x <;> simp_all [awakeAfter, isTurn]
          omega
      | @turn _ _ _ _ _ b' r _ _ a1 a2 a3 a4 a5 =>
        have hr : ∃ e', r = .err e' := by
          rcases a2 with (⟨hq, -⟩ | ⟨-, h⟩ | ⟨x, s, q, hq, hs, -⟩) | ⟨e', -, h⟩
          · obtain ⟨x, q, h⟩ := hf
            rw [hq] at h; cases h
          · exact h
          · obtain ⟨x', q', h⟩ := hf
            rw [hq] at h; cases h
            exact absurd rfl hs
          · exact ⟨e', h⟩
        obtain ⟨e', rfl⟩ := hr
        refine ⟨failed_step s1.sane a5 hf, new ++ [.worked (.err e')], by rw [a3, i1, List.append_assoc], ?_, ?_, ?_⟩
        · intro x hx
          rw [told_append, told_ill] at hx
          rcases List.mem_append.mp hx with hx | hx
          · exact i2 x hx
          · exact List.mem_singleton.mp hx
        · rw [told_append, made_append, List.length_append, i3]; rfl
        · have ha : L₂.awake = false := by rw [a4]; rfl
          rw [ha, made_append]
          rw [a1, wakes_ev] at i4
          show made new + 1 + 0 + _ ≤ _
          simp only [if_true] at i4
          omega
  obtain ⟨Q, -, g⟩ := h3 I hI (.inl ⟨rfl, rfl⟩)
  rcases g with ⟨h, -⟩ | ⟨-, new, g1, g2, g3, g4⟩
  · cases h
  · exact ⟨new, g1, g2, g3, by rw [show wakes [] = 0 from rfl] at g4; omega⟩

/-! ## A request for an index -/

/-- The first request asks for an index. -/
def Index (A : DState) : Prop := ∃ j i s q, A.queue = (.index j i, s) :: q

theorem index_step {P Q : Proc} (hs : P.state.Sane) {e : Ev} {a : Ddl.Answer} (h : P.Step e a Q) (hf : Index P.state) : Index Q.state := by
  obtain ⟨j, i, s, q, hq⟩ := hf
  rcases step_cases hs h with ⟨-, e2 | e2⟩ | ⟨j', r, -, hq', -⟩
  · exact ⟨j, i, s, q, by rw [e2]; exact hq⟩
  · have hst := (hs.index j i s (by rw [hq]; exact List.mem_cons_self)).2.1
    exact ⟨j, i, _, q, by rw [e2, work_index hq (by rcases hst with rfl | rfl <;> decide)]⟩
  · exact ⟨j, i, s, q ++ [(r, .waiting)], by rw [hq', hq]; rfl⟩

/-- If a call of AddIndex is accepted when the worker has just found the queue empty, and its notification wakes the
worker, then the worker never sleeps again: as long as the process lives and the engine refuses none of its turns, it
makes every turn it can, and OnChanged is told that all is well after each — though the index is never added, nor
anything asked for later carried out (C54_index_never). -/
theorem C89_spins (hdb : Props.Fresh Sequence.metaPrefix db) {as₁ as₂ : List Act} {o₁ o₂ o₃ : Order} {c c' : Circ} {env : Env} {b : Bool}
    {out : WorkOut} {i : AddIndexInput} {j : Job}
    (hb : Spec.Loop.Brief K (as₁ ++ .ev (.work o₁ o₂ o₃ c env) b :: .ev (.addIndex i c') true :: as₂)) (ho : out.nojob = true)
    (ht : (run J (as₁ ++ [.ev (.work o₁ o₂ o₃ c env) b, .ev (.addIndex i c') true]) (fresh db)).answers =
      (run J as₁ (fresh db)).answers ++ [.worked (.ok out), .job (.ok j)])
    (hcalm : Calm as₂) :
    (run J (as₁ ++ .ev (.work o₁ o₂ o₃ c env) b :: .ev (.addIndex i c') true :: as₂) (fresh db)).awake = true ∧
    ∃ new, (run J (as₁ ++ .ev (.work o₁ o₂ o₃ c env) b :: .ev (.addIndex i c') true :: as₂) (fresh db)).answers =
        (run J as₁ (fresh db)).answers ++ [.worked (.ok out), .job (.ok j)] ++ new ∧
      (∀ x ∈ told new, x = true) ∧ made new = (told new).length ∧ made new = offered as₂ := by
  obtain ⟨B, P, h1, h2, h3⟩ := loop_two J hdb hb
  rw [run_append] at ht
  have ht : ((((run J as₁ (fresh db)).step J (.ev (.work o₁ o₂ o₃ c env) b)).step J (.ev (.addIndex i c') true)).answers) = _ := ht
  have hL' : run J as₁ { world := { db := db } } = run J as₁ (fresh db) := rfl
  rw [hL'] at h1 h2 h3
  generalize run J as₁ (fresh db) = L at *
  let I : List Act → Loop → Proc → Prop := fun rest L' P' =>
    (rest = .ev (.work o₁ o₂ o₃ c env) b :: .ev (.addIndex i c') true :: as₂ ∧ L' = L) ∨
    (rest = .ev (.addIndex i c') true :: as₂ ∧ L' = L.step J (.ev (.work o₁ o₂ o₃ c env) b) ∧
      L'.answers = L.answers ++ [.worked (.ok out)] ∧ P'.state.queue = []) ∨
    (Calm rest ∧ Index P'.state ∧ L'.awake = true ∧ ∃ new, L'.answers = L.answers ++ [.worked (.ok out), .job (.ok j)] ++ new ∧
      (∀ x ∈ told new, x = true) ∧ made new = (told new).length ∧ made new + offered rest = offered as₂)
  have hI : ∀ a as B P L L' Q, Serves J K B P L.world → Base L P → Base L' Q → L' = L.step J a → Moves L P a L' Q → I (a :: as) L P → I as L' Q := by
    rintro a rest B' P₁ L₁ L₂ Q s1 s2 s3 heq hm hi
    rcases hi with ⟨hr, rfl⟩ | ⟨hr, hl, i1, i2⟩ | ⟨i0, hf, ha, new, i1, i2, i3, i4⟩
    · obtain ⟨rfl, rfl⟩ := List.cons.inj hr
      refine .inr (.inl ⟨rfl, heq, ?_⟩)
      have hcount : ∀ L : Loop, (L.step J (.ev (.addIndex i c') true)).answers = L.answers ++ [(L.world.step J (.addIndex i c')).1] := by
        intro L
        simp only [Loop.step]
        rw [if_neg (by simp [isTurn])]
      rw [hcount, ← heq] at ht
      have ht' : L₂.answers = L₁.answers ++ [.worked (.ok out)] := by
        rw [show L₁.answers ++ [Ddl.Answer.worked (.ok out), .job (.ok j)] = (L₁.answers ++ [.worked (.ok out)]) ++ [.job (.ok j)] by simp] at ht
        exact (List.append_inj' ht rfl).1
      refine ⟨ht', ?_⟩
      cases hm with
      | sleeps a1 a2 =>
        have := congrArg List.length ht'
        simp at this
      | call a1 => cases a1
      | @turn _ _ _ _ _ _ r _ _ a1 a2 a3 a4 a5 =>
        rw [a3] at ht'
        have hr : r = .ok out := by simpa using ht'
        have hz : P₁.state.queue = [] := by
          rcases a2 with (⟨h, -⟩ | ⟨-, e, h⟩ | ⟨x, s, q, -, -, out', h, ho', -⟩) | ⟨e, -, h⟩
          · exact h
          · rw [hr] at h; cases h
          · rw [hr] at h; cases h
            rw [ho] at ho'; cases ho'
          · rw [hr] at h; cases h
        rcases step_cases s1.sane a5 with ⟨-, e2 | e2⟩ | ⟨j', r', e1, -⟩
        · rw [e2]; exact hz
        · rw [e2, work_nil hz]; exact hz
        · rcases e1 with e1 | ⟨-, e1⟩
          · cases e1
          · cases e1
    · obtain ⟨rfl, rfl⟩ := List.cons.inj hr
      rw [← hl, ← heq] at ht
      refine .inr (.inr ⟨hcalm, ?_⟩)
      cases hm with
      | sleeps a1 => cases a1
      | @call _ _ x _ _ a1 a2 a3 a4 =>
        have hx : x = .job (.ok j) := by
          rw [a3, i1] at ht
          simpa using ht
        subst hx
        have hidx : Index Q.state := by
          rcases step_cases s1.sane a2 with ⟨e1, -⟩ | ⟨j', r, -, hq, -, -, -, hcase⟩
          · cases e1
          · rcases hcase with ⟨o, i', c', he, -⟩ | ⟨i', c', -, -, rfl⟩
            · cases he
            · exact ⟨_, _, _, [], by rw [hq, i2]; rfl⟩
        refine ⟨hidx, ?_, [], by rw [ht, List.append_nil], fun x hx => absurd hx List.not_mem_nil, rfl, ?_⟩
        · rw [a4]
          show (L₁.awake || (true && true)) = true
          rw [Bool.and_true, Bool.or_true]
        · show 0 + offered rest = _
          omega
    · have hc : Calm rest := fun a ha => i0 a (List.mem_cons_of_mem _ ha)
      have hh := i0 a List.mem_cons_self
      refine .inr (.inr ⟨hc, ?_⟩)
      cases hm with
      | tick a1 a2 => exact ⟨hf, a2 (s2.up ha), new, by rw [a1]; exact i1, i2, i3, by rw [offered_tick] at i4; exact i4⟩
      | sleeps a1 a2 => rw [ha] at a2; cases a2
      | @call e' b' x _ _ a1 a2 a3 a4 =>
        obtain ⟨t1, t2⟩ := told_call (not_worked a2 a1)
        refine ⟨index_step s1.sane a2 hf, ?_, new ++ [x], by rw [a3, i1, List.append_assoc], ?_, ?_, ?_⟩
        · rw [a4, ha]
          cases e' <;> first | rfl | (cases a1; done) | exact absurd hh id
        · rw [told_append, t1, List.append_nil]; exact i2
        · rw [told_append, made_append, t1, t2, List.append_nil]; exact i3
        · rw [made_append, t2]
          rw [offered_ev, a1] at i4
          simpa using i4
      | @turn _ _ _ c₁ _ b' r _ _ a1 a2 a3 a4 a5 =>
        have hh : c₁.fail = none := hh
        have a2 := a2.resolve_right (fun ⟨e, he, _⟩ => by rw [hh] at he; cases he)
        obtain ⟨j', i', s', q', hq'⟩ := hf
        have hw := index_step s1.sane a5 ⟨j', i', s', q', hq'⟩
        have hr : ∃ out, r = .ok out ∧ out.nojob = false ∧ out.vars.err = none := by
          have hst := (s1.sane.index j' i' s' (by rw [hq']; exact List.mem_cons_self)).2.1
          rcases a2 with ⟨hq, -⟩ | ⟨⟨x, q, hq⟩, -⟩ | ⟨x, s, q, hq, hs, out', h1, h2, h3⟩
          · rw [hq'] at hq; cases hq
          · rw [hq'] at hq; cases hq
            rcases hst with h | h <;> cases h
          · refine ⟨out', h1, h2, ?_⟩
            cases hv : out'.vars.err with
            | none => rfl
            | some e =>
              obtain ⟨x', q'', h'⟩ := h3 (by rw [hv]; simp)
              rw [work_index hq' (by rcases hst with rfl | rfl <;> decide)] at h'
              cases h'
        obtain ⟨out', rfl, k1, k2⟩ := hr
        refine ⟨hw, ?_, new ++ [.worked (.ok out')], by rw [a3, i1, List.append_assoc], ?_, ?_, ?_⟩
        · rw [a4]; show (!out'.nojob) = true; rw [k1]; rfl
        · intro x hx
          rw [told_append, told_well k1 k2] at hx
          rcases List.mem_append.mp hx with hx | hx
          · exact i2 x hx
          · exact List.mem_singleton.mp hx
        · rw [told_append, made_append, List.length_append, i3, told_well k1 k2]; rfl
        · rw [made_append]
          rw [offered_ev] at i4
          show made new + 1 + _ = _
          simp only [isTurn, if_true] at i4
          omega
  obtain ⟨Q, -, g⟩ := h3 I hI (.inl ⟨rfl, rfl⟩)
  rcases g with ⟨h, -⟩ | ⟨h, -⟩ | ⟨-, -, g0, new, g1, g2, g3, g4⟩
  · cases h
  · cases h
  · exact ⟨g0, new, g1, g2, g3, g4⟩

end Mondis.Loop
