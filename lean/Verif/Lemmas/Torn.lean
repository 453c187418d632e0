import Verif.Spec.Torn
import Verif.Lemmas.HallHung
/-!
# Histories in which the process dies in the middle of an event
-/
namespace Mondis.Torn
open Mondis Spec Schema Meta Structure Ddl

section
variable {K : Nat}

/-- What a dying turn counts as, and what is left. -/
theorem turn_torn (J : Json) {B : Nat} {P : Proc} {w : World} (h : Serves J K B P w) {o₁ o₂ o₃ : Order} {c : Circ} {env : Env} (n : Nat)
    (hf : EvFits K (.work o₁ o₂ o₃ c env)) (hB : B + Ddl.cost K P.state < 2 ^ 63) :
    ∃ r Q, P.Step (.work o₁ o₂ o₃ c env) r Q ∧ accepted [r] = [] ∧ r ≠ .job .panic ∧ Q.state.Sane ∧
      Serves J K (B + Ddl.cost K P.state) { state := Q.state, last := Q.last } (turnDies J o₁ o₂ o₃ c env n w) ∧
      Q.state.lastID ≤ P.state.lastID + K + 2 := by
  obtain ⟨Q, q1, q2, q3⟩ := step_work J h hf hB
  refine ⟨_, Q, q1, ?_, ?_, q2.sane, ?_, q3⟩
  · simp only [World.step]
    split
    · rfl
    · split <;> rfl
  · simp only [World.step]
    split
    · nofun
    · split <;> nofun
  unfold turnDies
  by_cases hu : w.stuck ∨ w.up = false
  · rw [if_pos hu]
    have e : (w.step J (.work o₁ o₂ o₃ c env)).2 = w := by
      simp only [World.step]; rw [if_pos hu]
    rw [e] at q2
    exact q2.crash
  rw [if_neg hu]
  simp only
  split
  · rename_i out hout
    obtain ⟨db', q, g1, g2, -⟩ := Hall.part_way h hf hB hout (l₁ := out.after.take n) (l₂ := out.after.drop n)
      (List.take_append_drop n out.after).symm
    have hQ : Q.state = P.state.work ∧ Q.last = P.last := by
      have e : (w.step J (.work o₁ o₂ o₃ c env)).1 = .worked (.ok out) := by
        simp only [World.step]
        rw [if_neg hu]
        simp only [hout]
      rw [e] at q1
      cases q1 with
      | work => exact ⟨rfl, rfl⟩
    rw [hQ.1, hQ.2, g1]
    exact g2.crash
  · rename_i hno
    have e : (w.step J (.work o₁ o₂ o₃ c env)).2.db =
        ((⟨true, c.env, c.fail, workTxn o₁ o₂ o₃ w.vars⟩ : MetaTxn WorkOut).run J w.db).2 := by
      simp only [World.step]
      rw [if_neg hu]
    have := q2.crash
    rw [e] at this
    exact this

/-- What a dying Init leaves. -/
theorem init_left (J : Json) {B : Nat} {P : Proc} {w : World} (h : Serves J K B P w) {o : DBInfo → Order} {env : Env}
    {fail : Int64 → Option Err} (n : Nat) (hf : EvFits K (.init o env fail)) (hB : B + Ddl.cost K P.state < 2 ^ 63) :
    Serves J K (B + Ddl.cost K P.state) { state := P.state, last := P.last } (initDies J o env fail n w) ∧
      ∃ M M', SameButDids M M' ∧ Keeps J B M w.db ∧ Keeps J (B + Ddl.cost K P.state) M' (initDies J o env fail n w).db := by
  obtain ⟨M, hh, hk, hlease⟩ := h.kept
  have hr : Runs (Client.one .listDatabases) M 1 (.ok (M.dbs.ents.map Prod.snd)) M := Runs.one trivial rfl
  have hq := txn_quiet J ⟨true, env, none, Client.one .listDatabases⟩ hk rfl hf hr (by unfold Ddl.cost at hB; omega)
  unfold initDies
  rcases hq with ⟨e1, hk'⟩ | ⟨e, hfail, -⟩
  case inr => cases hfail
  simp only
  rw [e1]
  simp only
  have hsub : ∀ p ∈ (initList o M).take n, p ∈ initList o M := fun p hp => List.mem_of_mem_take hp
  have hnod : (((initList o M).take n).map Prod.snd).Nodup := by
    rw [List.map_take]
    exact (initList_nodup o h.sane hh).sublist (List.take_sublist _ _)
  have hlen : ((initList o M).take n).length ≤ P.state.lastID + 1 := by
    have := few (((initList o M).take n).map Prod.snd) (n := P.state.lastID) hnod (by
      intro x hx
      obtain ⟨p, hp, rfl⟩ := List.mem_map.mp hx
      exact collID_bound h.sane ((mem_initList o hh p).mp (hsub p hp)))
    rwa [List.length_map] at this
  obtain ⟨db', q, M', g1, g2, g3, g4, -⟩ := initSequences_cases J env hf fail ((initList o M).take n)
    (w := { w with db := ((⟨true, env, none, Client.one .listDatabases⟩ : MetaTxn (List DBInfo)).run J w.db).2 })
    hk' hnod (by unfold Ddl.cost at hB; omega)
    (fun p _ => by have := hlease.range p.1 p.2; have : B + 1000 < 2 ^ 63 := by (unfold Ddl.cost at hB; omega)
                   show 0 ≤ did M p.1 p.2 ∧ did M p.1 p.2 + 1000 < _; omega)
  have hdid : ∀ d c, did M d c ≤ did M' d c ∧ did M' d c ≤ did M d c + 1000 := by
    intro d c
    rcases g4 c with ⟨-, e⟩ | ⟨p, hp, -, -, -, e⟩
    · have := e d
      change did M' d c = did M d c at this
      omega
    · have := e d
      change did M' d c = did M d c + _ at this
      split at this <;> omega
  change Serves J K _ _ { db := (initSequences env fail ((initList o M).take n) _).2.db } ∧ ∃ M₁ M₂, SameButDids M₁ M₂ ∧
    Keeps J B M₁ w.db ∧ Keeps J _ M₂ (initSequences env fail ((initList o M).take n) _).2.db
  rw [g3]
  refine ⟨?_, M, M', g1, hk, Keeps.mono g2 (by unfold Ddl.cost; omega)⟩
  refine ⟨h.sane, h.small, ⟨M', g1.holds hh, Keeps.mono g2 (by unfold Ddl.cost; omega), ?_⟩, rfl, fun h => absurd rfl h,
    fun c => rfl, fun c s h => (by cases h), ?_, rfl⟩
  · refine ⟨?_, hlease.low, hlease.fresh, ?_, fun d c s _ hs => (by cases hs)⟩
    · intro d c
      have := hlease.range d c
      have := hdid d c
      unfold Ddl.cost
      omega
    · intro d c hm
      have := hlease.stored d c hm
      have := hdid d c
      show P.last c ≤ _
      omega
  · exact fun hr => by cases hr

/-- What a dying Init counts as, and what is left. -/
theorem init_torn (J : Json) {B : Nat} {P : Proc} {w : World} (h : Serves J K B P w) {o : DBInfo → Order} {env : Env}
    {fail : Int64 → Option Err} (n : Nat) (hf : EvFits K (.init o env fail)) (hB : B + Ddl.cost K P.state < 2 ^ 63) :
    ∃ r Q, P.Step (.init o env fail) r Q ∧ accepted [r] = [] ∧ r ≠ .job .panic ∧ Q.state.Sane ∧
      Serves J K (B + Ddl.cost K P.state) { state := Q.state, last := Q.last } (initDies J o env fail n w) ∧
      Q.state.lastID ≤ P.state.lastID + K + 2 := by
  obtain ⟨Q, q1, q2, q3⟩ := step_init J h hf hB
  have hQ : accepted [(w.step J (.init o env fail)).1] = [] ∧ (w.step J (.init o env fail)).1 ≠ .job .panic ∧
      Q.state = P.state ∧ Q.last = P.last := by
    generalize (w.step J (.init o env fail)).1 = a at q1 ⊢
    cases q1 with
    | init => exact ⟨rfl, nofun, rfl, rfl⟩
    | initAgain => exact ⟨rfl, nofun, rfl, rfl⟩
    | initRefused => exact ⟨rfl, nofun, rfl, rfl⟩
  refine ⟨_, Q, q1, hQ.1, hQ.2.1, q2.sane, ?_, q3⟩
  rw [hQ.2.2.1, hQ.2.2.2]
  exact (init_left J h n hf hB).1

theorem ifDB_same {M M' : MState} (h : M'.dbs = M.dbs) {db : Int64} {β : Type} {x y : Res β × MState} (hxy : x.1 = y.1) :
    (ifDB M' db x).1 = (ifDB M db y).1 := by
  have e : M'.db db = M.db db := by unfold MState.db; rw [h]
  unfold ifDB
  by_cases hd : M.db db = none
  · rw [if_pos hd, if_pos (e.trans hd)]
  · rw [if_neg hd, if_neg (fun x => hd (e.symm.trans x))]
    exact hxy

/-- What is read does not depend on the counters of the sequences. -/
theorem sem_same {M M' : MState} (h : SameButDids M M') {β : Type} (c : MetaCall β) (hc : c.writes = false) :
    (c.sem M').1 = (c.sem M).1 := by
  obtain ⟨d, rfl⟩ := h
  cases c with
  | listCollections db => exact ifDB_same (M := M) (M' := { M with dids := d }) rfl rfl
  | getCollection db c =>
    refine ifDB_same (M := M) (M' := { M with dids := d }) rfl ?_
    show (match M.coll db c with
      | some c => (Res.ok c, { M with dids := d })
      | none => (Res.err _, { M with dids := d })).1 = (match M.coll db c with
      | some c => (Res.ok c, M)
      | none => (Res.err _, M)).1
    split <;> rfl
  | getDatabase db =>
    show (match M.db db with
      | some d' => (Res.ok d', { M with dids := d })
      | none => (Res.err _, { M with dids := d })).1 = (match M.db db with
      | some d => (Res.ok d, M)
      | none => (Res.err _, M)).1
    split <;> rfl
  | getHistoryDDLJob id =>
    show (match M.job id with
      | some j => ((readBack j).map' some, { M with dids := d })
      | none => (Res.ok none, { M with dids := d })).1 = (match M.job id with
      | some j => ((readBack j).map' some, M)
      | none => (Res.ok none, M)).1
    split <;> rfl
  | _ => first | (cases hc; done) | rfl | (simp only [MetaCall.sem] <;> (repeat' split) <;> rfl)

/-- However far a dying turn got, the metadata is the same up to the counters of the sequences. -/
theorem turn_meta (J : Json) {B : Nat} {P : Proc} {w : World} (h : Serves J K B P w) {o₁ o₂ o₃ : Order} {c : Circ} {env : Env}
    (hf : EvFits K (.work o₁ o₂ o₃ c env)) (hB : B + Ddl.cost K P.state < 2 ^ 63) :
    ∃ M, (∀ n, ∃ M', SameButDids M M' ∧ Keeps J (B + Ddl.cost K P.state) M' (turnDies J o₁ o₂ o₃ c env n w).db) ∧
      ∃ n, (turnDies J o₁ o₂ o₃ c env n w).db = (w.step J (.work o₁ o₂ o₃ c env)).2.db := by
  obtain ⟨hroom, hroom'⟩ := hf
  obtain ⟨M, hh, hk, hlease⟩ := h.kept
  unfold turnDies
  by_cases hu : w.stuck ∨ w.up = false
  · refine ⟨M, fun n => ⟨M, .refl M, ?_⟩, 0, ?_⟩
    · rw [if_pos hu]; exact Keeps.mono hk (by omega)
    · simp only [World.step]
      rw [if_pos hu, if_pos hu]
  obtain ⟨r, M', hr, hc⟩ := runs_work o₁ o₂ o₃ h.vars h.sane h.small hh
  have hq := txn_quiet J ⟨true, c.env, c.fail, workTxn o₁ o₂ o₃ w.vars⟩ hk rfl hroom hr (by unfold Ddl.cost at hB; omega)
  simp only [World.step, if_neg hu]
  rcases hq with ⟨e1, hk'⟩ | ⟨e, -, e1, hk'⟩
  case inr =>
    rw [e1]
    exact ⟨M, fun n => ⟨M, .refl M, Keeps.mono hk' (by unfold Ddl.cost; omega)⟩, 0, rfl⟩
  rw [e1]
  rcases hc with ⟨e, rfl, -⟩ | ⟨out, rfl, hw1, hw2, hw3, hw4, hw5, -⟩
  · exact ⟨M, fun n => ⟨M, .refl M, Keeps.mono hk' (by unfold Ddl.cost; omega)⟩, 0, rfl⟩
  refine ⟨M', fun n => ?_, out.after.length, by simp only [List.take_length]⟩
  have hsub : ∀ p ∈ out.after.take n, p ∈ out.after := fun p hp => List.mem_of_mem_take hp
  have hlen : (out.after.take n).length ≤ K := by
    have := List.length_take_le n out.after
    have := List.length_take_le' n out.after
    omega
  have hnod : ((out.after.take n).map Prod.snd).Nodup := by
    rw [List.map_take]
    exact hw3.sublist (List.take_sublist _ _)
  have hfree : ∀ p ∈ out.after, w.seqs p.2 = none := by
    intro p hp
    cases hx : w.seqs p.2 with
    | none => rfl
    | some s =>
      obtain ⟨d, hd, -⟩ := h.seqs _ _ hx
      have := collection_unique (sane_work h.sane) (collections_work_sub h.sane hd) ((hw5 p).mp hp).1 rfl
      exact absurd (this ▸ hd) ((hw5 p).mp hp).2
  have hdids : ∀ d c, did M' d c = did M d c := did_congr (hr.dids (only_work _ _ _ _))
  have hB' : B + 1000 < 2 ^ 63 := by unfold Ddl.cost at hB; omega
  obtain ⟨db'', q, M'', g1, g2, g3, -⟩ := afterCommit_ok J env hroom' (out.after.take n)
    (w := { w with db := ((⟨true, c.env, c.fail, workTxn o₁ o₂ o₃ w.vars⟩ : MetaTxn WorkOut).run J w.db).2,
                   vars := if out.nojob then {} else out.vars })
    hk' hnod (fun p hp => hfree p (hsub p hp)) (by unfold Ddl.cost at hB; omega)
    (fun p _ => by show 0 ≤ did M' p.1 p.2 ∧ did M' p.1 p.2 + 1000 < _; rw [hdids]; have := hlease.range p.1 p.2; omega)
  refine ⟨M'', g1, ?_⟩
  simp only
  rw [g3]
  exact Keeps.mono g2 (by unfold Ddl.cost; omega)

theorem run_append (J : Json) (xs ys : List TEv) (w : World) :
    run J (xs ++ ys) w = ((run J xs w).1 ++ (run J ys (run J xs w).2).1, (run J ys (run J xs w).2).2) := by
  induction xs generalizing w with
  | nil => rfl
  | cons x xs ih => simp only [List.cons_append, run, ih, List.append_assoc]

/-- Without death in the middle. -/
theorem run_ev (J : Json) (es : List Ev) (w : World) : run J (es.map .ev) w = Ddl.run J es w := by
  induction es generalizing w with
  | nil => rfl
  | cons e es ih => simp only [List.map_cons, run, step, Ddl.run, ih, List.singleton_append]

/-- What the answers `as` of the whole events and those heard have in common. -/
structure Same (xs : List TEv) (as heardAs : List Ddl.Answer) : Prop where
  told : told xs as = heardAs
  accepted : accepted as = accepted heardAs
  drawn : ∀ x, drawn x (xs.flatMap whole) as = drawn x (xs.flatMap heard) heardAs
  panic : (∀ a ∈ heardAs, a ≠ .job .panic) → ∀ a ∈ as, a ≠ .job .panic

/-- Two answers of a dying event, which nobody heard. -/
theorem Same.unheard {xs : List TEv} {as hs : List Ddl.Answer} (h : Same xs as hs) {x : TEv} {e : Ev} (hw : whole x = [e, .crash])
    (hx : heard x = []) (ht : ∀ a b as, Torn.told (x :: xs) (a :: b :: as) = Torn.told xs as) (he : ∀ y c, e ≠ .draw y c) {r : Ddl.Answer} (h1 : Spec.accepted [r] = []) (h2 : r ≠ .job .panic) :
    Same (x :: xs) (r :: .none :: as) hs where
  told := by rw [ht]; exact h.told
  accepted := by
    rw [accepted_cons, h1, accepted_cons]
    exact h.accepted
  drawn := fun y => by
    rw [List.flatMap_cons, List.flatMap_cons, hw, hx]
    show Spec.drawn y (e :: .crash :: xs.flatMap whole) _ = _
    rw [drawn_cons, drawn_cons (e := .crash), List.nil_append, h.drawn]
    have e1 : Spec.drawn y [e] [r] = [] := by
      unfold Spec.drawn
      simp only [List.zip_cons_cons, List.zip_nil_left, List.filterMap_cons, List.filterMap_nil]
      split
      · rfl
      · rename_i hm
        split at hm
        · rename_i heq
          exact absurd (Prod.mk.inj heq).1 (he _ _)
        · cases hm
    have e2 : Spec.drawn y [.crash] [.none] = [] := rfl
    rw [e1, e2]; rfl
  panic := fun hp a ha => by
    rcases List.mem_cons.mp ha with rfl | ha
    · exact h2
    rcases List.mem_cons.mp ha with rfl | ha
    · nofun
    · exact h.panic hp a ha

theorem Same.said {xs : List TEv} {as hs : List Ddl.Answer} (h : Same xs as hs) (e : Ev) (a : Ddl.Answer) :
    Same (.ev e :: xs) (a :: as) (a :: hs) where
  told := by rw [Torn.told, h.told]
  accepted := by rw [accepted_cons, accepted_cons a hs, h.accepted]
  drawn := fun y => by
    show Spec.drawn y (e :: xs.flatMap whole) _ = Spec.drawn y (e :: xs.flatMap heard) _
    rw [drawn_cons, drawn_cons y e a _ hs, h.drawn]
  panic := fun hp b hb => by
    rcases List.mem_cons.mp hb with rfl | hb
    · exact hp _ List.mem_cons_self
    · exact h.panic (fun a ha => hp a (List.mem_cons_of_mem _ ha)) b hb

theorem run_serves_from (J : Json) (c : Nat) (xs : List TEv) : ∀ {B : Nat} {P : Proc} {w : World}, Serves J K B P w →
    (∀ e ∈ xs.flatMap whole, EvFits K e) → B + (xs.flatMap whole).length * c < 2 ^ 63 →
    4 * K + 1026 + 2 * (P.state.lastID + (xs.flatMap whole).length * (K + 2)) ≤ c →
    P.state.lastID + (xs.flatMap whole).length * (K + 2) < 2 ^ 63 →
    ∃ as Q, SSteps P (xs.flatMap whole) as Q ∧ Same xs as (run J xs w).1 ∧
      Serves J K (B + (xs.flatMap whole).length * c) Q (run J xs w).2 ∧
      Q.state.lastID ≤ P.state.lastID + (xs.flatMap whole).length * (K + 2) := by
  induction xs with
  | nil => exact fun h _ _ _ _ => ⟨[], _, .nil, ⟨rfl, rfl, fun x => rfl, fun h => h⟩, h.mono (by simp), by simp⟩
  | cons x xs ih =>
    intro B P w h hf hB hc hid
    have dies : ∀ (e : Ev) (w' : World), whole x = [e, .crash] → heard x = [] → (∀ xs a b as, told (x :: xs) (a :: b :: as) = told xs as) → (∀ y c, e ≠ .draw y c) →
        step J w x = ([], w') →
        (EvFits K e → B + Ddl.cost K P.state < 2 ^ 63 → ∃ r Q, P.Step e r Q ∧ accepted [r] = [] ∧ r ≠ .job .panic ∧ Q.state.Sane ∧
          Serves J K (B + Ddl.cost K P.state) { state := Q.state, last := Q.last } w' ∧ Q.state.lastID ≤ P.state.lastID + K + 2) →
        ∃ as Q, SSteps P ((x :: xs).flatMap whole) as Q ∧ Same (x :: xs) as (run J (x :: xs) w).1 ∧
          Serves J K (B + ((x :: xs).flatMap whole).length * c) Q (run J (x :: xs) w).2 ∧
          Q.state.lastID ≤ P.state.lastID + ((x :: xs).flatMap whole).length * (K + 2) := by
      intro e w' hw hhd hto he hst hs
      rw [List.flatMap_cons, hw] at hf hB hc hid ⊢
      simp only [List.cons_append, List.nil_append, List.length_cons] at hB hc hid ⊢
      generalize hN : (xs.flatMap whole).length = N at *
      have e1 : (N + 1 + 1) * (K + 2) = N * (K + 2) + (K + 2) + (K + 2) := by rw [Nat.succ_mul, Nat.succ_mul]
      have e2 : (N + 1 + 1) * c = N * c + c + c := by rw [Nat.succ_mul, Nat.succ_mul]
      rw [e1] at hc hid
      rw [e2] at hB ⊢
      have hcost : Ddl.cost K P.state ≤ c := by unfold Ddl.cost; omega
      obtain ⟨r, Q, q1, q2, q3, q4, q5, q6⟩ := hs (hf e (by simp)) (by omega)
      obtain ⟨as, R, r1, r2, r3, r4⟩ := ih (q5.mono (B' := B + c + c) (by omega)) (fun e he => hf e (by simp [he])) (by omega)
        (by show 4 * K + 1026 + 2 * (Q.state.lastID + _) ≤ _; omega) (by show Q.state.lastID + _ < _; omega)
      have r4 : R.state.lastID ≤ Q.state.lastID + N * (K + 2) := r4
      refine ⟨r :: .none :: as, R, .cons h.sane q4 q1 (.cons (Q := { state := Q.state, last := Q.last }) q4 q4 .crash r1), ?_, ?_, by rw [e1]; omega⟩
      · have : (run J (x :: xs) w).1 = (run J xs w').1 := by rw [run, hst]; rfl
        rw [this]
        exact r2.unheard hw hhd (hto xs) he q2 q3
      · have : (run J (x :: xs) w).2 = (run J xs w').2 := by rw [run, hst]
        rw [this]
        exact r3.mono (by omega)
    cases x with
    | turn o₁ o₂ o₃ c' env n =>
      exact dies (.work o₁ o₂ o₃ c' env) _ rfl rfl (fun _ _ _ _ => rfl) (fun _ _ => Ev.noConfusion) rfl (turn_torn J h n)
    | init o env fail n => exact dies (.init o env fail) _ rfl rfl (fun _ _ _ _ => rfl) (fun _ _ => Ev.noConfusion) rfl (init_torn J h n)
    | ev e =>
      rw [List.flatMap_cons, whole] at hf hB hc hid ⊢
      simp only [List.cons_append, List.nil_append, List.length_cons] at hB hc hid ⊢
      generalize hN : (xs.flatMap whole).length = N at *
      have e1 : (N + 1) * (K + 2) = N * (K + 2) + (K + 2) := Nat.succ_mul _ _
      have e2 : (N + 1) * c = N * c + c := Nat.succ_mul _ _
      rw [e1] at hc hid
      rw [e2] at hB ⊢
      have hcost : Ddl.cost K P.state ≤ c := by unfold Ddl.cost; omega
      obtain ⟨Q, h1, h2, h3⟩ := step_serves J h (hf e (by simp)) (by omega) (by omega)
      obtain ⟨as, R, r1, r2, r3, r4⟩ := ih (h2.mono (B' := B + c) (by omega)) (fun e he => hf e (by simp [he])) (by omega)
        (by omega) (by omega)
      exact ⟨_ :: as, R, .cons h.sane h2.sane h1 r1, r2.said e _, r3.mono (by omega), by rw [e1]; omega⟩

/-- A history with room for more. -/
theorem run_serves_room (J : Json) {K : Nat} {xs : List TEv} {es : List Ev} {db : DB} (hdb : Props.Fresh Sequence.metaPrefix db)
    (hb : Brief K (xs.flatMap whole ++ es)) (hes : 1 ≤ es.length) :
    ∃ B P, Serves J K B P (run J xs { db := db }).2 ∧ B + Ddl.cost K P.state ≤ 2 ^ 62 := by
  have hpos : 1 ≤ (xs.flatMap whole ++ es).length := by rw [List.length_append]; omega
  obtain ⟨k1, k2⟩ := brief_budget hb hpos
  obtain ⟨hf, hn⟩ := hb
  generalize hc : 4 * ((xs.flatMap whole ++ es).length + 1) * (K + 300) = c at k1 hn
  rw [List.length_append] at k1 k2 hn
  have e1 : ((xs.flatMap whole).length + es.length) * (K + 2) = (xs.flatMap whole).length * (K + 2) + es.length * (K + 2) := Nat.add_mul _ _ _
  have e2 : ((xs.flatMap whole).length + es.length) * c = (xs.flatMap whole).length * c + es.length * c := Nat.add_mul _ _ _
  have e3 : c ≤ es.length * c := Nat.le_mul_of_pos_left _ hes
  rw [e1] at k1 k2
  rw [e2] at hn
  obtain ⟨as, P, -, -, h2, h3⟩ := run_serves_from J c xs (Serves.start J K hdb) (fun e he => hf e (List.mem_append_left _ he))
    (by omega) (by show 4 * K + 1026 + 2 * (0 + _) ≤ _; omega) (by show 0 + _ < _; omega)
  have h3 : P.state.lastID ≤ 0 + (xs.flatMap whole).length * (K + 2) := h3
  exact ⟨_, P, h2, by unfold Ddl.cost; omega⟩

/-- A history in two parts; the second without death in the middle. -/
theorem run_serves_two (J : Json) {K : Nat} {xs : List TEv} {es : List Ev} {db : DB} (hdb : Props.Fresh Sequence.metaPrefix db)
    (hb : Brief K (xs.flatMap whole ++ es)) :
    ∃ as P Q, SSteps {} (xs.flatMap whole) as P ∧ Same xs as (run J xs { db := db }).1 ∧ Serves J K (2 ^ 62) P (run J xs { db := db }).2 ∧
      SSteps P es (Ddl.run J es (run J xs { db := db }).2).1 Q ∧ Serves J K (2 ^ 62) Q (Ddl.run J es (run J xs { db := db }).2).2 := by
  by_cases hpos : 1 ≤ (xs.flatMap whole ++ es).length
  · obtain ⟨k1, k2⟩ := brief_budget hb hpos
    obtain ⟨hf, hn⟩ := hb
    generalize hc : 4 * ((xs.flatMap whole ++ es).length + 1) * (K + 300) = c at k1 hn
    rw [List.length_append] at k1 k2 hn
    have e1 : ((xs.flatMap whole).length + es.length) * (K + 2) = (xs.flatMap whole).length * (K + 2) + es.length * (K + 2) := Nat.add_mul _ _ _
    have e2 : ((xs.flatMap whole).length + es.length) * c = (xs.flatMap whole).length * c + es.length * c := Nat.add_mul _ _ _
    rw [e1] at k1 k2
    rw [e2] at hn
    obtain ⟨as, P, h1, h1', h2, h3⟩ := run_serves_from J c xs (Serves.start J K hdb) (fun e he => hf e (List.mem_append_left _ he))
      (by omega) (by show 4 * K + 1026 + 2 * (0 + _) ≤ _; omega) (by show 0 + _ < _; omega)
    have h3 : P.state.lastID ≤ 0 + (xs.flatMap whole).length * (K + 2) := h3
    obtain ⟨Q, h4, h5, -⟩ := Ddl.run_serves_from J c es h2 (fun e he => hf e (List.mem_append_right _ he))
      (by omega) (by omega) (by omega)
    exact ⟨as, P, Q, h1, h1', h2.mono (by omega), h4, h5.mono (by omega)⟩
  · have h1 : xs.flatMap whole = [] := List.eq_nil_of_length_eq_zero (by rw [List.length_append] at hpos; omega)
    have h2 : es = [] := List.eq_nil_of_length_eq_zero (by rw [List.length_append] at hpos; omega)
    have h3 : xs = [] := by
      cases xs with
      | nil => rfl
      | cons x xs =>
        rw [List.flatMap_cons] at h1
        cases x <;> cases h1
    subst h2 h3
    exact ⟨[], {}, {}, .nil, ⟨rfl, rfl, fun x => rfl, fun h => h⟩, (Serves.start J K hdb).mono (by omega), .nil, (Serves.start J K hdb).mono (by omega)⟩

/-- Every history on a fresh database. -/
theorem run_serves (J : Json) {K : Nat} {xs : List TEv} {db : DB} (hdb : Props.Fresh Sequence.metaPrefix db) (hb : Brief K (xs.flatMap whole)) :
    ∃ as Q, SSteps {} (xs.flatMap whole) as Q ∧ Same xs as (run J xs { db := db }).1 ∧ Serves J K (2 ^ 62) Q (run J xs { db := db }).2 := by
  obtain ⟨as, P, Q, h1, h2, h3, -⟩ := run_serves_two J (es := []) hdb (by rw [List.append_nil]; exact hb)
  exact ⟨as, P, h1, h2, h3⟩

end
end Mondis.Torn
