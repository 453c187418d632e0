import Verif.Lemmas.RaceHistory
/-!
# Package ddl, calls made while the worker is at work: histories, ids, blocked requests, progress
-/
namespace Mondis.Race
open Mondis Schema Spec Meta Ddl Util

section
variable {J : Json} {K B : Nat}

/-- A history through states that are in order. -/
inductive RSteps : Span → List Ev → List Answer → Span → Prop where
  | nil {S} : RSteps S [] [] S
  | cons {S e a Q es as R} : S.proc.state.Sane → Q.state.Sane → S.Does e a Q → RSteps (S.then e Q) es as R →
      RSteps S (e :: es) (a :: as) R

variable {S R : Span} {es : List Ev} {as : List Answer}

theorem RSteps.steps (h : RSteps S es as R) : S.Steps es as R := by
  induction h with
  | nil => exact .nil
  | cons _ _ h _ ih => exact .cons h ih

theorem RSteps.length (h : RSteps S es as R) : as.length = es.length := by
  induction h with
  | nil => rfl
  | cons _ _ _ _ ih => rw [List.length_cons, List.length_cons, ih]

theorem RSteps.split {as₁ as₂ : List Answer} (h : RSteps S es (as₁ ++ as₂) R) :
    ∃ es₁ es₂ Q, es = es₁ ++ es₂ ∧ RSteps S es₁ as₁ Q ∧ RSteps Q es₂ as₂ R := by
  induction as₁ generalizing S es with
  | nil => exact ⟨[], es, S, rfl, .nil, h⟩
  | cons a as₁ ih =>
    cases h with
    | cons s1 s2 h1 h2 =>
      obtain ⟨es₁, es₂, Q, rfl, h3, h4⟩ := ih h2
      exact ⟨_ :: es₁, es₂, Q, rfl, .cons s1 s2 h1 h3, h4⟩

theorem run_append (J : Json) (es₁ es₂ : List Ev) (h : Hub) :
    run J (es₁ ++ es₂) h = ((run J es₁ h).1 ++ (run J es₂ (run J es₁ h).2).1, (run J es₂ (run J es₁ h).2).2) := by
  induction es₁ generalizing h with
  | nil => rfl
  | cons e es ih => simp only [List.cons_append, run, ih]

theorem run_length (J : Json) (es : List Ev) (h : Hub) : (run J es h).1.length = es.length := by
  induction es generalizing h with
  | nil => rfl
  | cons e es ih => show _ + 1 = _ + 1; rw [ih]

theorem then_proc (S : Span) (e : Ev) (Q : Proc) : (S.then e Q).proc = Q := by
  unfold Span.then
  split <;> rfl

theorem HubOK.mono {B' : Nat} {h : Hub} (H : HubOK J K B S h) (hB : B ≤ B') : HubOK J K B' S h :=
  ⟨H.now.mono hB, H.len, fun n A db h1 h2 => (H.past n A db h1 h2).goes (Goes.refl _) hB, H.turn, H.since⟩

theorem run_hub_from (J : Json) (c : Nat) (es : List Ev) : ∀ {B : Nat} {S : Span} {h : Hub}, HubOK J K B S h →
    (∀ e ∈ es, EvFits K e.ev) → B + es.length * c < 2 ^ 63 → 4 * K + 1026 + 2 * (S.proc.state.lastID + es.length * (K + 2)) ≤ c →
    S.proc.state.lastID + es.length * (K + 2) < 2 ^ 63 →
    ∃ R, RSteps S es (run J es h).1 R ∧ HubOK J K (B + es.length * c) R (run J es h).2 ∧
      R.proc.state.lastID ≤ S.proc.state.lastID + es.length * (K + 2) := by
  induction es with
  | nil => exact fun h _ _ _ _ => ⟨_, .nil, h.mono (by simp), by simp⟩
  | cons e es ih =>
    intro B S h H hf hB hc hid
    rw [List.length_cons] at hB hc hid ⊢
    have e1 : (es.length + 1) * (K + 2) = es.length * (K + 2) + (K + 2) := Nat.succ_mul _ _
    have e2 : (es.length + 1) * c = es.length * c + c := Nat.succ_mul _ _
    rw [e1] at hc hid
    rw [e2] at hB ⊢
    have hcost : cost K S.proc.state ≤ c := by unfold cost; omega
    obtain ⟨Q, h1, h2, h3, h4, h5⟩ := step_hub H (hf e List.mem_cons_self) (by omega) (by omega)
    have H' := (H.then (e := e) (by omega) h2 h4 h5).mono (B' := B + c) (by omega)
    have hp := then_proc S e Q
    obtain ⟨R, g1, g2, g3⟩ := ih H' (fun e he => hf e (List.mem_cons_of_mem _ he)) (by omega)
      (by rw [hp]; omega) (by rw [hp]; omega)
    rw [hp] at g3
    exact ⟨R, .cons H.now.sane h2.sane h1 g1, g2.mono (by omega), by rw [e1]; omega⟩

theorem HubOK.start (J : Json) (K : Nat) {db : DB} (h : Props.Fresh Sequence.metaPrefix db) : HubOK J K 0 {} { w := { db := db } } :=
  ⟨Serves.start J K h, rfl, fun n A db h1 => (nomatch h1), rfl, fun n hn => absurd hn (Nat.not_lt_zero _)⟩

/-- Every history on a fresh database, in two parts. -/
theorem run_hub_two (J : Json) {K : Nat} {es₁ es₂ : List Ev} {db : DB} (hdb : Props.Fresh Sequence.metaPrefix db)
    (hb : Span.Brief K (es₁ ++ es₂)) :
    ∃ S R, RSteps {} es₁ (run J es₁ { w := { db := db } }).1 S ∧ HubOK J K (2 ^ 62) S (run J es₁ { w := { db := db } }).2 ∧
      RSteps S es₂ (run J es₂ (run J es₁ { w := { db := db } }).2).1 R ∧
      HubOK J K (2 ^ 62) R (run J (es₁ ++ es₂) { w := { db := db } }).2 := by
  have hlen : ((es₁ ++ es₂).map (·.ev)).length = es₁.length + es₂.length := by rw [List.length_map, List.length_append]
  by_cases hpos : 1 ≤ es₁.length + es₂.length
  · obtain ⟨k1, k2⟩ := brief_budget hb (by rw [hlen]; exact hpos)
    obtain ⟨hf, hn⟩ := hb
    have hf' : ∀ e ∈ es₁ ++ es₂, EvFits K e.ev := fun e he => hf e.ev (List.mem_map.mpr ⟨e, he, rfl⟩)
    rw [hlen] at k1 k2 hn
    generalize hc : 4 * (es₁.length + es₂.length + 1) * (K + 300) = c at k1 hn
    have e1 : (es₁.length + es₂.length) * (K + 2) = es₁.length * (K + 2) + es₂.length * (K + 2) := Nat.add_mul _ _ _
    have e2 : (es₁.length + es₂.length) * c = es₁.length * c + es₂.length * c := Nat.add_mul _ _ _
    rw [e1] at k1 k2
    rw [e2] at hn
    obtain ⟨P, h1, h2, h3⟩ := run_hub_from J c es₁ (HubOK.start J K hdb) (fun e he => hf' e (List.mem_append_left _ he))
      (by omega) (by show 4 * K + 1026 + 2 * (0 + _) ≤ _; omega) (by show 0 + _ < _; omega)
    have h3 : P.proc.state.lastID ≤ 0 + es₁.length * (K + 2) := h3
    obtain ⟨Q, h4, h5, -⟩ := run_hub_from J c es₂ h2 (fun e he => hf' e (List.mem_append_right _ he))
      (by omega) (by omega) (by omega)
    rw [run_append]
    exact ⟨P, Q, h1, h2.mono (by omega), h4, h5.mono (by omega)⟩
  · have h1 : es₁ = [] := List.eq_nil_of_length_eq_zero (by omega)
    have h2 : es₂ = [] := List.eq_nil_of_length_eq_zero (by omega)
    subst h1 h2
    exact ⟨{}, {}, .nil, (HubOK.start J K hdb).mono (by omega), .nil, (HubOK.start J K hdb).mono (by omega)⟩

theorem run_hub (J : Json) {K : Nat} {es : List Ev} {db : DB} (hdb : Props.Fresh Sequence.metaPrefix db) (hb : Span.Brief K es) :
    ∃ R, RSteps {} es (run J es { w := { db := db } }).1 R ∧ HubOK J K (2 ^ 62) R (run J es { w := { db := db } }).2 := by
  obtain ⟨S, R, -, -, h1, h2⟩ := run_hub_two J (es₁ := []) (es₂ := es) hdb hb
  obtain ⟨S', R', h3, h4, -, -⟩ := run_hub_two J (es₁ := es) (es₂ := []) hdb (by rw [List.append_nil]; exact hb)
  exact ⟨S', h3, h4⟩

/-! ### What a step does to the requests and the ids -/

theorem does_cases (hs : S.proc.state.Sane) {e : Ev} {a : Answer} {Q : Proc} (hs' : Q.state.Sane) (h : S.Does e a Q) :
    (accepted [a] = [] ∧ (Q.state = S.proc.state ∨ Q.state = S.proc.state.work)) ∨
    ∃ j r, (accepted [a] = [j] ∨ (accepted [a] = [] ∧ a = .job .panic)) ∧ Q.state.queue = S.proc.state.queue ++ [(r, .waiting)] ∧
      Q.state.dbs = S.proc.state.dbs ∧ Q.state.finished = S.proc.state.finished ∧ r.job = j.id ∧
      ((idsIn j).Nodup ∧ (∀ x ∈ idsIn j, (S.proc.state.lastID : Int) < x.toInt ∧ x.toInt ≤ Q.state.lastID)) ∧
      S.proc.state.lastID < Q.state.lastID ∧ S.proc.state.lastID = (S.seen e.back).lastID ∧
      (∀ d, dbOf j = some d → r = .create j.id d) := by
  have other : ∀ {ev : Ddl.Ev} {n : Nat}, S.proc.Step ev a Q → (∀ o i c, ev ≠ .createSchema o i c) → (∀ i c, ev ≠ .addIndex i c) →
      (accepted [a] = [] ∧ (Q.state = S.proc.state ∨ Q.state = S.proc.state.work)) := by
    intro ev n h h1 h2
    rcases step_cases hs h with h | ⟨j, r, -, -, -, -, -, ⟨o, i, c, e, -⟩ | ⟨i, c, e, -⟩⟩
    · exact h
    · exact absurd e (h1 _ _ _)
    · exact absurd e (h2 _ _)
  cases h with
  | @create o i c n r A' h hr =>
    refine .inl ⟨?_, .inl rfl⟩
    cases r with
    | ok j => exact absurd rfl (hr j)
    | err e => rfl
    | panic => rfl
  | @created o i c n j A' h hl hq =>
    cases h with
    | ok _ a1 a2 a3 a4 a5 a6 a7 a8 =>
      have hb : ((S.seen n).enqueued i).lastID = (S.proc.state.enqueued i).lastID := by
        show (S.seen n).lastID + _ = S.proc.state.lastID + _
        rw [hl]
      obtain ⟨k1, k2, -⟩ := idsIn_create (A := S.seen n) (.ok j a1 a2 a3 a4 a5 a6 a7 a8) (by rw [hb]; exact hs'.small)
      refine .inr ⟨j, _, accepted_heard S.proc j, rfl, rfl, rfl, ?_, ⟨k1, ?_⟩, ?_, hl, ?_⟩
      · show DState.createJobID S.proc.state.lastID i = _
        rw [hl]; exact a5.symm
      · intro x hx
        have := k2 x hx
        rw [hb] at this
        rw [hl]
        exact this
      · show S.proc.state.lastID < S.proc.state.lastID + _
        omega
      · intro d hd
        unfold dbOf at hd
        rw [a7] at hd
        cases hd
        rw [a5, hl]
  | createRefused => exact .inl ⟨rfl, .inl rfl⟩
  | @index i c n r A' h hr =>
    refine .inl ⟨?_, .inl rfl⟩
    cases r with
    | ok j => exact absurd rfl (hr j)
    | err e => rfl
    | panic => rfl
  | @indexed i c n j A₀ A' h0 h hl =>
    obtain ⟨k1, k2, -⟩ := idsIn_index h hs'.small
    have harg := adds_arg h
    cases h with
    | ok d _ a1 a2 a3 a4 a5 a6 a7 =>
      refine .inr ⟨j, _, accepted_heard S.proc j, rfl, rfl, rfl, a4.symm, ⟨k1, k2⟩, ?_, hl, ?_⟩
      · show S.proc.state.lastID < S.proc.state.lastID + 2
        omega
      · intro d hd
        unfold dbOf at hd
        rw [harg] at hd
        cases hd
  | indexRefused => exact .inl ⟨rfl, .inl rfl⟩
  | getJob => exact .inl ⟨rfl, .inl rfl⟩
  | work h => exact .inl (other (n := 0) h (by simp) (by simp))
  | workMissed => exact .inl ⟨rfl, .inl rfl⟩
  | draw h => exact .inl (other (n := 0) h (by simp) (by simp))
  | crash h => exact .inl (other (n := 0) h (by simp) (by simp))
  | init h => exact .inl (other (n := 0) h (by simp) (by simp))

/-! ### Ids -/

theorem race_ids (h : RSteps S es as R) : ((accepted as).flatMap idsIn).Nodup ∧
    (∀ x ∈ (accepted as).flatMap idsIn, (S.proc.state.lastID : Int) < x.toInt ∧ x.toInt ≤ R.proc.state.lastID) ∧
    S.proc.state.lastID ≤ R.proc.state.lastID := by
  induction h with
  | nil => exact ⟨List.nodup_nil, fun x hx => absurd hx List.not_mem_nil, Nat.le_refl _⟩
  | @cons S e a Q es as R s1 s2 h1 h2 ih =>
    rw [then_proc] at ih
    obtain ⟨g1, g2, g3⟩ := ih
    have key : ((accepted [a]).flatMap idsIn).Nodup ∧
        (∀ x ∈ (accepted [a]).flatMap idsIn, (S.proc.state.lastID : Int) < x.toInt ∧ x.toInt ≤ Q.state.lastID) ∧
        S.proc.state.lastID ≤ Q.state.lastID := by
      rcases does_cases s1 s2 h1 with ⟨e1, e2⟩ | ⟨j, r, e1, -, -, -, -, k, hlt, -, -⟩
      · rw [e1]
        refine ⟨List.nodup_nil, fun x hx => absurd hx List.not_mem_nil, ?_⟩
        rcases e2 with e2 | e2
        · rw [e2]; exact Nat.le_refl _
        · rw [e2, work_lastID s1]; exact Nat.le_refl _
      · rcases e1 with e1 | ⟨e1, -⟩
        · rw [e1]
          simp only [List.flatMap_cons, List.flatMap_nil, List.append_nil]
          exact ⟨k.1, k.2, Nat.le_of_lt hlt⟩
        · rw [e1]
          exact ⟨List.nodup_nil, fun x hx => absurd hx List.not_mem_nil, Nat.le_of_lt hlt⟩
    obtain ⟨k1, k2, k3⟩ := key
    rw [accepted_cons, List.flatMap_append]
    refine ⟨List.nodup_append.mpr ⟨k1, g1, ?_⟩, ?_, by omega⟩
    · intro x hx y hy e
      have h1 := k2 x hx
      have h2 := g2 y hy
      rw [e] at h1
      omega
    · intro x hx
      rcases List.mem_append.mp hx with hx | hx
      · have := k2 x hx; omega
      · have := g2 x hx; omega

theorem ids_still (h : RSteps S es as R) (e : R.proc.state.lastID = S.proc.state.lastID) : accepted as = [] := by
  obtain ⟨-, h2, -⟩ := race_ids h
  cases ha : accepted as with
  | nil => rfl
  | cons j l =>
    exfalso
    have := h2 j.id (by rw [ha, List.flatMap_cons]; exact List.mem_append_left _ List.mem_cons_self)
    omega

/-- What a call saw that started before the last events. -/
theorem seen_start (h : RSteps S es as R) (hc : ∀ e ∈ es, e.ev ≠ .crash) : R.seen es.length = S.proc.state := by
  have key : ∃ l : List DState, l.length = es.length ∧ R.past = l ++ S.past ∧ (R.proc.state :: l)[es.length]? = some S.proc.state := by
    induction h with
    | nil => exact ⟨[], rfl, rfl, rfl⟩
    | @cons S e a Q es as R s1 s2 h1 h2 ih =>
      obtain ⟨l, e1, e2, e3⟩ := ih (fun e he => hc e (List.mem_cons_of_mem _ he))
      have hp : (S.then e Q).past = S.proc.state :: S.past := by
        have hne := hc e List.mem_cons_self
        unfold Span.then
        split
        · rename_i hx; exact absurd hx hne
        · rfl
        · rfl
      refine ⟨l ++ [S.proc.state], by rw [List.length_append, e1]; rfl, by rw [e2, hp]; simp, ?_⟩
      rw [List.length_cons, List.getElem?_cons_succ, List.getElem?_append_right (by omega), e1]
      simp
  obtain ⟨l, e1, e2, e3⟩ := key
  cases hes : es.length with
  | zero =>
    rw [hes] at e3
    exact Option.some.inj e3
  | succ n =>
    rw [hes] at e1 e3
    show R.past.getD n _ = _
    rw [List.getD_eq_getElem?_getD, e2, List.getElem?_append_left (by omega)]
    rw [List.getElem?_cons_succ] at e3
    rw [e3]
    rfl

/-! ### Requests that never finish -/

theorem race_blocked_step {id : Int64} (s1 : S.proc.state.Sane) {e : Ev} {a : Answer} {Q : Proc} (s2 : Q.state.Sane) (h : S.Does e a Q)
    (hb : Blocked id S.proc.state) : Blocked id Q.state ∧ ∀ j ∈ accepted [a], Blocked j.id Q.state := by
  rcases does_cases s1 s2 h with ⟨e1, e2⟩ | ⟨j, r, e1, hq, hd, -, hj, -⟩
  · refine ⟨?_, fun j hj => by rw [e1] at hj; exact absurd hj List.not_mem_nil⟩
    rcases e2 with e2 | e2
    · rw [e2]; exact hb
    · rw [e2]; exact blocked_work s1 hb
  · refine ⟨blocked_enqueue hq hd hb, fun j' hj' => ?_⟩
    replace e1 := e1.resolve_right (fun x => by rw [x.1] at hj'; exact absurd hj' List.not_mem_nil)
    rw [e1, List.mem_singleton] at hj'
    subst hj'
    rw [← hj]
    exact blocked_behind hq hd hb

theorem race_blocked {id : Int64} (h : RSteps S es as R) (hb : Blocked id S.proc.state) :
    Blocked id R.proc.state ∧ ∀ j ∈ accepted as, Blocked j.id R.proc.state := by
  induction h generalizing id with
  | nil => exact ⟨hb, fun j hj => absurd hj List.not_mem_nil⟩
  | cons s1 s2 h1 h2 ih =>
    simp only [then_proc] at ih
    obtain ⟨g1, g2⟩ := race_blocked_step s1 s2 h1 hb
    refine ⟨(ih g1).1, fun j hj => ?_⟩
    rw [accepted_cons] at hj
    rcases List.mem_append.mp hj with hj | hj
    · exact (ih (g2 j hj)).1
    · exact (ih g1).2 j hj

theorem race_underway_keep {id : Int64} {d : DBInfo} (h : RSteps S es as R) (hb : Underway id d S.proc.state) : Underway id d R.proc.state := by
  induction h with
  | nil => exact hb
  | cons s1 s2 h1 h2 ih =>
    rw [then_proc] at ih
    apply ih
    rcases does_cases s1 s2 h1 with ⟨-, e2⟩ | ⟨j, r, -, hq, hd, -⟩
    · rcases e2 with e2 | e2
      · rw [e2]; exact hb
      · rw [e2]; exact underway_work s1 hb
    · rcases hb with hb | hb
      · exact .inl (by unfold DState.Has; rw [hd]; exact hb)
      · exact .inr (by rw [hq]; exact List.mem_append_left _ hb)

theorem race_underway (h : RSteps S es as R) : ∀ j ∈ accepted as, ∀ d, dbOf j = some d → Underway j.id d R.proc.state := by
  induction h with
  | nil => exact fun j hj => absurd hj List.not_mem_nil
  | @cons S e a Q es as R s1 s2 h1 h2 ih =>
    intro j hj d hd
    rw [accepted_cons] at hj
    rcases List.mem_append.mp hj with h | h
    · refine race_underway_keep h2 ?_
      rw [then_proc]
      rcases does_cases s1 s2 h1 with ⟨e1, -⟩ | ⟨j₁, r, e1, hq, -, -, -, -, -, -, hr⟩
      · rw [e1] at h; exact absurd h List.not_mem_nil
      · replace e1 := e1.resolve_right (fun x => by rw [x.1] at h; exact absurd h List.not_mem_nil)
        rw [e1, List.mem_singleton] at h
        subst h
        rw [hr d hd] at hq
        exact .inr (by rw [hq]; exact List.mem_append_right _ List.mem_cons_self)
    · exact ih j h d hd

/-! ### Progress -/

theorem clean_names (hc : Clean S.proc.state) :
    (S.proc.state.work.dbs.map (·.name) ++ S.proc.state.work.queue.filterMap (fun
      | (.create _ d, .waiting) => some d.name
      | _ => none)) = (S.proc.state.dbs.map (·.name) ++ S.proc.state.queue.filterMap (fun
      | (.create _ d, .waiting) => some d.name
      | _ => none)) ∧ S.proc.state.work.queue.length ≤ S.proc.state.queue.length := by
  cases hq : S.proc.state.queue with
  | nil => rw [work_nil hq, hq]; exact ⟨rfl, Nat.le_refl _⟩
  | cons r q =>
    obtain ⟨hcr, hnn⟩ := hc
    rw [hq] at hcr hnn
    rcases hcr r List.mem_cons_self with ⟨j, d, rfl⟩ | ⟨j, d, rfl⟩
    · have hh : ¬ S.proc.state.Has d.name := by
        rintro ⟨d', hd', e⟩
        rw [List.nodup_append] at hnn
        refine hnn.2.2 d.name (List.mem_map.mpr ⟨d', hd', e⟩) d.name ?_ rfl
        rw [List.filterMap_cons]
        exact List.mem_cons_self
      rw [work_create hq hh]
      refine ⟨?_, Nat.le_refl _⟩
      rw [List.map_append, List.filterMap_cons, List.filterMap_cons]
      simp [List.append_assoc]
    · rw [work_done hq]
      refine ⟨?_, Nat.le_succ _⟩
      rw [List.filterMap_cons]

/-- Accepted requests, all for databases with different names, keep the state clean. -/
theorem race_clean (h : RSteps S es as R) (hc : Clean S.proc.state)
    (hp : ∀ a ∈ as, a ≠ .job .panic) (ha : ∀ j ∈ accepted as, (dbOf j).isSome)
    (hn : (S.proc.state.dbs.map (·.name) ++ S.proc.state.queue.filterMap (fun
      | (.create _ d, .waiting) => some d.name
      | _ => none) ++ (accepted as).filterMap (fun j => (dbOf j).map (·.name))).Nodup) :
    Clean R.proc.state ∧ R.proc.state.queue.length ≤ S.proc.state.queue.length + (accepted as).length ∧
    (∀ id d, Known id d S.proc.state → Known id d R.proc.state) ∧
    ∀ j ∈ accepted as, ∀ d, dbOf j = some d → Known j.id d R.proc.state := by
  induction h with
  | nil => exact ⟨hc, by simp, fun id d h => h, fun j hj => absurd hj List.not_mem_nil⟩
  | @cons S e a Q es as R s1 s2 h1 h2 ih =>
    simp only [then_proc] at ih
    rw [accepted_cons] at ha hn ⊢
    replace ih := fun hc => ih hc (hp := fun a h => hp a (List.mem_cons_of_mem _ h))
    rcases does_cases s1 s2 h1 with ⟨e1, e2⟩ | ⟨j, r, e1, hq, hd, hfin, hj, -, -, -, hcase⟩
    · rw [e1, List.nil_append] at ha hn ⊢
      rcases e2 with e2 | e2
      · have := ih (by rw [e2]; exact hc) ha (by rw [e2]; exact hn)
        rw [e2] at this
        exact this
      · obtain ⟨k1, k2, k3⟩ := clean_work hc
        have hnames := clean_names hc
        have := ih (by rw [e2]; exact k1) ha (by rw [e2, hnames.1]; exact hn)
        rw [e2] at this
        obtain ⟨g1, g2, g3, g4⟩ := this
        have := hnames.2
        exact ⟨g1, by omega, fun id d h => g3 id d (k3 id d h), g4⟩
    · replace e1 := e1.resolve_right (fun x => hp _ List.mem_cons_self x.2)
      rw [e1] at ha hn ⊢
      cases hdb : dbOf j with
      | none =>
        have := ha j (List.mem_append_left _ List.mem_cons_self)
        rw [hdb] at this
        cases this
      | some d₀ =>
        have hr := hcase d₀ hdb
        have hnames : (Q.state.dbs.map (·.name) ++ Q.state.queue.filterMap (fun
            | (.create _ d, .waiting) => some d.name
            | _ => none)) = (S.proc.state.dbs.map (·.name) ++ S.proc.state.queue.filterMap (fun
            | (.create _ d, .waiting) => some d.name
            | _ => none)) ++ [d₀.name] := by
          rw [hq, hd, List.filterMap_append, hr, List.append_assoc]
          rfl
        have hn' : (Q.state.dbs.map (·.name) ++ Q.state.queue.filterMap (fun
            | (.create _ d, .waiting) => some d.name
            | _ => none) ++ (accepted as).filterMap (fun j => (dbOf j).map (·.name))).Nodup := by
          rw [hnames]
          rw [List.filterMap_append, List.filterMap_cons, hdb] at hn
          simpa [List.append_assoc] using hn
        have hcQ : Clean Q.state := by
          refine ⟨?_, (List.nodup_append.mp hn').1⟩
          intro r' hr'
          rw [hq] at hr'
          rcases List.mem_append.mp hr' with h | h
          · exact hc.creates r' h
          · rw [List.mem_singleton] at h
            rw [h, hr]
            exact .inl ⟨_, _, rfl⟩
        obtain ⟨g1, g2, g3, g4⟩ := ih hcQ (fun j hj => ha j (List.mem_append_right _ hj)) hn'
        refine ⟨g1, ?_, fun id d h => g3 id d ?_, ?_⟩
        · rw [hq, List.length_append] at g2
          rw [List.length_append]
          simp only [List.length_singleton] at g2 ⊢
          omega
        · rcases h with ⟨s, h⟩ | h
          · exact .inl ⟨s, by rw [hq]; exact List.mem_append_left _ h⟩
          · exact .inr (by rw [hfin]; exact h)
        · intro j' hj' d hd'
          rcases List.mem_append.mp hj' with h | h
          · rw [List.mem_singleton] at h
            subst h
            rw [hdb] at hd'
            cases hd'
            exact g3 _ _ (.inl ⟨.waiting, by rw [hq, hr]; exact List.mem_append_right _ List.mem_cons_self⟩)
          · exact g4 j' h d hd'

/-- Turns of the worker that nothing gets in the way of. -/
theorem turns_alone {ws : List Ddl.Ev} (h : RSteps S es as R) (he : es = ws.map (fun e => ⟨e, 0⟩)) (hw : Turns ws) :
    SSteps S.proc ws as R.proc := by
  induction h generalizing ws with
  | nil =>
    cases ws with
    | nil => exact .nil
    | cons e ws => cases he
  | @cons S e a Q es as R s1 s2 h1 h2 ih =>
    cases ws with
    | nil => cases he
    | cons e' ws =>
      rw [List.map_cons] at he
      obtain ⟨rfl, rfl⟩ := List.cons.inj he
      have g := ih rfl (fun e he => hw e (List.mem_cons_of_mem _ he))
      rw [then_proc] at g
      refine .cons s1 s2 ?_ g
      obtain ⟨o₁, o₂, o₃, c, env, rfl, -⟩ := hw e' List.mem_cons_self
      cases h1 with
      | work h => exact h
      | workMissed _ hlt => rw [Nat.zero_min] at hlt; exact absurd hlt (Nat.lt_irrefl _)

/-! ### Document ids -/

theorem race_drawn (h : RSteps S es as R) (x : Int64) :
    (drawn x (es.map (·.ev)) as).Pairwise (· < ·) ∧ ∀ v ∈ drawn x (es.map (·.ev)) as, S.proc.last x < v.toInt := by
  induction h with
  | nil => exact ⟨List.Pairwise.nil, fun v hv => absurd hv List.not_mem_nil⟩
  | @cons S e a Q es as R s1 s2 h1 h2 ih =>
    rw [then_proc] at ih
    obtain ⟨g1, g2⟩ := ih
    have key : S.proc.last x ≤ Q.last x ∧
        (drawn x [e.ev] [a] = [] ∨ ∃ v, drawn x [e.ev] [a] = [v] ∧ S.proc.last x < v.toInt ∧ Q.last x = v.toInt) := by
      cases h1 with
      | work h => exact drawn_step h x
      | draw h => exact drawn_step h x
      | crash h => exact drawn_step h x
      | init h => exact drawn_step h x
      | _ => exact ⟨Int.le_refl _, .inl rfl⟩
    obtain ⟨k1, k2⟩ := key
    rw [List.map_cons, drawn_cons]
    rcases k2 with k2 | ⟨v, k2, k3, k4⟩
    · rw [k2, List.nil_append]
      exact ⟨g1, fun v hv => by have := g2 v hv; omega⟩
    · rw [k2, List.singleton_append]
      refine ⟨List.pairwise_cons.mpr ⟨fun u hu => ?_, g1⟩, fun u hu => ?_⟩
      · rw [Int64.lt_iff_toInt_lt, ← k4]; exact g2 u hu
      · rcases List.mem_cons.mp hu with rfl | hu
        · exact k3
        · have := g2 u hu; omega

end
end Mondis.Race
