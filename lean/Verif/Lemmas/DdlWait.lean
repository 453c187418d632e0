import Verif.Spec.DdlWait
import Verif.Lemmas.DdlFacts
/-!
# Waiting for DDL jobs: facts
-/
namespace Mondis.Wait
open Mondis Spec Schema Meta Structure Ddl Props

/-! ## A look writes nothing -/

/-- A body that makes no write. -/
def NoWrite {α : Type} : Prog α → Prop
  | .done _ => True
  | .get _ c => ∀ r, NoWrite (c r)
  | .scan _ c => ∀ r, NoWrite (c r)
  | .set _ _ _ _ => False
  | .del _ _ => False

theorem NoWrite.andThen {α β : Type} {p : Prog α} {f : Res α → Prog β} (hp : NoWrite p) (hf : ∀ r, NoWrite (f r)) : NoWrite (p.andThen f) := by
  induction p with
  | done r => exact hf r
  | get k c ih => exact fun r => ih r (hp r)
  | scan o c ih => exact fun r => ih r (hp r)
  | set => exact hp.elim
  | del => exact hp.elim

theorem NoWrite.run {α : Type} {p : Prog α} (hp : NoWrite p) (t : Txn) : (p.run t).2.writes = t.writes := by
  induction p generalizing t with
  | done r => rfl
  | get k c ih =>
    show ((c (t.get k).1).run (t.get k).2).2.writes = _
    rw [ih _ (hp _)]
    unfold Txn.get
    repeat' split
    all_goals rfl
  | scan o c ih => exact ih _ (hp _) t
  | set => exact hp.elim
  | del => exact hp.elim

theorem settled {α β : Type} {p : SProg α} {f : Res α → SProg β} (hp : ∃ x, p = .done x) (hf : ∀ r, ∃ x, f r = .done x) :
    ∃ x, p.andThen f = .done x := by
  obtain ⟨x, rfl⟩ := hp
  exact hf x

theorem look_noWrite (J : Json) (id : Int64) : NoWrite ((getHistoryJob id).code J) := by
  have e : (getHistoryJob id).structure J = .op (.hget ddlJobHistoryKey (jobIDKey id)) _ := rfl
  unfold Client.code
  rw [e, SProg.prog]
  refine NoWrite.andThen (fun r => by cases r <;> trivial) (fun r => ?_)
  have done : ∀ {q : SProg (Option Job)}, (∃ x, q = .done x) → NoWrite (q.prog Sequence.metaPrefix) := by
    rintro _ ⟨x, rfl⟩; trivial
  apply done
  refine settled (settled (settled ?_ (fun r => ?_)) (fun r => ?_)) (fun r => ?_)
  · rcases r with (_ | _) | _ | _ <;> exact ⟨_, rfl⟩
  · rcases r with _ | e | _
    · exact ⟨_, rfl⟩
    · cases e <;> exact ⟨_, rfl⟩
    · exact ⟨_, rfl⟩
  · rcases r with (_ | b) | e | _
    · exact ⟨_, rfl⟩
    · refine settled ⟨_, rfl⟩ (fun r => ?_)
      rcases r with _ | _ | _ <;> exact ⟨_, rfl⟩
    · exact ⟨_, rfl⟩
    · exact ⟨_, rfl⟩
  · rcases r with _ | _ | _ <;> exact ⟨_, rfl⟩

theorem look_quiet (J : Json) (w : World) (id : Int64) (c : Circ) : (w.step J (.getJob id c)).2 = w := by
  have h : ((⟨true, c.env, c.fail, getHistoryJob id⟩ : MetaTxn (Option Job)).run J w.db).2 = w.db := by
    show (Util.runInNewUpdateTxn c.env c.fail ((getHistoryJob id).code J) w.db w.db).2 = _
    unfold Util.runInNewUpdateTxn
    have hw : (Util.body c.env true ((getHistoryJob id).code J) w.db).2.writes = [] := by
      show (((getHistoryJob id).code J).run _).2.writes = _
      rw [(look_noWrite J id).run]; rfl
    split
    · next t hb =>
      rw [hb] at hw
      have hw : t.writes = [] := hw
      unfold Txn.commit
      rw [if_pos hw]
    · rfl
    · rfl
  show ({ w with db := _ } : World) = w
  rw [h]

/-! ## The callers and the queue -/

/-- A database requested, done or finished, exists. -/
structure Made (A : DState) : Prop where
  done : ∀ j d, (Request.create j d, Status.done) ∈ A.queue → d ∈ A.dbs
  finished : ∀ f ∈ A.finished, f.2 ∈ A.dbs

variable {A : DState} {P Q : Proc}

theorem made_work (hs : A.Sane) (h : Made A) : Made A.work ∧ (∀ f ∈ A.finished, f ∈ A.work.finished) := by
  have hsub : ∀ {A' : DState}, (∀ d ∈ A.dbs, d ∈ A'.dbs) → (∀ r ∈ A'.queue, r ∈ A.queue ∨ r.2 ≠ .done) → A'.finished = A.finished →
      Made A' ∧ (∀ f ∈ A.finished, f ∈ A'.finished) := by
    intro A' h1 h2 h3
    refine ⟨⟨fun j d hm => ?_, fun f hf => ?_⟩, fun f hf => h3 ▸ hf⟩
    · rcases h2 _ hm with hm | hm
      · exact h1 _ (h.done j d hm)
      · exact absurd rfl hm
    · rw [h3] at hf; exact h1 _ (h.finished f hf)
  rcases head_cases hs with hq | ⟨j, d, q, hq⟩ | ⟨j, d, q, hq⟩ | ⟨j, d, q, hq⟩ | ⟨j, i, s, q, hq, hst⟩
  · rw [work_nil hq]; exact ⟨h, fun f hf => hf⟩
  · rw [work_failed hq]; exact ⟨h, fun f hf => hf⟩
  · rw [work_done hq]
    refine ⟨⟨fun j' d' hm => h.done j' d' (by rw [hq]; exact List.mem_cons_of_mem _ hm), fun f hf => ?_⟩, fun f hf => List.mem_append_left _ hf⟩
    rcases List.mem_append.mp hf with hf | hf
    · exact h.finished f hf
    · rw [List.mem_singleton.mp hf]; exact h.done j d (by rw [hq]; exact List.mem_cons_self)
  · by_cases hh : A.Has d.name
    · rw [work_taken hq hh]
      refine hsub (fun d hd => hd) (fun r hr => ?_) rfl
      rcases List.mem_cons.mp hr with rfl | hr
      · exact .inr (by intro x; cases x)
      · exact .inl (by rw [hq]; exact List.mem_cons_of_mem _ hr)
    · rw [work_create hq hh]
      refine ⟨⟨fun j' d' hm => ?_, fun f hf => List.mem_append_left _ (h.finished f hf)⟩, fun f hf => hf⟩
      rcases List.mem_cons.mp hm with hm | hm
      · cases hm; exact List.mem_append_right _ List.mem_cons_self
      · exact List.mem_append_left _ (h.done j' d' (by rw [hq]; exact List.mem_cons_of_mem _ hm))
  · rw [work_index hq (by rcases hst with rfl | rfl <;> decide)]
    refine hsub (fun d hd => hd) (fun r hr => ?_) rfl
    rcases List.mem_cons.mp hr with rfl | hr
    · exact .inr (by intro x; cases x)
    · exact .inl (by rw [hq]; exact List.mem_cons_of_mem _ hr)

theorem known_work (hs : A.Sane) {id : Int64} {d : DBInfo} (h : Known id d A) : Known id d A.work := by
  rcases head_cases hs with hq | ⟨j, d', q, hq⟩ | ⟨j, d', q, hq⟩ | ⟨j, d', q, hq⟩ | ⟨j, i, s, q, hq, hst⟩
  · rw [work_nil hq]; exact h
  · rw [work_failed hq]; exact h
  · rw [work_done hq]
    rcases h with ⟨s, h⟩ | h
    · rw [hq] at h
      rcases List.mem_cons.mp h with h | h
      · cases h; exact .inr (List.mem_append_right _ List.mem_cons_self)
      · exact .inl ⟨s, h⟩
    · exact .inr (List.mem_append_left _ h)
  · by_cases hh : A.Has d'.name
    · rw [work_taken hq hh]
      rcases h with ⟨s, h⟩ | h
      · rw [hq] at h
        rcases List.mem_cons.mp h with h | h
        · cases h; exact .inl ⟨_, List.mem_cons_self⟩
        · exact .inl ⟨s, List.mem_cons_of_mem _ h⟩
      · exact .inr h
    · rw [work_create hq hh]
      rcases h with ⟨s, h⟩ | h
      · rw [hq] at h
        rcases List.mem_cons.mp h with h | h
        · cases h; exact .inl ⟨_, List.mem_cons_self⟩
        · exact .inl ⟨s, List.mem_cons_of_mem _ h⟩
      · exact .inr h
  · rw [work_index hq (by rcases hst with rfl | rfl <;> decide)]
    rcases h with ⟨s', h⟩ | h
    · rw [hq] at h
      rcases List.mem_cons.mp h with h | h
      · cases h
      · exact .inl ⟨s', List.mem_cons_of_mem _ h⟩
    · exact .inr h

/-- What is known of the job of an accepted call. -/
structure JobOK (j : Job) (A : DState) : Prop where
  create : ∀ d, dbOf j = some d → Known j.id d A ∧ Underway j.id d A
  index : dbOf j = none → Blocked j.id A

/-- What is known of the callers. -/
structure Callers (cs : List Caller) (A : DState) : Prop where
  made : Made A
  jobs : ∀ x ∈ cs, ∀ j, Wait.job x = some j → JobOK j A
  told : ∀ j r, Caller.told j r ∈ cs → r = .ok () ∧ ∃ d, dbOf j = some d ∧ (j.id, d) ∈ A.finished
  doomed : ∀ n m x j, Wait.Doomed cs n → n ≤ m → cs[m]? = some x → Wait.job x = some j → Blocked j.id A

/-- A finished job is not blocked. -/
theorem finished_blocked (hs : A.Sane) {id : Int64} {d : DBInfo} (h : (id, d) ∈ A.finished) (hb : Blocked id A) : False := by
  have := blocked_unfinished hs hb
  unfold DState.finishedJob at this
  rw [Option.map_eq_none_iff] at this
  have := List.find?_eq_none.mp this _ h
  simp at this

/-- What the history holds about a job with this id is this job. -/
theorem finished_known (hs : A.Sane) {id : Int64} {d d' : DBInfo} (h : Known id d A) (hf : (id, d') ∈ A.finished) : (id, d) ∈ A.finished := by
  rcases h with ⟨s, h⟩ | h
  · exfalso
    have hn := hs.nodup
    unfold DState.ids at hn
    rw [List.nodup_append] at hn
    refine hn.2.2 id (List.mem_append_right _ (List.mem_flatMap.mpr ⟨_, h, ?_⟩)) id (List.mem_map.mpr ⟨_, hf, rfl⟩) rfl
    cases s <;> simp [DState.requestIDs]
  · exact h

/-! ## One event -/

theorem job_arrive {a : Ddl.Answer} {x : Caller} {j : Job} (h : x ∈ arrive a) (hj : Wait.job x = some j) : accepted [a] = [j] ∧ x = .waiting j := by
  cases a with
  | job r =>
    cases r with
    | ok i =>
      rw [show arrive (.job (.ok i)) = [.waiting i] from rfl, List.mem_singleton] at h
      subst h
      cases hj
      exact ⟨rfl, rfl⟩
    | err e =>
      rw [show arrive (.job (.err e)) = [.answered (.err e)] from rfl, List.mem_singleton] at h
      subst h; cases hj
    | panic =>
      rw [show arrive (.job .panic) = [.answered .panic] from rfl, List.mem_singleton] at h
      subst h; cases hj
  | _ => exact absurd h List.not_mem_nil

theorem arrive_length (a : Ddl.Answer) : (arrive a).length ≤ 1 := by
  cases a with
  | job r => cases r <;> exact Nat.le_refl _
  | _ => exact Nat.zero_le _

theorem job_die (x : Caller) : Wait.job x.die = Wait.job x := by cases x <;> rfl
theorem told_die {x : Caller} {j : Job} {r : Res Unit} (h : x.die = .told j r) : x = .told j r := by cases x <;> first | exact h | cases h

/-- The jobs of the callers. -/
theorem doomed_congr {cs cs' : List Caller} {n : Nat} (h : ∀ k : Nat, k ≤ n → (cs[k]?.bind Wait.job) = (cs'[k]?.bind Wait.job))
    (hd : Wait.Doomed cs n) : Wait.Doomed cs' n := by
  have get : ∀ {k : Nat} {x : Caller} {j : Job}, k ≤ n → cs[k]? = some x → Wait.job x = some j → ∃ x', cs'[k]? = some x' ∧ Wait.job x' = some j := by
    intro k x j hk h1 h2
    have := h k hk
    rw [h1] at this
    cases hx : cs'[k]? with
    | none => rw [hx] at this; rw [show (some x).bind Wait.job = Wait.job x from rfl, h2] at this; cases this
    | some x' =>
      refine ⟨x', rfl, ?_⟩
      rw [hx] at this
      exact this.symm.trans h2
  obtain ⟨x, j, h1, h2, h3⟩ := hd
  obtain ⟨x', h1', h2'⟩ := get (Nat.le_refl _) h1 h2
  refine ⟨x', j, h1', h2', ?_⟩
  rcases h3 with h3 | ⟨m, y, i, d, d', h4, h5, h6, h7⟩
  · exact .inl h3
  · obtain ⟨y', h5', h6'⟩ := get (Nat.le_of_lt h4) h5 h6
    exact .inr ⟨m, y', i, d, d', h4, h5', h6', h7⟩

/-- Callers with the same jobs. -/
theorem Callers.same {cs cs' : List Caller} {A : DState} (h : Callers cs A) (hj : ∀ k : Nat, (cs'[k]?.bind Wait.job) = (cs[k]?.bind Wait.job))
    (ht : ∀ j r, Caller.told j r ∈ cs' → r = .ok () ∧ ∃ d, dbOf j = some d ∧ (j.id, d) ∈ A.finished) : Callers cs' A := by
  have get : ∀ {k : Nat} {x : Caller} {j : Job}, cs'[k]? = some x → Wait.job x = some j → ∃ x', cs[k]? = some x' ∧ Wait.job x' = some j := by
    intro k x j h1 h2
    have := hj k
    rw [h1] at this
    cases hx : cs[k]? with
    | none => rw [hx] at this; rw [show (some x).bind Wait.job = Wait.job x from rfl, h2] at this; cases this
    | some x' =>
      refine ⟨x', rfl, ?_⟩
      rw [hx] at this
      exact this.symm.trans h2
  refine ⟨h.made, fun x hx j hxj => ?_, ht, fun n m x j hd hm hx hxj => ?_⟩
  · obtain ⟨k, hk⟩ := List.mem_iff_getElem?.mp hx
    obtain ⟨x', h1, h2⟩ := get hk hxj
    exact h.jobs x' (List.mem_of_getElem? h1) j h2
  · obtain ⟨x', h1, h2⟩ := get hx hxj
    exact h.doomed n m x' j (doomed_congr (fun k _ => hj k) hd) hm h1 h2

/-- What a step does to what is known of a job. -/
theorem jobOK_step (s1 : P.state.Sane) {e : Ev} {a : Ddl.Answer} (h : P.Step e a Q) {j : Job} (hj : JobOK j P.state) : JobOK j Q.state := by
  refine ⟨fun d hd => ?_, fun hd => (blocked_step s1 h (hj.index hd)).1⟩
  obtain ⟨k1, k2⟩ := hj.create d hd
  rcases step_cases s1 h with ⟨-, e2 | e2⟩ | ⟨i, r, -, hq, hdbs, hf, -, -⟩
  · rw [e2]; exact ⟨k1, k2⟩
  · rw [e2]; exact ⟨known_work s1 k1, underway_work s1 k2⟩
  · refine ⟨?_, ?_⟩
    · rcases k1 with ⟨s, k1⟩ | k1
      · exact .inl ⟨s, by rw [hq]; exact List.mem_append_left _ k1⟩
      · exact .inr (by rw [hf]; exact k1)
    · rcases k2 with k2 | k2
      · exact .inl (by unfold DState.Has; rw [hdbs]; exact k2)
      · exact .inr (by rw [hq]; exact List.mem_append_left _ k2)

/-- What is known of the job of a new caller. -/
theorem jobOK_new (s1 : P.state.Sane) {e : Ev} {a : Ddl.Answer} (h : P.Step e a Q) {j : Job} (hj : accepted [a] = [j]) : JobOK j Q.state := by
  rcases step_cases s1 h with ⟨e1, -⟩ | ⟨i, r, e1, hq, -, -, -, hcase⟩
  · rw [e1] at hj; cases hj
  · replace e1 := e1.resolve_right (fun x => by rw [x.1] at hj; cases hj)
    rw [e1] at hj
    cases hj
    rcases hcase with ⟨o, i, c', -, hcr, rfl⟩ | ⟨i, c', -, hcr, rfl⟩
    · have hm : (Request.create j.id (requested P.state.lastID i), Status.waiting) ∈ Q.state.queue := by
        rw [hq]; exact List.mem_append_right _ List.mem_cons_self
      refine ⟨fun d hd => ?_, fun hd => ?_⟩
      · unfold dbOf at hd
        rw [creates_arg hcr] at hd
        cases hd
        exact ⟨.inl ⟨_, hm⟩, .inr hm⟩
      · unfold dbOf at hd
        rw [creates_arg hcr] at hd
        cases hd
    · refine ⟨fun d hd => ?_, fun hd => ⟨P.state.queue, _, [], hq, trivial, _, List.mem_cons_self, rfl⟩⟩
      unfold dbOf at hd
      rw [adds_arg hcr] at hd
      cases hd

/-- A new request for a database that is under way is blocked. -/
theorem blocked_new (s1 : P.state.Sane) {e : Ev} {a : Ddl.Answer} (h : P.Step e a Q) {j : Job} (hj : accepted [a] = [j]) {d d' : DBInfo} {id : Int64}
    (hd : dbOf j = some d) (hn : d'.name = d.name) (hu : Underway id d' P.state) : Blocked j.id Q.state := by
  rcases step_cases s1 h with ⟨e1, -⟩ | ⟨i, r, e1, hq, hdbs, -, -, hcase⟩
  · rw [e1] at hj; cases hj
  · replace e1 := e1.resolve_right (fun x => by rw [x.1] at hj; cases hj)
    rw [e1] at hj
    cases hj
    rcases hcase with ⟨o, i, c', -, hcr, rfl⟩ | ⟨i, c', -, hcr, -⟩
    · have e2 : d = requested P.state.lastID i := by
        unfold dbOf at hd
        rw [creates_arg hcr] at hd
        exact (Option.some.inj hd).symm
      refine ⟨P.state.queue, _, [], hq, .inr ⟨rfl, ?_⟩, _, List.mem_cons_self, rfl⟩
      rw [← e2, ← hn]
      rcases hu with hu | hu
      · exact .inl (by unfold DState.Has; rw [hdbs]; exact hu)
      · exact .inr ⟨_, _, hu, rfl⟩
    · unfold dbOf at hd
      rw [adds_arg hcr] at hd
      cases hd

theorem finished_step (s1 : P.state.Sane) (hm : Made P.state) {e : Ev} {a : Ddl.Answer} (h : P.Step e a Q) :
    Made Q.state ∧ ∀ f ∈ P.state.finished, f ∈ Q.state.finished := by
  rcases step_cases s1 h with ⟨-, e2 | e2⟩ | ⟨i, r, -, hq, hdbs, hf, -, -⟩
  · rw [e2]; exact ⟨hm, fun f hf => hf⟩
  · rw [e2]; exact made_work s1 hm
  · refine ⟨⟨fun j d hd => ?_, fun f hf' => ?_⟩, fun f hf' => hf ▸ hf'⟩
    · rw [hq] at hd
      rw [hdbs]
      rcases List.mem_append.mp hd with hd | hd
      · exact hm.done j d hd
      · have hd := List.mem_singleton.mp hd
        cases hd
    · rw [hf] at hf'
      rw [hdbs]; exact hm.finished f hf'

theorem Callers.event (s1 : P.state.Sane) {e : Ev} {a : Ddl.Answer} (h : P.Step e a Q) {cs : List Caller} (hc : Callers cs P.state) :
    Callers (cs ++ arrive a) Q.state := by
  obtain ⟨f1, f2⟩ := finished_step s1 hc.made h
  refine ⟨f1, fun x hx j hj => ?_, fun j r hx => ?_, fun n m x j hd hm hx hj => ?_⟩
  · rcases List.mem_append.mp hx with hx | hx
    · exact jobOK_step s1 h (hc.jobs x hx j hj)
    · exact jobOK_new s1 h (job_arrive hx hj).1
  · rcases List.mem_append.mp hx with hx | hx
    · obtain ⟨h1, d, h2, h3⟩ := hc.told j r hx
      exact ⟨h1, d, h2, f2 _ h3⟩
    · have := (job_arrive hx rfl).2; cases this
  · have old : ∀ k, k < cs.length → (cs ++ arrive a)[k]? = cs[k]? := fun k hk => List.getElem?_append_left hk
    by_cases hml : m < cs.length
    · rw [old m hml] at hx
      refine (blocked_step s1 h (hc.doomed n m x j (doomed_congr (fun k hk => ?_) hd) hm hx hj)).1
      rw [old k (by omega)]
    · -- the caller is new
      have hx' : x ∈ arrive a := by
        rw [List.getElem?_append_right (by omega)] at hx
        exact List.mem_of_getElem? hx
      obtain ⟨ha, -⟩ := job_arrive hx' hj
      have hmn : m = cs.length := by
        rw [List.getElem?_append_right (by omega)] at hx
        have h1 := (List.getElem?_eq_some_iff.mp hx).1
        have := arrive_length a
        omega
      by_cases hn : n < cs.length
      · -- an earlier call is doomed
        obtain ⟨y, i, g1, g2, g3⟩ := hd
        rw [old n hn] at g1
        have hd' : Wait.Doomed cs n := by
          refine doomed_congr (cs := cs ++ arrive a) (fun k hk => by rw [old k (by omega)]) ⟨y, i, by rw [old n hn]; exact g1, g2, g3⟩
        have hb := hc.doomed n n y i hd' (Nat.le_refl _) g1 g2
        exact (blocked_step s1 h hb).2 j (by rw [ha]; exact List.mem_singleton_self _)
      · -- the call itself is doomed
        have hnm : n = m := by omega
        subst hnm
        obtain ⟨y, i, g1, g2, g3⟩ := hd
        rw [hx] at g1
        cases g1
        rw [hj] at g2
        cases g2
        rcases g3 with g3 | ⟨m', y, i, d, d', g4, g5, g6, g7, g8, g9⟩
        · exact (jobOK_new s1 h ha).index g3
        · rw [old m' (by omega)] at g5
          exact blocked_new s1 h ha g8 g9 ((hc.jobs y (List.mem_of_getElem? g5) i g6).create d' g7).2

theorem Callers.die {cs : List Caller} {A : DState} (h : Callers cs A) : Callers (cs.map Caller.die) A := by
  refine h.same (fun k => ?_) (fun j r hx => ?_)
  · rw [List.getElem?_map]
    cases cs[k]? with
    | none => rfl
    | some x => exact job_die x
  · obtain ⟨x, hx, e⟩ := List.mem_map.mp hx
    rw [told_die e] at hx
    exact h.told j r hx

/-- Putting a caller with the same job. -/
theorem Callers.put {cs : List Caller} {A : DState} (h : Callers cs A) {k : Nat} {x y : Caller} (hx : cs[k]? = some x)
    (hj : Wait.job y = Wait.job x) (ht : ∀ j r, y = .told j r → r = .ok () ∧ ∃ d, dbOf j = some d ∧ (j.id, d) ∈ A.finished) :
    Callers (cs.set k y) A := by
  refine h.same (fun i => ?_) (fun j r hm => ?_)
  · rw [List.getElem?_set]
    split
    · next e =>
      subst e
      rw [if_pos (List.getElem?_eq_some_iff.mp hx).1, hx]
      exact hj
    · rfl
  · rcases List.mem_or_eq_of_mem_set hm with hm | hm
    · exact h.told j r hm
    · exact ht j r hm.symm

/-- A look. -/
theorem Callers.look (s1 : P.state.Sane) {cs : List Caller} (h : Callers cs P.state) {k : Nat} {j : Job} (hx : cs[k]? = some (.waiting j))
    {c : Circ} {a : Ddl.Answer} (hs : P.Step (.getJob j.id c) a Q) : Callers (cs.set k (Caller.after j a)) P.state ∧ Q = P := by
  cases hs with
  | getJobRefused _ => exact ⟨h.put hx rfl (fun _ _ e => nomatch e), rfl⟩
  | getJob =>
    refine ⟨?_, rfl⟩
    unfold Caller.after
    cases hf : P.state.finishedJob j.id with
    | none => exact h.put hx rfl (fun _ _ e => nomatch e)
    | some j' =>
      unfold DState.finishedJob at hf
      obtain ⟨f, hf', rfl⟩ := Option.map_eq_some_iff.mp hf
      have e : f.1 = j.id := of_decide_eq_true (p := f.1 = j.id) (List.find?_some (p := fun f : Int64 × DBInfo => decide (f.1 = j.id)) hf')
      have hm := List.mem_of_find?_eq_some hf'
      refine h.put hx rfl (fun i r e' => ?_)
      have e' : Caller.told j (.ok ()) = .told i r := e'
      cases e'
      have hj := h.jobs _ (List.mem_of_getElem? hx) j rfl
      have hm : (j.id, f.2) ∈ P.state.finished := e ▸ hm
      refine ⟨rfl, ?_⟩
      cases hd : dbOf j with
      | none => exact (finished_blocked s1 hm (hj.index hd)).elim
      | some d => exact ⟨d, rfl, finished_known s1 (hj.create d hd).1 hm⟩

/-! ## Histories -/

theorem run_append (J : Json) (as bs : List Act) (R : Room) : run J (as ++ bs) R = run J bs (run J as R) := by
  induction as generalizing R with
  | nil => rfl
  | cons a as ih => exact ih _

theorem room_serves_from (J : Json) {K : Nat} (c : Nat) (as : List Act) : ∀ {B : Nat} {P : Proc} {R : Room}, Serves J K B P R.world →
    Callers R.callers P.state →
    (∀ a ∈ as, match a with
      | .ev e => EvFits K e
      | .look _ c => Roomy c.env
      | .over _ _ => True) → B + as.length * c < 2 ^ 63 → 4 * K + 1026 + 2 * (P.state.lastID + as.length * (K + 2)) ≤ c →
    P.state.lastID + as.length * (K + 2) < 2 ^ 63 →
    ∃ Q, Serves J K (B + as.length * c) Q (run J as R).world ∧ Callers (run J as R).callers Q.state := by
  induction as with
  | nil => exact fun h hc _ _ _ _ => ⟨_, h.mono (by simp), hc⟩
  | cons a as ih =>
    intro B P R h hcs hf hB hc hid
    rw [List.length_cons] at hB hc hid ⊢
    have e1 : (as.length + 1) * (K + 2) = as.length * (K + 2) + (K + 2) := Nat.succ_mul _ _
    have e2 : (as.length + 1) * c = as.length * c + c := Nat.succ_mul _ _
    rw [e1] at hc hid
    rw [e2] at hB ⊢
    have hcost : Ddl.cost K P.state ≤ c := by unfold Ddl.cost; omega
    have next : ∀ {Q : Proc}, Serves J K (B + Ddl.cost K P.state) Q (R.step J a).world → Callers (R.step J a).callers Q.state →
        Q.state.lastID ≤ P.state.lastID + K + 2 →
        ∃ Q, Serves J K (B + (as.length * c + c)) Q (run J (a :: as) R).world ∧ Callers (run J (a :: as) R).callers Q.state := by
      intro Q g1 g2 g3
      obtain ⟨S, k1, k2⟩ := ih (g1.mono (B' := B + c) (by omega)) g2 (fun a ha => hf a (List.mem_cons_of_mem _ ha)) (by omega) (by omega) (by omega)
      exact ⟨S, k1.mono (by omega), k2⟩
    have hfa := hf a List.mem_cons_self
    cases a with
    | ev e =>
      obtain ⟨Q, h1, h2, h3⟩ := step_serves J h (e := e) hfa (by omega) (by omega)
      refine next (Q := Q) h2 ?_ h3
      show Callers ((if isCrash e then _ else _) ++ arrive _) _
      split
      · exact Callers.event h.sane h1 hcs.die
      · exact Callers.event h.sane h1 hcs
    | look k c' =>
      have stay : R.step J (.look k c') = R → ∃ Q, Serves J K (B + (as.length * c + c)) Q (run J (.look k c' :: as) R).world ∧
          Callers (run J (.look k c' :: as) R).callers Q.state := fun e =>
        next (Q := P) (by rw [e]; exact h.mono (by omega)) (by rw [e]; exact hcs) (by omega)
      cases hk : R.callers[k]? with
      | none => exact stay (by simp only [Room.step, hk])
      | some x =>
        cases x with
        | waiting j =>
          obtain ⟨Q, h1, h2, h3⟩ := step_serves J h (e := .getJob j.id c') hfa (by omega) (by omega)
          obtain ⟨g1, rfl⟩ := hcs.look h.sane hk h1
          refine next (Q := Q) ?_ ?_ h3
          · simp only [Room.step, hk]; exact h2
          · simp only [Room.step, hk]; exact g1
        | _ => exact stay (by simp only [Room.step, hk])
    | over k o =>
      have stay : R.step J (.over k o) = R → ∃ Q, Serves J K (B + (as.length * c + c)) Q (run J (.over k o :: as) R).world ∧
          Callers (run J (.over k o :: as) R).callers Q.state := fun e =>
        next (Q := P) (by rw [e]; exact h.mono (by omega)) (by rw [e]; exact hcs) (by omega)
      cases hk : R.callers[k]? with
      | none => exact stay (by simp only [Room.step, hk])
      | some x =>
        cases x with
        | waiting j =>
          refine next (Q := P) ?_ ?_ (by omega)
          · simp only [Room.step, hk]; exact h.mono (by omega)
          · simp only [Room.step, hk]; exact hcs.put hk rfl (fun _ _ e => nomatch e)
        | _ => exact stay (by simp only [Room.step, hk])

/-- Every history on a fresh database. -/
theorem room_serves (J : Json) {K : Nat} {as : List Act} {db : DB} (hdb : Props.Fresh Sequence.metaPrefix db) (hb : Wait.Brief K as) :
    ∃ Q, Serves J K (2 ^ 62) Q (run J as { world := { db := db } }).world ∧ Callers (run J as { world := { db := db } }).callers Q.state := by
  have h0 : Callers [] ({} : Proc).state :=
    ⟨⟨fun _ _ h => absurd h List.not_mem_nil, fun _ h => absurd h List.not_mem_nil⟩, fun _ h => absurd h List.not_mem_nil,
      fun _ _ h => absurd h List.not_mem_nil, fun _ _ _ _ _ _ h => by cases h⟩
  cases has : as with
  | nil => exact ⟨{}, (Serves.start J K hdb).mono (by omega), h0⟩
  | cons a as' =>
    rw [← has]
    obtain ⟨hf, hn⟩ := hb
    have hpos : 1 ≤ as.length := by rw [has]; exact Nat.le_add_left _ _
    have hb' : Spec.Brief K (List.replicate as.length Ev.crash) :=
      ⟨fun e he => by rw [(List.mem_replicate.mp he).2]; trivial, by rw [List.length_replicate]; exact hn⟩
    obtain ⟨k1, k2⟩ := brief_budget hb' (by rw [List.length_replicate]; exact hpos)
    rw [List.length_replicate] at k1 k2
    obtain ⟨Q, h2, h3⟩ := room_serves_from J (4 * (as.length + 1) * (K + 300)) as (R := { world := { db := db } }) (Serves.start J K hdb) h0 hf (by omega) k1 k2
    exact ⟨Q, h2.mono (by omega), h3⟩

end Mondis.Wait
