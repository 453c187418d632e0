import Verif.Lemmas.DomainGrow
/-!
# The document process: from a request to a database one can use
-/
namespace Mondis.Props
open Mondis Spec Schema Meta Ddl Domain Doc

variable {D : Type} {norm : D → Res D} {S S' R : Site D} {e : Domain.Ev D} {a : Domain.Answer D}

/-- A request for a database is in the queue, or finished. -/
def Tracked (A : DState) (id : Int64) (d : DBInfo) : Prop :=
  (∃ s, (Request.create id d, s) ∈ A.queue ∧ (s = .done → d ∈ A.dbs)) ∨ (id, d) ∈ A.finished ∧ d ∈ A.dbs

theorem tracked_work {A : DState} {id : Int64} {d : DBInfo} (h : Tracked A id d) : Tracked A.work id d := by
  unfold DState.work
  split
  · exact h
  · exact h
  · rename_i j d' q hq
    rcases h with ⟨s, h1, h2⟩ | ⟨h1, h2⟩
    · rw [hq] at h1
      rcases List.mem_cons.mp h1 with e | h1
      · cases e; exact .inr ⟨List.mem_append_right _ (by simp), h2 rfl⟩
      · exact .inl ⟨s, h1, h2⟩
    · exact .inr ⟨List.mem_append_left _ h1, h2⟩
  · rename_i j d' st q hq
    split
    · rcases h with ⟨s, h1, h2⟩ | ⟨h1, h2⟩
      · rw [hq] at h1
        rcases List.mem_cons.mp h1 with e | h1
        · cases e; exact .inl ⟨.failed, List.mem_cons_self, nofun⟩
        · exact .inl ⟨s, List.mem_cons_of_mem _ h1, h2⟩
      · exact .inr ⟨h1, h2⟩
    · rcases h with ⟨s, h1, h2⟩ | ⟨h1, h2⟩
      · rw [hq] at h1
        rcases List.mem_cons.mp h1 with e | h1
        · cases e; exact .inl ⟨.done, List.mem_cons_self, fun _ => List.mem_append_right _ (by simp)⟩
        · exact .inl ⟨s, List.mem_cons_of_mem _ h1, fun e => List.mem_append_left _ (h2 e)⟩
      · exact .inr ⟨h1, List.mem_append_left _ h2⟩
  · rename_i j i st q hq
    rcases h with ⟨s, h1, h2⟩ | ⟨h1, h2⟩
    · rw [hq] at h1
      rcases List.mem_cons.mp h1 with e | h1
      · cases e
      · exact .inl ⟨s, List.mem_cons_of_mem _ h1, h2⟩
    · exact .inr ⟨h1, h2⟩

theorem finished_work {A : DState} {f : Int64 × DBInfo} (h : f ∈ A.finished) : f ∈ A.work.finished := by
  unfold DState.work
  split
  · exact h
  · exact h
  · exact List.mem_append_left _ h
  · split <;> exact h
  · exact h

/-- What a step of package ddl keeps. -/
theorem proc_keeps {P Q : Proc} {e : Ddl.Ev} {a : Ddl.Answer} (h : P.Loose e a Q) :
    (∀ id d, Tracked P.state id d → Tracked Q.state id d) ∧ ∀ f ∈ P.state.finished, f ∈ Q.state.finished := by
  have app : ∀ {A A' : DState} {r}, A'.queue = A.queue ++ r → A'.dbs = A.dbs → A'.finished = A.finished →
      (∀ id d, Tracked A id d → Tracked A' id d) ∧ ∀ f ∈ A.finished, f ∈ A'.finished := by
    intro A A' r h1 h2 h3
    refine ⟨fun id d h => ?_, fun f h => by rw [h3]; exact h⟩
    unfold Tracked at h ⊢
    rw [h1, h2, h3]
    rcases h with ⟨s, g1, g2⟩ | h
    · exact .inl ⟨s, List.mem_append_left _ g1, g2⟩
    · exact .inr h
  rcases h with h | _ | _ | _ | _
  case created => exact app rfl rfl rfl
  case not | found | missed => exact ⟨fun _ _ h => h, fun _ h => h⟩
  cases h with
  | create h => cases h with
    | ok => exact app rfl rfl rfl
    | _ => exact ⟨fun _ _ h => h, fun _ h => h⟩
  | index h => cases h with
    | ok => exact app rfl rfl rfl
    | _ => exact ⟨fun _ _ h => h, fun _ h => h⟩
  | work => exact ⟨fun _ _ => tracked_work, fun _ => finished_work⟩
  | _ => exact ⟨fun _ _ h => h, fun _ h => h⟩

theorem site_state (hs : S.Walk norm e a S') : S'.proc.state = S.proc.state ∨ ∃ e' a', e = .ddl e' ∧ (e' = .crash ∨ a = .ddl a') ∧ S.proc.Loose e' a' S'.proc := by
  cases hs with
  | crash hp => exact .inr ⟨_, _, rfl, .inl rfl, .now hp⟩
  | ddl _ _ hp => exact .inr ⟨_, _, rfl, .inr rfl, hp⟩
  | draw _ hd => exact .inl (Draws.lastID hd)
  | insert _ _ hi =>
    cases hi with
    | ok d x did S₁ _ _ _ hd _ => exact .inl (Draws.lastID hd : S₁.proc.state = _)
    | readOnly d x did S₁ _ _ _ hd _ => exact .inl (Draws.lastID hd)
    | _ => exact .inl rfl
  | commit hv _ =>
    unfold Site.commits
    split
    · exact .inl rfl
    · split
      · exact .inl rfl
      · split <;> exact .inl rfl
  | finish hv _ hf => cases hf <;> exact .inl rfl
  | _ => exact .inl rfl

theorem site_keeps_jobs (hs : S.Walk norm e a S') :
    (∀ id d, Tracked S.proc.state id d → Tracked S'.proc.state id d) ∧ ∀ f ∈ S.proc.state.finished, f ∈ S'.proc.state.finished := by
  rcases site_state hs with h | ⟨e', a', -, -, h⟩
  · rw [h]; exact ⟨fun _ _ h => h, fun _ h => h⟩
  · exact proc_keeps h

theorem steps_keep_jobs {es : List (Domain.Ev D)} {as : List (Domain.Answer D)} (h : S.Walks norm es as R) :
    (∀ id d, Tracked S.proc.state id d → Tracked R.proc.state id d) ∧ ∀ f ∈ S.proc.state.finished, f ∈ R.proc.state.finished := by
  induction h with
  | nil => exact ⟨fun _ _ h => h, fun _ h => h⟩
  | cons h1 _ ih =>
    obtain ⟨a1, a2⟩ := site_keeps_jobs h1
    exact ⟨fun id d h => ih.1 id d (a1 id d h), fun f h => ih.2 f (a2 f h)⟩

/-- A step in a history. -/
theorem steps_at {es : List (Domain.Ev D)} {as : List (Domain.Answer D)} (h : S.Walks norm es as R) {e : Domain.Ev D} {a : Domain.Answer D}
    (hm : (e, a) ∈ es.zip as) : ∃ (Q Q' : Site D) (es' : _) (as' : _), Q.Walk norm e a Q' ∧ Q'.Walks norm es' as' R := by
  induction h with
  | nil => cases hm
  | cons h1 h2 ih =>
    rcases List.mem_cons.mp (show _ ∈ (_, _) :: _ from hm) with e | hm
    · cases e; exact ⟨_, _, _, _, h1, h2⟩
    · exact ih hm

/-- A request that was accepted is tracked. -/
theorem accepted_tracked {es : List (Domain.Ev D)} {as : List (Domain.Answer D)} (h : S.Walks norm es as R) {o : Order} {i : CreateSchemaInput}
    {c : Ddl.Circ} {j : Job} (hm : (.ddl (.createSchema o i c), .ddl (.job (.ok j))) ∈ es.zip as) :
    ∃ n, Tracked R.proc.state j.id (requested n i) := by
  obtain ⟨Q, Q', es', as', h1, h2⟩ := steps_at h hm
  refine ⟨Q.proc.state.lastID, (steps_keep_jobs h2).1 _ _ ?_⟩
  cases h1 with
  | ddl _ _ hp =>
    generalize ha : (Ddl.Answer.job (.ok j)) = a at hp
    have heard : ∀ {j₁ : Job}, Res.ok j = Q.proc.heard (.ok j₁) → j = j₁ := by
      intro j₁ ha
      unfold Proc.heard at ha
      split at ha
      · rename_i e
        cases e
        split at ha
        · exact Res.ok.inj ha
        · cases ha
      · rename_i h
        exact absurd rfl (h _)
    rcases hp with hp | ⟨-, hr⟩ | hid
    case not => exact absurd (Ddl.Answer.job.inj ha).symm (hr j)
    case created =>
      have ej := heard (Ddl.Answer.job.inj ha)
      subst ej
      exact .inl ⟨.waiting, by rw [hid]; exact List.mem_append_right _ (by simp), nofun⟩
    cases hp with
    | createRefused => cases ha
    | create hc =>
      have ha := Ddl.Answer.job.inj ha
      cases hc with
      | ok j₁ _ _ _ _ hid =>
        have ej := heard ha
        subst ej
        exact .inl ⟨.waiting, by rw [hid]; exact List.mem_append_right _ (by simp), nofun⟩
      | _ => cases ha

/-- A job that was found in the history is there. -/
theorem found_finished {es : List (Domain.Ev D)} {as : List (Domain.Answer D)} (h : S.Walks norm es as R) {id : Int64} {c : Ddl.Circ}
    {j : Job} (hm : (.ddl (.getJob id c), .ddl (.found (.ok (some j)))) ∈ es.zip as) : ∃ d, (id, d) ∈ R.proc.state.finished := by
  obtain ⟨Q, Q', es', as', h1, h2⟩ := steps_at h hm
  have : ∃ d, (id, d) ∈ Q.proc.state.finished := by
    cases h1 with
    | ddl _ _ hp =>
      generalize ha : (Ddl.Answer.found (.ok (some j))) = a at hp
      rcases hp with hp | _ | _ | hr
      case not => cases ha
      case found => exact hr j (Ddl.Answer.found.inj ha).symm
      cases hp with
      | getJob =>
        simp only [Ddl.Answer.found.injEq, Res.ok.injEq] at ha
        unfold DState.finishedJob at ha
        cases hf : Q.proc.state.finished.find? (fun f => decide (f.1 = id)) with
        | none => rw [hf] at ha; cases ha
        | some f =>
          have := of_decide_eq_true (p := f.1 = id) (List.find?_some (p := fun f : Int64 × DBInfo => decide (f.1 = id)) hf)
          exact ⟨f.2, by rw [← this]; exact List.mem_of_find?_eq_some hf⟩
      | getJobRefused => cases ha
  obtain ⟨d, hd⟩ := this
  exact ⟨d, (steps_keep_jobs h2).2 _ ((site_keeps_jobs h1).2 _ hd)⟩

/-- Then the database exists. -/
theorem tracked_finished {A : DState} (hs : A.Sane) {id : Int64} {d d' : DBInfo} (h : Tracked A id d) (hf : (id, d') ∈ A.finished) :
    (id, d) ∈ A.finished ∧ d ∈ A.dbs := by
  rcases h with ⟨s, h1, -⟩ | h
  · exfalso
    have hn := hs.nodup
    unfold DState.ids at hn
    have := (List.nodup_append.mp hn).2.2 id (List.mem_append_right _ (List.mem_flatMap.mpr ⟨_, h1, by cases s <;> simp [DState.requestIDs]⟩)) id
      (List.mem_map.mpr ⟨_, hf, rfl⟩)
    exact this rfl
  · exact h

/-- A collection of a database that is known is found. -/
theorem collectionIn_known {dbs : List DBInfo} (hn : (dbs.map (·.name)).Nodup) {d : DBInfo} {n : Nat} (hd : d ∈ dbs.take n) {coll : Bytes}
    {ci : CollectionInfo} (hc : d.collections.get coll = some ci) : collectionIn dbs (some n) d.name coll = some ci.id := by
  unfold collectionIn
  simp only [Option.bind_some]
  cases hf : (dbs.take n).find? (fun x => decide (x.name = d.name)) with
  | none =>
    have := List.find?_eq_none.mp hf d hd
    simp at this
  | some x =>
    have h1 := of_decide_eq_true (p := x.name = d.name) (List.find?_some (p := fun x : DBInfo => decide (x.name = d.name)) hf)
    rw [same_name hn (List.mem_of_mem_take (List.mem_of_find?_eq_some hf)) (List.mem_of_mem_take hd) h1]
    simp only [Option.bind_some, hc, Option.map_some]

/-! ### One transaction after the other -/

theorem steps_cons {es : List (Domain.Ev D)} {as : List (Domain.Answer D)} (h : S.Walks norm (e :: es) as R) :
    ∃ a as' Q, as = a :: as' ∧ S.Walk norm e a Q ∧ Q.Walks norm es as' R := by
  cases h with
  | cons h1 h2 => exact ⟨_, _, _, rfl, h1, h2⟩

theorem put_length (S : Site D) (k : Nat) (v : Visit D) : (S.put k v).visits.length = S.visits.length := by
  show (S.visits.set k _).length = _
  rw [List.length_set]

theorem begin_step {u : Bool} {env : Env} (h : S.Walk norm (.begin u env) a S') :
    a = .none ∧ S'.proc = S.proc ∧ S'.schema = S.schema ∧ S'.docs = S.docs ∧ S'.visits.length = S.visits.length + 1 ∧
      S'.visit S.visits.length = some { schema := S.schema, update := u, docs := S.docs } := by
  cases h
  refine ⟨rfl, rfl, rfl, rfl, ?_, ?_⟩
  · show (S.visits ++ [_]).length = _
    simp
  · rw [visit_append, if_pos rfl]

theorem snapshot_step {k : Nat} {v : Visit D} (hv : S.visit k = some v) (hp : v.phase = .fresh) (h : S.Walk norm (.snapshot k) a S') :
    a = .none ∧ S' = S.put k { v with docs := S.docs, phase := .ready } := by
  cases h with
  | snapshotNot hno => exact absurd hp (hno _ hv)
  | snapshot hv' _ => rw [hv] at hv'; cases hv'; exact ⟨rfl, rfl⟩

theorem insert_step {k : Nat} {v : Visit D} (hv : S.visit k = some v) (hp : v.phase = .ready) (hu : v.update = true) {db coll : Bytes} {x : Int64}
    (hx : collectionIn S.proc.state.dbs v.schema db coll = some x) (hh : S.proc.has x = true) {doc d : D} (hn : norm doc = .ok d) {mark : Bool}
    {c : Ddl.Circ} (hc : c.fail = none) (h : S.Walk norm (.insert k db coll doc mark c) a S') :
    ∃ did T, a = .inserted (.ok did) ∧ S.Draws x did T ∧
      S' = T.put k { v with docs := v.docs.upd x ((v.docs x).set did d), touched := v.touched ++ [(x, did)], drawn := v.drawn ++ [(x, did)] } := by
  cases h with
  | insertNot hno => exact absurd hp (hno _ hv)
  | insert hv' _ hi =>
    rw [hv] at hv'; cases hv'
    cases hi with
    | invalid e he => rw [hn] at he; cases he
    | crash he => rw [hn] at he; cases he
    | nowhere _ _ he => rw [hx] at he; cases he
    | noSequence _ y _ he hs => rw [hx] at he; cases he; rw [hh] at hs; cases hs
    | refused _ _ _ _ _ _ _ he => rw [hc] at he; cases he
    | readOnly _ _ _ _ _ _ _ _ he => rw [hu] at he; cases he
    | ok d' y did T hn' hy _ hd _ =>
      rw [hn] at hn'; cases hn'
      rw [hx] at hy; cases hy
      exact ⟨did, T, rfl, hd, rfl⟩

theorem recent_refl (n : Option Nat) : recent n n = true := by
  cases n with
  | none => rfl
  | some n => exact decide_eq_true (by omega)

theorem commit_step {k : Nat} {v : Visit D} (hv : S.visit k = some v) (hp : v.phase = .ready) (hu : v.update = true)
    (hr : recent v.schema S.schema = true) (h : S.Walk norm (.commit k) a S') : a = .none ∧ S' = S.put k { v with phase := .checked } := by
  have key : S.commits k v = (.none, S.put k { v with phase := .checked }) := by
    unfold Site.commits
    rw [if_neg (by rw [hu]; nofun), if_neg (by rw [hr]; nofun), if_neg (by rw [hp]; nofun)]
  generalize he : (Domain.Ev.commit k : Domain.Ev D) = e at h
  cases h with
  | commitNot hno => cases he; exact absurd hp (hno _ hv).1
  | commit hv' _ => cases he; rw [hv] at hv'; cases hv'; rw [key]; exact ⟨rfl, rfl⟩
  | _ => cases he

theorem finish_step {k : Nat} {v : Visit D} (hv : S.visit k = some v) (hp : v.phase = .checked) (ht : v.touched ≠ [])
    (h : S.Walk norm (.finish k none) a S') :
    ∃ A, a = .committed (.ok ()) ∧ Merged v.touched v.docs S.docs A ∧ S' = { S with docs := A }.put k { v with phase := .over } := by
  cases h with
  | finishNot hno => exact absurd hp (hno _ hv)
  | finish hv' _ hf =>
    rw [hv] at hv'; cases hv'
    cases hf with
    | nothing h0 => exact absurd h0 ht
    | refused e _ h0 => cases h0
    | ok A _ _ hm => exact ⟨A, rfl, hm, rfl⟩

/-- A document is inserted and read by the next transaction. -/
theorem steps_roundtrip {e₁ e₂ : Env} {k : Nat} (hk : k = S.visits.length) {db coll : Bytes} {x : Int64}
    (hx : collectionIn S.proc.state.dbs S.schema db coll = some x) (hh : S.proc.has x = true) {doc d : D} (hn : norm doc = .ok d) {mark : Bool} {c : Ddl.Circ}
    (hc : c.fail = none) {as : List (Domain.Answer D)}
    (h : S.Walks norm [.begin true e₁, .snapshot k, .insert k db coll doc mark c, .commit k, .finish k none, .begin false e₂, .snapshot (k + 1)] as R) :
    ∃ did, as = [.none, .none, .inserted (.ok did), .none, .committed (.ok ()), .none, .none] ∧
      ∃ v, R.visit (k + 1) = some v ∧ v.phase = .ready ∧ v.update = false ∧ collectionIn R.proc.state.dbs v.schema db coll = some x ∧
        (v.docs x).get did = some d := by
  obtain ⟨a₁, as, S₁, rfl, h1, h⟩ := steps_cons h
  obtain ⟨a₂, as, S₂, rfl, h2, h⟩ := steps_cons h
  obtain ⟨a₃, as, S₃, rfl, h3, h⟩ := steps_cons h
  obtain ⟨a₄, as, S₄, rfl, h4, h⟩ := steps_cons h
  obtain ⟨a₅, as, S₅, rfl, h5, h⟩ := steps_cons h
  obtain ⟨a₆, as, S₆, rfl, h6, h⟩ := steps_cons h
  obtain ⟨a₇, as, S₇, rfl, h7, h⟩ := steps_cons h
  cases h
  obtain ⟨rfl, p1, s1, d1, l1, v1⟩ := begin_step h1
  rw [← hk] at l1 v1
  obtain ⟨rfl, rfl⟩ := snapshot_step v1 rfl h2
  have v2 := Site.visit_put (j := k) (v' := ({ schema := S.schema, update := true, phase := .ready, docs := S₁.docs } : Visit D)) v1
  rw [if_pos rfl] at v2
  obtain ⟨did, T, rfl, hd, rfl⟩ := insert_step v2 rfl rfl (x := x) (by show collectionIn S₁.proc.state.dbs S.schema db coll = _; rw [p1]; exact hx)
    (by show S₁.proc.has x = true; rw [p1]; exact hh) hn hc h3
  have vT := (Draws.visit hd k).trans v2
  have pT : T.proc.state = S.proc.state := (Draws.lastID hd).trans (by rw [← p1]; rfl)
  have sT : T.schema = S.schema ∧ T.visits.length = k + 1 := by
    have hlen := put_length S₁ k ({ schema := S.schema, update := true, phase := .ready, docs := S₁.docs } : Visit D)
    cases hd
    · exact ⟨s1, hlen.trans l1⟩
    · exact ⟨s1, hlen.trans l1⟩
  have v3 := Site.visit_put (j := k) (v' := (⟨S.schema, true, .ready, Docs.upd S₁.docs x ((S₁.docs x).set did d), [(x, did)], [(x, did)]⟩ : Visit D)) vT
  rw [if_pos rfl] at v3
  obtain ⟨rfl, rfl⟩ := commit_step v3 rfl rfl (by show recent S.schema T.schema = true; rw [sT.1]; exact recent_refl _) h4
  have v4 := Site.visit_put (j := k) (v' := (⟨S.schema, true, .checked, Docs.upd S₁.docs x ((S₁.docs x).set did d), [(x, did)], [(x, did)]⟩ : Visit D)) v3
  rw [if_pos rfl] at v4
  obtain ⟨A, rfl, hA, rfl⟩ := finish_step v4 rfl nofun h5
  obtain ⟨rfl, p6, s6, d6, l6, v6⟩ := begin_step h6
  have lk : ∀ u₁ u₂ u₃, (Site.put { (Site.put (Site.put T k u₁) k u₂) with docs := A } k u₃).visits.length = k + 1 := by
    intro u₁ u₂ u₃
    simp only [Site.put, List.length_set]
    exact sT.2
  rw [lk] at v6
  obtain ⟨rfl, rfl⟩ := snapshot_step v6 rfl h7
  refine ⟨did, rfl, _, Site.visit_put v6 |>.trans (if_pos rfl), rfl, rfl, ?_, ?_⟩
  · show collectionIn S₆.proc.state.dbs _ db coll = some x
    rw [p6]
    show collectionIn T.proc.state.dbs T.schema db coll = some x
    rw [pT, sT.1]; exact hx
  · show (S₆.docs x).get did = some d
    rw [d6]
    show (A x).get did = some d
    rw [hA x did, if_pos (by simp)]
    show ((Docs.upd S₁.docs x ((S₁.docs x).set did d)) x).get did = some d
    unfold Docs.upd
    rw [if_pos rfl, IMap.get_set, if_pos rfl]

end Mondis.Props
