import Verif.Lemmas.DomainLoose
/-!
# The document process: what only grows
-/
namespace Mondis.Props
open Mondis Spec Schema Meta Ddl Domain Doc

variable {D : Type} {norm : D → Res D} {S S' R : Site D} {e : Domain.Ev D} {a : Domain.Answer D}

/-- Schema `a` is not newer than `b`. -/
def Older (a b : Option Nat) : Prop := a.getD 0 ≤ b.getD 0 ∧ (b = none → a = none)

theorem Older.refl (a : Option Nat) : Older a a := ⟨Nat.le_refl _, fun h => h⟩
theorem Older.trans {a b c : Option Nat} (h : Older a b) (h' : Older b c) : Older a c :=
  ⟨Nat.le_trans h.1 h'.1, fun e => h.2 (h'.2 e)⟩

/-- A transaction that may not commit now never may. -/
theorem stale_stays {a b c : Option Nat} (h : Older a b) (h' : Older b c) (hr : recent a b = false) : recent a c = false := by
  cases a with
  | none => cases b with
    | none => cases hr
    | some b => cases c with
      | none => cases h'.2 rfl
      | some c => rfl
  | some a => cases b with
    | none => cases h.2 rfl
    | some b => cases c with
      | none => rfl
      | some c =>
        have h1 : b ≤ c := h'.1
        have h2 : decide (b ≤ a + 100) = false := hr
        have := of_decide_eq_false h2
        exact decide_eq_false (by omega)

theorem work_grows (A : DState) : ∃ l, A.work.dbs = A.dbs ++ l := by
  unfold DState.work
  split
  · exact ⟨[], (List.append_nil _).symm⟩
  · exact ⟨[], (List.append_nil _).symm⟩
  · exact ⟨[], (List.append_nil _).symm⟩
  · split
    · exact ⟨[], (List.append_nil _).symm⟩
    · exact ⟨_, rfl⟩
  · exact ⟨[], (List.append_nil _).symm⟩

theorem proc_grows {P Q : Proc} {e : Ddl.Ev} {a : Ddl.Answer} (h : P.Loose e a Q) : ∃ l, Q.state.dbs = P.state.dbs ++ l := by
  have nil : ∀ {d : List DBInfo}, ∃ l, d = d ++ l := ⟨[], (List.append_nil _).symm⟩
  rcases h with h | _ | _ | _ | _
  case not | created | found | missed => exact nil
  cases h with
  | create h => cases h <;> exact nil
  | index h => cases h <;> exact nil
  | work => exact work_grows _
  | _ => exact nil

theorem proc_last {P Q : Proc} {e : Ddl.Ev} {a : Ddl.Answer} (h : P.Loose e a Q) (hd : ∀ x c, e ≠ .draw x c) : Q.last = P.last := by
  rcases h with h | _ | _ | _ | _
  case not | created | found | missed => rfl
  cases h with
  | draw => exact absurd rfl (hd _ _)
  | drawRefused => rfl
  | drawNot => rfl
  | _ => rfl

theorem site_visit_giveBack (l : List (Int64 × Int64)) (k : Nat) : (S.giveBack l).visit k = S.visit k := rfl

/-- In all reachable states. -/
structure Known (S : Site D) : Prop where
  schema : S.schema.getD 0 ≤ S.proc.state.dbs.length
  loaded : ∀ n, S.loaded = some n → n ≤ S.proc.state.dbs.length ∧ S.schema.getD 0 ≤ n
  visits : ∀ k v, S.visit k = some v → Older v.schema S.schema

theorem known_start : Known ({} : Site D) :=
  by
  refine ⟨Nat.le_refl _, fun n h => (nomatch h), fun k v h => ?_⟩
  have : ((([] : List (Option (Visit D)))[k]?).join) = some v := h
  simp at this

theorem Known.put (h : Known S) {k : Nat} {v v' : Visit D} (hv : S.visit k = some v) (he : v'.schema = v.schema) : Known (S.put k v') where
  schema := h.schema
  loaded := h.loaded
  visits := by
    intro j v₁ h1
    rw [Site.visit_put hv] at h1
    by_cases ej : k = j
    · rw [if_pos ej] at h1; cases h1; rw [he]; exact h.visits k v hv
    · rw [if_neg ej] at h1; exact h.visits j v₁ h1

theorem Known.giveBack (h : Known S) (l : List (Int64 × Int64)) : Known (S.giveBack l) := ⟨h.schema, h.loaded, h.visits⟩

theorem Known.draws (h : Known S) {x v : Int64} (hd : S.Draws x v S') : Known S' := by
  cases hd <;> exact ⟨h.schema, h.loaded, h.visits⟩

theorem site_operate_keeps (v : Visit D) (db coll : Bytes) (o : Op D) :
    (S.operate norm v db coll o).2.schema = v.schema ∧ (S.operate norm v db coll o).2.drawn = v.drawn ∧
    (S.operate norm v db coll o).2.phase = v.phase ∧ (S.operate norm v db coll o).2.update = v.update := by
  unfold Site.operate
  split
  · exact ⟨rfl, rfl, rfl, rfl⟩
  · exact ⟨rfl, rfl, rfl, rfl⟩
  · split
    · exact ⟨rfl, rfl, rfl, rfl⟩
    · dsimp only
      split <;> exact ⟨rfl, rfl, rfl, rfl⟩

theorem visit_append (l : List (Option (Visit D))) (x : Option (Visit D)) (j : Nat) :
    Site.visit { S with visits := l ++ [x] } j = if j = l.length then x else (l[j]?).join := join_append l x j

theorem Known.step (h : Known S) (hs : S.Walk norm e a S') : Known S' := by
  cases hs with
  | crash hp =>
    cases hp
    refine ⟨Nat.zero_le _, fun n h => (nomatch h), ?_⟩
    intro k v hv
    have : (((S.visits.map (fun _ => (none : Option (Visit D))))[k]?).join) = some v := hv
    rw [List.getElem?_map] at this
    cases hx : S.visits[k]? <;> rw [hx] at this <;> cases this
  | ddl _ _ hp =>
    obtain ⟨l, hl⟩ := proc_grows hp
    have hlen : S.proc.state.dbs.length ≤ _ := (by rw [hl, List.length_append]; omega : S.proc.state.dbs.length ≤ (Proc.state _).dbs.length)
    exact ⟨Nat.le_trans h.schema hlen, fun n hn => ⟨Nat.le_trans (h.loaded n hn).1 hlen, (h.loaded n hn).2⟩, h.visits⟩
  | ddlNot => exact h
  | drawNot => exact h
  | drawRefused => exact h
  | draw _ hd => exact h.draws hd
  | reloadBusy => exact h
  | reloadSame => exact h
  | reload hl hne =>
    exact ⟨h.schema, fun n hn => by cases hn; exact ⟨Nat.le_refl _, h.schema⟩, h.visits⟩
  | publishNot => exact h
  | publish hl =>
    rename_i n
    refine ⟨(h.loaded n hl).1, fun n h => (nomatch h), fun k v hv => (h.visits k v hv).trans ⟨(h.loaded n hl).2, nofun⟩⟩
  | begin =>
    refine ⟨h.schema, h.loaded, fun k v hv => ?_⟩
    rw [visit_append] at hv
    split at hv
    · cases hv; exact .refl _
    · exact h.visits k v hv
  | snapshot hv _ => exact h.put hv rfl
  | snapshotNot => exact h
  | insert hv _ hi =>
    rename_i k v db coll doc mark c r
    cases hi with
    | ok d x did S₁ _ _ _ hd _ => exact (h.draws hd).put ((Draws.visit hd _).trans hv) rfl
    | readOnly d x did S₁ _ _ _ hd _ => exact h.draws hd
    | _ => exact h
  | insertNot => exact h
  | op hv _ => exact h.put hv (site_operate_keeps _ _ _ _).1
  | opNot => exact h
  | discard hv _ => exact h.put hv rfl
  | discardNot => exact h
  | commit hv _ =>
    unfold Site.commits
    split
    · exact h
    · split
      · exact (h.giveBack _).put ((site_visit_giveBack _ _).trans hv) rfl
      · split
        · exact h
        · exact h.put hv rfl
  | commitNot => exact h
  | finish hv _ hf =>
    cases hf with
    | nothing => exact h.put hv rfl
    | refused => exact (h.giveBack _).put ((site_visit_giveBack _ _).trans hv) rfl
    | ok A =>
      have h' : Known ({ S with docs := A } : Site D) := ⟨h.schema, h.loaded, h.visits⟩
      exact h'.put hv rfl
  | finishNot => exact h

/-- The published schema only grows, as long as the process lives; databases are only added. -/
theorem site_schema_grows (h : Known S) (hs : S.Walk norm e a S') (hc : e ≠ .ddl .crash) : Older S.schema S'.schema := by
  cases hs with
  | crash => exact absurd rfl hc
  | publish hl => exact ⟨(h.loaded _ hl).2, nofun⟩
  | draw _ hd => cases hd <;> exact .refl _
  | insert _ _ hi =>
    cases hi with
    | ok d x did S₁ _ _ _ hd _ => cases hd <;> exact .refl _
    | readOnly d x did S₁ _ _ _ hd _ => cases hd <;> exact .refl _
    | _ => exact .refl _
  | commit hv _ =>
    unfold Site.commits
    split
    · exact .refl _
    · split
      · exact .refl _
      · split <;> exact .refl _
  | finish hv _ hf => cases hf <;> exact .refl _
  | _ => exact .refl _

theorem site_dbs_grow (hs : S.Walk norm e a S') : ∃ l, S'.proc.state.dbs = S.proc.state.dbs ++ l := by
  have nil : ∀ {d : List DBInfo}, ∃ l, d = d ++ l := ⟨[], (List.append_nil _).symm⟩
  cases hs with
  | crash hp => exact proc_grows (.now hp)
  | ddl _ _ hp => exact proc_grows hp
  | draw _ hd => rw [Draws.lastID hd]; exact nil
  | insert _ _ hi =>
    cases hi with
    | ok d x did S₁ _ _ _ hd _ => show ∃ l, S₁.proc.state.dbs = _; rw [Draws.lastID hd]; exact nil
    | readOnly d x did S₁ _ _ _ hd _ => rw [Draws.lastID hd]; exact nil
    | _ => exact nil
  | commit hv _ =>
    unfold Site.commits
    split
    · exact nil
    · split
      · exact nil
      · split <;> exact nil
  | finish hv _ hf => cases hf <;> exact nil
  | _ => exact nil

/-- What a transaction knows does not change as long as the process lives. -/
theorem site_keeps (hs : S.Walk norm e a S') (hc : e ≠ .ddl .crash) {k : Nat} {v : Visit D} (hv : S.visit k = some v) :
    ∃ v', S'.visit k = some v' ∧ v'.schema = v.schema ∧ v'.update = v.update := by
  have put : ∀ {T : Site D} {j : Nat} {u u' : Visit D}, T.visit j = some u → T.visit k = some v → u'.schema = u.schema → u'.update = u.update →
      ∃ v', (T.put j u').visit k = some v' ∧ v'.schema = v.schema ∧ v'.update = v.update := by
    intro T j u u' hu hk h1 h2
    rw [Site.visit_put hu]
    by_cases e : j = k
    · subst e
      rw [hk] at hu; cases hu
      exact ⟨u', by rw [if_pos rfl], h1, h2⟩
    · exact ⟨v, by rw [if_neg e]; exact hk, rfl, rfl⟩
  have same : ∀ {T : Site D}, T.visit k = some v → ∃ v', T.visit k = some v' ∧ v'.schema = v.schema ∧ v'.update = v.update :=
    fun h => ⟨v, h, rfl, rfl⟩
  cases hs with
  | crash => exact absurd rfl hc
  | draw _ hd => exact same ((Draws.visit hd k).trans hv)
  | begin =>
    refine same (T := _) ?_
    rw [visit_append, if_neg]
    · exact hv
    · intro e
      unfold Site.visit at hv
      rw [List.getElem?_eq_none (by omega)] at hv
      cases hv
  | snapshot hu _ => exact put hu hv rfl rfl
  | insert hu _ hi =>
    cases hi with
    | ok d x did S₁ _ _ _ hd _ => exact put ((Draws.visit hd _).trans hu) ((Draws.visit hd k).trans hv) rfl rfl
    | readOnly d x did S₁ _ _ _ hd _ => exact same ((Draws.visit hd k).trans hv)
    | _ => exact same hv
  | op hu _ => exact put hu hv (site_operate_keeps _ _ _ _).1 (site_operate_keeps _ _ _ _).2.2.2
  | discard hu _ => exact put hu hv rfl rfl
  | commit hu _ =>
    unfold Site.commits
    split
    · exact same hv
    · split
      · exact put ((site_visit_giveBack _ _).trans hu) ((site_visit_giveBack _ _).trans hv) rfl rfl
      · split
        · exact same hv
        · exact put hu hv rfl rfl
  | finish hu _ hf =>
    cases hf with
    | nothing => exact put hu hv rfl rfl
    | refused => exact put ((site_visit_giveBack _ _).trans hu) ((site_visit_giveBack _ _).trans hv) rfl rfl
    | ok A => exact put (T := { S with docs := A }) hu hv rfl rfl
  | _ => exact same hv

/-- All of it, over histories. -/
theorem steps_grow {es : List (Domain.Ev D)} {as : List (Domain.Answer D)} (h : S.Walks norm es as R) (hk : Known S) :
    Known R ∧ (∃ l, R.proc.state.dbs = S.proc.state.dbs ++ l) ∧
    ((∀ e ∈ es, e ≠ .ddl .crash) → Older S.schema R.schema ∧
      ∀ k v, S.visit k = some v → ∃ v', R.visit k = some v' ∧ v'.schema = v.schema ∧ v'.update = v.update) := by
  induction h with
  | nil => exact ⟨hk, ⟨[], (List.append_nil _).symm⟩, fun _ => ⟨.refl _, fun k v h => ⟨v, h, rfl, rfl⟩⟩⟩
  | cons h1 _ ih =>
    obtain ⟨i1, ⟨l, i2⟩, i3⟩ := ih (hk.step h1)
    obtain ⟨l', g⟩ := site_dbs_grow h1
    refine ⟨i1, ⟨l' ++ l, by rw [i2, g, List.append_assoc]⟩, fun hc => ?_⟩
    obtain ⟨j1, j2⟩ := i3 (fun e he => hc e (List.mem_cons_of_mem _ he))
    refine ⟨(site_schema_grows hk h1 (hc _ List.mem_cons_self)).trans j1, fun k v hv => ?_⟩
    obtain ⟨v', h2, h3, h4⟩ := site_keeps h1 (hc _ List.mem_cons_self) hv
    obtain ⟨v'', h5, h6, h7⟩ := j2 k v' h2
    exact ⟨v'', h5, h6.trans h3, h7.trans h4⟩

/-- The events that finish a transaction. -/
def Ends (k : Nat) (e : Domain.Ev D) : Prop := e = .discard k ∨ ∃ f, e = .finish k f

/-- A transaction is over only after a Discard or the engine's commit. -/
theorem over_step (hs : S.Walk norm e a S') {k : Nat} {v : Visit D} (hv : S'.visit k = some v) (hp : v.phase = .over) :
    (∃ u, S.visit k = some u ∧ u.phase = .over) ∨ Ends k e := by
  have put : ∀ {T : Site D} {j : Nat} {u u' : Visit D}, T.visit j = some u → (T.put j u').visit k = some v → (u'.phase = .over → u.phase = .over) →
      ∃ u, T.visit k = some u ∧ u.phase = .over := by
    intro T j u u' hu hk h1
    rw [Site.visit_put hu] at hk
    by_cases e : j = k
    · subst e
      rw [if_pos rfl] at hk; cases hk
      exact ⟨u, hu, h1 hp⟩
    · rw [if_neg e] at hk; exact ⟨v, hk, hp⟩
  have other : ∀ {T : Site D} {j : Nat} {u u' : Visit D} {e : Domain.Ev D}, T.visit j = some u → (T.put j u').visit k = some v → Ends j e →
      (∃ u, T.visit k = some u ∧ u.phase = .over) ∨ Ends k e := by
    intro T j u u' e hu hk h1
    rw [Site.visit_put hu] at hk
    by_cases e : j = k
    · subst e; exact .inr h1
    · rw [if_neg e] at hk; exact .inl ⟨v, hk, hp⟩
  cases hs with
  | crash =>
    have : (((S.visits.map (fun _ => (none : Option (Visit D))))[k]?).join) = some v := hv
    rw [List.getElem?_map] at this
    cases hx : S.visits[k]? <;> rw [hx] at this <;> cases this
  | draw _ hd => exact .inl ⟨v, (Draws.visit hd k).symm.trans hv, hp⟩
  | begin =>
    rw [visit_append] at hv
    split at hv
    · cases hv; cases hp
    · exact .inl ⟨v, hv, hp⟩
  | snapshot hu _ => exact .inl (put hu hv nofun)
  | insert hu _ hi =>
    cases hi with
    | ok d x did S₁ _ _ _ hd _ =>
      obtain ⟨u, h1, h2⟩ := put ((Draws.visit hd _).trans hu) hv (fun h => h)
      exact .inl ⟨u, (Draws.visit hd k).symm.trans h1, h2⟩
    | readOnly d x did S₁ _ _ _ hd _ => exact .inl ⟨v, (Draws.visit hd k).symm.trans hv, hp⟩
    | _ => exact .inl ⟨v, hv, hp⟩
  | op hu _ => exact .inl (put hu hv (fun h => by rw [(site_operate_keeps _ _ _ _).2.2.1] at h; exact h))
  | discard hu _ => exact other hu hv (.inl rfl)
  | commit hu _ =>
    unfold Site.commits at hv
    split at hv
    · exact .inl ⟨v, hv, hp⟩
    · split at hv
      · rename_i j u _ _ _
        exact .inl (put (T := S.giveBack u.drawn) hu hv (fun h => h))
      · split at hv
        · exact .inl ⟨v, hv, hp⟩
        · exact .inl (put hu hv nofun)
  | finish hu _ hf =>
    rename_i j u fail r _
    cases hf with
    | nothing => exact other hu hv (.inr ⟨_, rfl⟩)
    | refused => exact other (T := S.giveBack u.drawn) hu hv (.inr ⟨_, rfl⟩)
    | ok A => exact other (T := { S with docs := A }) hu hv (.inr ⟨_, rfl⟩)
  | _ => exact .inl ⟨v, hv, hp⟩

theorem over_why {es : List (Domain.Ev D)} {as : List (Domain.Answer D)} (h : S.Walks norm es as R) {k : Nat} {v : Visit D}
    (hv : R.visit k = some v) (hp : v.phase = .over) : (∃ u, S.visit k = some u ∧ u.phase = .over) ∨ ∃ e ∈ es, Ends k e := by
  induction h with
  | nil => exact .inl ⟨v, hv, hp⟩
  | cons h1 _ ih =>
    rcases ih hv with ⟨u, h2, h3⟩ | ⟨e, h2, h3⟩
    · rcases over_step h1 h2 h3 with h4 | h4
      · exact .inl h4
      · exact .inr ⟨_, List.mem_cons_self, h4⟩
    · exact .inr ⟨e, List.mem_cons_of_mem _ h2, h3⟩

/-- A Commit panics only if the transaction is over. -/
theorem commit_panics (hs : S.Walk norm e (.committed .panic) S') : ∃ k v, e = .commit k ∧ S.visit k = some v ∧ v.phase = .over := by
  generalize ha : (Domain.Answer.committed .panic : Domain.Answer D) = a at hs
  cases hs with
  | commit hv _ =>
    rename_i k v _
    unfold Site.commits at ha
    split at ha
    · cases ha
    · split at ha
      · cases ha
      · split at ha
        · exact ⟨k, v, rfl, hv, by assumption⟩
        · cases ha
  | finish hv _ hf => cases hf <;> cases ha
  | _ => cases ha

end Mondis.Props
