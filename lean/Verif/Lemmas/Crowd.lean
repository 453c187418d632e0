import Verif.Spec.Crowd
import Verif.Lemmas.DomainJobs
import Verif.Lemmas.RaceFacts
/-!
# Documents and overlapping calls of package ddl
-/
namespace Mondis.Props
open Mondis Spec Schema Meta Ddl Domain Doc

variable {D : Type} {J : Json} {C : Codec D} {K B : Nat}

/-! ### Package ddl among transactions on documents -/

theorem snap_bare (w : Ddl.World) (past : List DB) (turn n : Nat) : (⟨bare w, past, turn⟩ : Race.Hub).snap n = (⟨w, past, turn⟩ : Race.Hub).snap n := by
  cases n <;> rfl

theorem does_bare (J : Json) (w : Ddl.World) (past : List DB) (turn : Nat) {e : Race.Ev} (he : ∀ x c, e.ev ≠ .draw x c) :
    (⟨bare w, past, turn⟩ : Race.Hub).does J e =
      (((⟨w, past, turn⟩ : Race.Hub).does J e).1, bare ((⟨w, past, turn⟩ : Race.Hub).does J e).2) := by
  obtain ⟨ev, n⟩ := e
  cases ev with
  | draw x c => exact absurd rfl (he x c)
  | crash => rfl
  | init o env fail => exact step_bare J w (e := .init o env fail) (by simp)
  | work o₁ o₂ o₃ c env =>
    simp only [Race.Hub.does, snap_bare]
    rw [show (bare w).stuck = w.stuck from rfl, show (bare w).up = w.up from rfl, show (bare w).vars = w.vars from rfl,
      show (bare w).db = w.db from rfl]
    split
    · rfl
    · split
      · rename_i out _
        refine Prod.ext rfl ?_
        exact (afterCommit_bare env out.after { w with db := _, vars := _ }).1
      · rfl
  | createSchema o i c => simp only [Race.Hub.does, snap_bare]; rfl
  | addIndex i c => simp only [Race.Hub.does, snap_bare]; rfl
  | getJob id c => simp only [Race.Hub.does, snap_bare]; rfl

theorem does_grown (J : Json) (h : Race.Hub) {e : Race.Ev} (he : ∀ x c, e.ev ≠ .draw x c) (hc : e.ev ≠ .crash) :
    Grown h.w.seqs (h.does J e).2.seqs := by
  obtain ⟨ev, n⟩ := e
  cases ev with
  | draw x c => exact absurd rfl (he x c)
  | crash => exact absurd rfl hc
  | init o env fail => exact step_grown J h.w (e := .init o env fail) (by simp) (by simp)
  | work o₁ o₂ o₃ c env =>
    simp only [Race.Hub.does]
    split
    · exact .refl _
    · split
      · rename_i out _
        exact (afterCommit_bare env out.after { h.w with db := _, vars := _ }).2
      · exact .refl _
  | createSchema o i c => exact .refl _
  | addIndex i c => exact .refl _
  | getJob id c => exact .refl _

/-- As `update_frame`, for a transaction that started on `snap`. -/
theorem update_frame_from {α : Type} {P : Bytes → Prop} {p : Prog α} (hp : p.Writes P) (env : Env) (fail : Option Err) (snap db : DB)
    {k : Bytes} (hk : ¬ P k) : (Util.runInNewUpdateTxn env fail p snap db).2.get k = db.get k := by
  unfold Util.runInNewUpdateTxn Util.body
  obtain ⟨ws, h1, h2⟩ := Prog.run_writes hp (Txn.start { env with update := true } snap)
  cases hx : p.run (Txn.start { env with update := true } snap) with
  | mk r t =>
    rw [hx] at h1
    cases r with
    | err e => rfl
    | panic => rfl
    | ok a =>
      have : ∀ r db', t.commit fail db = (r, db') → db'.get k = db.get k := by
        intro r db' hc
        unfold Txn.commit at hc
        split at hc
        · cases hc; rfl
        · split at hc
          · cases hc; rfl
          · cases hc
            refine Prog.get_applyWrites_of_not_mem ?_
            intro hm
            obtain ⟨w, hw, e⟩ := List.mem_map.mp hm
            rw [show t.writes = _ from h1] at hw
            exact hk (e ▸ (h2 w hw).1)
      cases hc : t.commit fail db with
      | mk r' db' =>
        have := this _ _ hc
        simp only [hc]
        cases r' <;> exact this

theorem late_frame (J : Json) {α : Type} (env : Env) (fail : Option Err) (p : Client α) (snap db : DB) {k : Bytes}
    (hk : ¬ IsPrefixOf Sequence.metaPrefix k) : (Race.lateTxn J env fail p snap db).2.get k = db.get k :=
  update_frame_from (sprog_writes _ _) _ _ _ _ hk

theorem does_frame (J : Json) (h : Race.Hub) (e : Race.Ev) {k : Bytes} (hk : ¬ IsPrefixOf Sequence.metaPrefix k) :
    (h.does J e).2.db.get k = h.w.db.get k := by
  obtain ⟨ev, n⟩ := e
  cases ev with
  | createSchema o i c => exact late_frame J _ _ _ _ _ hk
  | addIndex i c => exact late_frame J _ _ _ _ _ hk
  | getJob id c => exact late_frame J _ _ _ _ _ hk
  | crash => exact ddl_frame J h.w .crash hk
  | draw x c => exact ddl_frame J h.w (.draw x c) hk
  | init o env fail => exact ddl_frame J h.w (.init o env fail) hk
  | work o₁ o₂ o₃ c env =>
    have := late_frame J c.env c.fail (workTxn o₁ o₂ o₃ h.w.vars) (h.snap (min n h.turn)) h.w.db hk
    simp only [Race.Hub.does]
    split
    · rfl
    · split
      · exact (afterCommit_frame env _ hk _).trans this
      · exact this

/-! ### What an overlapping call may do -/

theorem finished_seen {S : Span} (hp : ∀ A ∈ S.past, ∀ f ∈ A.finished, f ∈ S.proc.state.finished) (n : Nat) :
    ∀ f ∈ (S.seen n).finished, f ∈ S.proc.state.finished := by
  cases n with
  | zero => exact fun f h => h
  | succ n =>
    show ∀ f ∈ (S.past.getD n S.proc.state).finished, _
    rw [List.getD_eq_getElem?_getD]
    cases hA : S.past[n]? with
    | none => exact fun f h => h
    | some A => exact hp A (List.mem_of_getElem? hA)

theorem does_loose {S : Span} {e : Race.Ev} {a : Ddl.Answer} {Q : Proc} (h : S.Does e a Q)
    (hp : ∀ A ∈ S.past, ∀ f ∈ A.finished, f ∈ S.proc.state.finished) : S.proc.Loose e.ev a Q := by
  cases h with
  | create _ hn => exact .not (.inl ⟨_, _, _, rfl⟩) hn
  | created hc he _ =>
    cases hc with
    | ok j _ _ _ _ hid => exact .created (by rw [hid, he])
  | createRefused _ => exact .not (.inl ⟨_, _, _, rfl⟩) (by simp)
  | index _ hn => exact .not (.inr ⟨_, _, rfl⟩) hn
  | indexed _ ha _ => exact .now (.index ha)
  | indexRefused _ => exact .not (.inr ⟨_, _, rfl⟩) (by simp)
  | getJob =>
    refine .found fun j hj => ?_
    rename_i id c n
    simp only [Res.ok.injEq] at hj
    unfold DState.finishedJob at hj
    cases hf : (S.seen n).finished.find? (fun f => decide (f.1 = id)) with
    | none => rw [hf] at hj; cases hj
    | some f =>
      have := of_decide_eq_true (p := f.1 = id) (List.find?_some (p := fun f : Int64 × DBInfo => decide (f.1 = id)) hf)
      exact ⟨f.2, by rw [← this]; exact finished_seen hp n _ (List.mem_of_find?_eq_some hf)⟩
  | work h => exact .now h
  | workMissed hr _ => exact .missed hr
  | draw h => exact .now h
  | crash h => exact .now h
  | init h => exact .now h

theorem loose_has {P Q : Proc} {e : Ddl.Ev} {a : Ddl.Answer} (h : P.Loose e a Q) (hc : e ≠ .crash) (x : Int64) (hx : P.has x = true) :
    Q.has x = true := by
  rcases h with h | _ | _ | _ | _
  case now => exact step_has h hc x hx
  all_goals exact hx

/-! ### One event -/

/-- The event as package ddl sees it. -/
def raceEv (e : Crowd.Ev D) : Race.Ev :=
  match e.ev with
  | .ddl d => ⟨d, e.back⟩
  | _ => ⟨.draw 0 { env := { update := true, now := 0, tooBig := fun _ => false, prune := fun _ => false } }, 0⟩

/-- The code's state and the specification's, now and before. -/
structure CrowdOK (J : Json) (C : Codec D) (K B : Nat) (S : Throng D) (h : Crowd.Hub) : Prop where
  site : Match J C K B S.site h.w
  hub : Race.HubOK J K B (S.span S.site.proc) ⟨bare h.w.ddl, h.past, h.turn⟩
  done : ∀ A ∈ S.past, ∀ f ∈ A.finished, f ∈ S.site.proc.state.finished

theorem then_span (S : Throng D) (e : Crowd.Ev D) (R : Site D) :
    (S.then e R).span (S.then e R).site.proc = (S.span S.site.proc).then (raceEv e) R.proc ∧ (S.then e R).site = R := by
  obtain ⟨ev, n⟩ := e
  cases ev with
  | ddl d => cases d <;> exact ⟨rfl, rfl⟩
  | _ => exact ⟨rfl, rfl⟩

theorem then_hub (h : Crowd.Hub) (e : Crowd.Ev D) (w : Domain.World) :
    (⟨bare (h.then e w).w.ddl, (h.then e w).past, (h.then e w).turn⟩ : Race.Hub) =
      (⟨bare h.w.ddl, h.past, h.turn⟩ : Race.Hub).then (raceEv e) (bare w.ddl) ∧ (h.then e w).w = w := by
  obtain ⟨ev, n⟩ := e
  cases ev with
  | ddl d => cases d <;> exact ⟨rfl, rfl⟩
  | _ => exact ⟨rfl, rfl⟩

theorem CrowdOK.next {S : Throng D} {h : Crowd.Hub} (H : CrowdOK J C K B S h) {B' : Nat} (hB : B ≤ B') {e : Crowd.Ev D} {R : Site D}
    {w : Domain.World} (hm : Match J C K B' R w) (hg : Race.Goes S.site.proc.state R.proc.state)
    (hf : ∀ f ∈ S.site.proc.state.finished, f ∈ R.proc.state.finished)
    (hw : (∀ o₁ o₂ o₃ c env, (raceEv e).ev ≠ .work o₁ o₂ o₃ c env) → (raceEv e).ev ≠ .crash →
      Race.Waits S.site.proc.state R.proc.state h.w.ddl.vars w.ddl.vars) :
    CrowdOK J C K B' (S.then e R) (h.then e w) := by
  obtain ⟨s1, s2⟩ := then_span S e R
  obtain ⟨h1, h2⟩ := then_hub h e w
  refine ⟨by rw [s2, h2]; exact hm, by rw [s1, h1]; exact H.hub.then hB hm.serves hg hw, ?_⟩
  rw [s2]
  have old : ∀ A ∈ S.site.proc.state :: S.past, ∀ f ∈ A.finished, f ∈ R.proc.state.finished := by
    intro A hA f hf'
    rcases List.mem_cons.mp hA with rfl | hA
    · exact hf f hf'
    · exact hf f (H.done A hA f hf')
  obtain ⟨ev, n⟩ := e
  cases ev with
  | ddl d => cases d <;> first | exact old | exact (fun A hA => nomatch hA)
  | _ => exact old

/-- The calls and turns whose transactions may have started earlier. -/
def Late (e : Domain.Ev D) : Prop := (∃ o i c, e = .ddl (.createSchema o i c)) ∨ (∃ i c, e = .ddl (.addIndex i c)) ∨
  (∃ id c, e = .ddl (.getJob id c)) ∨ ∃ o₁ o₂ o₃ c env, e = .ddl (.work o₁ o₂ o₃ c env)

theorem does_plain (J : Json) (C : Codec D) (h : Crowd.Hub) {e : Crowd.Ev D} (hl : ¬ Late e.ev) : h.does J C e = h.w.step J C e.ev := by
  obtain ⟨ev, n⟩ := e
  cases ev with
  | ddl d =>
    cases d with
    | createSchema o i c => exact absurd (.inl ⟨_, _, _, rfl⟩) hl
    | addIndex i c => exact absurd (.inr (.inl ⟨_, _, rfl⟩)) hl
    | getJob id c => exact absurd (.inr (.inr (.inl ⟨_, _, rfl⟩))) hl
    | work o₁ o₂ o₃ c env => exact absurd (.inr (.inr (.inr ⟨_, _, _, _, _, rfl⟩))) hl
    | _ => rfl
  | _ => rfl

theorem put_ddl (w : Domain.World) (k : Nat) (s : Session) : (w.put k s).ddl = w.ddl := rfl

theorem plain_vars (J : Json) (C : Codec D) (w : Domain.World) {e : Domain.Ev D} (hl : ¬ Late e) (hc : e ≠ .ddl .crash) :
    (w.step J C e).2.ddl.vars = w.ddl.vars := by
  cases e with
  | ddl d =>
    cases d with
    | createSchema o i c => exact absurd (.inl ⟨_, _, _, rfl⟩) hl
    | addIndex i c => exact absurd (.inr (.inl ⟨_, _, rfl⟩)) hl
    | getJob id c => exact absurd (.inr (.inr (.inl ⟨_, _, rfl⟩))) hl
    | work o₁ o₂ o₃ c env => exact absurd (.inr (.inr (.inr ⟨_, _, _, _, _, rfl⟩))) hl
    | crash => exact absurd rfl hc
    | draw x c =>
      rw [step_ddl J C w (by simp) (by simp [Domain.needsDDL])]
      exact Race.step_vars w.ddl (.draw x c) (.inl ⟨_, _, rfl⟩)
    | init o env fail =>
      rw [step_ddl J C w (by simp) (by simp [Domain.needsDDL])]
      exact Race.step_vars w.ddl (.init o env fail) (.inr ⟨_, _, _, rfl⟩)
  | reload env =>
    show (w.reload J env : Domain.Answer D × Domain.World).2.ddl.vars = _
    unfold Domain.World.reload
    split
    · rfl
    · split <;> rfl
  | publish =>
    simp only [Domain.World.step]
    split
    · rfl
    · split <;> rfl
  | begin u env => rfl
  | snapshot j =>
    simp only [Domain.World.step]
    split
    · split <;> rfl
    · rfl
  | insert j d c doc mark ci =>
    simp only [Domain.World.step]
    split
    · split
      · split <;> rfl
      · rfl
    · rfl
  | op j d c o mark =>
    simp only [Domain.World.step]
    split
    · split <;> rfl
    · rfl
  | discard j =>
    simp only [Domain.World.step]
    split
    · split <;> rfl
    · rfl
  | commit j =>
    simp only [Domain.World.step]
    split
    · split
      · unfold Domain.World.commit
        split
        · rfl
        · split
          · rfl
          · rfl
          · rfl
          · split <;> rfl
      · rfl
    · rfl
  | finish j f =>
    simp only [Domain.World.step]
    split
    · split
      · unfold Domain.World.finish
        split <;> rfl
      · rfl
    · rfl

theorem CrowdOK.step {S : Throng D} {h : Crowd.Hub} (H : CrowdOK J C K B S h) (e : Crowd.Ev D) (hf : DomainFits K e.ev)
    (hB : B + cost K S.site.proc.state < 2 ^ 63) (hid : S.site.proc.state.lastID + K + 2 < 2 ^ 63) :
    ∃ R, S.Does C.norm e (h.does J C e).1 R ∧ S.site.Walk C.norm e.ev (h.does J C e).1 R ∧
      CrowdOK J C K (B + cost K S.site.proc.state) (S.then e R) (h.then e (h.does J C e).2) ∧
      R.proc.state.lastID ≤ S.site.proc.state.lastID + K + 2 := by
  have hle : B ≤ B + cost K S.site.proc.state := by omega
  by_cases hl : Late e.ev
  · obtain ⟨d, hd, hnd, hnc, hni⟩ : ∃ d, e.ev = .ddl d ∧ (∀ x c, d ≠ .draw x c) ∧ d ≠ .crash ∧ ∀ o v f, d ≠ .init o v f := by
      rcases hl with ⟨_, _, _, hl⟩ | ⟨_, _, hl⟩ | ⟨_, _, hl⟩ | ⟨_, _, _, _, _, hl⟩ <;> exact ⟨_, hl, by simp, by simp, by simp⟩
    obtain ⟨ev, n⟩ := e
    cases hd
    have hdoes : h.does J C ⟨.ddl d, n⟩ = if h.w.ddl.up = false ∧ Domain.needsDDL d then (.ddl (.job .panic), h.w)
        else (.ddl (h.race.does J ⟨d, n⟩).1, { h.w with ddl := (h.race.does J ⟨d, n⟩).2 }) := by
      cases d <;> first | rfl | exact absurd rfl hnc
    by_cases hnil : h.w.ddl.up = false ∧ Domain.needsDDL d
    · rw [hdoes, if_pos hnil]
      have hcall : (∃ o i c, d = .createSchema o i c) ∨ (∃ i c, d = .addIndex i c) := by
        cases d with
        | createSchema o i c => exact .inl ⟨_, _, _, rfl⟩
        | addIndex i c => exact .inr ⟨_, _, rfl⟩
        | _ => exact (nomatch hnil.2)
      have hup : S.site.proc.running = false := by rw [← H.site.serves.up]; exact hnil.1
      refine ⟨S.site, .ddlNot hcall hup, .ddlNot hcall hup, ?_, by omega⟩
      exact H.next hle (H.site.mono hle) (Race.Goes.refl _) (fun _ h => h) (fun _ _ => Race.Waits.refl _ _)
    · rw [hdoes, if_neg hnil]
      obtain ⟨Q, h1, h2, h3, h4, h5⟩ := Race.step_hub H.hub (e := ⟨d, n⟩) hf hB hid
      have hb := does_bare J h.w.ddl h.past h.turn (e := ⟨d, n⟩) hnd
      rw [hb] at h1 h2 h5
      have hloose := does_loose h1 H.done
      refine ⟨{ S.site with proc := Q }, .ddl hnd hnc h1, .ddl hnd hnc hloose, ?_, h3⟩
      refine H.next hle ?_ h4 (proc_keeps hloose).2 h5
      refine H.site.update (pool := S.site.pool) (A := S.site.docs) h2 ?_ (proc_grows hloose) (loose_has hloose hnc) ?_
      · exact holdsDocs_agree H.site.docs (fun k hk => does_frame J h.race ⟨d, n⟩ (docKey_not_meta hk))
      · intro c
        rw [H.site.pool c]
        rcases does_grown J h.race (e := ⟨d, n⟩) hnd hnc c with e | ⟨e1, s, e2, e3⟩
        · rw [e]; rfl
        · rw [show h.w.ddl.seqs c = none from e1, e2]; show [] = s.putbacks; rw [e3]
  · rw [does_plain J C h hl]
    obtain ⟨R, h1, h2, h3⟩ := H.site.step e.ev hf hB hid
    have hsame : R.proc.state = S.site.proc.state := by
      rcases site_state h1.walk with hs | ⟨d, a', he, -, hs⟩
      · exact hs
      · rw [he] at hl
        generalize R.proc = Q at hs ⊢
        rcases hs with hs | hs | _ | _ | _
        case now =>
          exact Race.state_same hs (fun _ _ _ x => hl (.inl ⟨_, _, _, by rw [x]⟩)) (fun _ _ x => hl (.inr (.inl ⟨_, _, by rw [x]⟩)))
            (fun _ _ _ _ _ x => hl (.inr (.inr (.inr ⟨_, _, _, _, _, by rw [x]⟩))))
        case not => rfl
        case created => exact absurd (.inl ⟨_, _, _, rfl⟩) hl
        case found => rfl
        case missed => rfl
    refine ⟨R, h1.mono ?_, h1.walk, ?_, h3⟩
    · intro d b Q he hs
      rw [he] at hl
      cases d with
      | createSchema o i c => exact absurd (.inl ⟨_, _, _, rfl⟩) hl
      | addIndex i c => exact absurd (.inr (.inl ⟨_, _, rfl⟩)) hl
      | getJob id c => exact absurd (.inr (.inr (.inl ⟨_, _, rfl⟩))) hl
      | work o₁ o₂ o₃ c env => exact absurd (.inr (.inr (.inr ⟨_, _, _, _, _, rfl⟩))) hl
      | crash => exact .crash hs
      | draw x c => exact .draw hs
      | init o env fail => exact .init hs
    · refine H.next hle h2 (by rw [hsame]; exact Race.Goes.refl _) (by rw [hsame]; exact fun _ h => h) ?_
      intro _ hc
      rw [hsame]
      refine ⟨rfl, ⟨[], (List.append_nil _).symm⟩, ?_⟩
      exact plain_vars J C h.w hl (fun x => hc (by unfold raceEv; rw [x]))

/-! ### Histories -/

theorem CrowdOK.mono {S : Throng D} {h : Crowd.Hub} (H : CrowdOK J C K B S h) {B' : Nat} (hB : B ≤ B') : CrowdOK J C K B' S h :=
  ⟨H.site.mono hB, H.hub.mono hB, H.done⟩

theorem run_crowd_from (J : Json) (C : Codec D) (c : Nat) (es : List (Crowd.Ev D)) : ∀ {B : Nat} {S : Throng D} {h : Crowd.Hub},
    CrowdOK J C K B S h → (∀ e ∈ es, DomainFits K e.ev) → B + es.length * c < 2 ^ 63 →
    4 * K + 1026 + 2 * (S.site.proc.state.lastID + es.length * (K + 2)) ≤ c → S.site.proc.state.lastID + es.length * (K + 2) < 2 ^ 63 →
    ∃ R, S.Steps C.norm es (Crowd.run J C es h).1 R ∧ S.site.Walks C.norm (es.map (·.ev)) (Crowd.run J C es h).1 R.site ∧
      CrowdOK J C K (B + es.length * c) R (Crowd.run J C es h).2 ∧
      R.site.proc.state.lastID ≤ S.site.proc.state.lastID + es.length * (K + 2) := by
  induction es with
  | nil => exact fun h _ _ _ _ => ⟨_, .nil, .nil, h.mono (by simp), by simp⟩
  | cons e es ih =>
    intro B S h H hf hB hc hid
    rw [List.length_cons] at hB hc hid ⊢
    have e1 : (es.length + 1) * (K + 2) = es.length * (K + 2) + (K + 2) := Nat.succ_mul _ _
    have e2 : (es.length + 1) * c = es.length * c + c := Nat.succ_mul _ _
    rw [e1] at hc hid
    rw [e2] at hB ⊢
    have hcost : cost K S.site.proc.state ≤ c := by unfold cost; omega
    obtain ⟨Q, h1, h1', h2, h3⟩ := H.step e (hf e List.mem_cons_self) (by omega) (by omega)
    have hq := (then_span S e Q).2
    obtain ⟨R, h4, h4', h5, h6⟩ := ih (h2.mono (B' := B + c) (by omega)) (fun e he => hf e (List.mem_cons_of_mem _ he)) (by omega)
      (by rw [hq]; omega) (by rw [hq]; omega)
    rw [hq] at h4' h6
    refine ⟨R, .cons h1 h4, .cons h1' h4', ?_, by rw [e1]; omega⟩
    have : B + (es.length * c + c) = B + c + es.length * c := by omega
    rw [this]; exact h5

theorem crowd_start (J : Json) (C : Codec D) (K : Nat) {db : DB} (h : Fresh Sequence.metaPrefix db) (hd : NoDocs db) :
    CrowdOK J C K 0 ({} : Throng D) { w := { ddl := { db := db } } } :=
  ⟨match_start J C K h hd, Race.HubOK.start J K h, fun _ hA => nomatch hA⟩

theorem crowd_append (J : Json) (C : Codec D) (es es' : List (Crowd.Ev D)) (h : Crowd.Hub) :
    Crowd.run J C (es ++ es') h =
      ((Crowd.run J C es h).1 ++ (Crowd.run J C es' (Crowd.run J C es h).2).1, (Crowd.run J C es' (Crowd.run J C es h).2).2) := by
  induction es generalizing h with
  | nil => rfl
  | cons e es ih => simp only [List.cons_append, Crowd.run, ih]

theorem crowd_length (J : Json) (C : Codec D) (es : List (Crowd.Ev D)) (h : Crowd.Hub) : (Crowd.run J C es h).1.length = es.length := by
  induction es generalizing h with
  | nil => rfl
  | cons e es ih => simp only [Crowd.run, List.length_cons, ih]

/-- Every history on a fresh database, in two parts. -/
theorem run_crowd_two (J : Json) (C : Codec D) {es es' : List (Crowd.Ev D)} {db : DB} (hdb : Fresh Sequence.metaPrefix db) (hd : NoDocs db)
    (hb : Throng.Brief K (es ++ es')) :
    ∃ S R, Throng.Steps C.norm {} es (Crowd.run J C es { w := { ddl := { db := db } } }).1 S ∧
      Site.Walks C.norm {} (es.map (·.ev)) (Crowd.run J C es { w := { ddl := { db := db } } }).1 S.site ∧
      CrowdOK J C K (2 ^ 62) S (Crowd.run J C es { w := { ddl := { db := db } } }).2 ∧
      S.site.Walks C.norm (es'.map (·.ev)) (Crowd.run J C es' (Crowd.run J C es { w := { ddl := { db := db } } }).2).1 R.site ∧
      CrowdOK J C K (2 ^ 62) R (Crowd.run J C es' (Crowd.run J C es { w := { ddl := { db := db } } }).2).2 := by
  have hlen : ((es ++ es').map (·.ev)).length = es.length + es'.length := by rw [List.length_map, List.length_append]
  obtain ⟨hf, hn⟩ := hb
  have hf' : ∀ e ∈ es ++ es', DomainFits K e.ev := fun e he => hf e.ev (List.mem_map.mpr ⟨e, he, rfl⟩)
  rw [hlen] at hn
  by_cases hpos : 1 ≤ es.length + es'.length
  · obtain ⟨k1, k2⟩ := domain_budget hn hpos
    generalize hc : 4 * (es.length + es'.length + 1) * (K + 300) = c at k1 hn
    have e1 : (es.length + es'.length) * (K + 2) = es.length * (K + 2) + es'.length * (K + 2) := Nat.add_mul _ _ _
    have e2 : (es.length + es'.length) * c = es.length * c + es'.length * c := Nat.add_mul _ _ _
    rw [e1] at k1 k2
    rw [e2] at hn
    obtain ⟨S, h1, h1', h2, h3⟩ := run_crowd_from J C c es (crowd_start J C K hdb hd) (fun e he => hf' e (List.mem_append_left _ he))
      (by omega) (by show 4 * K + 1026 + 2 * (0 + _) ≤ _; omega) (by show 0 + _ < _; omega)
    have h3 : S.site.proc.state.lastID ≤ 0 + es.length * (K + 2) := h3
    obtain ⟨R, -, h4, h5, -⟩ := run_crowd_from J C c es' h2 (fun e he => hf' e (List.mem_append_right _ he))
      (by omega) (by omega) (by omega)
    exact ⟨S, R, h1, h1', h2.mono (by omega), h4, h5.mono (by omega)⟩
  · have h1 : es = [] := List.eq_nil_of_length_eq_zero (by omega)
    have h2 : es' = [] := List.eq_nil_of_length_eq_zero (by omega)
    subst h1 h2
    exact ⟨{}, {}, .nil, .nil, (crowd_start J C K hdb hd).mono (by omega), .nil, (crowd_start J C K hdb hd).mono (by omega)⟩

end Mondis.Props
