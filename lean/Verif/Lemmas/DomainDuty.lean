import Verif.Lemmas.DomainJobs
/-!
# The document process: reloads as package domain makes them happen
-/
namespace Mondis.Props
open Mondis Spec Schema Meta Ddl Domain Doc

variable {D : Type} {norm : D → Res D} {S S' R : Site D} {e : Domain.Ev D} {a : Domain.Answer D}

/-- What is finished exists. -/
structure Existing (A : DState) : Prop where
  finished : ∀ f ∈ A.finished, f.2 ∈ A.dbs
  done : ∀ j d, (Request.create j d, Status.done) ∈ A.queue → d ∈ A.dbs

theorem existing_work {A : DState} (h : Existing A) : Existing A.work := by
  unfold DState.work
  split
  · exact h
  · exact h
  · rename_i j d q hq
    refine ⟨fun f hf => ?_, fun j' d' hm => h.done j' d' (by rw [hq]; exact List.mem_cons_of_mem _ hm)⟩
    rcases List.mem_append.mp hf with hf | hf
    · exact h.finished f hf
    · rw [List.mem_singleton.mp hf]; exact h.done j d (by rw [hq]; exact List.mem_cons_self)
  · rename_i j d st q _ hq
    split
    · refine ⟨h.finished, fun j' d' hm => ?_⟩
      rcases List.mem_cons.mp hm with e | hm
      · cases e
      · exact h.done j' d' (by rw [hq]; exact List.mem_cons_of_mem _ hm)
    · refine ⟨fun f hf => List.mem_append_left _ (h.finished f hf), fun j' d' hm => ?_⟩
      rcases List.mem_cons.mp hm with e | hm
      · cases e; exact List.mem_append_right _ (by simp)
      · exact List.mem_append_left _ (h.done j' d' (by rw [hq]; exact List.mem_cons_of_mem _ hm))
  · rename_i j i st q hq
    refine ⟨h.finished, fun j' d' hm => ?_⟩
    rcases List.mem_cons.mp hm with e | hm
    · cases e
    · exact h.done j' d' (by rw [hq]; exact List.mem_cons_of_mem _ hm)

theorem existing_proc {P Q : Proc} {e : Ddl.Ev} {a : Ddl.Answer} (h : P.Loose e a Q) (hx : Existing P.state) : Existing Q.state := by
  have app : ∀ {A A' : DState} {r : Request}, Existing A → A'.queue = A.queue ++ [(r, .waiting)] → A'.dbs = A.dbs → A'.finished = A.finished →
      Existing A' := by
    intro A A' r h h1 h2 h3
    refine ⟨by rw [h2, h3]; exact h.finished, fun j d hm => ?_⟩
    rw [h1] at hm
    rw [h2]
    rcases List.mem_append.mp hm with hm | hm
    · exact h.done j d hm
    · cases List.mem_singleton.mp hm
  rcases h with h | _ | _ | _ | _
  case created => exact app hx rfl rfl rfl
  case not | found | missed => exact hx
  cases h with
  | create h => cases h with
    | ok => exact app hx rfl rfl rfl
    | _ => exact hx
  | index h => cases h with
    | ok => exact app hx rfl rfl rfl
    | _ => exact hx
  | work => exact existing_work hx
  | _ => exact hx

/-- A finished request is known. -/
def Shown (S : Site D) : Prop := ∀ f ∈ S.proc.state.finished, f.2 ∈ S.proc.state.dbs.take (S.schema.getD 0)

/-- Domain has done its duty. -/
structure Dutiful (s : Duty) (S : Site D) : Prop where
  existing : Existing S.proc.state
  shown : S.proc.running = true → Shown S
  clean : s = .clean → S.loaded = none ∧ S.schema.getD 0 = S.proc.state.dbs.length
  due : s = .due → S.loaded = none
  loading : s = .loading → S.loaded = some S.proc.state.dbs.length

theorem dutiful_start : Dutiful .due ({} : Site D) :=
  ⟨⟨fun f h => (nomatch h), fun j d h => (nomatch h)⟩, nofun, nofun, fun _ => rfl, nofun⟩

/-- Nothing about the schema changes. -/
theorem Dutiful.same {s : Duty} (h : Dutiful s S) (h1 : S'.proc.state = S.proc.state) (h2 : S'.proc.running = S.proc.running)
    (h3 : S'.schema = S.schema) (h4 : S'.loaded = S.loaded) : Dutiful s S' := by
  refine ⟨by rw [h1]; exact h.existing, fun hr => ?_, ?_, ?_, ?_⟩
  · unfold Shown
    rw [h1, h3]
    exact h.shown (by rw [← h2]; exact hr)
  · rw [h1, h3, h4]; exact h.clean
  · rw [h4]; exact h.due
  · rw [h1, h4]; exact h.loading

theorem mem_take_all {α : Type} {l : List α} {n : Nat} (h : n = l.length) {x : α} (hx : x ∈ l) : x ∈ l.take n := by
  rw [h, List.take_length]; exact hx

/-- The queue changes, and maybe more databases exist. -/
theorem Dutiful.proc {P : Proc} {s : Duty} (h : Dutiful s S) {e : Ddl.Ev} {a : Ddl.Answer} (hs : S.proc.Loose e a P)
    (hd : P.state.dbs = S.proc.state.dbs) (hf : P.state.finished = S.proc.state.finished) (hr : P.running = S.proc.running) :
    Dutiful s { S with proc := P } := by
  refine ⟨existing_proc hs h.existing, fun hr' => ?_, ?_, h.due, ?_⟩
  · show ∀ f ∈ P.state.finished, f.2 ∈ P.state.dbs.take _
    rw [hd, hf]
    exact h.shown (by rw [← hr]; exact hr')
  · intro e
    show S.loaded = none ∧ S.schema.getD 0 = P.state.dbs.length
    rw [hd]; exact h.clean e
  · intro e
    show S.loaded = some P.state.dbs.length
    rw [hd]; exact h.loading e

theorem work_dbs_grow (A : DState) : ∃ l, A.work.dbs = A.dbs ++ l := by
  unfold DState.work
  split
  · exact ⟨[], by simp⟩
  · exact ⟨[], by simp⟩
  · exact ⟨[], by simp⟩
  · split
    · exact ⟨[], by simp⟩
    · exact ⟨_, rfl⟩
  · exact ⟨[], by simp⟩

theorem work_finished_old {A : DState} (h : Existing A) {f : Int64 × DBInfo} (hf : f ∈ A.work.finished) : f.2 ∈ A.dbs := by
  unfold DState.work at hf
  split at hf
  · exact h.finished f hf
  · exact h.finished f hf
  · rename_i j d q hq
    rcases List.mem_append.mp hf with hf | hf
    · exact h.finished f hf
    · rw [List.mem_singleton.mp hf]; exact h.done j d (by rw [hq]; exact List.mem_cons_self)
  · split at hf <;> exact h.finished f hf
  · exact h.finished f hf

theorem draws_same {x v : Int64} (h : S.Draws x v S') : S'.proc.state = S.proc.state ∧ S'.proc.running = S.proc.running ∧
    S'.schema = S.schema ∧ S'.loaded = S.loaded := by
  cases h <;> exact ⟨rfl, rfl, rfl, rfl⟩

/-- What package ddl does. -/
theorem Dutiful.ddl {P : Proc} {s s' : Duty} {e : Ddl.Ev} {a : Ddl.Answer} (h : Dutiful s S) (hc : e ≠ .crash)
    (hs : S.proc.Loose e a P) (hn : s.next ((.ddl e, .ddl a) : Domain.Ev D × Domain.Answer D) = some s') :
    Dutiful s' ({ S with proc := P } : Site D) := by
  have hs' := hs
  rcases hs with hs | ⟨he, -⟩ | _ | _ | _
  case not => rcases he with ⟨_, _, _, rfl⟩ | ⟨_, _, rfl⟩ <;> cases hn <;> exact h.proc hs' rfl rfl rfl
  case created => cases hn; exact h.proc hs' rfl rfl rfl
  case found => cases hn; exact h.proc hs' rfl rfl rfl
  case missed =>
    have hcl : s = .clean := by
      by_cases hcl : s = .clean
      · exact hcl
      · simp [Duty.next, hcl] at hn
    subst hcl
    simp only [Duty.next, if_true] at hn
    split at hn
    · cases hn
      exact ⟨h.existing, h.shown, nofun, fun _ => (h.clean rfl).1, nofun⟩
    · cases hn
      exact h
  cases hs with
  | create hk => cases hn; cases hk <;> exact h.proc hs' rfl rfl rfl
  | index hk => cases hn; cases hk <;> exact h.proc hs' rfl rfl rfl
  | crash => exact absurd rfl hc
  | work hr _ hch =>
    have hcl : s = .clean := by
      by_cases hcl : s = .clean
      · exact hcl
      · simp [Duty.next, hcl] at hn
    subst hcl
    obtain ⟨hl, hlen⟩ := h.clean rfl
    have hx := existing_proc hs' h.existing
    rename_i r _
    by_cases hsame : S.proc.state.work.dbs = S.proc.state.dbs
    · have hshown : ∀ f ∈ S.proc.state.work.finished, f.2 ∈ S.proc.state.work.dbs.take (S.schema.getD 0) := fun f hf =>
        mem_take_all (by rw [hsame]; exact hlen) (hx.finished f hf)
      have hs2 : s' = .due ∨ s' = .clean := by
        simp only [Duty.next, if_true] at hn
        split at hn
        · exact .inl (Option.some.inj hn).symm
        · exact .inr (Option.some.inj hn).symm
      refine ⟨hx, fun _ => hshown, fun _ => ⟨hl, ?_⟩, fun _ => hl, fun e => ?_⟩
      · show S.schema.getD 0 = S.proc.state.work.dbs.length
        rw [hsame]; exact hlen
      · rcases hs2 with e' | e' <;> rw [e'] at e <;> cases e
    · have hann := hch hsame
      simp only [Duty.next, if_true, hann] at hn
      cases hn
      refine ⟨hx, fun _ f hf => ?_, nofun, fun _ => hl, nofun⟩
      have hold := work_finished_old h.existing hf
      obtain ⟨l, hl'⟩ := work_dbs_grow S.proc.state
      show f.2 ∈ S.proc.state.work.dbs.take (S.schema.getD 0)
      rw [hl', hlen, List.take_left']
      · exact hold
      · rfl
  | workRefused hr _ =>
    have hcl : s = .clean := by
      by_cases hcl : s = .clean
      · exact hcl
      · simp [Duty.next, hcl] at hn
    subst hcl
    simp [Duty.next, onChanged] at hn
    subst hn
    exact h
  | workNot hr =>
    have hcl : s = .clean := by
      by_cases hcl : s = .clean
      · exact hcl
      · simp [Duty.next, hcl] at hn
    subst hcl
    cases hn
    exact h
  | init | initAgain | initRefused =>
    have hcl : s = .clean := by
      by_cases hcl : s = .clean
      · exact hcl
      · simp [Duty.next, hcl] at hn
    subst hcl
    cases hn
    obtain ⟨hl, hlen⟩ := h.clean rfl
    exact ⟨h.existing, fun _ f hf => mem_take_all hlen (h.existing.finished f hf), fun _ => ⟨hl, hlen⟩, nofun, nofun⟩
  | _ => cases hn; exact h.proc hs' rfl rfl rfl

theorem Dutiful.step {s s' : Duty} (h : Dutiful s S) (hs : S.Walk norm e a S') (hn : s.next (e, a) = some s') : Dutiful s' S' := by
  cases hs with
  | crash hp =>
    cases hn
    cases hp
    exact ⟨h.existing, nofun, nofun, fun _ => rfl, nofun⟩
  | ddl _ hc hp => exact h.ddl hc hp hn
  | ddlNot he _ => rcases he with ⟨_, _, _, rfl⟩ | ⟨_, _, rfl⟩ <;> cases hn <;> exact h
  | reloadBusy hl => cases hn; exact h
  | reloadSame hl hv => cases hn; exact ⟨h.existing, h.shown, fun _ => ⟨hl, hv⟩, nofun, nofun⟩
  | reload hl hv => cases hn; exact ⟨h.existing, h.shown, nofun, nofun, fun _ => rfl⟩
  | publishNot hl => cases hn; exact h
  | publish hl =>
    cases hn
    have hd : s = .loading := by
      cases s with
      | loading => rfl
      | clean => rw [(h.clean rfl).1] at hl; cases hl
      | due => rw [h.due rfl] at hl; cases hl
    have := h.loading hd
    rw [hl] at this
    cases this
    exact ⟨h.existing, fun _ f hf => mem_take_all rfl (h.existing.finished f hf), fun _ => ⟨rfl, rfl⟩, nofun, nofun⟩
  | draw _ hd => cases hn; obtain ⟨h1, h2, h3, h4⟩ := draws_same hd; exact h.same h1 h2 h3 h4
  | insert _ _ hi =>
    cases hn
    cases hi with
    | ok d x did S₁ _ _ _ hd _ => obtain ⟨h1, h2, h3, h4⟩ := draws_same hd; exact h.same h1 h2 h3 h4
    | readOnly d x did S₁ _ _ _ hd _ => obtain ⟨h1, h2, h3, h4⟩ := draws_same hd; exact h.same h1 h2 h3 h4
    | _ => exact h.same rfl rfl rfl rfl
  | commit hv _ =>
    cases hn
    unfold Site.commits
    split
    · exact h.same rfl rfl rfl rfl
    · split
      · exact h.same rfl rfl rfl rfl
      · split <;> exact h.same rfl rfl rfl rfl
  | finish hv _ hf => cases hn; cases hf <;> exact h.same rfl rfl rfl rfl
  | _ => cases hn; exact h.same rfl rfl rfl rfl

theorem Dutiful.steps {s : Duty} {es : List (Domain.Ev D)} {as : List (Domain.Answer D)} (hs : S.Walks norm es as R) (h : Dutiful s S)
    (hf : s.follows (es.zip as) = true) : ∃ s', Dutiful s' R := by
  induction hs generalizing s with
  | nil => exact ⟨s, h⟩
  | cons h1 _ ih =>
    rw [List.zip_cons_cons] at hf
    unfold Duty.follows at hf
    split at hf
    · rename_i s' hn
      exact ih (h.step h1 hn) hf
    · cases hf

end Mondis.Props
