import Verif.Lemmas.DdlHistory
/-!
# Package ddl: ids, blocked requests, progress
-/
namespace Mondis.Spec
open Mondis Schema Ddl

/-- The id of the job of a request. -/
def Request.job : Request → Int64
  | .create j _ => j
  | .index j _ => j

end Mondis.Spec

namespace Mondis.Ddl
open Mondis Spec Schema Meta Props Structure Util

section
variable {A : DState} {P Q : Proc} {es : List Ev} {as : List Answer}

theorem accepted_cons (a : Answer) (as : List Answer) : accepted (a :: as) = accepted [a] ++ accepted as := by
  unfold accepted
  rw [← List.filterMap_append]; rfl
theorem accepted_append (as bs : List Answer) : accepted (as ++ bs) = accepted as ++ accepted bs := by
  unfold accepted; rw [List.filterMap_append]

theorem accepted_heard (P : Proc) (j : Job) : accepted [.job (P.heard (.ok j))] = [j] ∨
    (accepted [.job (P.heard (.ok j))] = [] ∧ (Answer.job (P.heard (.ok j))) = .job .panic) := by
  unfold Proc.heard
  cases P.running
  · exact .inr ⟨rfl, rfl⟩
  · exact .inl rfl

/-- What a step does to the requests and the ids. -/
theorem step_cases (hs : P.state.Sane) {e : Ev} {a : Answer} (h : P.Step e a Q) :
    (accepted [a] = [] ∧ (Q.state = P.state ∨ Q.state = P.state.work)) ∨
    ∃ j r, (accepted [a] = [j] ∨ (accepted [a] = [] ∧ a = .job .panic)) ∧ Q.state.queue = P.state.queue ++ [(r, .waiting)] ∧ Q.state.dbs = P.state.dbs ∧
      Q.state.finished = P.state.finished ∧ r.job = j.id ∧
      ((∃ o i c, e = .createSchema o i c ∧ P.state.Creates i (.ok j) Q.state ∧ r = .create j.id (requested P.state.lastID i)) ∨
       (∃ i c, e = .addIndex i c ∧ P.state.Adds i (.ok j) Q.state ∧ r = .index j.id (DState.requestedIndex P.state.lastID i))) := by
  cases h with
  | @create o i c r A' h =>
    cases h with
    | ok j a1 a2 a3 a4 a5 a6 a7 a8 =>
      refine .inr ⟨j, _, accepted_heard P j, rfl, rfl, rfl, a5.symm, .inl ⟨o, i, c, rfl, .ok j a1 a2 a3 a4 a5 a6 a7 a8, by rw [a5]⟩⟩
    | invalid e a1 a2 => exact .inl ⟨rfl, .inl rfl⟩
    | full a1 a2 => exact .inl ⟨rfl, .inl rfl⟩
    | taken a1 a2 a3 => exact .inl ⟨rfl, .inl rfl⟩
    | crashes a1 a2 a3 a4 => exact .inl ⟨rfl, .inl rfl⟩
  | createRefused h => exact .inl ⟨rfl, .inl rfl⟩
  | @index i c r A' h =>
    cases h with
    | ok d j a1 a2 a3 a4 a5 a6 a7 =>
      refine .inr ⟨j, _, accepted_heard P j, rfl, rfl, rfl, a4.symm, .inr ⟨i, c, rfl, .ok d j a1 a2 a3 a4 a5 a6 a7, by rw [a4]⟩⟩
    | noDB a1 => exact .inl ⟨rfl, .inl rfl⟩
    | noCollection d a1 a2 a3 => exact .inl ⟨rfl, .inl rfl⟩
  | indexRefused h => exact .inl ⟨rfl, .inl rfl⟩
  | getJob => exact .inl ⟨rfl, .inl rfl⟩
  | getJobRefused h => exact .inl ⟨rfl, .inl rfl⟩
  | work h1 h2 _ => exact .inl ⟨rfl, .inr rfl⟩
  | workRefused h1 h2 => exact .inl ⟨rfl, .inl rfl⟩
  | workNot h => exact .inl ⟨rfl, .inl rfl⟩
  | draw h => exact .inl ⟨rfl, .inl rfl⟩
  | drawRefused _ _ => exact .inl ⟨rfl, .inl rfl⟩
  | drawNot h => exact .inl ⟨rfl, .inl rfl⟩
  | crash => exact .inl ⟨rfl, .inl rfl⟩
  | init h1 h2 => exact .inl ⟨rfl, .inl rfl⟩
  | initAgain h1 h2 h3 => exact .inl ⟨rfl, .inl rfl⟩
  | initRefused h1 h2 h3 => exact .inl ⟨rfl, .inl rfl⟩

theorem creates_arg {i : CreateSchemaInput} {j : Job} {A' : DState} (h : A.Creates i (.ok j) A') :
    j.arg = .db (requested A.lastID i) := by
  cases h with
  | ok _ a1 a2 a3 a4 a5 a6 a7 a8 => exact a7

theorem adds_arg {i : AddIndexInput} {j : Job} {A' : DState} (h : A.Adds i (.ok j) A') :
    j.arg = .idx (DState.requestedIndex A.lastID i) := by
  cases h with
  | ok d _ a1 a2 a3 a4 a5 a6 a7 => exact a6

/-! ### Ids -/

theorem idsIn_create {i : CreateSchemaInput} {j : Job} {A' : DState} (h : A.Creates i (.ok j) A') (hb : A'.lastID < 2 ^ 63) :
    (idsIn j).Nodup ∧ (∀ x ∈ idsIn j, (A.lastID : Int) < x.toInt ∧ x.toInt ≤ A'.lastID) ∧ A.lastID ≤ A'.lastID := by
  cases h with
  | ok _ a1 a2 a3 a4 a5 a6 a7 a8 =>
    have hb : A.lastID + (2 + i.collections.length + i.indices.ents.length) < 2 ^ 63 := hb
    have hperm : (idsIn j).Perm (((A.lastID + 2 + (distinct i.collections).length) :: (A.lastID + 1) ::
        (List.range (distinct i.collections).length).map (fun x => A.lastID + 2 + x)).map Int64.ofNat) := by
      unfold idsIn
      rw [a7, a5]
      simp only [DState.idsOf, List.map_cons, List.map_map]
      exact List.Perm.cons _ (List.Perm.cons _ (ids_numbered (A.lastID + 2) (distinct_nodup _)))
    have hlen := distinct_length i.collections
    have hr : ∀ x ∈ ((A.lastID + 2 + (distinct i.collections).length) :: (A.lastID + 1) ::
        (List.range (distinct i.collections).length).map (fun x => A.lastID + 2 + x)), A.lastID < x ∧
          x ≤ A.lastID + (2 + i.collections.length + i.indices.ents.length) := by
      intro x hx
      simp only [List.mem_cons, List.mem_map, List.mem_range] at hx
      rcases hx with rfl | rfl | ⟨y, hy, rfl⟩ <;> omega
    refine ⟨?_, ?_, Nat.le_add_right _ _⟩
    · rw [hperm.nodup_iff]
      refine nodup_ofNat ?_ (fun x hx => by have := hr x hx; omega)
      rw [List.nodup_cons, List.nodup_cons]
      refine ⟨?_, ?_, ?_⟩
      · simp only [List.mem_cons, List.mem_map, List.mem_range, not_or, not_exists, not_and]
        exact ⟨by omega, fun x hx => by omega⟩
      · simp only [List.mem_map, List.mem_range, not_exists, not_and]
        exact fun x hx => by omega
      · rw [List.Nodup, List.pairwise_map]
        exact List.Pairwise.imp (fun h e => h (by omega)) List.nodup_range
    · intro x hx
      obtain ⟨y, hy, rfl⟩ := List.mem_map.mp (hperm.mem_iff.mp hx)
      exact ofNat_bound (hr y hy).1 (hr y hy).2 hb

theorem idsIn_index {i : AddIndexInput} {j : Job} {A' : DState} (h : A.Adds i (.ok j) A') (hb : A'.lastID < 2 ^ 63) :
    (idsIn j).Nodup ∧ (∀ x ∈ idsIn j, (A.lastID : Int) < x.toInt ∧ x.toInt ≤ A'.lastID) ∧ A.lastID ≤ A'.lastID := by
  cases h with
  | ok d _ a1 a2 a3 a4 a5 a6 a7 =>
    have hb : A.lastID + 2 < 2 ^ 63 := hb
    have e : idsIn j = [A.lastID + 2, A.lastID + 1].map Int64.ofNat := by
      unfold idsIn
      rw [a6, a4]; rfl
    have hr : ∀ x ∈ [A.lastID + 2, A.lastID + 1], A.lastID < x ∧ x ≤ A.lastID + 2 := by
      intro x hx
      simp only [List.mem_cons, List.not_mem_nil, or_false] at hx
      rcases hx with rfl | rfl <;> omega
    refine ⟨?_, ?_, Nat.le_add_right _ _⟩
    · rw [e]
      exact nodup_ofNat (by simp) (fun x hx => by have := hr x hx; omega)
    · intro x hx
      rw [e] at hx
      obtain ⟨y, hy, rfl⟩ := List.mem_map.mp hx
      exact ofNat_bound (hr y hy).1 (hr y hy).2 hb

theorem accepted_ids (h : SSteps P es as Q) : ((accepted as).flatMap idsIn).Nodup ∧
    (∀ x ∈ (accepted as).flatMap idsIn, (P.state.lastID : Int) < x.toInt ∧ x.toInt ≤ Q.state.lastID) ∧
    P.state.lastID ≤ Q.state.lastID := by
  induction h with
  | nil => exact ⟨List.nodup_nil, fun x hx => absurd hx List.not_mem_nil, Nat.le_refl _⟩
  | @cons P e a Q es as R s1 s2 h1 h2 ih =>
    obtain ⟨g1, g2, g3⟩ := ih
    have key : ((accepted [a]).flatMap idsIn).Nodup ∧
        (∀ x ∈ (accepted [a]).flatMap idsIn, (P.state.lastID : Int) < x.toInt ∧ x.toInt ≤ Q.state.lastID) ∧
        P.state.lastID ≤ Q.state.lastID := by
      rcases step_cases s1 h1 with ⟨e1, e2⟩ | ⟨j, r, e1, -, -, -, -, hc⟩
      · rw [e1]
        refine ⟨List.nodup_nil, fun x hx => absurd hx List.not_mem_nil, ?_⟩
        rcases e2 with e2 | e2
        · rw [e2]; exact Nat.le_refl _
        · rw [e2, work_lastID s1]; exact Nat.le_refl _
      · have k : (idsIn j).Nodup ∧ (∀ x ∈ idsIn j, (P.state.lastID : Int) < x.toInt ∧ x.toInt ≤ Q.state.lastID) ∧
            P.state.lastID ≤ Q.state.lastID := by
          rcases hc with ⟨o, i, c, -, hc, -⟩ | ⟨i, c, -, hc, -⟩
          · exact idsIn_create hc s2.small
          · exact idsIn_index hc s2.small
        rcases e1 with e1 | ⟨e1, -⟩
        · rw [e1]
          simpa only [List.flatMap_cons, List.flatMap_nil, List.append_nil] using k
        · rw [e1]
          exact ⟨List.nodup_nil, fun x hx => absurd hx List.not_mem_nil, k.2.2⟩
    obtain ⟨k1, k2, k3⟩ := key
    rw [accepted_cons, List.flatMap_append]
    refine ⟨List.nodup_append.mpr ⟨k1, g1, ?_⟩, ?_, by omega⟩
    · intro x hx y hy e
      have h1 := k2 x hx
      have h2 := g2 y hy
      rw [e] at h1
      omega
    · intro x hx
      rcases List.mem_append.mp hx with hx | hx
      · have := k2 x hx; omega
      · have := g2 x hx; omega

/-! ### Requests that never finish -/

/-- A request that the worker cannot get rid of: for an index, or failed, or for a database that exists or is
requested earlier in the queue. -/
def Dead (A : DState) (before : List (Request × Status)) : Request × Status → Prop
  | (.index _ _, _) => True
  | (.create _ d, s) => s = .failed ∨ (s = .waiting ∧ (A.Has d.name ∨ ∃ j d', (.create j d', .waiting) ∈ before ∧ d'.name = d.name))

/-- The request is dead or behind a dead one. -/
def Blocked (id : Int64) (A : DState) : Prop :=
  ∃ q₁ b q₂, A.queue = q₁ ++ b :: q₂ ∧ Dead A q₁ b ∧ ∃ r ∈ b :: q₂, r.1.job = id

theorem blocked_enqueue {A' : DState} {id : Int64} {r : Request × Status} (hq : A'.queue = A.queue ++ [r]) (hd : A'.dbs = A.dbs)
    (h : Blocked id A) : Blocked id A' := by
  obtain ⟨q₁, b, q₂, h1, h2, x, h3, h4⟩ := h
  refine ⟨q₁, b, q₂ ++ [r], by rw [hq, h1]; simp, ?_, x, ?_, h4⟩
  · have e : ∀ n, A'.Has n ↔ A.Has n := fun n => by unfold DState.Has; rw [hd]
    obtain ⟨b, s⟩ := b
    cases b with
    | index j i => trivial
    | create j d =>
      unfold Dead at h2 ⊢
      simp only [e]
      exact h2
  · rcases List.mem_cons.mp h3 with h3 | h3
    · exact h3 ▸ List.mem_cons_self
    · exact List.mem_cons_of_mem _ (List.mem_append_left _ h3)

theorem blocked_behind {A' : DState} {id : Int64} {r : Request × Status} (hq : A'.queue = A.queue ++ [r]) (hd : A'.dbs = A.dbs)
    (h : Blocked id A) : Blocked r.1.job A' := by
  obtain ⟨q₁, b, q₂, h1, h2, x, h3, h4⟩ := h
  refine ⟨q₁, b, q₂ ++ [r], by rw [hq, h1]; simp, ?_, r, by simp, rfl⟩
  have e : ∀ n, A'.Has n ↔ A.Has n := fun n => by unfold DState.Has; rw [hd]
  obtain ⟨b, s⟩ := b
  cases b with
  | index j i => trivial
  | create j d =>
    unfold Dead at h2 ⊢
    simp only [e]
    exact h2

theorem blocked_work {id : Int64} (hs : A.Sane) (h : Blocked id A) : Blocked id A.work := by
  obtain ⟨q₁, b, q₂, h1, h2, x, h3, h4⟩ := h
  cases q₁ with
  | nil =>
    -- the dead request is the first
    rw [List.nil_append] at h1
    obtain ⟨b, s⟩ := b
    cases b with
    | index j i =>
      have hst := (hs.index j i s (by rw [h1]; exact List.mem_cons_self)).2.1
      have hw := work_index h1 (by rcases hst with rfl | rfl <;> decide)
      refine ⟨[], (.index j i, .crashed), q₂, by rw [hw]; rfl, trivial, ?_⟩
      rcases List.mem_cons.mp h3 with h3 | h3
      · subst h3; exact ⟨_, List.mem_cons_self, h4⟩
      · exact ⟨x, List.mem_cons_of_mem _ h3, h4⟩
    | create j d =>
      rcases h2 with rfl | ⟨rfl, hh | ⟨j', d', hm, -⟩⟩
      · rw [work_failed h1]
        exact ⟨[], _, q₂, h1, .inl rfl, x, h3, h4⟩
      · have hw := work_taken h1 hh
        refine ⟨[], (.create j d, .failed), q₂, by rw [hw]; rfl, .inl rfl, ?_⟩
        rcases List.mem_cons.mp h3 with h3 | h3
        · subst h3; exact ⟨_, List.mem_cons_self, h4⟩
        · exact ⟨x, List.mem_cons_of_mem _ h3, h4⟩
      · exact absurd hm List.not_mem_nil
  | cons r q₁ =>
    have hq : A.queue = r :: (q₁ ++ b :: q₂) := by rw [h1]; rfl
    -- databases only get added
    have keep : ∀ {A' : DState} {q₁'}, (∀ n, A.Has n → A'.Has n) → A'.queue = q₁' ++ b :: q₂ →
        (∀ j' d', (Request.create j' d', Status.waiting) ∈ r :: q₁ → A'.Has d'.name ∨ (Request.create j' d', Status.waiting) ∈ q₁') →
        Blocked id A' := by
      intro A' q₁' hmono hq' hnew
      refine ⟨q₁', b, q₂, hq', ?_, x, h3, h4⟩
      obtain ⟨b, s⟩ := b
      cases b with
      | index j i => trivial
      | create j d =>
        rcases h2 with h2 | ⟨hw, hh | ⟨j', d', hm, hn⟩⟩
        · exact .inl h2
        · exact .inr ⟨hw, .inl (hmono _ hh)⟩
        · rcases hnew j' d' hm with hx | hx
          · exact .inr ⟨hw, .inl (hn ▸ hx)⟩
          · exact .inr ⟨hw, .inr ⟨j', d', hx, hn⟩⟩
    rcases head_cases hs with hq0 | ⟨j, d, q, hq0⟩ | ⟨j, d, q, hq0⟩ | ⟨j, d, q, hq0⟩ | ⟨j, i, s, q, hq0, hst⟩
    · rw [hq0] at hq; cases hq
    · rw [work_failed hq0]
      refine keep (fun n h => h) h1 (fun j' d' h => .inr h)
    · have e := hq0
      rw [hq] at e
      obtain ⟨rfl, rfl⟩ := List.cons.inj e
      rw [work_done hq0]
      refine keep (fun n h => h) rfl (fun j' d' h => ?_)
      rcases List.mem_cons.mp h with h | h
      · cases h
      · exact .inr h
    · have e := hq0
      rw [hq] at e
      obtain ⟨rfl, rfl⟩ := List.cons.inj e
      by_cases hh : A.Has d.name
      · rw [work_taken hq0 hh]
        refine keep (q₁' := (Request.create j d, Status.failed) :: q₁) (fun n h => h) rfl (fun j' d' h => ?_)
        rcases List.mem_cons.mp h with h | h
        · cases h; exact .inl hh
        · exact .inr (List.mem_cons_of_mem _ h)
      · rw [work_create hq0 hh]
        refine keep (q₁' := (Request.create j d, Status.done) :: q₁) ?_ rfl (fun j' d' h => ?_)
        · rintro n ⟨d', hd', e⟩
          exact ⟨d', List.mem_append_left _ hd', e⟩
        · rcases List.mem_cons.mp h with h | h
          · cases h
            exact .inl ⟨d, List.mem_append_right _ List.mem_cons_self, rfl⟩
          · exact .inr (List.mem_cons_of_mem _ h)
    · have e := hq0
      rw [hq] at e
      obtain ⟨rfl, rfl⟩ := List.cons.inj e
      rw [work_index hq0 (by rcases hst with rfl | rfl <;> decide)]
      refine keep (q₁' := (Request.index j i, Status.crashed) :: q₁) (fun n h => h) rfl (fun j' d' h => ?_)
      rcases List.mem_cons.mp h with h | h
      · cases h
      · exact .inr (List.mem_cons_of_mem _ h)

theorem blocked_step {id : Int64} (s1 : P.state.Sane) {e : Ev} {a : Answer} (h : P.Step e a Q) (hb : Blocked id P.state) :
    Blocked id Q.state ∧ ∀ j ∈ accepted [a], Blocked j.id Q.state := by
  rcases step_cases s1 h with ⟨e1, e2⟩ | ⟨j, r, e1, hq, hd, -, hj, -⟩
  · refine ⟨?_, fun j hj => by rw [e1] at hj; exact absurd hj List.not_mem_nil⟩
    rcases e2 with e2 | e2
    · rw [e2]; exact hb
    · rw [e2]; exact blocked_work s1 hb
  · refine ⟨blocked_enqueue hq hd hb, fun j' hj' => ?_⟩
    replace e1 := e1.resolve_right (fun x => by rw [x.1] at hj'; exact absurd hj' List.not_mem_nil)
    rw [e1, List.mem_singleton] at hj'
    subst hj'
    rw [← hj]
    exact blocked_behind hq hd hb

theorem blocked_steps {id : Int64} (h : SSteps P es as Q) (hb : Blocked id P.state) :
    Blocked id Q.state ∧ ∀ j ∈ accepted as, Blocked j.id Q.state := by
  induction h generalizing id with
  | nil => exact ⟨hb, fun j hj => absurd hj List.not_mem_nil⟩
  | cons s1 s2 h1 h2 ih =>
    obtain ⟨g1, g2⟩ := blocked_step s1 h1 hb
    refine ⟨(ih g1).1, fun j hj => ?_⟩
    rw [accepted_cons] at hj
    rcases List.mem_append.mp hj with hj | hj
    · exact (ih (g2 j hj)).1
    · exact (ih g1).2 j hj

theorem blocked_unfinished {id : Int64} (hs : A.Sane) (h : Blocked id A) : A.finishedJob id = none := by
  obtain ⟨q₁, b, q₂, h1, -, x, h3, h4⟩ := h
  unfold DState.finishedJob
  cases hf : A.finished.find? (fun f => decide (f.1 = id)) with
  | none => rfl
  | some f =>
    exfalso
    have e : f.1 = id := of_decide_eq_true (p := f.1 = id) (List.find?_some (p := fun f : Int64 × DBInfo => decide (f.1 = id)) hf)
    have hm := List.mem_of_find?_eq_some hf
    have hn := hs.nodup
    unfold DState.ids at hn
    rw [List.nodup_append] at hn
    refine hn.2.2 id (List.mem_append_right _ (List.mem_flatMap.mpr ⟨x, ?_, ?_⟩)) id (List.mem_map.mpr ⟨f, hm, e⟩) rfl
    · rw [h1]; exact List.mem_append_right _ h3
    · rw [← h4]
      obtain ⟨x, s⟩ := x
      cases x <;> cases s <;> simp [DState.requestIDs, Request.job]

/-- A request that was accepted: it waits, or its database exists by now. -/
def Underway (id : Int64) (d : DBInfo) (A : DState) : Prop := A.Has d.name ∨ (.create id d, .waiting) ∈ A.queue

theorem underway_work {id : Int64} {d : DBInfo} (hs : A.Sane) (h : Underway id d A) : Underway id d A.work := by
  have same : A.work.dbs = A.dbs → A.Has d.name → Underway id d A.work := by
    intro e h; exact .inl (by unfold DState.Has; rw [e]; exact h)
  rcases head_cases hs with hq | ⟨j, d', q, hq⟩ | ⟨j, d', q, hq⟩ | ⟨j, d', q, hq⟩ | ⟨j, i, s, q, hq, hst⟩
  · rw [work_nil hq]; exact h
  · rw [work_failed hq]; exact h
  · rcases h with h | h
    · exact same (by rw [work_done hq]) h
    · rw [work_done hq]
      rw [hq] at h
      rcases List.mem_cons.mp h with h | h
      · cases h
      · exact .inr h
  · by_cases hh : A.Has d'.name
    · rcases h with h | h
      · exact same (by rw [work_taken hq hh]) h
      · rw [hq] at h
        rcases List.mem_cons.mp h with h | h
        · cases h; exact same (by rw [work_taken hq hh]) hh
        · rw [work_taken hq hh]; exact .inr (List.mem_cons_of_mem _ h)
    · rw [work_create hq hh]
      rcases h with ⟨x, hx, e⟩ | h
      · exact .inl ⟨x, List.mem_append_left _ hx, e⟩
      · rw [hq] at h
        rcases List.mem_cons.mp h with h | h
        · cases h; exact .inl ⟨d, List.mem_append_right _ List.mem_cons_self, rfl⟩
        · exact .inr (List.mem_cons_of_mem _ h)
  · have hw := work_index hq (by rcases hst with rfl | rfl <;> decide)
    rcases h with h | h
    · exact same (by rw [hw]) h
    · rw [hw]
      rw [hq] at h
      rcases List.mem_cons.mp h with h | h
      · cases h
      · exact .inr (List.mem_cons_of_mem _ h)

theorem underway_steps {id : Int64} {d : DBInfo} (h : SSteps P es as Q) (hb : Underway id d P.state) : Underway id d Q.state := by
  refine SSteps.inv (I := fun P => Underway id d P.state) ?_ h hb
  intro P e a Q s1 s2 h1 hb
  rcases step_cases s1 h1 with ⟨-, e2⟩ | ⟨j, r, -, hq, hd, -, -, -⟩
  · rcases e2 with e2 | e2
    · rw [e2]; exact hb
    · rw [e2]; exact underway_work s1 hb
  · rcases hb with hb | hb
    · exact .inl (by unfold DState.Has; rw [hd]; exact hb)
    · exact .inr (by rw [hq]; exact List.mem_append_left _ hb)

/-! ### Progress -/

theorem accepted_underway (h : SSteps P es as Q) : ∀ j ∈ accepted as, ∀ d, dbOf j = some d → Underway j.id d Q.state := by
  induction h with
  | nil => exact fun j hj => absurd hj List.not_mem_nil
  | @cons P e a Q es as R s1 s2 h1 h2 ih =>
    intro j hj d hd
    rw [accepted_cons] at hj
    rcases List.mem_append.mp hj with h | h
    · refine underway_steps h2 ?_
      rcases step_cases s1 h1 with ⟨e1, -⟩ | ⟨j₁, r, e1, hq, -, -, -, hcase⟩
      · rw [e1] at h; exact absurd h List.not_mem_nil
      · replace e1 := e1.resolve_right (fun x => by rw [x.1] at h; exact absurd h List.not_mem_nil)
        rw [e1, List.mem_singleton] at h
        subst h
        rcases hcase with ⟨o, i, c', -, hcr, rfl⟩ | ⟨i, c', -, hcr, -⟩
        · unfold dbOf at hd
          rw [creates_arg hcr] at hd
          cases hd
          exact .inr (by rw [hq]; exact List.mem_append_right _ List.mem_cons_self)
        · unfold dbOf at hd
          rw [adds_arg hcr] at hd
          cases hd
    · exact ih j h d hd

/-- All requests are for databases with new and different names, and none has failed. -/
structure Clean (A : DState) : Prop where
  creates : ∀ r ∈ A.queue, (∃ j d, r = (.create j d, .waiting)) ∨ ∃ j d, r = (.create j d, .done)
  names : (A.dbs.map (·.name) ++ A.queue.filterMap (fun
    | (.create _ d, .waiting) => some d.name
    | _ => none)).Nodup

/-- Turns the worker needs to empty the queue. -/
def turns (q : List (Request × Status)) : Nat := (q.map (fun r => if r.2 = .done then 1 else 2)).sum

/-- The job is in the queue or in the history. -/
def Known (id : Int64) (d : DBInfo) (A : DState) : Prop := (∃ s, (.create id d, s) ∈ A.queue) ∨ (id, d) ∈ A.finished

theorem clean_work (h : Clean A) : Clean A.work ∧ turns A.work.queue = turns A.queue - 1 ∧
    (∀ id d, Known id d A → Known id d A.work) := by
  cases hq : A.queue with
  | nil => rw [work_nil hq]; exact ⟨h, by rw [hq]; rfl, fun id d h => h⟩
  | cons r q =>
    obtain ⟨hc, hn⟩ := h
    rw [hq] at hc hn
    rcases hc r List.mem_cons_self with ⟨j, d, rfl⟩ | ⟨j, d, rfl⟩
    · have hh : ¬ A.Has d.name := by
        rintro ⟨d', hd', e⟩
        rw [List.nodup_append] at hn
        refine hn.2.2 d.name (List.mem_map.mpr ⟨d', hd', e⟩) d.name ?_ rfl
        rw [List.filterMap_cons]
        exact List.mem_cons_self
      rw [work_create hq hh]
      refine ⟨⟨?_, ?_⟩, ?_, ?_⟩
      · intro r hr
        rcases List.mem_cons.mp hr with rfl | hr
        · exact .inr ⟨j, d, rfl⟩
        · exact hc r (List.mem_cons_of_mem _ hr)
      · rw [List.map_append, List.filterMap_cons]
        rw [List.filterMap_cons] at hn
        simpa [List.append_assoc] using hn
      · show (if Status.done = Status.done then 1 else 2) + _ = _
        show _ = (if Status.waiting = Status.done then 1 else 2) + _ - 1
        rw [if_pos rfl, if_neg (by decide)]
        show 1 + turns q = 2 + turns q - 1
        omega
      · rintro id d' (⟨s, hm⟩ | hm)
        · rw [hq] at hm
          rcases List.mem_cons.mp hm with hm | hm
          · cases hm; exact .inl ⟨.done, List.mem_cons_self⟩
          · exact .inl ⟨s, List.mem_cons_of_mem _ hm⟩
        · exact .inr hm
    · rw [work_done hq]
      refine ⟨⟨fun r hr => hc r (List.mem_cons_of_mem _ hr), ?_⟩, ?_, ?_⟩
      · rw [List.filterMap_cons] at hn
        exact hn
      · show turns q = (if Status.done = Status.done then 1 else 2) + turns q - 1
        rw [if_pos rfl]; omega
      · rintro id d' (⟨s, hm⟩ | hm)
        · rw [hq] at hm
          rcases List.mem_cons.mp hm with hm | hm
          · cases hm; exact .inr (List.mem_append_right _ List.mem_cons_self)
          · exact .inl ⟨s, hm⟩
        · exact .inr (List.mem_append_left _ hm)

theorem turns_zero {q : List (Request × Status)} (h : turns q = 0) : q = [] := by
  cases q with
  | nil => rfl
  | cons r q =>
    exfalso
    unfold turns at h
    rw [List.map_cons, List.sum_cons] at h
    split at h <;> omega

theorem turns_le (q : List (Request × Status)) : turns q ≤ 2 * q.length := by
  induction q with
  | nil => exact Nat.le_refl _
  | cons r q ih =>
    have : turns (r :: q) = (if r.2 = .done then 1 else 2) + turns q := rfl
    rw [this, List.length_cons]
    split <;> omega

theorem turns_run (h : SSteps P es as Q) (hr : P.running = true) (hw : Turns es) (hc : Clean P.state) :
    Clean Q.state ∧ turns Q.state.queue = turns P.state.queue - es.length ∧ (∀ id d, Known id d P.state → Known id d Q.state) := by
  induction h with
  | nil => exact ⟨hc, by simp, fun id d h => h⟩
  | @cons P e a Q es as R s1 s2 h1 h2 ih =>
    obtain ⟨o₁, o₂, o₃, c, env, rfl, hf⟩ := hw e List.mem_cons_self
    have hQ : Q.state = P.state.work ∧ Q.running = true := by
      cases h1 with
      | work a b _ => exact ⟨rfl, hr⟩
      | workRefused a b => rw [hf] at b; cases b
      | workNot a => rw [hr] at a; cases a
    obtain ⟨k1, k2, k3⟩ := clean_work hc
    obtain ⟨g1, g2, g3⟩ := ih hQ.2 (fun e he => hw e (List.mem_cons_of_mem _ he)) (by rw [hQ.1]; exact k1)
    refine ⟨g1, ?_, fun id d h => g3 id d (by rw [hQ.1]; exact k3 id d h)⟩
    rw [g2, hQ.1, k2, List.length_cons]
    omega

/-- Accepted requests, all for databases with different names, keep the state clean. -/
theorem clean_steps (h : SSteps P es as Q) (hc : Clean P.state)
    (hp : ∀ a ∈ as, a ≠ .job .panic) (ha : ∀ j ∈ accepted as, (dbOf j).isSome)
    (hn : (P.state.dbs.map (·.name) ++ P.state.queue.filterMap (fun
      | (.create _ d, .waiting) => some d.name
      | _ => none) ++ (accepted as).filterMap (fun j => (dbOf j).map (·.name))).Nodup) :
    Clean Q.state ∧ Q.state.queue.length ≤ P.state.queue.length + (accepted as).length ∧
    (∀ id d, Known id d P.state → Known id d Q.state) ∧ ∀ j ∈ accepted as, ∀ d, dbOf j = some d → Known j.id d Q.state := by
  induction h with
  | nil => exact ⟨hc, by simp, fun id d h => h, fun j hj => absurd hj List.not_mem_nil⟩
  | @cons P e a Q es as R s1 s2 h1 h2 ih =>
    rw [accepted_cons] at ha hn ⊢
    replace ih := fun hc => ih hc (hp := fun a h => hp a (List.mem_cons_of_mem _ h))
    rcases step_cases s1 h1 with ⟨e1, e2⟩ | ⟨j, r, e1, hq, hd, hfin, hj, hcase⟩
    · rw [e1, List.nil_append] at ha hn ⊢
      rcases e2 with e2 | e2
      · have := ih (by rw [e2]; exact hc) ha (by rw [e2]; exact hn)
        rw [e2] at this
        exact this
      · obtain ⟨k1, k2, k3⟩ := clean_work hc
        have hnames : (P.state.work.dbs.map (·.name) ++ P.state.work.queue.filterMap (fun
            | (.create _ d, .waiting) => some d.name
            | _ => none)) = (P.state.dbs.map (·.name) ++ P.state.queue.filterMap (fun
            | (.create _ d, .waiting) => some d.name
            | _ => none)) ∧ P.state.work.queue.length ≤ P.state.queue.length := by
          cases hq : P.state.queue with
          | nil => rw [work_nil hq, hq]; exact ⟨rfl, Nat.le_refl _⟩
          | cons r q =>
            obtain ⟨hcr, hnn⟩ := hc
            rw [hq] at hcr hnn
            rcases hcr r List.mem_cons_self with ⟨j, d, rfl⟩ | ⟨j, d, rfl⟩
            · have hh : ¬ P.state.Has d.name := by
                rintro ⟨d', hd', e⟩
                rw [List.nodup_append] at hnn
                refine hnn.2.2 d.name (List.mem_map.mpr ⟨d', hd', e⟩) d.name ?_ rfl
                rw [List.filterMap_cons]
                exact List.mem_cons_self
              rw [work_create hq hh]
              refine ⟨?_, Nat.le_refl _⟩
              rw [List.map_append, List.filterMap_cons, List.filterMap_cons]
              simp [List.append_assoc]
            · rw [work_done hq]
              refine ⟨?_, Nat.le_succ _⟩
              rw [List.filterMap_cons]
        have := ih (by rw [e2]; exact k1) ha (by rw [e2, hnames.1]; exact hn)
        rw [e2] at this
        obtain ⟨g1, g2, g3, g4⟩ := this
        have := hnames.2
        exact ⟨g1, by omega, fun id d h => g3 id d (k3 id d h), g4⟩
    · replace e1 := e1.resolve_right (fun x => hp _ List.mem_cons_self x.2)
      rw [e1] at ha hn ⊢
      rcases hcase with ⟨o, i, c, -, hcr, hr⟩ | ⟨i, c, -, hcr, hr⟩
      · have hdb : dbOf j = some (requested P.state.lastID i) := by
          unfold dbOf; rw [creates_arg hcr]
        have hnames : (Q.state.dbs.map (·.name) ++ Q.state.queue.filterMap (fun
            | (.create _ d, .waiting) => some d.name
            | _ => none)) = (P.state.dbs.map (·.name) ++ P.state.queue.filterMap (fun
            | (.create _ d, .waiting) => some d.name
            | _ => none)) ++ [(requested P.state.lastID i).name] := by
          rw [hq, hd, List.filterMap_append, hr, List.append_assoc]
          rfl
        have hn' : (Q.state.dbs.map (·.name) ++ Q.state.queue.filterMap (fun
            | (.create _ d, .waiting) => some d.name
            | _ => none) ++ (accepted as).filterMap (fun j => (dbOf j).map (·.name))).Nodup := by
          rw [hnames]
          rw [List.filterMap_append, List.filterMap_cons, hdb] at hn
          simpa [List.append_assoc] using hn
        have hcQ : Clean Q.state := by
          refine ⟨?_, (List.nodup_append.mp hn').1⟩
          intro r' hr'
          rw [hq] at hr'
          rcases List.mem_append.mp hr' with h | h
          · exact hc.creates r' h
          · rw [List.mem_singleton] at h
            rw [h, hr]
            exact .inl ⟨_, _, rfl⟩
        obtain ⟨g1, g2, g3, g4⟩ := ih hcQ (fun j hj => ha j (List.mem_append_right _ hj)) hn'
        refine ⟨g1, ?_, fun id d h => g3 id d ?_, ?_⟩
        · rw [hq, List.length_append] at g2
          rw [List.length_append]
          simp only [List.length_singleton] at g2 ⊢
          omega
        · rcases h with ⟨s, h⟩ | h
          · exact .inl ⟨s, by rw [hq]; exact List.mem_append_left _ h⟩
          · exact .inr (by rw [hfin]; exact h)
        · intro j' hj' d hd'
          rcases List.mem_append.mp hj' with h | h
          · rw [List.mem_singleton] at h
            subst h
            rw [hdb] at hd'
            cases hd'
            exact g3 _ _ (.inl ⟨.waiting, by rw [hq, hr]; exact List.mem_append_right _ List.mem_cons_self⟩)
          · exact g4 j' h d hd'
      · exfalso
        have := ha j (List.mem_append_left _ List.mem_cons_self)
        unfold dbOf at this
        rw [adds_arg hcr] at this
        cases this

/-! ### Sequences -/

theorem has_step (s1 : P.state.Sane) {e : Ev} {a : Ddl.Answer} (h : P.Step e a Q) (hc : e ≠ .crash) {x : Int64}
    (hx : ∃ p ∈ P.state.collections, p.2 = x) (hh : P.has x = true) : (∃ p ∈ Q.state.collections, p.2 = x) ∧ Q.has x = true := by
  refine ⟨?_, ?_⟩
  · obtain ⟨p, hp, e⟩ := hx
    refine ⟨p, ?_, e⟩
    rcases step_cases s1 h with ⟨-, e | e⟩ | ⟨j, r, -, -, hd, -⟩
    · rw [e]; exact hp
    · rw [e]; exact collections_work_sub s1 hp
    · unfold DState.collections at hp ⊢; rw [hd]; exact hp
  · cases h with
    | work _ h _ => exact (h x).mpr (.inl hh)
    | crash => exact absurd rfl hc
    | init _ h => exact (h x).mpr (.inl hh)
    | initAgain _ h _ => exact h x hh
    | initRefused _ h _ => exact h x hh
    | _ => exact hh

theorem has_steps (h : SSteps P es as Q) (hc : ∀ e ∈ es, e ≠ .crash) {x : Int64}
    (hx : ∃ p ∈ P.state.collections, p.2 = x) (hh : P.has x = true) : (∃ p ∈ Q.state.collections, p.2 = x) ∧ Q.has x = true := by
  induction h with
  | nil => exact ⟨hx, hh⟩
  | cons s1 s2 h1 h2 ih =>
    obtain ⟨g1, g2⟩ := has_step s1 h1 (hc _ List.mem_cons_self) hx hh
    exact ih (fun e he => hc e (List.mem_cons_of_mem _ he)) g1 g2

/-! ### Document ids -/

theorem drawn_cons (x : Int64) (e : Ev) (a : Ddl.Answer) (es : List Ev) (as : List Ddl.Answer) :
    drawn x (e :: es) (a :: as) = drawn x [e] [a] ++ drawn x es as := by
  unfold drawn
  rw [List.zip_cons_cons, List.filterMap_cons]
  simp only [List.zip_cons_cons, List.zip_nil_left, List.filterMap_cons, List.filterMap_nil]
  split <;> rfl

theorem drawn_step {e : Ev} {a : Ddl.Answer} (h : P.Step e a Q) (x : Int64) :
    P.last x ≤ Q.last x ∧ (drawn x [e] [a] = [] ∨ ∃ v, drawn x [e] [a] = [v] ∧ P.last x < v.toInt ∧ Q.last x = v.toInt) := by
  cases h with
  | @draw y c v hh hl =>
    by_cases hx : x = y
    · subst hx
      refine ⟨?_, .inr ⟨v, ?_, hl, ?_⟩⟩
      · show _ ≤ if x = x then v.toInt else _
        rw [if_pos rfl]; omega
      · unfold drawn
        simp
      · show (if x = x then v.toInt else _) = _
        rw [if_pos rfl]
    · refine ⟨?_, .inl ?_⟩
      · show _ ≤ if x = y then v.toInt else _
        rw [if_neg hx]; exact Int.le_refl _
      · unfold drawn
        simpa using fun h => hx h.symm
  | _ => exact ⟨Int.le_refl _, .inl rfl⟩

theorem drawn_sorted (h : SSteps P es as Q) (x : Int64) :
    (drawn x es as).Pairwise (· < ·) ∧ ∀ v ∈ drawn x es as, P.last x < v.toInt := by
  induction h with
  | nil => exact ⟨List.Pairwise.nil, fun v hv => absurd hv List.not_mem_nil⟩
  | @cons P e a Q es as R s1 s2 h1 h2 ih =>
    obtain ⟨g1, g2⟩ := ih
    obtain ⟨k1, k2⟩ := drawn_step h1 x
    rw [drawn_cons]
    rcases k2 with k2 | ⟨v, k2, k3, k4⟩
    · rw [k2, List.nil_append]
      exact ⟨g1, fun v hv => by have := g2 v hv; omega⟩
    · rw [k2, List.singleton_append]
      refine ⟨List.pairwise_cons.mpr ⟨fun u hu => ?_, g1⟩, fun u hu => ?_⟩
      · rw [Int64.lt_iff_toInt_lt, ← k4]; exact g2 u hu
      · rcases List.mem_cons.mp hu with rfl | hu
        · exact k3
        · have := g2 u hu; omega

end
end Mondis.Ddl
