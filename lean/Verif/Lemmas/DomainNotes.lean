import Verif.Lemmas.DomainTale
/-!
# The document process: keeping a record of the transactions
-/
namespace Mondis.Props
open Mondis Prog Spec Schema Doc Domain Ddl

variable {D : Type} {norm : D → Res D} {S S' : Site D} {e : Domain.Ev D} {a : Domain.Answer D}

/-! ### Ids are positive -/

/-- In all reachable states. -/
structure Positive (S : Site D) : Prop where
  last : ∀ x, 0 ≤ S.proc.last x
  pool : ∀ x, ∀ v ∈ S.pool x, 0 < v.toInt
  drawn : ∀ k v, S.visit k = some v → ∀ p ∈ v.drawn, 0 < p.2.toInt

theorem positive_start : Positive ({} : Site D) where
  last := fun _ => Int.le_refl _
  pool := nofun
  drawn := by
    intro k v h
    have : ((([] : List (Option (Visit D)))[k]?).join) = some v := h
    simp at this

theorem Positive.draws (h : Positive S) {x v : Int64} (hd : S.Draws x v S') : Positive S' ∧ 0 < v.toInt := by
  cases hd with
  | back p hp =>
    refine ⟨⟨h.last, fun y u hu => ?_, h.drawn⟩, h.pool x v (by rw [hp]; simp)⟩
    by_cases e : y = x
    · subst e
      have hu : u ∈ (if y = y then p else S.pool y) := hu
      rw [if_pos rfl] at hu
      exact h.pool y u (by rw [hp]; exact List.mem_append_left _ hu)
    · have hu : u ∈ (if y = x then p else S.pool y) := hu
      rw [if_neg e] at hu
      exact h.pool y u hu
  | fresh _ hl =>
    have := h.last x
    refine ⟨⟨fun y => ?_, h.pool, h.drawn⟩, by omega⟩
    show 0 ≤ (if y = x then v.toInt else S.proc.last y)
    split
    · omega
    · exact h.last y

theorem Positive.giveBack (h : Positive S) {k : Nat} {v : Visit D} (hv : S.visit k = some v) : Positive (S.giveBack v.drawn) where
  last := h.last
  pool := by
    intro x u hu
    rcases List.mem_append.mp hu with hu | hu
    · exact h.pool x u hu
    · obtain ⟨p, hp, rfl⟩ := List.mem_map.mp hu
      exact h.drawn k v hv p (List.mem_filter.mp hp).1
  drawn := h.drawn

theorem Positive.put (h : Positive S) {k : Nat} {v v' : Visit D} (hv : S.visit k = some v) (hd : ∀ p ∈ v'.drawn, 0 < p.2.toInt) :
    Positive (S.put k v') where
  last := h.last
  pool := h.pool
  drawn := by
    intro j u hu
    rw [Site.visit_put hv] at hu
    by_cases ej : k = j
    · rw [if_pos ej] at hu; cases hu; exact hd
    · rw [if_neg ej] at hu; exact h.drawn j u hu

theorem visit_dead (l : List (Option (Visit D))) (k : Nat) : ((l.map (fun _ => (none : Option (Visit D))))[k]?).join = none := by
  rw [List.getElem?_map]
  cases l[k]? <;> rfl

theorem Positive.step (h : Positive S) (hs : S.Walk norm e a S') : Positive S' := by
  cases hs with
  | crash hp =>
    cases hp
    refine ⟨h.last, nofun, fun k v hv => ?_⟩
    have hv : ((S.visits.map (fun _ => (none : Option (Visit D))))[k]?).join = some v := hv
    rw [visit_dead] at hv; cases hv
  | ddl hd hc hp => exact ⟨by rw [proc_last hp hd]; exact h.last, h.pool, h.drawn⟩
  | draw _ hd => exact (h.draws hd).1
  | begin =>
    refine ⟨h.last, h.pool, fun k v hv => ?_⟩
    rw [visit_append] at hv
    split at hv
    · cases hv; nofun
    · exact h.drawn k v hv
  | snapshot hv hp => exact h.put hv (fun p hp => h.drawn _ _ hv p hp)
  | insert hv hp hi =>
    cases hi with
    | ok d x did S₁ hn hx hh hd hu =>
      obtain ⟨h1, h2⟩ := h.draws hd
      refine h1.put ((Draws.visit hd _).trans hv) ?_
      intro p hp
      rcases List.mem_append.mp hp with hp | hp
      · exact h.drawn _ _ hv p hp
      · rw [List.mem_singleton.mp hp]; exact h2
    | readOnly d x did S₁ hn hx hh hd hu => exact (h.draws hd).1
    | _ => exact h
  | op hv hp => exact h.put hv (by rw [(site_operate_keeps _ _ _ _).2.1]; exact h.drawn _ _ hv)
  | discard hv hp => exact h.put hv (fun p hp => h.drawn _ _ hv p hp)
  | commit hv hp =>
    unfold Site.commits
    split
    · exact h
    · split
      · exact (h.giveBack hv).put hv nofun
      · split
        · exact h
        · exact h.put hv (fun p hp => h.drawn _ _ hv p hp)
  | finish hv hp hf =>
    cases hf with
    | nothing ht => exact h.put hv (fun p hp => h.drawn _ _ hv p hp)
    | refused err ht hf => exact (h.giveBack hv).put hv nofun
    | ok A ht hf hm => exact Positive.put (S := { S with docs := A }) ⟨h.last, h.pool, h.drawn⟩ hv (fun p hp => h.drawn _ _ hv p hp)
  | _ => exact ⟨h.last, h.pool, h.drawn⟩

/-! ### The record -/

/-- What is recorded of a transaction: its calls, the documents looked up that it had not written, the documents and the
databases at its snapshot, whether it may write. -/
structure Trace (D : Type) where
  recs : List (Rec D) := []
  looked : List (Int64 × Int64) := []
  base : Docs D := Docs.init
  dbs : List DBInfo := []
  upd : Bool := true

/-- The records of all transactions. -/
abbrev Ghost (D : Type) := Nat → Trace D

def Ghost.put (g : Ghost D) (k : Nat) (t : Trace D) : Ghost D := fun j => if j = k then t else g j

@[simp] theorem Ghost.put_same (g : Ghost D) (k : Nat) (t : Trace D) : g.put k t k = t := if_pos rfl
theorem Ghost.put_ne (g : Ghost D) {j k : Nat} (h : j ≠ k) (t : Trace D) : g.put k t j = g j := if_neg h

/-- Nothing was said. -/
def Mute (e : Domain.Ev D) (a : Domain.Answer D) : Prop := ∀ k, saidOf k (e, a) = none

/-- What a call does. -/
inductive Effect (norm : D → Res D) (S : Site D) (k : Nat) (v : Visit D) (e : Domain.Ev D) (q : Said D) :
    Visit D → Option Int64 → List (Int64 × Int64) → Prop where
  | idle : (∀ s, q.call.sem norm s = (q.answer, s)) → q.wrote = false → Effect norm S k v e q v none []
  | refused (x : Int64) : v.update = false → collectionIn S.proc.state.dbs v.schema q.db q.coll = some x →
      q.answer = .err .readOnlyTxn → q.call.reads = false → Effect norm S k v e q v (some x) []
  | does (x : Int64) (op : DocOp D) (v' : Visit D) : v.update = true ∨ op.touches norm (v.docs x) = [] →
      collectionIn S.proc.state.dbs v.schema q.db q.coll = some x → op.cid = x →
      (∀ s, q.call.sem norm s = op.sem norm s) → q.call.point = isPoint op → q.answer = (op.sem norm (v.docs x)).1 →
      (q.wrote = true ↔ op.touches norm (v.docs x) ≠ []) →
      v'.docs = v.docs.upd x (op.sem norm (v.docs x)).2 → v'.touched = v.touched ++ (op.touches norm (v.docs x)).map (fun i => (x, i)) →
      v'.phase = v.phase → v'.schema = v.schema → v'.update = v.update →
      looks norm (v.docs x) op = [] ∨ (∃ o mark, e = .op k q.db q.coll o mark ∧ op = o.at x ∧ docStorable norm o = .ok ()) →
      Effect norm S k v e q v' (some x) (((looks norm (v.docs x) op).filter (fun i => !decide ((x, i) ∈ v.touched))).map (fun i => (x, i)))

/-- How the record changes with an event. -/
inductive Notes (norm : D → Res D) (S : Site D) (e : Domain.Ev D) (a : Domain.Answer D) (S' : Site D) (g : Ghost D) : Ghost D → Prop where
  | quiet : Mute e a → committedIn [e] [a] = [] → S'.visits = S.visits → S'.docs = S.docs →
      (∀ k v, e = .snapshot k → S.visit k = some v → v.phase ≠ .fresh) → e ≠ .ddl .crash → Notes norm S e a S' g g
  | crash : Mute e a → committedIn [e] [a] = [] → e = .ddl .crash → S'.visits = S.visits.map (fun _ => none) → S'.docs = S.docs →
      Notes norm S e a S' g g
  | begin (u : Bool) (env : Env) : Mute e a → committedIn [e] [a] = [] → e = .begin u env →
      S'.visits = S.visits ++ [some { schema := S.schema, update := u, docs := S.docs }] → S'.docs = S.docs → Notes norm S e a S' g g
  | snapshot (k : Nat) (v : Visit D) : Mute e a → committedIn [e] [a] = [] → e = .snapshot k → S.visit k = some v → v.phase = .fresh →
      S'.visits = (S.put k { v with docs := S.docs, phase := .ready }).visits → S'.docs = S.docs →
      Notes norm S e a S' g (g.put k { base := S.docs, dbs := S.proc.state.dbs, upd := v.update })
  | phase (k : Nat) (v v' : Visit D) : Mute e a → committedIn [e] [a] = [] → (e = .discard k ∨ e = .commit k ∨ ∃ f, e = .finish k f) →
      S.visit k = some v → v.phase ≠ .fresh → v'.docs = v.docs → v'.touched = v.touched → v'.update = v.update → v'.schema = v.schema →
      v'.phase ≠ .fresh → (v.phase = .over → v'.phase = .over) → (v'.phase = .ready → v.phase = .ready) →
      (v'.phase = .checked → v.update = true) → S'.visits = (S.put k v').visits → S'.docs = S.docs → Notes norm S e a S' g g
  | call (k : Nat) (v v' : Visit D) (q : Said D) (x : Option Int64) (more : List (Int64 × Int64)) :
      (∀ j, saidOf j (e, a) = if j = k then some q else none) → committedIn [e] [a] = [] →
      ((∃ d c o m, e = .op k d c o m) ∨ ∃ d c b m r, e = .insert k d c b m r) →
      S.visit k = some v → v.phase = .ready →
      Effect norm S k v e q v' x more → S'.visits = (S.put k v').visits → S'.docs = S.docs →
      Notes norm S e a S' g (g.put k { g k with recs := (g k).recs ++ [(q, x)], looked := (g k).looked ++ more })
  | finish (k : Nat) (v : Visit D) (f : Option Err) : Mute e a → committedIn [e] [a] = [k] → e = .finish k f → a = .committed (.ok ()) →
      S.visit k = some v → v.phase = .checked → S'.visits = (S.put k { v with phase := .over }).visits →
      Merged v.touched v.docs S.docs S'.docs → Notes norm S e a S' g g

theorem draws_stays {x v : Int64} (hd : S.Draws x v S') : S'.visits = S.visits ∧ S'.docs = S.docs := by cases hd <;> exact ⟨rfl, rfl⟩

theorem reads_touch (o : Op D) (x : Int64) (s : IMap D) (h : (o.at x).touches norm s ≠ []) : (DocCall.op o).reads = false := by
  cases o with
  | getOne | getMany | getAll | count => exact absurd rfl h
  | _ => rfl

theorem step_notes (hp : Positive S) (hs : S.Walk norm e a S') (g : Ghost D) : ∃ g', Notes norm S e a S' g g' := by
  cases hs with
  | crash hq => cases hq; exact ⟨g, .crash (fun _ => rfl) rfl rfl rfl rfl⟩
  | ddlNot he _ =>
    refine ⟨g, .quiet (fun _ => rfl) rfl rfl rfl nofun ?_⟩
    rcases he with ⟨_, _, _, rfl⟩ | ⟨_, _, rfl⟩ <;> nofun
  | ddl hd hc hq => exact ⟨g, .quiet (fun _ => rfl) rfl rfl rfl nofun (by simpa using hc)⟩
  | draw _ hd => exact ⟨g, .quiet (fun _ => rfl) rfl (draws_stays hd).1 (draws_stays hd).2 nofun nofun⟩
  | begin => exact ⟨g, .begin _ _ (fun _ => rfl) rfl rfl rfl rfl⟩
  | snapshot hv hf => exact ⟨_, .snapshot _ _ (fun _ => rfl) rfl rfl hv hf rfl rfl⟩
  | snapshotNot hv => exact ⟨g, .quiet (fun _ => rfl) rfl rfl rfl (fun k v he => by cases he; exact hv v) nofun⟩
  | insert hv hr hi =>
    rename_i k v db coll doc mark c r
    cases hi with
    | ok d x did S₁ hn hx hh hd hu =>
      have hne : did ≠ 0 := by
        have := (hp.draws hd).2
        rintro rfl
        exact absurd this (by decide)
      have ht : (DocOp.insert x did doc).touches norm (v.docs x) = [did] := by simp only [DocOp.touches, hn]
      have hl := draws_stays hd
      refine ⟨_, .call k v _ ⟨db, coll, .insert did doc, .ok .unit⟩ (some x) _ ?_ rfl (.inr ⟨_, _, _, _, _, rfl⟩) hv hr
        (.does x (.insert x did doc) { v with docs := v.docs.upd x ((v.docs x).set did d), touched := v.touched ++ [(x, did)], drawn := v.drawn ++ [(x, did)] }
          (.inl hu) hx rfl (fun s => rfl) rfl ?_ ?_ ?_ ?_ rfl rfl rfl (.inl rfl)) ?_ hl.2⟩
      · intro j
        simp only [saidOf]
        by_cases e : k = j
        · subst e; rw [if_pos ⟨rfl, hne⟩, if_pos rfl]
        · rw [if_neg (fun h => e h.1), if_neg (Ne.symm e)]
      · simp only [DocOp.sem, storing, hn]
      · rw [ht]; simp [Said.wrote]
      · simp only [DocOp.sem, storing, hn]
      · rw [ht]; rfl
      · show S₁.visits.set _ _ = S.visits.set _ _
        rw [hl.1]
    | readOnly d x did S₁ hn hx hh hd hu => exact ⟨g, .quiet (fun _ => rfl) rfl (draws_stays hd).1 (draws_stays hd).2 nofun nofun⟩
    | nowhere => exact ⟨g, .quiet (fun j => by simp [saidOf]) rfl rfl rfl nofun nofun⟩
    | _ => exact ⟨g, .quiet (fun _ => rfl) rfl rfl rfl nofun nofun⟩
  | op hv hr =>
    rename_i k v db coll o mark
    have hsaid : ∀ r : Res (DocOut D), noCollection r = false →
        ∀ j, saidOf j (.op k db coll o mark, .out r) = if j = k then some ⟨db, coll, .op o, r⟩ else none := by
      intro r hr j
      simp only [saidOf]
      by_cases e : k = j
      · subst e; rw [if_pos ⟨rfl, hr⟩, if_pos rfl]
      · rw [if_neg (fun h => e h.1), if_neg (Ne.symm e)]
    have hidle : ∀ r : Res (DocOut D), (∃ e, docStorable norm o = .err e ∧ r = .err e) ∨ (docStorable norm o = .panic ∧ r = .panic) → noCollection r = false →
        ∃ g', Notes norm S (.op k db coll o mark) (.out r) (S.put k v) g g' := by
      intro r hr' hnc
      obtain ⟨h1, h2⟩ := op_unstorable o hr'
      exact ⟨_, .call k v v ⟨db, coll, .op o, r⟩ none [] (hsaid r hnc) rfl (.inl ⟨_, _, _, _, rfl⟩) hv hr (.idle h1 (h2 _ _)) rfl rfl⟩
    unfold Site.operate
    split
    · rename_i er hst
      by_cases hnc : noCollection (α := DocOut D) (.err er) = false
      · exact hidle _ (.inl ⟨er, hst, rfl⟩) hnc
      · refine ⟨g, .quiet (fun j => ?_) rfl ?_ rfl nofun nofun⟩
        · simp only [saidOf]; rw [if_neg (fun h => hnc h.2)]
        · rw [Site.put_same hv]
    · rename_i hst
      exact hidle _ (.inr ⟨hst, rfl⟩) rfl
    · rename_i u hst
      cases u
      split
      · refine ⟨g, .quiet (fun j => ?_) rfl ?_ rfl nofun nofun⟩
        · simp only [saidOf]; rw [if_neg (fun h => by have := h.2; simp [noCollection] at this)]
        · rw [Site.put_same hv]
      · rename_i x hx
        dsimp only
        split
        · rename_i hc
          have hcid : (o.at x).cid = x := at_cid o x
          have hstep : (o.at x).step norm v.docs = (((o.at x).sem norm (v.docs x)).1, v.docs.upd x ((o.at x).sem norm (v.docs x)).2) := by
            unfold DocOp.step
            rw [hcid]
          refine ⟨_, .call k v { v with docs := ((o.at x).step norm v.docs).2, touched := v.touched ++ ((o.at x).touches norm (v.docs x)).map (fun i => (x, i)) }
            ⟨db, coll, .op o, ((o.at x).sem norm (v.docs x)).1⟩ (some x) _ ?_ rfl (.inl ⟨_, _, _, _, rfl⟩) hv hr
            (.does x (o.at x) _ hc hx hcid (fun s => at_sem o x s) (at_point o x) rfl (op_wrote o x _ db coll) ?_ rfl rfl rfl rfl
              (.inr ⟨o, mark, rfl, rfl, hst⟩)) rfl rfl⟩
          · rw [hstep]; exact hsaid _ (op_found o x _ hst)
          · rw [hstep]
        · rename_i hc
          have h1 : v.update = false := by cases hu : v.update with
            | true => exact absurd (.inl hu) hc
            | false => rfl
          exact ⟨_, .call k v v ⟨db, coll, .op o, .err .readOnlyTxn⟩ (some x) [] (hsaid _ rfl) rfl (.inl ⟨_, _, _, _, rfl⟩) hv hr
            (.refused x h1 hx rfl (reads_touch o x _ (fun h => hc (.inr h)))) rfl rfl⟩
  | discard hv hr =>
    rename_i k v
    exact ⟨g, .phase k v { v with phase := .over } (fun _ => rfl) rfl (.inl rfl) hv (by rw [hr]; nofun) rfl rfl rfl rfl nofun (fun _ => rfl) nofun nofun rfl rfl⟩
  | commit hv hr =>
    rename_i k v
    have hne : v.phase ≠ .fresh := by rcases hr with h | h <;> rw [h] <;> nofun
    unfold Site.commits
    split
    · exact ⟨g, .quiet (fun _ => rfl) rfl rfl rfl nofun nofun⟩
    · rename_i hu
      split
      · exact ⟨g, .phase k v { v with drawn := [] } (fun _ => rfl) rfl (.inr (.inl rfl)) hv hne rfl rfl rfl rfl hne (fun h => h) (fun h => h)
          (fun h => by rcases hr with h' | h' <;> (rw [show _ = v.phase from rfl, h'] at h; cases h)) rfl rfl⟩
      · split
        · exact ⟨g, .quiet (fun _ => rfl) rfl rfl rfl nofun nofun⟩
        · rename_i ho
          exact ⟨g, .phase k v { v with phase := .checked } (fun _ => rfl) rfl (.inr (.inl rfl)) hv hne rfl rfl rfl rfl nofun (fun h => absurd h ho) nofun
            (fun _ => by cases hx : v.update with | true => rfl | false => exact absurd hx hu) rfl rfl⟩
  | finish hv hr hf =>
    rename_i k v fail r
    have hne : v.phase ≠ .fresh := by rw [hr]; nofun
    cases hf with
    | nothing ht =>
      refine ⟨g, .finish k v fail (fun _ => rfl) rfl rfl rfl hv hr rfl ?_⟩
      intro c i; rw [ht, if_neg (by simp)]; rfl
    | refused err ht hf =>
      exact ⟨g, .phase k v { v with drawn := [], phase := .over } (fun _ => rfl) rfl (.inr (.inr ⟨_, rfl⟩)) hv hne rfl rfl rfl rfl nofun (fun _ => rfl) nofun nofun rfl rfl⟩
    | ok A ht hf hm => exact ⟨g, .finish k v fail (fun _ => rfl) rfl rfl rfl hv hr rfl hm⟩
  | _ => exact ⟨g, .quiet (fun _ => rfl) rfl rfl rfl nofun nofun⟩

end Mondis.Props
