import Verif.Model.Provider
/-!
# Reasoning about programs inside a transaction

`wp` computes the weakest precondition of a program over the *live* contents of a transaction's
view.  Every write may fail (read-only, bad key, transaction too big), reads are exact.
-/
namespace Mondis

/-- Restrict a map to its live entries. -/
def DB.live (now : Int) (m : DB) : DB := m.filter (fun e => e.2.live now)

/-- The live part of what a transaction sees. -/
def Txn.live (t : Txn) : DB := DB.live t.env.now t.view

/-- The ways a write to `k` can fail under `env`. -/
def Env.WriteErr (env : Env) (k : Bytes) (e : Err) : Prop :=
  (env.update = false ∧ e = .readOnlyTxn) ∨ keyErr k = some e ∨
    (e = .txnTooBig ∧ ∃ n, env.tooBig n = true)

/-- Writes to `k` always succeed under `env`. -/
def Env.Writable (env : Env) (k : Bytes) : Prop :=
  env.update = true ∧ keyErr k = none ∧ ∀ n, env.tooBig n = false

theorem Env.Writable.not_err {env : Env} {k : Bytes} (h : env.Writable k) (e : Err) :
    ¬ env.WriteErr k e := by
  obtain ⟨h1, h2, h3⟩ := h
  rintro (⟨h, _⟩ | h | ⟨_, n, h⟩)
  · rw [h1] at h; cases h
  · rw [h2] at h; cases h
  · rw [h3] at h; cases h

/-- The result of reading `k` from live contents `m`. -/
def readRes (m : DB) (k : Bytes) : Res Val :=
  if k = [] then .err .emptyKey else match m.get k with
    | some v => .ok v
    | none => .err .keyNotFound

/-- Live contents after writing `v` (which may be born expired). -/
def setLive (now : Int) (m : DB) (k : Bytes) (v : Val) : DB :=
  if v.live now then m.set k v else m.del k

namespace Prog

/-- Weakest precondition. -/
def wp {α : Type} (env : Env) : Prog α → DB → (Res α → DB → Prop) → Prop
  | done r, m, Q => Q r m
  | get k c, m, Q => wp env (c (readRes m k)) m Q
  | set k v vm c, m, Q =>
      (∀ e, env.WriteErr k e → wp env (c (.err e)) m Q) ∧
      (keyErr k = none → env.update = true →
        wp env (c (.ok ())) (setLive env.now m k (mkVal env.now v vm)) Q)
  | del k c, m, Q =>
      (∀ e, env.WriteErr k e → wp env (c (.err e)) m Q) ∧
      (keyErr k = none → env.update = true → wp env (c (.ok ())) (m.del k) Q)
  | scan o c, m, Q => wp env (c (Txn.iterate env.prune m.ents o)) m Q

end Prog

theorem live_set (now : Int) (m : DB) (k : Bytes) (v : Val) :
    DB.live now (m.set k v) = setLive now (DB.live now m) k v := by
  ext1 j
  unfold DB.live setLive
  rw [OMap.get_filter, OMap.get_set]
  by_cases h : k = j
  · subst h
    by_cases hl : v.live now <;> simp [Option.filter, hl]
  · by_cases hl : v.live now <;> simp [h, hl, OMap.get_filter]

theorem live_del (now : Int) (m : DB) (k : Bytes) :
    DB.live now (m.del k) = (DB.live now m).del k := by
  ext1 j
  unfold DB.live
  rw [OMap.get_filter, OMap.get_del, OMap.get_del]
  by_cases h : k = j <;> simp [h, Option.filter, OMap.get_filter]

theorem live_get (now : Int) (m : DB) (k : Bytes) :
    (DB.live now m).get k = (m.get k).filter (fun v => v.live now) := OMap.get_filter _ _ _

theorem Txn.get_fst (t : Txn) (k : Bytes) : (t.get k).1 = readRes t.live k := by
  unfold Txn.get readRes
  by_cases hk : k = []
  · simp [hk]
  · simp only [if_neg hk, Txn.live, live_get]
    cases h : t.view.get k with
    | none => simp
    | some v => by_cases hl : v.live t.env.now <;> simp [hl, Option.filter]

theorem Txn.get_snd (t : Txn) (k : Bytes) :
    (t.get k).2.env = t.env ∧ (t.get k).2.view = t.view ∧ (t.get k).2.writes = t.writes ∧
      (t.get k).2.attempts = t.attempts := by
  unfold Txn.get
  by_cases hk : k = []
  · simp [hk]
  · simp only [if_neg hk]
    split <;> (try split) <;> (try split) <;> simp

theorem Txn.modify_cases (t : Txn) (k : Bytes) (w : Option Val) :
    (∃ e, (t.modify k w).1 = .err e ∧ t.env.WriteErr k e ∧ (t.modify k w).2.env = t.env ∧
      (t.modify k w).2.view = t.view ∧ (t.modify k w).2.writes = t.writes ∧
      (t.modify k w).2.reads = t.reads) ∨
    (keyErr k = none ∧ t.env.update = true ∧ (t.modify k w).1 = .ok () ∧
      (t.modify k w).2.env = t.env ∧ (t.modify k w).2.view = applyWrite t.view (k, w) ∧
      (t.modify k w).2.writes = t.writes ++ [(k, w)] ∧ (t.modify k w).2.reads = t.reads) := by
  unfold Txn.modify
  by_cases hu : t.env.update
  · simp only [hu, Bool.not_true]
    cases hk : keyErr k with
    | some e => left; exact ⟨e, rfl, .inr (.inl hk), rfl, rfl, rfl, rfl⟩
    | none =>
      by_cases hb : t.env.tooBig t.attempts
      · left
        simp only [hb]
        exact ⟨_, rfl, .inr (.inr ⟨rfl, _, hb⟩), rfl, rfl, rfl, rfl⟩
      · right
        simp [hb]
  · left
    have hu' : t.env.update = false := by simpa using hu
    simp only [hu', Bool.not_false]
    exact ⟨_, rfl, .inl ⟨hu', rfl⟩, rfl, rfl, rfl, rfl⟩

namespace Prog

theorem run_env {α} (p : Prog α) (t : Txn) : (p.run t).2.env = t.env := by
  induction p generalizing t with
  | done r => rfl
  | get k c ih => simp only [run]; rw [ih]; exact (t.get_snd k).1
  | set k v m c ih =>
    simp only [run]; rw [ih]
    rcases t.modify_cases k (some (mkVal t.env.now v m)) with ⟨e, _, _, h, _⟩ | ⟨_, _, _, h, _⟩ <;>
      exact h
  | del k c ih =>
    simp only [run]; rw [ih]
    rcases t.modify_cases k none with ⟨e, _, _, h, _⟩ | ⟨_, _, _, h, _⟩ <;> exact h
  | scan o c ih => simp only [run]; rw [ih]

/-- Soundness: the postcondition holds of the actual result and the actual contents. -/
theorem wp_sound {α} (p : Prog α) (t : Txn) (Q : Res α → DB → Prop)
    (h : p.wp t.env t.live Q) : Q (p.run t).1 (p.run t).2.live := by
  induction p generalizing t with
  | done r => exact h
  | get k c ih =>
    simp only [run, wp] at *
    rw [t.get_fst] at *
    apply ih
    have := t.get_snd k
    simpa only [Txn.live, this] using h
  | set k v m c ih =>
    simp only [run, wp, Txn.set] at *
    rcases t.modify_cases k (some (mkVal t.env.now v m)) with
      ⟨e, h1, h2, h3, h4, h5, h6⟩ | ⟨h0, h0', h1, h3, h4, h5, h6⟩
    · rw [h1]
      apply ih
      simp only [Txn.live, h3, h4]
      exact h.1 e h2
    · rw [h1]
      apply ih
      simp only [Txn.live, h3, h4, applyWrite, live_set]
      exact h.2 h0 h0'
  | del k c ih =>
    simp only [run, wp, Txn.delete] at *
    rcases t.modify_cases k none with
      ⟨e, h1, h2, h3, h4, h5, h6⟩ | ⟨h0, h0', h1, h3, h4, h5, h6⟩
    · rw [h1]
      apply ih
      simp only [Txn.live, h3, h4]
      exact h.1 e h2
    · rw [h1]
      apply ih
      simp only [Txn.live, h3, h4, applyWrite, live_del]
      exact h.2 h0 h0'
  | scan o c ih =>
    simp only [run, wp] at *
    exact ih _ _ h

theorem wp_mono {α} {env : Env} {p : Prog α} {m : DB} {Q Q' : Res α → DB → Prop}
    (h : p.wp env m Q) (hQ : ∀ r m, Q r m → Q' r m) : p.wp env m Q' := by
  induction p generalizing m with
  | done r => exact hQ _ _ h
  | get k c ih => exact ih _ h
  | set k v vm c ih => exact ⟨fun e he => ih _ (h.1 e he), fun a b => ih _ (h.2 a b)⟩
  | del k c ih => exact ⟨fun e he => ih _ (h.1 e he), fun a b => ih _ (h.2 a b)⟩
  | scan o c ih => exact ih _ h

theorem wp_andThen {α β} {env : Env} (p : Prog α) (f : Res α → Prog β) (m : DB)
    (Q : Res β → DB → Prop) :
    (p.andThen f).wp env m Q ↔ p.wp env m (fun r m => (f r).wp env m Q) := by
  induction p generalizing m with
  | done r => rfl
  | get k c ih => simp only [andThen, wp, ih]
  | set k v vm c ih => simp only [andThen, wp, ih]
  | del k c ih => simp only [andThen, wp, ih]
  | scan o c ih => simp only [andThen, wp, ih]

theorem wp_bind {α β} {env : Env} (p : Prog α) (f : α → Prog β) (m : DB)
    (Q : Res β → DB → Prop) :
    (p >>= f).wp env m Q ↔ p.wp env m (fun r m => match r with
      | .ok a => (f a).wp env m Q
      | .err e => Q (.err e) m
      | .panic => Q .panic m) := by
  show (p.bind f).wp env m Q ↔ _
  rw [bind, wp_andThen]
  constructor <;> intro h <;> refine wp_mono h ?_ <;> intro r m hr <;> cases r <;> exact hr

@[simp] theorem wp_pure {α} {env : Env} (a : α) (m : DB) (Q : Res α → DB → Prop) :
    (pure a : Prog α).wp env m Q ↔ Q (.ok a) m := Iff.rfl
@[simp] theorem wp_fail {α} {env : Env} (e : Err) (m : DB) (Q : Res α → DB → Prop) :
    (fail e : Prog α).wp env m Q ↔ Q (.err e) m := Iff.rfl
@[simp] theorem wp_ofRes {α} {env : Env} (r : Res α) (m : DB) (Q : Res α → DB → Prop) :
    (ofRes r : Prog α).wp env m Q ↔ Q r m := Iff.rfl
@[simp] theorem wp_getK {env : Env} (k : Bytes) (m : DB) (Q : Res Val → DB → Prop) :
    (getK k).wp env m Q ↔ Q (readRes m k) m := Iff.rfl
theorem wp_getOpt {env : Env} (k : Bytes) (hk : k ≠ []) (m : DB) (Q : Res (Option Val) → DB → Prop) :
    (getOpt k).wp env m Q ↔ Q (.ok (m.get k)) m := by
  unfold getOpt
  simp only [wp, readRes, if_neg hk]
  cases m.get k <;> rfl
@[simp] theorem wp_setK {env : Env} (k v : Bytes) (m : DB) (Q : Res Unit → DB → Prop) :
    (setK k v).wp env m Q ↔ (∀ e, env.WriteErr k e → Q (.err e) m) ∧
      (keyErr k = none → env.update = true → Q (.ok ()) (m.set k ⟨v, 0, 0⟩)) := by
  have : setLive env.now m k (mkVal env.now v none) = m.set k ⟨v, 0, 0⟩ := by
    simp [setLive, mkVal, Val.live]
  simp only [setK, wp, this]
@[simp] theorem wp_delK {env : Env} (k : Bytes) (m : DB) (Q : Res Unit → DB → Prop) :
    (delK k).wp env m Q ↔ (∀ e, env.WriteErr k e → Q (.err e) m) ∧
      (keyErr k = none → env.update = true → Q (.ok ()) (m.del k)) := Iff.rfl
@[simp] theorem wp_scanK {env : Env} (o : ScanOption) (m : DB)
    (Q : Res (List (Bytes × Val)) → DB → Prop) :
    (scanK o).wp env m Q ↔ Q (.ok (Txn.iterate env.prune m.ents o)) m := Iff.rfl

/-! ## Running -/

theorem run_andThen {α β} (p : Prog α) (f : Res α → Prog β) (t : Txn) :
    (p.andThen f).run t = (f (p.run t).1).run (p.run t).2 := by
  induction p generalizing t with
  | done r => rfl
  | get k c ih => simp only [andThen, run, ih]
  | set k v vm c ih => simp only [andThen, run, ih]
  | del k c ih => simp only [andThen, run, ih]
  | scan o c ih => simp only [andThen, run, ih]

theorem run_bind {α β} (p : Prog α) (f : α → Prog β) (t : Txn) :
    (p >>= f).run t = match (p.run t).1 with
      | .ok a => (f a).run (p.run t).2
      | .err e => (.err e, (p.run t).2)
      | .panic => (.panic, (p.run t).2) := by
  show (p.bind f).run t = _
  rw [bind, run_andThen]
  cases (p.run t).1 <;> rfl

/-- What a transaction sees is its snapshot overlaid with its writes. -/
theorem run_view {α} (p : Prog α) (t : Txn) (db : DB) (h : t.view = applyWrites db t.writes) :
    (p.run t).2.view = applyWrites db (p.run t).2.writes := by
  induction p generalizing t with
  | done r => exact h
  | get k c ih =>
    simp only [run]; apply ih
    have := t.get_snd k
    rw [this.2.1, this.2.2.1, h]
  | set k v m c ih =>
    simp only [run]; apply ih
    rcases t.modify_cases k (some (mkVal t.env.now v m)) with
      ⟨e, h1, h2, h3, h4, h5, h6⟩ | ⟨h0, h0', h1, h3, h4, h5, h6⟩
    · simp only [Txn.set, h4, h5, h]
    · simp only [Txn.set, h4, h5, h, applyWrites, List.foldl_append, List.foldl]
  | del k c ih =>
    simp only [run]; apply ih
    rcases t.modify_cases k none with
      ⟨e, h1, h2, h3, h4, h5, h6⟩ | ⟨h0, h0', h1, h3, h4, h5, h6⟩
    · simp only [Txn.delete, h4, h5, h]
    · simp only [Txn.delete, h4, h5, h, applyWrites, List.foldl_append, List.foldl]
  | scan o c ih => simp only [run]; exact ih _ _ h

theorem run_start_view {α} (p : Prog α) (env : Env) (db : DB) :
    (p.run (Txn.start env db)).2.view = applyWrites db (p.run (Txn.start env db)).2.writes :=
  run_view p _ db rfl

/-- Read-only transactions never accumulate writes. -/
theorem run_readOnly {α} (p : Prog α) (t : Txn) (h : t.env.update = false) (hw : t.writes = []) :
    (p.run t).2.writes = [] ∧ (p.run t).2.view = t.view := by
  induction p generalizing t with
  | done r => exact ⟨hw, rfl⟩
  | get k c ih =>
    simp only [run]
    have := t.get_snd k
    have := ih (t.get k).1 (t.get k).2 (by rw [this.1, h]) (by rw [this.2.2.1, hw])
    simp_all
  | set k v m c ih =>
    simp only [run]
    have e : t.set k v m = (.err .readOnlyTxn, t) := by simp [Txn.set, Txn.modify, h]
    rw [e]; exact ih _ _ h hw
  | del k c ih =>
    simp only [run]
    have e : t.delete k = (.err .readOnlyTxn, t) := by simp [Txn.delete, Txn.modify, h]
    rw [e]; exact ih _ _ h hw
  | scan o c ih => simp only [run]; exact ih _ _ h hw

/-- The program never scans. -/
def ScanFree {α} : Prog α → Prop
  | done _ => True
  | get _ c => ∀ r, (c r).ScanFree
  | set _ _ _ c => ∀ r, (c r).ScanFree
  | del _ c => ∀ r, (c r).ScanFree
  | scan _ _ => False

theorem ScanFree.andThen {α β} {p : Prog α} {f : Res α → Prog β} (h : p.ScanFree)
    (hf : ∀ r, (f r).ScanFree) : (p.andThen f).ScanFree := by
  induction p with
  | done r => exact hf r
  | get k c ih => exact fun r => ih r (h r)
  | set k v m c ih => exact fun r => ih r (h r)
  | del k c ih => exact fun r => ih r (h r)
  | scan o c ih => exact h.elim

theorem ScanFree.bind {α β} {p : Prog α} {f : α → Prog β} (h : p.ScanFree)
    (hf : ∀ r, (f r).ScanFree) : (p >>= f).ScanFree := by
  show (p.bind f).ScanFree
  refine ScanFree.andThen h ?_
  intro r; cases r
  · exact hf _
  · trivial
  · trivial

theorem get_writes_congr {db db' : DB} {ws : List (Bytes × Option Val)} {k : Bytes}
    (h : k ∈ ws.map Prod.fst ∨ db.get k = db'.get k) :
    (applyWrites db ws).get k = (applyWrites db' ws).get k := by
  induction ws generalizing db db' with
  | nil => rcases h with h | h
           · simp at h
           · exact h
  | cons w ws ih =>
    simp only [applyWrites, List.foldl_cons]
    apply ih
    by_cases hk : w.1 = k
    · right
      unfold applyWrite
      cases w.2 <;> simp [hk]
    · rcases h with h | h
      · simp only [List.map_cons, List.mem_cons] at h
        rcases h with h | h
        · exact absurd h.symm hk
        · exact .inl h
      · right
        unfold applyWrite
        cases w.2 <;> simp [hk, h]

/-- The reads of a run only grow. -/
theorem reads_subset {α} (p : Prog α) (t : Txn) (k : Bytes) (h : k ∈ t.reads) :
    k ∈ (p.run t).2.reads := by
  induction p generalizing t with
  | done r => exact h
  | get j c ih =>
    simp only [run]; apply ih
    unfold Txn.get
    by_cases hk : j = []
    · simpa [hk] using h
    · simp only [if_neg hk]
      split <;> (try split) <;> (try split) <;> simp [h]
  | set j v m c ih =>
    simp only [run]; apply ih
    rcases t.modify_cases j (some (mkVal t.env.now v m)) with
      ⟨e, h1, h2, h3, h4, h5, h6⟩ | ⟨h0, h0', h1, h3, h4, h5, h6⟩ <;>
      simpa only [Txn.set, h6] using h
  | del j c ih =>
    simp only [run]; apply ih
    rcases t.modify_cases j none with
      ⟨e, h1, h2, h3, h4, h5, h6⟩ | ⟨h0, h0', h1, h3, h4, h5, h6⟩ <;>
      simpa only [Txn.delete, h6] using h
  | scan o c ih => simp only [run]; exact ih _ _ h

theorem replay_aux {α} (p : Prog α) (hp : p.ScanFree) (t t' : Txn) (db db' : DB)
    (hv : t.view = applyWrites db t.writes) (hv' : t'.view = applyWrites db' t'.writes)
    (he : t'.env = t.env) (hw : t'.writes = t.writes) (ha : t'.attempts = t.attempts)
    (hr : t'.reads = t.reads)
    (h : ∀ k ∈ (p.run t).2.reads, db.get k = db'.get k) :
    (p.run t').1 = (p.run t).1 ∧ (p.run t').2.writes = (p.run t).2.writes ∧
      (p.run t').2.reads = (p.run t).2.reads ∧ (p.run t').2.attempts = (p.run t).2.attempts := by
  induction p generalizing t t' with
  | done r => exact ⟨rfl, hw, hr, ha⟩
  | get k c ih =>
    simp only [run] at h ⊢
    have hread : k ≠ [] → t'.view.get k = t.view.get k := by
      intro hk
      rw [hv, hv', hw]
      symm
      apply get_writes_congr
      by_cases hm : k ∈ t.writes.map Prod.fst
      · exact .inl hm
      · right
        apply h
        apply reads_subset
        unfold Txn.get
        simp only [if_neg hk, if_neg hm]
        split <;> (try split) <;> simp
    have hget : (t'.get k).1 = (t.get k).1 ∧ (t'.get k).2.reads = (t.get k).2.reads := by
      unfold Txn.get
      by_cases hk : k = []
      · simp [hk, hr]
      · simp only [if_neg hk, hread hk, he, hw]
        split <;> (try split) <;> (try split) <;> simp [hr]
    have s := t.get_snd k
    have s' := t'.get_snd k
    rw [hget.1]
    exact ih _ (hp _) _ _ (by rw [s.2.1, s.2.2.1, hv]) (by rw [s'.2.1, s'.2.2.1, hv'])
      (by rw [s.1, s'.1, he]) (by rw [s.2.2.1, s'.2.2.1, hw]) (by rw [s.2.2.2, s'.2.2.2, ha])
      hget.2 h
  | set k v m c ih =>
    simp only [run] at h ⊢
    have hset : (t'.set k v m).1 = (t.set k v m).1 ∧
        (t'.set k v m).2.attempts = (t.set k v m).2.attempts := by
      simp only [Txn.set, Txn.modify, he, ha]
      split <;> (try split) <;> (try split) <;> simp [ha]
    rcases t.modify_cases k (some (mkVal t.env.now v m)) with
      ⟨e, h1, h2, h3, h4, h5, h6⟩ | ⟨h0, h0', h1, h3, h4, h5, h6⟩ <;>
    rcases t'.modify_cases k (some (mkVal t'.env.now v m)) with
      ⟨e', h1', h2', h3', h4', h5', h6'⟩ | ⟨_, _, h1', h3', h4', h5', h6'⟩
    · rw [hset.1]
      exact ih _ (hp _) _ _ (by simp only [Txn.set, h4, h5, hv]) (by simp only [Txn.set, h4', h5', hv'])
        (by show (Txn.modify _ _ _).2.env = (Txn.modify _ _ _).2.env; rw [h3, h3', he]) (by simp only [Txn.set, h5, h5', hw]) hset.2
        (by simp only [Txn.set, h6, h6', hr]) h
    · simp only [Txn.set, h1, h1'] at hset; cases hset.1
    · simp only [Txn.set, h1, h1'] at hset; cases hset.1
    · rw [hset.1]
      exact ih _ (hp _) _ _
        (by simp only [Txn.set, h4, h5, hv, applyWrites, List.foldl_append, List.foldl])
        (by simp only [Txn.set, h4', h5', hv', applyWrites, List.foldl_append, List.foldl])
        (by show (Txn.modify _ _ _).2.env = (Txn.modify _ _ _).2.env; rw [h3, h3', he]) (by show (Txn.modify _ _ _).2.writes = (Txn.modify _ _ _).2.writes; rw [h5, h5', hw, he]) hset.2
        (by simp only [Txn.set, h6, h6', hr]) h
  | del k c ih =>
    simp only [run] at h ⊢
    have hset : (t'.delete k).1 = (t.delete k).1 ∧
        (t'.delete k).2.attempts = (t.delete k).2.attempts := by
      simp only [Txn.delete, Txn.modify, he, ha]
      split <;> (try split) <;> (try split) <;> simp [ha]
    rcases t.modify_cases k none with
      ⟨e, h1, h2, h3, h4, h5, h6⟩ | ⟨h0, h0', h1, h3, h4, h5, h6⟩ <;>
    rcases t'.modify_cases k none with
      ⟨e', h1', h2', h3', h4', h5', h6'⟩ | ⟨_, _, h1', h3', h4', h5', h6'⟩
    · rw [hset.1]
      exact ih _ (hp _) _ _ (by simp only [Txn.delete, h4, h5, hv])
        (by simp only [Txn.delete, h4', h5', hv'])
        (by simp only [Txn.delete, h3, h3', he]) (by simp only [Txn.delete, h5, h5', hw]) hset.2
        (by simp only [Txn.delete, h6, h6', hr]) h
    · simp only [Txn.delete, h1, h1'] at hset; cases hset.1
    · simp only [Txn.delete, h1, h1'] at hset; cases hset.1
    · rw [hset.1]
      exact ih _ (hp _) _ _
        (by simp only [Txn.delete, h4, h5, hv, applyWrites, List.foldl_append, List.foldl])
        (by simp only [Txn.delete, h4', h5', hv', applyWrites, List.foldl_append, List.foldl])
        (by simp only [Txn.delete, h3, h3', he]) (by simp only [Txn.delete, h5, h5', hw]) hset.2
        (by simp only [Txn.delete, h6, h6', hr]) h
  | scan o c ih => exact hp.elim

/-- A transaction whose recorded reads are unchanged at commit time behaves as if it had run
entirely at commit time. -/
theorem replay {α} (p : Prog α) (hp : p.ScanFree) (env : Env) (db db' : DB)
    (h : ∀ k ∈ (p.run (Txn.start env db)).2.reads, db.get k = db'.get k) :
    (p.run (Txn.start env db')).1 = (p.run (Txn.start env db)).1 ∧
      (p.run (Txn.start env db')).2.writes = (p.run (Txn.start env db)).2.writes := by
  have := replay_aux p hp (Txn.start env db) (Txn.start env db') db db' rfl rfl rfl rfl rfl rfl h
  exact ⟨this.1, this.2.1⟩

end Prog
end Mondis
