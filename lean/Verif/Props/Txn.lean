import Verif.Lemmas.Util
import Verif.Model.Structure
import Verif.Lemmas.Numeric
/-!
# C20, C21, C25, C60: transactions
-/
namespace Mondis.Props
open Mondis Prog Util

/-! ### C20: a transaction reads its own writes over its snapshot -/

/-- The latest of the given writes at a key, if any. -/
def lastWrite (k : Bytes) : List (Bytes × Option Val) → Option (Option Val)
  | [] => none
  | w :: ws => match lastWrite k ws with
    | some r => some r
    | none => if w.1 = k then some w.2 else none

theorem get_applyWrites (db : DB) (ws : List (Bytes × Option Val)) (k : Bytes) :
    (applyWrites db ws).get k = (lastWrite k ws).getD (db.get k) := by
  induction ws generalizing db with
  | nil => rfl
  | cons w ws ih =>
    show (applyWrites (applyWrite db w) ws).get k = _
    rw [ih]
    simp only [lastWrite]
    cases h : lastWrite k ws with
    | some r => rfl
    | none =>
      simp only [Option.getD_none]
      obtain ⟨a, b⟩ := w
      cases b with
      | none =>
        simp only [applyWrite, OMap.get_del]
        by_cases e : a = k <;> simp [e]
      | some v =>
        simp only [applyWrite, OMap.get_set]
        by_cases e : a = k <;> simp [e]

/-- What a transaction with these pending writes over this snapshot should read. -/
def expectRead (now : Int) (db : DB) (ws : List (Bytes × Option Val)) (k : Bytes) : Res Val :=
  if k = [] then .err .emptyKey
  else match (lastWrite k ws).getD (db.get k) with
    | some v => if v.live now then .ok v else .err .keyNotFound
    | none => .err .keyNotFound

/-- After any program, a read gives the transaction's own latest write at the key (nothing if that
was a Delete), or else what the snapshot holds. -/
theorem C20_read_own_writes {α : Type} (p : Prog α) (env : Env) (db : DB) (k : Bytes) :
    let t := (p.run (Txn.start env db)).2
    (t.get k).1 = expectRead env.now db t.writes k := by
  intro t
  have hv : t.view = applyWrites db t.writes := run_start_view p env db
  have he : t.env = env := run_env p _
  unfold Txn.get expectRead
  by_cases hk : k = []
  · simp [hk]
  · simp only [if_neg hk, hv, get_applyWrites, he]
    cases (lastWrite k t.writes).getD (db.get k) with
    | none => rfl
    | some v => simp only; split <;> rfl

/-- Exists agrees with Get. -/
theorem C20_exists_agrees (t : Txn) (k : Bytes) :
    (∀ v, (t.get k).1 = .ok v → (t.exists' k).1 = .ok true) ∧
    ((t.get k).1 = .err .keyNotFound → (t.exists' k).1 = .ok false) := by
  unfold Txn.exists'
  constructor
  · intro v h
    cases hg : t.get k with
    | mk r t' => rw [hg] at h; simp only at h; subst h; rfl
  · intro h
    cases hg : t.get k with
    | mk r t' => rw [hg] at h; simp only at h; subst h; rfl

/-- A scan sees exactly the entries reads see: the snapshot with the transaction's own writes. -/
theorem C20_scan_own_writes {α : Type} (p : Prog α) (env : Env) (db : DB) (o : ScanOption) :
    let t := (p.run (Txn.start env db)).2
    t.scan o = Txn.iterate env.prune (Txn.liveEnts env.now (applyWrites db t.writes)) o := by
  intro t
  have hv : t.view = applyWrites db t.writes := run_start_view p env db
  have he : t.env = env := run_env p _
  unfold Txn.scan
  rw [hv, he]

/-- A successful commit makes all the writes visible to later transactions, an unsuccessful one
none. -/
theorem C20_commit_visibility {α : Type} (p : Prog α) (env : Env) (db : DB) (fail : Option Err) :
    let t := (p.run (Txn.start env db)).2
    (t.commit fail db = (.ok (), t.view)) ∨ (∃ e, t.commit fail db = (.err e, db)) := by
  intro t
  have hv : t.view = applyWrites db t.writes := run_start_view p env db
  unfold Txn.commit
  split
  · rename_i h; left; rw [hv, h]; rfl
  · split
    · exact .inr ⟨_, rfl⟩
    · left; rw [hv]

/-- A plain update transaction that never becomes full. -/
def plainEnv : Env := ⟨true, 0, fun _ => false, fun _ => false⟩

example : (Txn.get ((Txn.start plainEnv OMap.empty).set [1] [2] none).2 [1]).1 =
    .ok { value := [2] } := by
  decide

/-! ### C21: read-only transactions -/

/-- Nothing a read-only transaction does changes the store, and every Set or Delete in it is an
error. -/
theorem C21_readonly_never_mutates {α : Type} (p : Prog α) (env : Env) (db : DB)
    (h : env.update = false) (fail : Option Err) :
    ((p.run (Txn.start env db)).2.commit fail db).2 = db ∧
    (∀ k v vm, ((p.run (Txn.start env db)).2.set k v vm).1 = .err .readOnlyTxn) ∧
    (∀ k, ((p.run (Txn.start env db)).2.delete k).1 = .err .readOnlyTxn) := by
  have hr := run_readOnly p (Txn.start env db) h rfl
  have he : (p.run (Txn.start env db)).2.env.update = false := by rw [run_env]; exact h
  refine ⟨?_, ?_, ?_⟩
  · unfold Txn.commit; rw [if_pos hr.1]
  · intro k v vm; simp [Txn.set, Txn.modify, he]
  · intro k; simp [Txn.delete, Txn.modify, he]

/-! ### C25: the update helpers -/

/-- RunInNewUpdateTxn either reports success, and then the body succeeded and every write it made
(in the order it made them) is in the database, or it reports failure and the database is
untouched. -/
theorem C25_update_all_or_nothing {α : Type} (env : Env) (fail : Option Err) (f : Prog α)
    (snap db : DB) :
    let b := body env true f snap
    let r := runInNewUpdateTxn env fail f snap db
    (∃ a, r.1 = .ok a ∧ b.1 = .ok a ∧ r.2 = applyWrites db b.2.writes) ∨
    ((∀ a, r.1 ≠ .ok a) ∧ r.2 = db) := by
  intro b r
  show (∃ a, (runInNewUpdateTxn env fail f snap db).1 = _ ∧ _ ∧ (runInNewUpdateTxn env fail f snap db).2 = _) ∨
    ((∀ a, (runInNewUpdateTxn env fail f snap db).1 ≠ _) ∧ (runInNewUpdateTxn env fail f snap db).2 = _)
  unfold runInNewUpdateTxn
  cases hb : body env true f snap with
  | mk res t =>
    have hbe : b = (res, t) := hb
    cases res with
    | err e => exact .inr ⟨by simp, rfl⟩
    | panic => exact .inr ⟨by simp, rfl⟩
    | ok a =>
      simp only [hbe]
      unfold Txn.commit
      by_cases hw : t.writes = []
      · rw [if_pos hw, hw]; exact .inl ⟨a, rfl, rfl, rfl⟩
      · rw [if_neg hw]
        cases fail with
        | some e => exact .inr ⟨by simp, rfl⟩
        | none => exact .inl ⟨a, rfl, rfl, rfl⟩

/-- It succeeds exactly when the body does and the engine accepts the commit (which it cannot
refuse if nothing was written). -/
theorem C25_update_succeeds_iff {α : Type} (env : Env) (fail : Option Err) (f : Prog α)
    (snap db : DB) (a : α) :
    (runInNewUpdateTxn env fail f snap db).1 = .ok a ↔
      (body env true f snap).1 = .ok a ∧ ((body env true f snap).2.writes = [] ∨ fail = none) := by
  unfold runInNewUpdateTxn
  cases hb : body env true f snap with
  | mk res t =>
    cases res with
    | err e => simp
    | panic => simp
    | ok a' =>
      simp only
      unfold Txn.commit
      by_cases hw : t.writes = []
      · simp [hw]
      · cases fail <;> simp [hw]

/-- Without concurrent commits, what a successful update leaves is exactly what its body saw at the
end. -/
theorem C25_update_leaves_view {α : Type} (env : Env) (fail : Option Err) (f : Prog α) (db : DB)
    (a : α) (h : (runInNewUpdateTxn env fail f db db).1 = .ok a) :
    (runInNewUpdateTxn env fail f db db).2 = (body env true f db).2.view := by
  rcases C25_update_all_or_nothing env fail f db db with ⟨a', _, _, h3⟩ | ⟨h1, _⟩
  · rw [h3]; exact (run_start_view f _ db).symm
  · exact absurd h (h1 a)

/-- WithCancel: same result and effect; the cancel function runs exactly when the body succeeded and
the commit failed. -/
theorem C25_cancel_iff_commit_failed {α : Type} (env : Env) (fail : Option Err) (f : Prog α)
    (snap db : DB) :
    let c := runInNewUpdateTxnWithCancel env fail f snap db
    let r := runInNewUpdateTxn env fail f snap db
    (c.1, c.2.1) = r ∧
    (c.2.2 = true ↔ (∃ a, (body env true f snap).1 = .ok a) ∧ ∀ a, r.1 ≠ .ok a) := by
  simp only [runInNewUpdateTxnWithCancel, runInNewUpdateTxn]
  cases hb : body env true f snap with
  | mk res t =>
    cases res with
    | err e => simp
    | panic => simp
    | ok a =>
      simp only
      cases hc : t.commit fail db with
      | mk rc db' =>
        cases rc with
        | ok u => simp
        | err e => simp
        | panic =>
          exfalso
          unfold Txn.commit at hc
          split at hc
          · simp at hc
          · split at hc <;> simp at hc

/-- WithCallback: same result and effect; the callback runs exactly when the update succeeded. -/
theorem C25_callback_iff_committed {α : Type} (env : Env) (fail : Option Err) (f : Prog α)
    (snap db : DB) :
    let c := runInNewUpdateTxnWithCallback env fail f snap db
    let r := runInNewUpdateTxn env fail f snap db
    (c.1, c.2.1) = r ∧ (c.2.2 = true ↔ ∃ a, r.1 = .ok a) := by
  simp only [runInNewUpdateTxnWithCallback, runInNewUpdateTxn]
  cases hb : body env true f snap with
  | mk res t =>
    cases res with
    | err e => simp
    | panic => simp
    | ok a =>
      simp only
      cases hc : t.commit fail db with
      | mk rc db' => cases rc <;> simp

/-- TryCommitWhenTxnTooBig calls its body at most `n` times (100 in the code): a counter the body
keeps grows by at most that much. -/
theorem C25_tryCommit_bounded {σ : Type} (f : σ → Prog (Res Unit × σ)) (calls : σ → Nat)
    (hf : ∀ s t r s', ((f s).run t).1 = .ok (r, s') → calls s' ≤ calls s + 1)
    (envs : Nat → Env) (fails : Nat → Option Err) (n i : Nat) (s : σ) (t : Txn) (db : DB) :
    calls (tryCommit f envs fails n i s t db).2.1 ≤ calls s + n := by
  induction n generalizing i s t db with
  | zero => simp [tryCommit]
  | succ n ih =>
    unfold tryCommit
    cases hr : (f s).run t with
    | mk res t' =>
      cases res with
      | err e => simp only; omega
      | panic => simp only; omega
      | ok p =>
        obtain ⟨r, s'⟩ := p
        have hc := hf s t r s' (by rw [hr])
        simp only
        split
        · simp only; omega
        · split
          · simp only; omega
          · split
            · rename_i db' _
              have := ih (i + 1) s' (Txn.start (envs (i + 1)) db') db'
              exact Nat.le_trans this (by omega)
            · simp only; omega
            · simp only; omega

/-- What TryCommitWhenTxnTooBig hands back is what the last call of the body left: the transaction it was called
with (the caller's, or a new one on the database as all commits before left it), as the body left it, and the
variables it captured.  The answer is the body's, unless that was "transaction too big" and the commit that
followed failed, in which case it is the error of the commit. -/
theorem C25_hands_back_last {σ : Type} (f : σ → Prog (Res Unit × σ)) (envs : Nat → Env) (fails : Nat → Option Err)
    (n i : Nat) (s : σ) (t : Txn) (db : DB) (hn : 0 < n)
    (hf : ∀ s t, ∃ x, ((f s).run t).1 = .ok x) :
    let out := tryCommit f envs fails n i s t db
    ∃ (s₀ : σ) (t₀ : Txn) (db₀ : DB) (r : Res Unit) (j : Nat),
      (f s₀).run t₀ = (.ok (r, out.2.1), out.2.2.1) ∧
      ((t₀ = t ∧ db₀ = db) ∨ t₀ = Txn.start (envs (j + 1)) db₀) ∧ i ≤ j ∧ j ≤ i + n ∧
      ((out.1 = r ∧ out.2.2.2 = db₀) ∨
        (r = .err .txnTooBig ∧ (∀ a, out.1 ≠ .ok a) ∧
          ∃ k, ((out.2.2.1).commit (fails k) db₀).1 = out.1 ∧ ((out.2.2.1).commit (fails k) db₀).2 = out.2.2.2)) := by
  suffices h : ∀ out, out = tryCommit f envs fails n i s t db →
      ∃ (s₀ : σ) (t₀ : Txn) (db₀ : DB) (r : Res Unit) (j : Nat),
      (f s₀).run t₀ = (.ok (r, out.2.1), out.2.2.1) ∧
      ((t₀ = t ∧ db₀ = db) ∨ t₀ = Txn.start (envs (j + 1)) db₀) ∧ i ≤ j ∧ j ≤ i + n ∧
      ((out.1 = r ∧ out.2.2.2 = db₀) ∨
        (r = .err .txnTooBig ∧ (∀ a, out.1 ≠ .ok a) ∧
          ∃ k, ((out.2.2.1).commit (fails k) db₀).1 = out.1 ∧ ((out.2.2.1).commit (fails k) db₀).2 = out.2.2.2)) from
    h _ rfl
  induction n generalizing i s t db with
  | zero => omega
  | succ n ih =>
    intro out ho
    unfold tryCommit at ho
    obtain ⟨⟨r, s'⟩, hx⟩ := hf s t
    cases hr : (f s).run t with
    | mk res t' =>
      rw [hr] at hx ho
      simp only at hx
      subst hx
      simp only at ho
      by_cases h1 : r ≠ .err .txnTooBig
      · rw [if_pos h1] at ho
        subst ho
        exact ⟨s, t, db, r, i, hr, .inl ⟨rfl, rfl⟩, Nat.le_refl _, by omega, .inl ⟨rfl, rfl⟩⟩
      · rw [if_neg h1] at ho
        by_cases h2 : n = 0
        · rw [if_pos h2] at ho
          subst ho
          exact ⟨s, t, db, r, i, hr, .inl ⟨rfl, rfl⟩, Nat.le_refl _, by omega, .inl ⟨rfl, rfl⟩⟩
        · rw [if_neg h2] at ho
          have h1 : r = .err .txnTooBig := by simpa using h1
          cases hc : t'.commit (fails i) db with
          | mk rc db' =>
            rw [hc] at ho
            cases rc with
            | ok a =>
              obtain ⟨s₀, t₀, db₀, r₀, j, g1, g2, g3, g4, g5⟩ :=
                ih (i + 1) s' (Txn.start (envs (i + 1)) db') db' (by omega) out ho
              rcases g2 with ⟨e1, e2⟩ | g2
              · exact ⟨s₀, t₀, db₀, r₀, i, g1, .inr (by rw [e1, e2]), Nat.le_refl _, by omega, g5⟩
              · exact ⟨s₀, t₀, db₀, r₀, j, g1, .inr g2, by omega, by omega, g5⟩
            | err e =>
              subst ho
              exact ⟨s, t, db, r, i, hr, .inl ⟨rfl, rfl⟩, Nat.le_refl _, by omega,
                .inr ⟨h1, by simp, i, by rw [hc], by rw [hc]⟩⟩
            | panic =>
              subst ho
              exact ⟨s, t, db, r, i, hr, .inl ⟨rfl, rfl⟩, Nat.le_refl _, by omega,
                .inr ⟨h1, by simp, i, by rw [hc], by rw [hc]⟩⟩

/-- A body that writes a list of entries one by one and remembers how far it got. -/
def writeAll : List (Bytes × Bytes) → Prog (Res Unit × List (Bytes × Bytes))
  | [] => pure (.ok (), [])
  | (k, v) :: rest => .set k v none (fun r => match r with
      | .ok _ => writeAll rest
      | .err e => pure (.err e, (k, v) :: rest)
      | .panic => pure (.panic, (k, v) :: rest))

/-- The writes of a list of entries. -/
def entryWrites (l : List (Bytes × Bytes)) : List (Bytes × Option Val) :=
  l.map (fun e => (e.1, some { value := e.2 }))

theorem writeAll_run (l : List (Bytes × Bytes)) (t : Txn) :
    ∃ r rest done, ((writeAll l).run t).1 = .ok (r, rest) ∧ l = done ++ rest ∧
      ((writeAll l).run t).2.writes = t.writes ++ entryWrites done ∧ (r = .ok () → rest = []) := by
  induction l generalizing t with
  | nil => exact ⟨.ok (), [], [], rfl, rfl, by simp [writeAll, run, pure, entryWrites], fun _ => rfl⟩
  | cons e l ih =>
    obtain ⟨k, v⟩ := e
    simp only [writeAll, run]
    rcases t.modify_cases k (some (mkVal t.env.now v none)) with
      ⟨e, h1, -, -, -, h5, -⟩ | ⟨-, -, h1, -, -, h5, -⟩
    · refine ⟨.err e, (k, v) :: l, [], ?_, rfl, ?_, by simp⟩
      · simp only [Txn.set, h1]; rfl
      · simp only [Txn.set, h1]
        show (t.modify k _).2.writes = _
        rw [h5]; simp [entryWrites]
    · obtain ⟨r, rest, done, g1, g2, g3, g4⟩ := ih (t.modify k (some (mkVal t.env.now v none))).2
      refine ⟨r, rest, (k, v) :: done, ?_, by simp [g2], ?_, g4⟩
      · simp only [Txn.set, h1]; exact g1
      · simp only [Txn.set, h1]
        rw [g3, h5]
        simp [entryWrites, mkVal]

example : ∀ s t, ∃ x, ((writeAll s).run t).1 = .ok x := by
  intro s t
  obtain ⟨r, rest, -, h, -⟩ := writeAll_run s t
  exact ⟨_, h⟩

/-- Nothing is lost and nothing is written twice: if TryCommitWhenTxnTooBig reports success for such
a body, then committing the transaction it hands back leaves the database with exactly the given
writes applied in order, whatever transactions became full in between. -/
theorem C25_tryCommit_no_loss (envs : Nat → Env) (fails : Nat → Option Err) (n i : Nat)
    (l : List (Bytes × Bytes)) (t : Txn) (db : DB) :
    let out := tryCommit writeAll envs fails n i l t db
    out.1 = .ok () →
    applyWrites out.2.2.2 out.2.2.1.writes = applyWrites (applyWrites db t.writes) (entryWrites l) := by
  intro out
  show (tryCommit writeAll envs fails n i l t db).1 = _ →
    applyWrites (tryCommit writeAll envs fails n i l t db).2.2.2
      (tryCommit writeAll envs fails n i l t db).2.2.1.writes = _
  clear out
  induction n generalizing i l t db with
  | zero => intro h; simp [tryCommit] at h
  | succ n ih =>
    unfold tryCommit
    obtain ⟨r, rest, done, h1, h2, h3, h4⟩ := writeAll_run l t
    cases hr : (writeAll l).run t with
    | mk res t' =>
      rw [hr] at h1 h3
      simp only at h1 h3
      subst h1
      simp only
      by_cases hbig : r ≠ .err .txnTooBig
      · rw [if_pos hbig]
        intro hok
        have hrest := h4 hok
        subst hrest
        simp only [List.append_nil] at h2
        subst h2
        rw [h3, applyWrites, List.foldl_append]; rfl
      · rw [if_neg hbig]
        by_cases hn : n = 0
        · rw [if_pos hn]; intro hok
          simp only at hok
          exact absurd (by rw [hok]; simp) hbig
        · rw [if_neg hn]
          unfold Txn.commit
          by_cases hw : t'.writes = []
          · rw [if_pos hw]
            simp only
            intro hok
            rw [ih _ _ _ _ hok]
            rw [hw] at h3
            obtain ⟨e1, e2⟩ := List.append_eq_nil_iff.mp h3.symm
            have hd : done = [] := by simpa [entryWrites] using e2
            subst hd
            simp only [List.nil_append] at h2
            subst h2
            simp [Txn.start, e1, applyWrites]
          · rw [if_neg hw]
            cases hf : fails i with
            | some e =>
              simp only; intro hok; cases hok
            | none =>
              simp only
              intro hok
              rw [ih _ _ _ _ hok, h3, h2]
              simp [Txn.start, applyWrites, entryWrites, List.foldl_append]

/-- Non-trivial case: three entries, and transactions that become full after two writes. -/
example : (tryCommit writeAll
    (fun _ => { update := true, now := 0, tooBig := fun n => n ≥ 2, prune := fun _ => false })
    (fun _ => none) maxTry 0 [([1], [1]), ([2], [2]), ([3], [3])]
    (Txn.start { update := true, now := 0, tooBig := fun n => n ≥ 2, prune := fun _ => false }
      OMap.empty) OMap.empty).1 = .ok () := by
  decide

/-- ChooseTime gives a duration that is never above max, and is base when base is usable. -/
theorem C25_chooseTime (base max : Int64) : chooseTime base max ≤ max ∧
    (base ≠ 0 → base ≤ max → chooseTime base max = base) := by
  unfold chooseTime
  constructor
  · split
    · exact Int64.le_refl _
    · rename_i h
      simp only [not_or] at h
      have := h.2
      rw [gt_iff_lt, Int64.not_lt] at this
      exact this
  · intro h0 h1
    rw [if_neg]
    rintro (h | h)
    · exact h0 h
    · exact absurd h1 (Int64.not_le.mpr h)

/-! ### C60: concurrent transactions are serializable -/

/-- Any number of transactions that do not scan, started and committed in any interleaving the engine
accepts: every one of them gave the result, and the database is in the state, of running them one
after the other in commit order. -/
theorem C60_serializable {α : Type} (db₀ : DB) (h : List (Committed α))
    (hs : ∀ T ∈ h, T.prog.ScanFree) (ha : Accepted db₀ h) :
    (versions db₀ h).headD db₀ = serial db₀ h ∧
    ∀ after before : List (Committed α), ∀ T, h = after ++ T :: before →
      (T.outcome (snapshotOf db₀ before T)).1 = (T.outcome (serial db₀ before)).1 := by
  refine ⟨versions_serial db₀ h hs ha, ?_⟩
  intro after
  induction after generalizing h with
  | nil =>
    rintro before T rfl
    have := (accepted_replay db₀ T before (hs T (by simp)) ha).1
    rw [← this, versions_serial db₀ before (fun U hU => hs U (by simp [hU])) ha.1]
  | cons U after ih =>
    rintro before T rfl
    exact ih (after ++ T :: before) (fun V hV => hs V (by simp [hV])) ha.1 before T rfl

/-- The number a counter key stands for: absent is 0; `none` if it is not a number that never
expires. -/
def counter (db : DB) (k : Bytes) : Option Int64 :=
  match db.get k with
  | none => some 0
  | some v => if v.expiresAt = 0 then
      match Numeric.decodeFromHuman (some v.value) with
      | .ok n => some n
      | _ => none
    else none

theorem inc_scanFree (k : Bytes) (s : Int64) : (KV.incInt64 k s).ScanFree := by
  unfold KV.incInt64
  apply ScanFree.bind
  · intro r; cases r with
    | ok v => trivial
    | panic => trivial
    | err e => cases e <;> trivial
  · intro o
    cases o with
    | none => exact ScanFree.bind (fun _ => trivial) (fun _ => trivial)
    | some v =>
      exact ScanFree.bind (p := ofRes _) trivial
        (fun _ => ScanFree.bind (fun _ => trivial) (fun _ => trivial))

/-- Inc alone on a database. -/
theorem inc_outcome (env : Env) (db : DB) (k : Bytes) (s c : Int64) (hw : env.Writable k)
    (hc : counter db k = some c) :
    ((KV.incInt64 k s).run (Txn.start env db)).1 = .ok (c + s) ∧
    counter (applyWrites db ((KV.incInt64 k s).run (Txn.start env db)).2.writes) k = some (c + s) := by
  obtain ⟨hu, hk, hb⟩ := hw
  have hkn : k ≠ [] := by rintro rfl; simp [keyErr] at hk
  have hset : ∀ (t : Txn) (v : Bytes), t.env = env →
      t.set k v none = (.ok (), { t with
        view := applyWrite t.view (k, some { value := v }),
        writes := t.writes ++ [(k, some { value := v })], attempts := t.attempts + 1 }) := by
    intro t v ht
    simp [Txn.set, Txn.modify, ht, hu, hk, hb, mkVal]
  have hcnt : ∀ (m : DB) (n : Int64), counter (applyWrite m (k, some { value := Numeric.encode2Human n })) k =
      some n := by
    intro m n
    simp [counter, applyWrite, Numeric.decodeFromHuman, Numeric.encode2Human, Numeric.parse_format]
  have hget : ((Txn.start env db).get k).2.env = env ∧ ((Txn.start env db).get k).2.writes = [] := by
    have := (Txn.start env db).get_snd k
    exact ⟨this.1, this.2.2.1⟩
  unfold counter at hc
  cases hg : db.get k with
  | none =>
    rw [hg] at hc
    simp only [Option.some.injEq] at hc
    subst hc
    have h1 : ((Txn.start env db).get k).1 = .err .keyNotFound := by
      simp [Txn.get, hkn, Txn.start, hg]
    have hrun : (KV.incInt64 k s).run (Txn.start env db) =
        (Prog.run (do setK k (Numeric.encode2Human s); pure s) ((Txn.start env db).get k).2) := by
      simp only [KV.incInt64, getOpt, Prog.andThen, Prog.run, h1, Bind.bind, Prog.bind]
    rw [hrun]
    simp only [Bind.bind, Prog.bind, setK, Prog.andThen, Prog.run, hset _ _ hget.1, hget.2]
    refine ⟨by simp [pure, Prog.run], ?_⟩
    simp only [pure, Prog.run, List.nil_append, applyWrites, List.foldl]
    rw [hcnt]; simp
  | some v =>
    rw [hg] at hc
    simp only at hc
    split at hc
    · rename_i hexp
      split at hc
      · rename_i n hn
        cases hc
        have hne : v.value ≠ [] := by
          intro e; rw [e] at hn; simp [Numeric.decodeFromHuman, Numeric.parseInt] at hn
        have hlive : v.live env.now = true := by simp [Val.live, hexp]
        have h1 : ((Txn.start env db).get k).1 = .ok v := by
          simp [Txn.get, hkn, Txn.start, hg, hlive]
        have hrun : (KV.incInt64 k s).run (Txn.start env db) =
            (Prog.run (do setK k (Numeric.encode2Human (c + s)); pure (c + s))
              ((Txn.start env db).get k).2) := by
          simp only [KV.incInt64, getOpt, Prog.andThen, Prog.run, h1, Bind.bind, Prog.bind, ofRes,
            nilIfEmpty, if_neg hne, hn]
        rw [hrun]
        simp only [Bind.bind, Prog.bind, setK, Prog.andThen, Prog.run, hset _ _ hget.1, hget.2]
        refine ⟨by simp [pure, Prog.run], ?_⟩
        simp only [pure, Prog.run, List.nil_append, applyWrites, List.foldl]
        rw [hcnt]
      · cases hc
    · cases hc

/-- Concurrent increments of one counter lose no update: however the transactions interleaved, as
long as the engine accepted their commits, the i-th to commit answered the initial value plus the
steps committed up to and including its own, and the counter ends as the initial value plus all
steps. -/
theorem C60_inc_no_lost_update (db₀ : DB) (k : Bytes) (h : List (Env × Int64 × Nat)) (c : Int64)
    (hc : counter db₀ k = some c) (hw : ∀ e ∈ h, e.1.Writable k)
    (ha : Accepted db₀ (h.map (fun e => (⟨e.1, KV.incInt64 k e.2.1, e.2.2⟩ : Committed Int64)))) :
    counter ((versions db₀ (h.map (fun e => (⟨e.1, KV.incInt64 k e.2.1, e.2.2⟩ : Committed Int64)))).headD
      db₀) k = some (h.foldr (fun e acc => acc + e.2.1) c) ∧
    ∀ after before e, h = after ++ e :: before →
      ((⟨e.1, KV.incInt64 k e.2.1, e.2.2⟩ : Committed Int64).outcome
        (snapshotOf db₀ (before.map (fun e => (⟨e.1, KV.incInt64 k e.2.1, e.2.2⟩ : Committed Int64)))
          ⟨e.1, KV.incInt64 k e.2.1, e.2.2⟩)).1 =
      .ok ((e :: before).foldr (fun e acc => acc + e.2.1) c) := by
  have hser : ∀ l : List (Env × Int64 × Nat), (∀ e ∈ l, e.1.Writable k) →
      counter (serial db₀ (l.map (fun e => (⟨e.1, KV.incInt64 k e.2.1, e.2.2⟩ : Committed Int64)))) k =
        some (l.foldr (fun e acc => acc + e.2.1) c) := by
    intro l
    induction l with
    | nil => intro _; exact hc
    | cons e l ih =>
      intro hl
      have ih := ih (fun x hx => hl x (by simp [hx]))
      exact (inc_outcome e.1 _ k e.2.1 _ (hl e (by simp)) ih).2
  have hsf : ∀ T ∈ h.map (fun e => (⟨e.1, KV.incInt64 k e.2.1, e.2.2⟩ : Committed Int64)),
      T.prog.ScanFree := by
    intro T hT
    obtain ⟨e, -, rfl⟩ := List.mem_map.mp hT
    exact inc_scanFree _ _
  obtain ⟨h1, h2⟩ := C60_serializable db₀ _ hsf ha
  refine ⟨by rw [h1]; exact hser h hw, ?_⟩
  rintro after before e rfl
  have := h2 (after.map (fun e => (⟨e.1, KV.incInt64 k e.2.1, e.2.2⟩ : Committed Int64)))
    (before.map (fun e => (⟨e.1, KV.incInt64 k e.2.1, e.2.2⟩ : Committed Int64)))
    ⟨e.1, KV.incInt64 k e.2.1, e.2.2⟩ (by simp)
  rw [this]
  exact (inc_outcome e.1 _ k e.2.1 _ (hw e (by simp))
    (hser before (fun x hx => hw x (by simp [hx])))).1

end Mondis.Props
