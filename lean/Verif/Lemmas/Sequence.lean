import Verif.Model.Sequence
import Verif.Props.Txn
import Verif.Lemmas.Structure
/-!
# Lemmas about sequences
-/
namespace Mondis.Sequence
open Mondis Util Props Prog

/-- The key the counter is stored under. -/
def Cell.dataKey : Cell → Bytes
  | .str k => Structure.stringDataKey metaPrefix k
  | .hash k f => Structure.hashDataKey metaPrefix k f

/-- The number a stored text (or its absence) stands for. -/
def Shows (o : Option Val) (c : Int64) : Prop :=
  (o = none ∧ c = 0) ∨ ∃ v, o = some v ∧ v.expiresAt = 0 ∧ Numeric.decodeFromHuman (some v.value) = .ok c

/-- The text of a number, never to expire. -/
def Written (o : Option Val) (c : Int64) : Prop :=
  ∃ v, o = some v ∧ v.expiresAt = 0 ∧ v.value = Numeric.encode2Human c

theorem shows_of_counter {db : DB} {k : Bytes} {c : Int64} (now : Int) (h : counter db k = some c) :
    Shows ((DB.live now db).get k) c := by
  unfold counter at h
  rw [live_get]
  cases hg : db.get k with
  | none => rw [hg] at h; simp at h; exact .inl ⟨rfl, h.symm⟩
  | some v =>
    rw [hg] at h
    simp only at h
    split at h
    · rename_i he
      split at h
      · rename_i n hn
        cases h
        exact .inr ⟨v, by simp [Val.live, he], he, hn⟩
      · cases h
    · cases h

theorem counter_of_live {db : DB} {k : Bytes} {c : Int64} (now : Int)
    (h : Written ((DB.live now db).get k) c) : counter db k = some c := by
  obtain ⟨v, h, he, hv⟩ := h
  rw [live_get] at h
  have hg : db.get k = some v := by
    cases hg : db.get k with
    | none => rw [hg] at h; simp at h
    | some v' =>
      rw [hg] at h
      simp only [Option.filter] at h
      split at h
      · exact h
      · cases h
  simp [counter, hg, he, hv, Numeric.decodeFromHuman, Numeric.encode2Human, Numeric.parse_format]

theorem encode2Human_ne (c : Int64) : Numeric.encode2Human c ≠ [] := by
  intro h
  have := Numeric.parse_format c
  unfold Numeric.encode2Human at h
  rw [h] at this
  simp [Numeric.parseInt] at this

theorem shows_ne_nil {v : Val} {c : Int64} (h : Numeric.decodeFromHuman (some v.value) = .ok c) : v.value ≠ [] := by
  intro e; rw [e] at h; simp [Numeric.decodeFromHuman, Numeric.parseInt] at h

theorem strKey_ne (k : Bytes) : Structure.stringDataKey metaPrefix k ≠ [] := by
  simp [Structure.stringDataKey, Memcomparable.encodeUint8]

theorem hashKey_ne (k f : Bytes) : Structure.hashDataKey metaPrefix k f ≠ [] := by
  simp [Structure.hashDataKey, Memcomparable.encodeBytes, Memcomparable.encodeUint8, metaPrefix]

theorem str_inc_wp (env : Env) (m : DB) (k : Bytes) (step c : Int64)
    (h : Shows (m.get (Cell.str k).dataKey) c) :
    ((Cell.str k).inc step).wp env m (fun r m' => ∀ n, r = .ok n → n = c + step ∧
      Written (m'.get (Cell.str k).dataKey) n) := by
  unfold Cell.inc Structure.strInc KV.incInt64
  rw [wp_bind, wp_getOpt _ (strKey_ne k)]
  simp only
  rcases h with ⟨h, rfl⟩ | ⟨v, h, -, hv⟩
  · simp only [Cell.dataKey] at h
    rw [h]
    simp only
    rw [wp_bind, wp_setK]
    refine ⟨by simp, ?_⟩
    intro _ _
    simp [Cell.dataKey, Written]
  · simp only [Cell.dataKey] at h
    rw [h]
    simp only
    rw [wp_bind, wp_ofRes]
    simp only [nilIfEmpty, if_neg (shows_ne_nil hv), hv]
    rw [wp_bind, wp_setK]
    refine ⟨by simp, ?_⟩
    intro _ _
    simp [Cell.dataKey, Written]

theorem wp_true {α} {env : Env} {p : Prog α} {m : DB} {Q : Res α → DB → Prop} (h : ∀ r m, Q r m) : p.wp env m Q := by
  induction p generalizing m with
  | done r => exact h _ _
  | get k c ih => exact ih _
  | set k v vm c ih => exact ⟨fun _ _ => ih _, fun _ _ => ih _⟩
  | del k c ih => exact ⟨fun _ _ => ih _, fun _ _ => ih _⟩
  | scan o c ih => exact ih _

theorem hashMeta_ne_data (k f : Bytes) : Structure.hashMetaKey metaPrefix k ≠ Structure.hashDataKey metaPrefix k f := by
  intro h
  simp [Structure.hashMetaKey_eq, Structure.hashDataKey_eq, Structure.skey_inj] at h

theorem updateHash_wp {β : Type} (env : Env) (m : DB) (k f : Bytes) (fn : Option Bytes → Res (Bytes × β))
    (n : Int64) (b : β) (c : Int64) (h : Shows (m.get (Cell.hash k f).dataKey) c)
    (hfn : fn ((m.get (Cell.hash k f).dataKey).bind (fun v => nilIfEmpty v.value)) = .ok (Numeric.encode2Human n, b)) :
    (Structure.updateHash metaPrefix k f fn).wp env m (fun r m' => ∀ x, r = .ok x → x = b ∧
      Written (m'.get (Cell.hash k f).dataKey) n) := by
  unfold Structure.updateHash
  simp only
  rw [wp_bind, wp_getOpt _ (hashKey_ne k f)]
  simp only
  rw [wp_bind, wp_ofRes]
  simp only [Cell.dataKey] at hfn ⊢
  rw [hfn]
  simp only
  split
  · rename_i he
    rw [wp_pure]
    intro x hx
    injection hx with hx
    refine ⟨hx.symm, ?_⟩
    rcases h with ⟨h, rfl⟩ | ⟨v, h, hexp, hv⟩
    · simp only [Cell.dataKey] at h
      rw [h] at he
      simp at he
      exact absurd he (encode2Human_ne n)
    · simp only [Cell.dataKey] at h
      rw [h] at he
      simp [nilIfEmpty, if_neg (shows_ne_nil hv)] at he
      exact ⟨v, h, hexp, he⟩
  · rw [wp_bind, wp_setK]
    refine ⟨by simp, ?_⟩
    intro _ _
    simp only
    split
    · rw [wp_pure]
      intro x hx
      injection hx with hx
      exact ⟨hx.symm, by simp [Written]⟩
    · rw [wp_bind]
      unfold Structure.loadHashMeta
      rw [wp_bind, wp_getOpt _ (by simp [Structure.hashMetaKey, Memcomparable.encodeUint8])]
      simp only
      have key : ∀ (count : Int64), (do
          setK (Structure.hashMetaKey metaPrefix k) (Structure.hashMetaValue (count + 1))
          pure b : Prog β).wp env (m.set (Structure.hashDataKey metaPrefix k f) ⟨Numeric.encode2Human n, 0, 0⟩) (fun r m' => ∀ x, r = .ok x → x = b ∧
            Written (m'.get (Structure.hashDataKey metaPrefix k f)) n) := by
        intro count
        rw [wp_bind, wp_setK]
        refine ⟨by simp, ?_⟩
        intro _ _
        simp only [wp_pure]
        intro x hx
        injection hx with hx
        refine ⟨hx.symm, ?_⟩
        rw [OMap.get_set, if_neg (hashMeta_ne_data k f)]
        simp [Written]
      split
      · rw [wp_pure]
        exact key 0
      · rename_i v _
        rw [wp_bind, wp_ofRes]
        cases Numeric.decodeFromBinary v.value with
        | ok u => exact key _
        | err e => simp
        | panic => simp

theorem hash_inc_wp (env : Env) (m : DB) (k f : Bytes) (step c : Int64)
    (h : Shows (m.get (Cell.hash k f).dataKey) c) :
    ((Cell.hash k f).inc step).wp env m (fun r m' => ∀ n, r = .ok n → n = c + step ∧
      Written (m'.get (Cell.hash k f).dataKey) n) := by
  have := updateHash_wp env m k f (fun old => do
    let n ← match old with
      | some b => Numeric.decodeFromHuman (some b)
      | none => .ok 0
    let n := n + step
    .ok (Numeric.encode2Human n, n)) (c + step) (c + step) c h (by
      rcases h with ⟨h, rfl⟩ | ⟨v, h, -, hv⟩
      · rw [h]; rfl
      · rw [h]; simp [nilIfEmpty, if_neg (shows_ne_nil hv), hv])
  refine wp_mono this ?_
  intro r m' h n hn
  obtain ⟨h1, h2⟩ := h n hn
  exact ⟨h1, by rw [h1]; exact h2⟩

theorem inc_wp (cell : Cell) (env : Env) (m : DB) (step c : Int64) (h : Shows (m.get cell.dataKey) c) :
    (cell.inc step).wp env m (fun r m' => ∀ n, r = .ok n → n = c + step ∧ Written (m'.get cell.dataKey) n) := by
  cases cell with
  | str k => exact str_inc_wp env m k step c h
  | hash k f => exact hash_inc_wp env m k f step c h

theorem put_wp (cell : Cell) (env : Env) (m : DB) (v c : Int64) (h : Shows (m.get cell.dataKey) c) :
    (cell.put v).wp env m (fun r m' => ∀ n, r = .ok n → Written (m'.get cell.dataKey) v) := by
  cases cell with
  | str k =>
    unfold Cell.put Structure.strSetInt64 KV.setInt64
    rw [wp_setK]
    exact ⟨by simp, fun _ _ => by simp [Cell.dataKey, Written]⟩
  | hash k f =>
    refine wp_mono (updateHash_wp env m k f (fun _ => .ok (Numeric.encode2Human v, ())) v () c h rfl) ?_
    intro r m' h n hn
    exact (h n hn).2

theorem updateHash_scanFree {β : Type} {pfx : Bytes} (k f : Bytes) (fn : Option Bytes → Res (Bytes × β)) :
    (Structure.updateHash pfx k f fn).ScanFree := by
  have hgo : ∀ k, (getOpt k).ScanFree := by
    intro k r; cases r with
    | ok v => trivial
    | panic => trivial
    | err e => cases e <;> trivial
  unfold Structure.updateHash
  apply ScanFree.bind (hgo _)
  intro o
  apply ScanFree.bind (p := ofRes _) trivial
  intro x
  obtain ⟨nv, b⟩ := x
  simp only
  split
  · trivial
  · apply ScanFree.bind (p := setK _ _) (fun _ => trivial)
    intro _
    split
    · trivial
    · apply ScanFree.bind
      · unfold Structure.loadHashMeta
        apply ScanFree.bind (hgo _)
        intro o
        cases o with
        | none => trivial
        | some v => exact ScanFree.bind (p := ofRes _) trivial (fun _ => trivial)
      · intro _
        exact ScanFree.bind (p := setK _ _) (fun _ => trivial) (fun _ => trivial)

theorem inc_scanFree' (cell : Cell) (step : Int64) : (cell.inc step).ScanFree := by
  cases cell with
  | str k => exact inc_scanFree _ _
  | hash k f => unfold Cell.inc Structure.hinc; exact updateHash_scanFree k f _

theorem put_scanFree (cell : Cell) (v : Int64) : (cell.put v).ScanFree := by
  cases cell with
  | str k => exact fun _ => trivial
  | hash k f => unfold Cell.put Structure.hsetInt64 Structure.hset; exact updateHash_scanFree k f _

/-! ### Committed transactions -/


/-- What the storage guarantees of a transaction it commits: nothing it read has changed since its
snapshot.  (*contract* badger's conflict detection, see Model/Util; a transaction without writes is not
checked.) -/
def NoConflict {α : Type} (c : Circ) (p : Prog α) (db : DB) : Prop :=
  c.fail = none → (body c.env true p c.snap).2.writes ≠ [] →
    ∀ k ∈ (body c.env true p c.snap).2.reads, c.snap.get k = db.get k

/-- A scan-free update transaction with writes that committed did what it would have done alone at commit
time. -/
theorem update_replay {α : Type} (c : Circ) (p : Prog α) (hp : p.ScanFree) (db : DB) (h : NoConflict c p db) {a : α}
    {db' : DB} (hr : runInNewUpdateTxn c.env c.fail p c.snap db = (.ok a, db'))
    (hw : (body c.env true p c.snap).2.writes ≠ []) :
    (p.run (Txn.start { c.env with update := true } db)).1 = .ok a ∧
      db' = (p.run (Txn.start { c.env with update := true } db)).2.view := by
  unfold runInNewUpdateTxn at hr
  cases hb : body c.env true p c.snap with
  | mk r t =>
    rw [hb] at hr hw
    cases r with
    | err e => simp at hr
    | panic => simp at hr
    | ok a' =>
      simp only [Txn.commit, if_neg hw] at hr
      cases hf : c.fail with
      | some e => rw [hf] at hr; simp at hr
      | none =>
        rw [hf] at hr
        simp only [Prod.mk.injEq, Res.ok.injEq] at hr
        have h' := h hf (by rw [hb]; exact hw)
        obtain ⟨r1, r2⟩ := replay p hp { c.env with update := true } c.snap db h'
        have hb' : p.run (Txn.start { c.env with update := true } c.snap) = (.ok a', t) := hb
        rw [hb'] at r1 r2
        refine ⟨by rw [r1, hr.1], ?_⟩
        rw [run_start_view, r2, hr.2]

theorem body_view {α : Type} (env : Env) (p : Prog α) (db : DB) (h : (body env true p db).2.writes = []) :
    (body env true p db).2.view = db := by
  have := run_start_view p { env with update := true } db
  have h' : (p.run (Txn.start { env with update := true } db)).2.writes = [] := h
  rw [h'] at this
  exact this

theorem body_ok {α : Type} {env : Env} {fail : Option Err} {p : Prog α} {snap db db' : DB} {a : α}
    (h : runInNewUpdateTxn env fail p snap db = (.ok a, db')) : (body env true p snap).1 = .ok a := by
  have := (C25_update_succeeds_iff env fail p snap db a).mp (by rw [h])
  exact this.1

theorem inc_at (cell : Cell) (env : Env) (db : DB) (step c n : Int64) (hc : counter db cell.dataKey = some c)
    (h : ((cell.inc step).run (Txn.start env db)).1 = .ok n) :
    n = c + step ∧ counter ((cell.inc step).run (Txn.start env db)).2.view cell.dataKey = some n := by
  have := wp_sound (cell.inc step) (Txn.start env db) _ (inc_wp cell env _ step c (shows_of_counter env.now hc)) n h
  exact ⟨this.1, counter_of_live env.now (by simpa only [Txn.live, run_env, Txn.start] using this.2)⟩

theorem put_at (cell : Cell) (env : Env) (db : DB) (v c : Int64) (u : Unit) (hc : counter db cell.dataKey = some c)
    (h : ((cell.put v).run (Txn.start env db)).1 = .ok u) :
    counter ((cell.put v).run (Txn.start env db)).2.view cell.dataKey = some v := by
  have := wp_sound (cell.put v) (Txn.start env db) _ (put_wp cell env _ v c (shows_of_counter env.now hc)) u h
  exact counter_of_live env.now (by simpa only [Txn.live, run_env, Txn.start] using this)

theorem int64_add_eq_self {c s : Int64} (h : c = c + s) : s = 0 := by
  have h := congrArg (· - c) h
  simp only [Int64.sub_self] at h
  rw [Int64.add_comm, Int64.add_sub_cancel] at h
  exact h.symm

/-- A lease that was committed. -/
theorem inc_commit (cell : Cell) (c : Circ) (db db' : DB) (step v v' n : Int64) (hs : step ≠ 0)
    (hsnap : counter c.snap cell.dataKey = some v') (hdb : counter db cell.dataKey = some v)
    (hn : NoConflict c (cell.inc step) db)
    (hr : runInNewUpdateTxn c.env c.fail (cell.inc step) c.snap db = (.ok n, db')) :
    n = v + step ∧ counter db' cell.dataKey = some n := by
  have hw : (body c.env true (cell.inc step) c.snap).2.writes ≠ [] := by
    intro hw
    have h1 := inc_at cell { c.env with update := true } c.snap step v' n hsnap (body_ok hr)
    have h2 : ((cell.inc step).run (Txn.start { c.env with update := true } c.snap)).2.view = c.snap :=
      body_view _ _ _ hw
    rw [h2, hsnap] at h1
    have := h1.2
    rw [h1.1] at this
    injection this with this
    exact hs (int64_add_eq_self this)
  obtain ⟨h1, h2⟩ := update_replay c _ (inc_scanFree' cell step) db hn hr hw
  have := inc_at cell _ db step v n hdb h1
  rw [h2]
  exact this

/-- A release that was committed. -/
theorem put_commit (cell : Cell) (c : Circ) (db db' : DB) (v w : Int64) (u : Unit) (hne : v ≠ w)
    (hsnap : counter c.snap cell.dataKey = some v) (hdb : counter db cell.dataKey = some v)
    (hn : NoConflict c (cell.put w) db)
    (hr : runInNewUpdateTxn c.env c.fail (cell.put w) c.snap db = (.ok u, db')) :
    counter db' cell.dataKey = some w := by
  have hw : (body c.env true (cell.put w) c.snap).2.writes ≠ [] := by
    intro hw
    have h1 := put_at cell { c.env with update := true } c.snap w v u hsnap (body_ok hr)
    have h2 : ((cell.put w).run (Txn.start { c.env with update := true } c.snap)).2.view = c.snap :=
      body_view _ _ _ hw
    rw [h2, hsnap] at h1
    injection h1 with h1
    exact hne h1
  obtain ⟨h1, h2⟩ := update_replay c _ (put_scanFree cell w) db hn hr hw
  rw [h2]
  exact put_at cell _ db w v u hdb h1

/-- A transaction that did not commit left the database alone. -/
theorem update_failed {α : Type} {env : Env} {fail : Option Err} {p : Prog α} {snap db : DB}
    (h : ∀ a, (runInNewUpdateTxn env fail p snap db).1 ≠ .ok a) : (runInNewUpdateTxn env fail p snap db).2 = db := by
  rcases C25_update_all_or_nothing env fail p snap db with ⟨a, h1, _⟩ | ⟨_, h2⟩
  · exact absurd h1 (h a)
  · exact h2

end Mondis.Sequence
