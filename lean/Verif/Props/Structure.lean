import Verif.Lemmas.StructFrame
/-!
# C26–C32: strings, hashes and lists

`runOps` runs operations one after the other in a transaction; `Spec.runSpec` is what they mean.
-/
namespace Mondis.Props
open Mondis.Structure Mondis.Memcomparable Mondis.Prog Mondis.Spec

/-- Run operations in a transaction, whatever each of them answers. -/
def runOps (pfx : Bytes) : List SOp → Txn → List (Res Out) × Txn
  | [], t => ([], t)
  | op :: ops, t =>
    let (r, t) := (exec pfx op).run t
    let (rs, t) := runOps pfx ops t
    (r :: rs, t)

/-- Transactions one after the other on a database, each with its own circumstances. -/
def runHistory (pfx : Bytes) : List (Env × Script) → DB → List (List (Res Out)) × DB
  | [], db => ([], db)
  | (env, s) :: rest, db =>
    let (rs, t) := runOps pfx s.ops (Txn.start env db)
    let db' := if s.commits then (t.commit none db).2 else db
    let (rss, db'') := runHistory pfx rest db'
    (rs :: rss, db'')

/-- Nothing is stored under the prefix. -/
def Fresh (pfx : Bytes) (db : DB) : Prop := ∀ k, IsPrefixOf pfx k → db.get k = none

/-- The answers agree up to the first failing write of the transaction. -/
inductive Follows (env : Env) : List (Res Out) → List (Res Out) → Prop
  | nil : Follows env [] []
  | same (r : Res Out) {rs ss : List (Res Out)} : Follows env rs ss → Follows env (r :: rs) (r :: ss)
  | failed {k : Bytes} {e : Err} (s : Res Out) (rs ss : List (Res Out)) :
      env.WriteErr k e → Follows env (.err e :: rs) (s :: ss)

/-- A condition along the specified run. -/
def Along (C : SState → SOp → Prop) (A : SState) : List SOp → Prop
  | [] => True
  | op :: ops => C A op ∧ Along C (op.step A).2 ops

/-- A condition along a specified history. -/
def AlongHistory (C : SState → SOp → Prop) (A : SState) : List Script → Prop
  | [] => True
  | s :: rest => Along C A s.ops ∧
      AlongHistory C (if s.commits then (runSpec A s.ops).2 else A) rest

/-- Every key the operation may write is acceptable to the engine (not too long, not reserved). -/
def KeysFit (pfx : Bytes) (A : SState) (op : SOp) : Prop := ∀ k, MayWrite pfx A op k → keyErr k = none

/-- Total number of elements and fields added. -/
def totalCost (ops : List SOp) : Nat := (ops.map cost).sum

/-- The transaction's view holds, under `pfx`, exactly the structures in `A`. -/
structure Holds (pfx : Bytes) (B : Int) (A : SState) (t : Txn) : Prop where
  rep : Rep pfx B A t.live
  noTTL : ∀ k v, IsPrefixOf pfx k → t.view.get k = some v → v.expiresAt = 0
  overlay : ∃ db, t.view = applyWrites db t.writes

theorem rep_congr {pfx : Bytes} {B : Int} {A : SState} {m m' : DB}
    (h : ∀ k, IsPrefixOf pfx k → m'.get k = m.get k) (hr : Rep pfx B A m) : Rep pfx B A m' where
  str := fun key => (hr.str key).congr (h _ (by rw [stringDataKey_eq]; exact ⟨_, rfl⟩))
  hash := fun key => (hr.hash key).congr (by
    rintro k (rfl | ⟨f, rfl⟩)
    · exact h _ (by rw [hashMetaKey_eq]; exact ⟨_, rfl⟩)
    · exact h _ (by rw [hashDataKey_eq]; exact ⟨_, rfl⟩))
  hbound := hr.hbound
  list := fun key => (hr.list key).congr (by
    rintro k (rfl | ⟨f, rfl⟩)
    · exact h _ (by rw [listMetaKey_eq]; exact ⟨_, rfl⟩)
    · exact h _ (by rw [listDataKey_eq]; exact ⟨_, rfl⟩))
  lbound := hr.lbound
  clean := by
    intro key k v hg hp
    obtain ⟨s, rfl⟩ := hp
    rw [h _ ⟨encodeGroups key ++ s, by simp⟩] at hg
    exact hr.clean key _ v hg ⟨s, rfl⟩

/-- Entries that never expire are read at any time. -/
theorem live_get_noTTL {m : DB} {now : Int} {k : Bytes}
    (h : ∀ v, m.get k = some v → v.expiresAt = 0) : (DB.live now m).get k = m.get k := by
  rw [live_get]
  cases hg : m.get k with
  | none => rfl
  | some v => simp [Option.filter, Val.live, h v hg]

theorem Holds.raw {pfx : Bytes} {B : Int} {A : SState} {t : Txn} (h : Holds pfx B A t) :
    Rep pfx B A t.view := by
  refine rep_congr ?_ h.rep
  intro k hk
  exact (live_get_noTTL (fun v hv => h.noTTL k v hk hv)).symm

theorem rep_fresh {pfx : Bytes} {db : DB} (h : Fresh pfx db) : Rep pfx 0 SState.init db :=
  rep_congr (fun k hk => by rw [h k hk, OMap.get_empty]) (rep_init pfx)

/-- Opening a transaction on a database that holds `A`. -/
theorem holds_start {pfx : Bytes} {B : Int} {A : SState} {db : DB} (env : Env) (hr : Rep pfx B A db)
    (hn : ∀ k v, IsPrefixOf pfx k → db.get k = some v → v.expiresAt = 0) :
    Holds pfx B A (Txn.start env db) where
  rep := rep_congr (fun k hk => live_get_noTTL (fun v hv => hn k v hk hv)) hr
  noTTL := hn
  overlay := ⟨db, rfl⟩

/-- One operation in a transaction: the specified answer and contents, or a failing write. -/
theorem step_run {pfx : Bytes} {B : Int} {A : SState} {t : Txn} (op : SOp) (h : Holds pfx B A t)
    (hB : B + cost op < 2 ^ 63) (hl : Lossless A op) :
    (∃ k e, MayWrite pfx A op k ∧ t.env.WriteErr k e ∧ ((exec pfx op).run t).1 = .err e) ∨
    (((exec pfx op).run t).1 = (op.step A).1 ∧
      Holds pfx (B + cost op) (op.step A).2 ((exec pfx op).run t).2) := by
  have hs := wp_sound (exec pfx op) t _ (step_refines (env := t.env) op h.rep hB hl)
  rcases hs with hs | ⟨h1, h2⟩
  · exact .inl hs
  · refine .inr ⟨h1, h2, ?_, ?_⟩
    · obtain ⟨db, hdb⟩ := h.overlay
      obtain ⟨ws, hw1, hw2⟩ := run_writes (exec_writes pfx op) t
      intro k v hk hg
      rw [run_view _ _ db hdb, hw1, applyWrites, List.foldl_append] at hg
      rcases get_applyWrites_cases hg with hg | hg
      · exact h.noTTL k v hk (by rw [hdb]; exact hg)
      · exact ((hw2 _ hg).2 v rfl).2
    · obtain ⟨db, hdb⟩ := h.overlay
      exact ⟨db, run_view _ _ db hdb⟩

theorem runOps_env (pfx : Bytes) (ops : List SOp) (t : Txn) : (runOps pfx ops t).2.env = t.env := by
  induction ops generalizing t with
  | nil => rfl
  | cons op ops ih =>
    simp only [runOps]
    rw [ih, run_env]

/-- **Any** sequence of operations in a transaction answers as specified up to the first failing
write (a read-only or full transaction, or a key the engine refuses). -/
theorem structures_follow {pfx : Bytes} (ops : List SOp) {B : Int} {A : SState} {t : Txn}
    (h : Holds pfx B A t) (hB : B + totalCost ops < 2 ^ 63) (hl : Along Lossless A ops) :
    Follows t.env (runOps pfx ops t).1 (runSpec A ops).1 := by
  induction ops generalizing B A t with
  | nil => exact .nil
  | cons op ops ih =>
    simp only [totalCost, List.map_cons, List.sum_cons] at hB
    rcases step_run op h (by omega) hl.1 with ⟨k, e, -, he, hr⟩ | ⟨hr, hh⟩
    · simp only [runOps, runSpec]
      rw [hr]
      exact .failed _ _ _ he
    · have := ih hh (by simp only [totalCost]; omega) hl.2
      rw [run_env] at this
      simp only [runOps, runSpec]
      rw [hr]
      exact .same _ this

/-- If no write can fail, the answers are exactly those specified, and the transaction ends up
holding exactly the specified structures. -/
theorem structures_exact {pfx : Bytes} (ops : List SOp) {B : Int} {A : SState} {t : Txn}
    (h : Holds pfx B A t) (hB : B + totalCost ops < 2 ^ 63) (hl : Along Lossless A ops)
    (hu : t.env.update = true) (hbig : ∀ n, t.env.tooBig n = false)
    (hf : Along (KeysFit pfx) A ops) :
    (runOps pfx ops t).1 = (runSpec A ops).1 ∧
      Holds pfx (B + totalCost ops) (runSpec A ops).2 (runOps pfx ops t).2 := by
  induction ops generalizing B A t with
  | nil => exact ⟨rfl, by simpa [totalCost, runSpec, runOps] using h⟩
  | cons op ops ih =>
    simp only [totalCost, List.map_cons, List.sum_cons] at hB ⊢
    rcases step_run op h (by omega) hl.1 with ⟨k, e, hk, he, hr⟩ | ⟨hr, hh⟩
    · exact absurd he (Env.Writable.not_err ⟨hu, hf.1 k hk, hbig⟩ e)
    · obtain ⟨h1, h2⟩ := ih hh (by simp only [totalCost]; omega) hl.2 (by rw [run_env]; exact hu)
        (by rw [run_env]; exact hbig) hf.2
      simp only [runOps, runSpec]
      refine ⟨by rw [hr, h1], ?_⟩
      have e : B + ((cost op + (List.map cost ops).sum : Nat) : Int) =
        B + cost op + totalCost ops := by simp only [totalCost]; omega
      rw [e]; exact h2

/-- **C26, C27, C28, C29**: any history of transactions, each a sequence of structure operations,
committed or thrown away, at any times, on a database in which nothing is stored under the prefix,
answers as the specification does.  `Lossless` excludes only HSet of an empty value to an absent
field (see C32). -/
theorem C26_C29_history (pfx : Bytes) (hist : List (Env × Script)) (db : DB) (hfresh : Fresh pfx db)
    (hu : ∀ s ∈ hist, s.1.update = true) (hbig : ∀ s ∈ hist, ∀ n, s.1.tooBig n = false)
    (hfit : AlongHistory (KeysFit pfx) SState.init (hist.map Prod.snd))
    (hl : AlongHistory Lossless SState.init (hist.map Prod.snd))
    (hB : totalCost (hist.flatMap (fun s => s.2.ops)) < 2 ^ 63) :
    (runHistory pfx hist db).1 = runScripts SState.init (hist.map Prod.snd) := by
  suffices H : ∀ (B : Int) (A : SState), Rep pfx B A db →
      (∀ k v, IsPrefixOf pfx k → db.get k = some v → v.expiresAt = 0) →
      B + totalCost (hist.flatMap (fun s => s.2.ops)) < 2 ^ 63 →
      AlongHistory (KeysFit pfx) A (hist.map Prod.snd) →
      AlongHistory Lossless A (hist.map Prod.snd) →
      (runHistory pfx hist db).1 = runScripts A (hist.map Prod.snd) by
    exact H 0 SState.init (rep_fresh hfresh)
      (fun k v hk hg => by rw [hfresh k hk] at hg; cases hg) (by omega) hfit hl
  clear hfresh hfit hl hB
  induction hist generalizing db with
  | nil => intros; rfl
  | cons s rest ih =>
    obtain ⟨env, sc⟩ := s
    intro B A hrep hn hB hfit hl
    simp only [totalCost, List.flatMap_cons, List.map_append, List.sum_append] at hB
    have hh := holds_start env hrep hn
    obtain ⟨h1, h2⟩ := structures_exact sc.ops hh (by simp only [totalCost]; omega) hl.1
      (hu (env, sc) (by simp)) (hbig (env, sc) (by simp)) hfit.1
    simp only [runHistory, List.map_cons, runScripts]
    rw [h1]
    congr 1
    by_cases hc : sc.commits
    · have hcommit : ((runOps pfx sc.ops (Txn.start env db)).2.commit none db).2 =
          (runOps pfx sc.ops (Txn.start env db)).2.view := by
        have hov : ∀ (ops : List SOp) (t : Txn), t.view = applyWrites db t.writes →
            (runOps pfx ops t).2.view = applyWrites db (runOps pfx ops t).2.writes := by
          intro ops
          induction ops with
          | nil => exact fun t h => h
          | cons op ops ih => exact fun t h => ih _ (run_view _ _ db h)
        rw [hov _ _ rfl]
        unfold Txn.commit
        split
        · rename_i e; rw [e]; rfl
        · rfl
      have hl2 := hl.2
      have hf2 := hfit.2
      simp only [hc, if_true] at hl2 hf2 ⊢
      rw [hcommit]
      refine ih _ (fun s hs => hu s (by simp [hs])) (fun s hs => hbig s (by simp [hs]))
        (B + totalCost sc.ops) _ h2.raw h2.noTTL ?_ hf2 hl2
      simp only [totalCost]; omega
    · have hl2 := hl.2
      have hf2 := hfit.2
      simp only [hc, if_false] at hl2 hf2 ⊢
      refine ih _ (fun s hs => hu s (by simp [hs])) (fun s hs => hbig s (by simp [hs]))
        B _ hrep hn ?_ hf2 hl2
      simp only [totalCost]; omega

/-! ### The hypotheses can be met -/

/-- Keys of moderate length under a prefix that does not begin with '!' are acceptable. -/
theorem keyErr_ok {b : UInt8} {pfx key : Bytes} {flag : UInt8} {tail : Bytes} (hb : b ≠ 33)
    (hlen : (skey (b :: pfx) key flag tail).length ≤ 65000) :
    keyErr (skey (b :: pfx) key flag tail) = none := by
  have h1 : (skey (b :: pfx) key flag tail).length ≠ 0 := by simp [skey]
  have h2 : Key.hasPrefix (skey (b :: pfx) key flag tail) badgerPrefix = false := by
    rw [Bool.eq_false_iff]
    intro h
    obtain ⟨t, ht⟩ := (Key.hasPrefix_iff _ _).mp h
    simp only [skey, badgerPrefix, List.cons_append, List.cons.injEq] at ht
    exact hb ht.1
  unfold keyErr
  rw [if_neg h1, h2, if_neg (by simp), if_neg (by omega)]

/-- A decidable sufficient condition for `KeysFit`: the prefix does not begin with '!' and prefix,
user key and field are short enough. -/
theorem keysFit_of {b : UInt8} {pfx : Bytes} {A : SState} {op : SOp} (hb : b ≠ 33)
    (hs : 2 + pfx.length + (encodeGroups op.key).length ≤ 64000)
    (hfs : ∀ f, (match op with
      | .hset _ g _ | .hsetInt _ g _ | .hinc _ g _ => f = g
      | .hdel _ fs => f ∈ fs
      | .hclear k => (A k).hash.get f ≠ none
      | _ => False) → 2 + pfx.length + (encodeGroups op.key).length + (encodeGroups f).length ≤ 65000) :
    KeysFit (b :: pfx) A op := by
  have hstr : ∀ key k, key = op.key → SKey (b :: pfx) key k → keyErr k = none := by
    rintro key k rfl rfl
    rw [stringDataKey_eq]; apply keyErr_ok hb
    simp [skey]; omega
  have hlist : ∀ key k, key = op.key → LKey (b :: pfx) key k → keyErr k = none := by
    rintro key k rfl (rfl | ⟨i, rfl⟩)
    · rw [listMetaKey_eq]; apply keyErr_ok hb
      simp [skey]; omega
    · rw [listDataKey_eq]; apply keyErr_ok hb
      have := putUint64_length (encodeInt64ToUint64 i)
      simp [skey, this]; omega
  have hhash : ∀ key F k, key = op.key → (∀ f, F f →
      2 + pfx.length + (encodeGroups op.key).length + (encodeGroups f).length ≤ 65000) →
      HW (b :: pfx) key F k → keyErr k = none := by
    rintro key F k rfl hF (rfl | ⟨f, hf, rfl⟩)
    · rw [hashMetaKey_eq]; apply keyErr_ok hb
      simp [skey]; omega
    · rw [hashDataKey_eq]; apply keyErr_ok hb
      have := hF f hf
      simp [skey]; omega
  intro k hk
  cases op <;> first
    | exact hstr _ k rfl hk
    | exact hlist _ k rfl hk
    | exact hhash _ _ k rfl hfs hk
    | exact hk.elim

/-- Circumstances in which nothing goes wrong. -/
def calm : Env := { update := true, now := 0, tooBig := fun _ => false, prune := fun _ => true }

/-- A history that meets all hypotheses: two transactions mixing the three structures, the first
committed, the second thrown away, then a third. -/
example : (runHistory [109] [
    (calm, ⟨[.inc [97] 5, .hset [97] [1] [7], .hset [97] [0] [8], .rpush [97] [[1], [2]]], true⟩),
    (calm, ⟨[.lpop [97], .hdel [97] [[1]]], false⟩),
    (calm, ⟨[.lpop [97], .hgetAll [97], .hlen [97], .getInt [97], .lindex [97] (-1)], true⟩)]
      OMap.empty).1 =
    [[.ok (.int 5), .ok .unit, .ok .unit, .ok .unit],
     [.ok (.bytes [1]), .ok .unit],
     [.ok (.bytes [1]), .ok (.pairs [([0], [8]), ([1], [7])]), .ok (.int 2), .ok (.int 5),
      .ok (.bytes [2])]] := by
  rw [C26_C29_history]
  · decide
  · intro k _; simp
  · simp [calm]
  · simp [calm]
  · refine ⟨⟨?_, ?_, ?_, ?_, trivial⟩, ⟨?_, ?_, trivial⟩, ⟨?_, ?_, ?_, ?_, ?_, trivial⟩, trivial⟩ <;>
      refine keysFit_of (by decide) (by decide) ?_ <;> intro f hf <;>
      simp only [List.mem_singleton] at hf <;> (try subst hf) <;>
      first | decide | exact hf.elim
  · refine ⟨⟨?_, ?_, ?_, ?_, trivial⟩, ⟨?_, ?_, trivial⟩, ⟨?_, ?_, ?_, ?_, ?_, trivial⟩, trivial⟩ <;>
      simp [Lossless]
  · decide

/-! ### C26: strings -/

/-- Run one operation. -/
def answer (pfx : Bytes) (op : SOp) (t : Txn) : Res Out := ((exec pfx op).run t).1
/-- The transaction afterwards. -/
def after (pfx : Bytes) (op : SOp) (t : Txn) : Txn := ((exec pfx op).run t).2

/-- An operation whose writes cannot fail answers as specified and leaves what is specified. -/
theorem step_ok {pfx : Bytes} {B : Int} {A : SState} {t : Txn} (op : SOp) (h : Holds pfx B A t)
    (hB : B + cost op < 2 ^ 63) (hl : Lossless A op)
    (hw : ∀ k, MayWrite pfx A op k → t.env.Writable k) :
    answer pfx op t = (op.step A).1 ∧ Holds pfx (B + cost op) (op.step A).2 (after pfx op t) := by
  rcases step_run op h hB hl with ⟨k, e, hk, he, -⟩ | h
  · exact absurd he ((hw k hk).not_err e)
  · exact h

/-- Get returns the value just Set, and ErrKeyNotFound after Clear. -/
theorem C26_get_after_write {pfx key : Bytes} {B : Int} {A : SState} {t : Txn} (h : Holds pfx B A t)
    (hB : B < 2 ^ 63) (hw : t.env.Writable (stringDataKey pfx key)) :
    (∀ v, answer pfx (.get key) (after pfx (.set key v) t) = .ok (.bytes v)) ∧
    answer pfx (.get key) (after pfx (.clear key) t) = .err .keyNotFound := by
  constructor
  · intro v
    obtain ⟨-, h2⟩ := step_ok (.set key v) h (by simpa [cost] using hB) trivial
      (by rintro k rfl; exact hw)
    have h3 := (step_ok (.get key) h2 (by simpa [cost] using hB) trivial (fun _ h => h.elim)).1
    rw [h3]
    simp [SOp.step, SOp.sem, SOp.key, SState.upd]
  · obtain ⟨-, h2⟩ := step_ok (.clear key) h (by simpa [cost] using hB) trivial
      (by rintro k rfl; exact hw)
    have h3 := (step_ok (.get key) h2 (by simpa [cost] using hB) trivial (fun _ h => h.elim)).1
    rw [h3]
    simp [SOp.step, SOp.sem, SOp.key, SState.upd]

theorem parseDigits_err {ds : Bytes} {n : Nat} {e : Err} (h : Numeric.parseDigits ds n = .err e) :
    e = .parse := by
  induction ds generalizing n with
  | nil => simp [Numeric.parseDigits] at h
  | cons c r ih =>
    unfold Numeric.parseDigits at h
    simp only at h
    split at h
    · split at h
      · cases h; rfl
      · exact ih h
    · cases h; rfl

theorem parseInt_not_keyNotFound (b : Bytes) : Numeric.parseInt b ≠ .err .keyNotFound := by
  intro h
  cases b with
  | nil => simp [Numeric.parseInt] at h
  | cons c rest =>
    unfold Numeric.parseInt at h
    simp only at h
    generalize (if (c == 43 || c == 45) = true then rest else c :: rest) = ds at h
    by_cases hds : ds = []
    · simp [hds] at h
    · rw [if_neg hds] at h
      cases hd : Numeric.parseDigits ds 0 with
      | ok un =>
        rw [hd] at h
        simp only at h
        split at h
        · cases h
        · split at h <;> cases h
      | err e =>
        rw [hd] at h
        cases h
        exact absurd (parseDigits_err hd) (by simp)
      | panic => rw [hd] at h; cases h

/-- Inc returns old + step (a missing value counts as 0), and that is what GetInt64 then reads. -/
theorem C26_inc {pfx key : Bytes} {B : Int} {A : SState} {t : Txn} (h : Holds pfx B A t)
    (hB : B < 2 ^ 63) (hw : t.env.Writable (stringDataKey pfx key)) (step : Int64) :
    (answer pfx (.getInt key) t = .err .keyNotFound →
      answer pfx (.inc key step) t = .ok (.int step.toInt)) ∧
    (∀ n : Int64, answer pfx (.getInt key) t = .ok (.int n.toInt) →
      answer pfx (.inc key step) t = .ok (.int (n + step).toInt)) ∧
    (∀ r, answer pfx (.inc key step) t = .ok r →
      answer pfx (.getInt key) (after pfx (.inc key step) t) = .ok r) := by
  have hg := (step_ok (.getInt key) h (by simpa [cost] using hB) trivial (fun _ h => h.elim)).1
  obtain ⟨hi, h2⟩ := step_ok (.inc key step) h (by simpa [cost] using hB) trivial
    (by rintro k rfl; exact hw)
  have hg2 := (step_ok (.getInt key) h2 (by simpa [cost] using hB) trivial (fun _ h => h.elim)).1
  rw [hg, hi, hg2]
  have hp : ∀ n, intOf (textOf n) = .ok n := by
    intro n; unfold intOf textOf
    rw [if_neg (format_ne_nil n), Numeric.parse_format]
  simp only [SOp.step, SOp.sem, SOp.key, SState.upd, if_true]
  cases hs : (A key).str with
  | none =>
    refine ⟨fun _ => rfl, by simp, ?_⟩
    rintro r ⟨⟩
    simp [hp, Res.map']
  | some v =>
    simp only
    have hk : intOf v ≠ .err .keyNotFound := by
      unfold intOf; split
      · simp
      · exact parseInt_not_keyNotFound v
    cases hv : intOf v with
    | panic => exact ⟨by simp [Res.map'], by simp [Res.map'], by simp⟩
    | err e =>
      refine ⟨?_, by simp [Res.map'], by simp⟩
      simp only [Res.map']
      rintro ⟨⟩; exact absurd hv hk
    | ok m =>
      refine ⟨by simp [Res.map'], ?_, ?_⟩
      · intro n hn
        simp only [Res.map', Res.ok.injEq, Out.int.injEq] at hn
        rw [Int64.toInt_inj.mp hn]
      · rintro r ⟨⟩
        simp [hp, Res.map']

/-! ### C28: HLen counts the fields -/

/-- HLen is the number of fields HKeys lists. -/
theorem C28_hlen_exact {pfx key : Bytes} {B : Int} {A : SState} {t : Txn} (h : Holds pfx B A t)
    (hB : B < 2 ^ 63) :
    ∃ fields : List Bytes, answer pfx (.hkeys key) t = .ok (.list fields) ∧
      answer pfx (.hlen key) t = .ok (.int fields.length) ∧ fields.Nodup ∧
      ∀ f, f ∈ fields ↔ answer pfx (.hget key f) t ≠ .err .keyNotFound := by
  have h1 := (step_ok (.hkeys key) h (by simpa [cost] using hB) trivial (fun _ h => h.elim)).1
  have h2 := (step_ok (.hlen key) h (by simpa [cost] using hB) trivial (fun _ h => h.elim)).1
  refine ⟨(A key).hash.ents.map Prod.fst, h1, ?_, ?_, ?_⟩
  · rw [h2, List.length_map]; rfl
  · exact OMap.keys_nodup _
  · intro f
    have h3 := (step_ok (.hget key f) h (by simpa [cost] using hB) trivial (fun _ h => h.elim)).1
    rw [h3]
    simp only [SOp.step, SOp.sem, SOp.key]
    rw [OMap.mem_keys_iff]
    cases (A key).hash.get f <;> simp

/-! ### C30: structures do not interfere -/

/-- Which of the three structures under its key an operation is about. -/
inductive Part | str | hash | list
  deriving DecidableEq

/-- See `Part`. -/
def part : SOp → Part
  | .set _ _ | .get _ | .clear _ | .getInt _ | .setInt _ _ | .inc _ _ => .str
  | .hset _ _ _ | .hget _ _ | .hinc _ _ _ | .hgetInt _ _ | .hsetInt _ _ _ | .hlen _ | .hdel _ _
  | .hkeys _ | .hgetN _ _ | .hgetAll _ | .hgetNDesc _ _ | .hclear _ => .hash
  | .lpush _ _ | .rpush _ _ | .lpop _ | .rpop _ | .llen _ | .lgetAll _ | .lindex _ _ | .lset _ _ _
  | .lclear _ => .list

/-- In any transaction, whatever it contains, whichever writes fail: an operation changes no stored
entry outside the prefix followed by its own encoded key. -/
theorem C30_other_prefix (pfx : Bytes) (op : SOp) (t : Txn) (db : DB)
    (ht : t.view = applyWrites db t.writes) (k : Bytes)
    (hk : ¬ IsPrefixOf (pfx ++ encodeBytes [] op.key) k) :
    (after pfx op t).view.get k = t.view.get k := by
  refine run_frame (exec_writes pfx op) t ht ?_
  intro ho
  obtain ⟨rest, rfl⟩ := ho.prefix
  exact hk ⟨rest, by simp [encodeBytes]⟩

/-- In particular structures under prefixes neither of which extends the other never touch. -/
theorem C30_prefixes_disjoint (pfx pfx' : Bytes) (op : SOp) (t : Txn) (db : DB)
    (ht : t.view = applyWrites db t.writes) (hd : ∀ a b, pfx ++ a ≠ pfx' ++ b) (k : Bytes)
    (hk : IsPrefixOf pfx' k) : (after pfx op t).view.get k = t.view.get k := by
  apply C30_other_prefix pfx op t db ht
  rintro ⟨s, hs⟩
  obtain ⟨s', rfl⟩ := hk
  exact hd (encodeBytes [] op.key ++ s) s' (by rw [hs]; simp)

theorem sem_other (op : SOp) (o : Obj) :
    (part op ≠ .str → (op.sem o).2.str = o.str) ∧ (part op ≠ .hash → (op.sem o).2.hash = o.hash) ∧
    (part op ≠ .list → (op.sem o).2.list = o.list) := by
  cases op <;> simp [part, SOp.sem] <;> (try split) <;> (try split) <;> simp

theorem sem_own (op : SOp) (o o' : Obj) (hs : part op = .str → o.str = o'.str)
    (hh : part op = .hash → o.hash = o'.hash) (hl : part op = .list → o.list = o'.list) :
    (op.sem o).1 = (op.sem o').1 := by
  obtain ⟨s, h, l⟩ := o
  obtain ⟨s', h', l'⟩ := o'
  simp only at hs hh hl
  cases hp : part op with
  | str =>
    have := hs hp
    subst this
    cases op <;> simp only [part, reduceCtorEq] at hp <;> simp only [SOp.sem] <;>
      (repeat' split) <;> simp_all
  | hash =>
    have := hh hp
    subst this
    cases op <;> simp only [part, reduceCtorEq] at hp <;> simp only [SOp.sem] <;>
      (repeat' split) <;> simp_all
  | list =>
    have := hl hp
    subst this
    cases op <;> simp only [part, reduceCtorEq] at hp <;> simp only [SOp.sem] <;>
      (repeat' split) <;> simp_all

/-- An operation on another key or another type does not change what an operation answers. -/
theorem C30_no_interference {pfx : Bytes} {B : Int} {A : SState} {t : Txn} (op₁ op₂ : SOp)
    (hsep : op₁.key ≠ op₂.key ∨ part op₁ ≠ part op₂) (h : Holds pfx B A t)
    (hB : B + cost op₁ + cost op₂ < 2 ^ 63) (hl₁ : Lossless A op₁) (hl₂ : Lossless A op₂)
    (hl₂' : Lossless (op₁.step A).2 op₂)
    (hw₁ : ∀ k, MayWrite pfx A op₁ k → t.env.Writable k)
    (hw₂ : ∀ k, MayWrite pfx A op₂ k → t.env.Writable k)
    (hw₂' : ∀ k, MayWrite pfx (op₁.step A).2 op₂ k → t.env.Writable k) :
    answer pfx op₂ (after pfx op₁ t) = answer pfx op₂ t := by
  obtain ⟨-, h1⟩ := step_ok op₁ h (by omega) hl₁ hw₁
  rw [(step_ok op₂ h1 (by omega) hl₂' (by rw [show (after pfx op₁ t).env = t.env from run_env _ _]; exact hw₂')).1,
    (step_ok op₂ h (by omega) hl₂ hw₂).1]
  simp only [SOp.step]
  by_cases hk : op₂.key = op₁.key
  · have hp : part op₁ ≠ part op₂ := hsep.resolve_left (fun h => h hk.symm)
    rw [hk, upd_same]
    obtain ⟨a, b, c⟩ := sem_other op₁ (A op₁.key)
    apply sem_own
    · intro e; exact a (e ▸ hp)
    · intro e; exact b (e ▸ hp)
    · intro e; exact c (e ▸ hp)
  · rw [upd_other _ _ hk]

/-! ### C31: clearing leaves nothing -/

/-- After HClear nothing of the hash is stored any more, and it reads as never created. -/
theorem C31_hclear_no_residue {pfx key : Bytes} {B : Int} {A : SState} {t : Txn}
    (h : Holds pfx B A t) (hB : B < 2 ^ 63)
    (hw : ∀ k, MayWrite pfx A (.hclear key) k → t.env.Writable k) :
    (∀ k, HKey pfx key k → (after pfx (.hclear key) t).view.get k = none) ∧
    answer pfx (.hlen key) (after pfx (.hclear key) t) = .ok (.int 0) ∧
    answer pfx (.hgetAll key) (after pfx (.hclear key) t) = .ok (.pairs []) := by
  obtain ⟨-, h1⟩ := step_ok (.hclear key) h (by simpa [cost] using hB) trivial hw
  have e : (SOp.step A (.hclear key)).2 = A.upd key { A key with hash := OMap.empty } := rfl
  rw [e] at h1
  refine ⟨?_, ?_, ?_⟩
  · intro k hk
    have hr := h1.raw.hash key
    rw [upd_same] at hr
    rcases hk with rfl | ⟨f, rfl⟩
    · have := hr.count
      simpa [OMap.empty] using this
    · have := hr.data f
      simpa using this
  · rw [(step_ok (.hlen key) h1 (by simpa [cost] using hB) trivial (fun _ h => h.elim)).1]
    simp [SOp.step, SOp.sem, SOp.key, SState.upd, OMap.empty]
  · rw [(step_ok (.hgetAll key) h1 (by simpa [cost] using hB) trivial (fun _ h => h.elim)).1]
    simp [SOp.step, SOp.sem, SOp.key, SState.upd, OMap.empty]

/-- After LClear nothing of the list is stored any more, and it reads as never created. -/
theorem C31_lclear_no_residue {pfx key : Bytes} {B : Int} {A : SState} {t : Txn}
    (h : Holds pfx B A t) (hB : B < 2 ^ 63)
    (hw : ∀ k, LKey pfx key k → t.env.Writable k) :
    (∀ k, LKey pfx key k → (after pfx (.lclear key) t).view.get k = none) ∧
    answer pfx (.llen key) (after pfx (.lclear key) t) = .ok (.int 0) ∧
    answer pfx (.lpop key) (after pfx (.lclear key) t) = .err .keyNotFound := by
  obtain ⟨-, h1⟩ := step_ok (.lclear key) h (by simpa [cost] using hB) trivial hw
  have e : (SOp.step A (.lclear key)).2 = A.upd key { A key with list := [] } := rfl
  rw [e] at h1
  have henv : (after pfx (.lclear key) t).env = t.env := run_env _ _
  refine ⟨?_, ?_, ?_⟩
  · intro k hk
    obtain ⟨L, R, -, -, -, -, h5, h6⟩ := h1.raw.list key
    rw [upd_same] at h5 h6
    rcases hk with rfl | ⟨i, rfl⟩
    · simpa using h5
    · simpa using h6 i
  · rw [(step_ok (.llen key) h1 (by simpa [cost] using hB) trivial (fun _ h => h.elim)).1]
    simp [SOp.step, SOp.sem, SOp.key, SState.upd]
  · rw [(step_ok (.lpop key) h1 (by simpa [cost] using hB) trivial
      (by rw [henv]; exact hw)).1]
    simp [SOp.step, SOp.sem, SOp.key, SState.upd]

/-! ### C32: empty hash values -/

/-- HSet of an empty value to an absent field reports success and stores nothing: HGet still says
not found and HLen is unchanged. -/
theorem C32_empty_value_dropped {pfx key f : Bytes} {B : Int} {A : SState} {t : Txn}
    (h : Holds pfx B A t) (hB : B < 2 ^ 63)
    (hm : answer pfx (.hget key f) t = .err .keyNotFound) :
    answer pfx (.hset key f []) t = .ok .unit ∧
    answer pfx (.hget key f) (after pfx (.hset key f []) t) = .err .keyNotFound ∧
    answer pfx (.hlen key) (after pfx (.hset key f []) t) = answer pfx (.hlen key) t := by
  have hnone : (A key).hash.get f = none := by
    rw [(step_ok (.hget key f) h (by simpa [cost] using hB) trivial (fun _ h => h.elim)).1] at hm
    simp only [SOp.step, SOp.sem, SOp.key] at hm
    cases hg : (A key).hash.get f with
    | none => rfl
    | some v => rw [hg] at hm; simp at hm
  have hs := wp_sound (exec pfx (.hset key f [])) t
    (fun r m' => r = .ok .unit ∧ m' = t.live) (by
      show (mapOut (fun _ => Out.unit) (hset pfx key f [])).wp _ _ _
      unfold mapOut
      rw [wp_bind]
      refine wp_mono (hset_empty_missing (h.rep.hash key) hnone) ?_
      rintro r m' ⟨rfl, rfl⟩
      exact ⟨rfl, rfl⟩)
  have henv : (after pfx (.hset key f []) t).env = t.env := run_env _ _
  have hlive : (after pfx (.hset key f []) t).live = t.live := hs.2
  have hro : ∀ op : SOp, (∀ k, ¬ MayWrite pfx A op k) → Lossless A op → cost op = 0 →
      answer pfx op (after pfx (.hset key f []) t) = (op.step A).1 := by
    intro op hno hl hc
    rcases wp_sound (exec pfx op) (after pfx (.hset key f []) t) _
      (step_refines op (by rw [hlive]; exact h.rep) (by simpa [hc] using hB) hl) with
      ⟨k, _, hk, _⟩ | hh
    · exact absurd hk (hno k)
    · exact hh.1
  refine ⟨hs.1, ?_, ?_⟩
  · rw [hro (.hget key f) (fun _ h => h) trivial rfl]
    simp [SOp.step, SOp.sem, SOp.key, hnone]
  · rw [hro (.hlen key) (fun _ h => h) trivial rfl,
      (step_ok (.hlen key) h (by simpa [cost] using hB) trivial (fun _ h => h.elim)).1]

/-- Every other HSet stores its value, also an empty one over an existing field. -/
theorem C32_value_readable {pfx key f v : Bytes} {B : Int} {A : SState} {t : Txn}
    (h : Holds pfx B A t) (hB : B + 1 < 2 ^ 63)
    (hw : ∀ k, HW pfx key (· = f) k → t.env.Writable k)
    (hv : v ≠ [] ∨ answer pfx (.hget key f) t ≠ .err .keyNotFound) :
    answer pfx (.hget key f) (after pfx (.hset key f v) t) = .ok (.bytes v) := by
  have hl : Lossless A (.hset key f v) := by
    refine hv.imp_right (fun hm hg => hm ?_)
    rw [(step_ok (.hget key f) h (by simp [cost]; omega) trivial (fun _ h => h.elim)).1]
    simp [SOp.step, SOp.sem, SOp.key, hg]
  obtain ⟨-, h1⟩ := step_ok (.hset key f v) h (by simpa [cost] using hB) hl hw
  rw [(step_ok (.hget key f) h1 (by simpa [cost] using hB) trivial (fun _ h => h.elim)).1]
  simp [SOp.step, SOp.sem, SOp.key, SState.upd]

/-- The empty-value loss is reachable: in an empty database. -/
theorem C32_readable_false : ∃ (pfx key f : Bytes) (t : Txn), Holds pfx 0 SState.init t ∧
    answer pfx (.hset key f []) t = .ok .unit ∧
    answer pfx (.hget key f) (after pfx (.hset key f []) t) = .err .keyNotFound := by
  refine ⟨[109], [97], [98], Txn.start calm OMap.empty,
    holds_start _ (rep_init _) (by simp), by decide, by decide⟩

end Mondis.Props
