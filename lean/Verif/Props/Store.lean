import Verif.Lemmas.Store
import Verif.Props.Txn
/-!
# C16, C17, C18, C23, C24, C59: stores, scans and batches at the provider interface
-/
namespace Mondis.Props
open Mondis Mondis.Spec Mondis.Store

/-! ### C16 -/

/-- A forward Scan delivers exactly the live entries that start with the prefix and are not below
the offset, in key order — provided the offset is absent or not below the prefix. -/
theorem C16_scan_forward (env : Env) (db : DB) (p o : Bytes) (ho : o = [] ∨ p ≤ o) :
    Badger.scan env db { pfx := p, offset := o } = fromOffset (·.live env.now) db p o :=
  scan_forward { env with update := false } db p o ho

/-- The offset condition is needed: with an offset below the prefix the scan may deliver nothing
although matching entries exist. -/
theorem C16_low_offset_false : ∃ (env : Env) (db : DB) (p o : Bytes),
    Badger.scan env db { pfx := p, offset := o } = [] ∧
    fromOffset (·.live env.now) db p o ≠ [] := by
  refine ⟨plainEnv, (OMap.empty.set [1] { value := [9] }).set [2, 1] { value := [8] }, [2], [1], ?_⟩
  decide

example : Badger.scan plainEnv
    (((OMap.empty.set [2, 1] { value := [8] }).set [3] { value := [9] }).set [2, 0] { value := [7] })
    { pfx := [2], offset := [2, 0, 0] } = [([2, 1], { value := [8] })] := by decide

/-! ### C17 -/

/-- Paging through a prefix with pages of any size ≥ 1 and offsets `Next(last key)` visits every
entry from the start offset on exactly once, in order, and needs no more requests than there are
entries plus one. -/
theorem C17_paging (env : Env) (db : DB) (p : Bytes) (n : Nat) (hn : 0 < n) (o : Bytes)
    (ho : o = [] ∨ p ≤ o) (fuel : Nat)
    (hf : (fromOffset (·.live env.now) db p o).length < fuel) :
    paging (fun o => (Badger.scan env db { pfx := p, offset := o }).take n) Key.next n fuel o =
      fromOffset (·.live env.now) db p o := by
  let l := db.ents.filter (fun e => e.2.live env.now && p.isPrefixOf e.1)
  have hl : ∀ o, fromOffset (·.live env.now) db p o = l.filter (fun e => decide (o ≤ e.1)) := by
    intro o
    unfold fromOffset
    rw [List.filter_filter]
    apply List.filter_congr
    intro e _
    show (e.2.live env.now && (p.isPrefixOf e.1 && decide (o ≤ e.1))) =
      (decide (o ≤ e.1) && (e.2.live env.now && p.isPrefixOf e.1))
    generalize e.2.live env.now = a
    generalize p.isPrefixOf e.1 = b
    generalize decide (o ≤ e.1) = c
    cases a <;> cases b <;> cases c <;> rfl
  rw [hl o] at hf ⊢
  apply paging_complete l (db.sorted.filter _) _ (fun o => o = [] ∨ p ≤ o) _ n hn _ fuel o ho hf
  · intro e he
    right
    have := (List.mem_filter.mp he).2
    rw [Bool.and_eq_true, List.isPrefixOf_iff_prefix] at this
    obtain ⟨t, ht⟩ := this.2
    have h1 : p ≤ e.1 := ht ▸ Lex.le_append p t
    exact List.le_trans h1 (List.le_of_lt (C11_next_immediate_successor e.1).1)
  · intro o ho
    rw [C16_scan_forward env db p o ho, hl o]

example : paging (fun o => (Badger.scan plainEnv
    (((OMap.empty.set [2, 1] { value := [8] }).set [2] { value := [9] }).set [2, 0] { value := [7] })
    { pfx := [2], offset := o }).take 2) Key.next 2 4 [] =
    [([2], { value := [9] }), ([2, 0], { value := [7] }), ([2, 1], { value := [8] })] := by decide

/-! ### C18 -/

/-- A reverse Scan from an offset inside the prefix delivers exactly the live entries with the prefix
that are not above the offset, in descending order. -/
theorem C18_scan_reverse (env : Env) (db : DB) (p o : Bytes) (ho : o ≠ []) (hp : p <+: o) :
    Badger.scan env db { reverse := true, pfx := p, offset := o } =
      downFrom (·.live env.now) db p o :=
  scan_reverse { env with update := false } db p o ho hp

/-- Without prefix and offset a reverse Scan delivers everything in descending order. -/
theorem C18_scan_reverse_all (env : Env) (db : DB) :
    Badger.scan env db { reverse := true } = (db.ents.filter (fun e => e.2.live env.now)).reverse := by
  show Txn.iterate _ _ _ = _
  unfold Txn.iterate Txn.liveEnts
  simp only [if_true]
  have h1 : ∀ l : List (Bytes × Val), l.filter (fun e => Key.hasPrefix e.1 [] || !env.prune e.1) = l := by
    intro l; rw [List.filter_eq_self]; intro e _; rw [Scan.hasPrefix_nil]; rfl
  show List.takeWhile (fun e => Key.hasPrefix e.1 [])
    (List.reverse (List.filter (fun e => Key.hasPrefix e.1 [] || !env.prune e.1) _)) = _
  rw [h1]
  have : ∀ l : List (Bytes × Val), l.takeWhile (fun e => Key.hasPrefix e.1 []) = l := by
    intro l
    induction l with
    | nil => rfl
    | cons a l ih => rw [List.takeWhile_cons, Scan.hasPrefix_nil, if_pos rfl, ih]
  rw [this]; rfl

/-- With a prefix but no offset a reverse Scan does not start at the end of the prefix range: it
delivers nothing but an entry stored at the prefix itself, whatever is stored under it. -/
theorem C18_prefix_without_offset (env : Env) (db : DB) (p : Bytes) (hp : p ≠ []) :
    Badger.scan env db { reverse := true, pfx := p } =
      db.ents.filter (fun e => e.2.live env.now && e.1 == p) := by
  have h := scan_reverse { env with update := false } db p p hp (List.prefix_refl p)
  have h0 : Badger.scan env db { reverse := true, pfx := p } =
      Badger.scan env db { reverse := true, pfx := p, offset := p } := by
    show Txn.iterate _ _ _ = Txn.iterate _ _ _
    unfold Txn.iterate
    simp only [if_true, if_neg hp]
  rw [h0]
  refine h.trans ?_
  unfold downFrom
  have : db.ents.filter (fun e => e.2.live env.now && (p.isPrefixOf e.1 && decide (e.1 ≤ p))) =
      db.ents.filter (fun e => e.2.live env.now && e.1 == p) := by
    apply List.filter_congr
    intro e _
    congr 1
    by_cases he : e.1 = p
    · rw [he]
      have h1 : p.isPrefixOf p = true := List.isPrefixOf_iff_prefix.mpr (List.prefix_refl p)
      have h2 : p ≤ p := List.le_refl p
      simp [h1, h2]
    · rw [beq_eq_false_iff_ne.mpr he]
      cases hpe : p.isPrefixOf e.1 with
      | false => rfl
      | true =>
        rw [List.isPrefixOf_iff_prefix] at hpe
        obtain ⟨t, ht⟩ := hpe
        cases t with
        | nil => rw [List.append_nil] at ht; exact absurd ht.symm he
        | cons c t =>
          have hlt : p < e.1 := ht ▸ Lex.lt_append_cons p c t
          simp [List.not_le.mpr hlt]
  show (List.filter (fun e => e.2.live env.now && (p.isPrefixOf e.1 && decide (e.1 ≤ p))) db.ents).reverse = _
  rw [this]
  have hsing : ∀ l : List (Bytes × Val), l.Pairwise (fun a b => a.1 < b.1) →
      ∀ q : Bytes × Val → Bool, (l.filter (fun e => q e && e.1 == p)).reverse =
        l.filter (fun e => q e && e.1 == p) := by
    intro l hl q
    have hs : (l.filter (fun e => q e && e.1 == p)).Pairwise (fun a b => a.1 < b.1) := hl.filter _
    have hall : ∀ x ∈ l.filter (fun e => q e && e.1 == p), x.1 = p := by
      intro x hx
      have := (List.mem_filter.mp hx).2
      rw [Bool.and_eq_true] at this
      exact eq_of_beq this.2
    generalize l.filter (fun e => q e && e.1 == p) = m at hs hall
    match m, hs, hall with
    | [], _, _ => rfl
    | [_], _, _ => rfl
    | a :: b :: _, hs, hall =>
      rw [List.pairwise_cons] at hs
      have := hs.1 b (by simp)
      rw [hall a (by simp), hall b (by simp)] at this
      exact absurd this (Lex.irrefl p)
  exact hsing db.ents db.sorted (fun e => e.2.live env.now)

example : Badger.scan plainEnv ((OMap.empty.set [2, 1] { value := [8] }).set [2, 5] { value := [9] })
    { reverse := true, pfx := [2] } = [] := by decide
example : Badger.scan plainEnv ((OMap.empty.set [2, 1] { value := [8] }).set [2, 5] { value := [9] })
    { reverse := true, pfx := [2], offset := [2, 7] } =
    [([2, 5], { value := [9] }), ([2, 1], { value := [8] })] := by decide

/-! ### C23: LevelDB against Badger -/

/-- A LevelDB database with the same contents as entries that never expire. -/
def boxed (db : LevelDB.LDB) : DB :=
  ⟨db.ents.map (fun e => (e.1, { value := e.2 })), by
    rw [List.pairwise_map]; exact db.sorted⟩

theorem boxed_get (db : LevelDB.LDB) (k : Bytes) :
    (boxed db).get k = (db.get k).map (fun v => { value := v }) := by
  show OMap.lookup (db.ents.map _) k = (OMap.lookup db.ents k).map _
  generalize db.ents = l
  induction l with
  | nil => rfl
  | cons e l ih =>
    obtain ⟨a, b⟩ := e
    simp only [List.map_cons, OMap.lookup]
    by_cases h : a = k <;> simp [h, ih]

/-- A LevelDB scan delivers exactly the entries with the prefix that are not below the offset, for
every offset. -/
theorem C23_leveldb_scan (db : LevelDB.LDB) (p o : Bytes) :
    LevelDB.scan db { pfx := p, offset := o } = .ok (fromOffset (fun _ => true) db p o) :=
  ldb_scan db p o

/-- Same contents, same forward scan — if the offset is absent or not below the prefix; LevelDB
refuses reverse scans. -/
theorem C23_same_scan (env : Env) (db : LevelDB.LDB) (p o : Bytes) :
    (o = [] ∨ p ≤ o → LevelDB.scan db { pfx := p, offset := o } =
      .ok ((Badger.scan env (boxed db) { pfx := p, offset := o }).map (fun e => (e.1, e.2.value)))) ∧
    LevelDB.scan db { reverse := true, pfx := p, offset := o } = .err .unsupported := by
  refine ⟨fun ho => ?_, rfl⟩
  rw [C23_leveldb_scan, C16_scan_forward _ _ _ _ ho]
  congr 1
  unfold fromOffset
  show _ = List.map _ (List.filter _ (db.ents.map _))
  rw [List.filter_map, List.map_map]
  have : ((fun e : Bytes × Val => (e.1, e.2.value)) ∘ (fun e : Bytes × Bytes => (e.1, ({ value := e.2 } : Val)))) = id := by
    funext e; rfl
  rw [this, List.map_id]
  apply List.filter_congr
  intro e _
  rfl

/-- They disagree on some offset below the prefix. -/
theorem C23_low_offset_false : ∃ (env : Env) (db : LevelDB.LDB) (p o : Bytes),
    LevelDB.scan db { pfx := p, offset := o } ≠
      .ok ((Badger.scan env (boxed db) { pfx := p, offset := o }).map (fun e => (e.1, e.2.value))) := by
  refine ⟨plainEnv, (OMap.empty.set [1] [9]).set [2, 1] [8], [2], [1], ?_⟩
  decide

/-- For keys Badger accepts, the single operations agree too: same answers, same contents. -/
theorem C23_same_operations (env : Env) (db : LevelDB.LDB) (k v : Bytes) (hk : keyErr k = none)
    (hb : env.tooBig 0 = false) :
    (LevelDB.set db k v none).1 = (Badger.set env none (boxed db) k v none).1 ∧
    boxed (LevelDB.set db k v none).2 = (Badger.set env none (boxed db) k v none).2 ∧
    (LevelDB.delete db k).1 = (Badger.delete env none (boxed db) k).1 ∧
    boxed (LevelDB.delete db k).2 = (Badger.delete env none (boxed db) k).2 ∧
    LevelDB.exists' db k = Badger.exists' env (boxed db) k ∧
    LevelDB.get db k = (Badger.get env (boxed db) k).map' (·.value) := by
  have hkn : k ≠ [] := by rintro rfl; simp [keyErr] at hk
  have hset : Badger.set env none (boxed db) k v none = (.ok (), (boxed db).set k { value := v }) := by
    simp [Badger.set, Txn.start, Txn.set, Txn.modify, hk, hb, Txn.commit, applyWrites, applyWrite, mkVal]
  have hdel : Badger.delete env none (boxed db) k = (.ok (), (boxed db).del k) := by
    simp [Badger.delete, Txn.start, Txn.delete, Txn.modify, hk, hb, Txn.commit, applyWrites, applyWrite]
  have hget : Badger.get env (boxed db) k = match db.get k with
      | some v => .ok { value := v }
      | none => .err .keyNotFound := by
    simp only [Badger.get, Txn.get, if_neg hkn, Txn.start, boxed_get]
    cases db.get k <;> simp [Val.live]
  refine ⟨by rw [hset]; rfl, ?_, by rw [hdel]; rfl, ?_, ?_, ?_⟩
  · rw [hset]
    apply OMap.ext
    intro j
    show (boxed (db.set k v)).get j = _
    rw [boxed_get, OMap.get_set, OMap.get_set, boxed_get]
    split <;> simp_all
  · rw [hdel]
    apply OMap.ext
    intro j
    show (boxed (db.del k)).get j = _
    rw [boxed_get, OMap.get_del, OMap.get_del, boxed_get]
    split <;> simp_all
  · have hex : Badger.exists' env (boxed db) k = match db.get k with
        | some _ => .ok true
        | none => .ok false := by
      simp only [Badger.exists', Txn.exists', Txn.get, if_neg hkn, Txn.start, boxed_get]
      cases db.get k <;> simp [Val.live]
    rw [hex]
    unfold LevelDB.exists'
    cases db.get k <;> rfl
  · rw [hget]
    unfold LevelDB.get
    cases db.get k <;> rfl

/-! ### C24: write batches -/

/-- The effect of operations applied one by one in order. -/
def applyOps (db : DB) (ops : List BatchOp) : DB :=
  ops.foldl (fun m op => match op with
    | .set k v => m.set k { value := v }
    | .del k => m.del k) db

theorem applyWrites_map (db : DB) (ops : List BatchOp) :
    applyWrites db (ops.map BatchOp.write) = applyOps db ops := by
  unfold applyWrites applyOps
  rw [List.foldl_map]
  congr 1
  funext m op
  cases op <;> rfl

/-- At every point of a batch, flushed and pending writes together are the accepted operations in
order. -/
theorem batch_inv (tooBig : Nat → Bool) (commitFail : Nat → Option Err) (db : DB) (ops : List BatchOp)
    (wb : BadgerWB) (acc : List BatchOp)
    (h : wb.err = none → applyWrites wb.db wb.pending = applyOps db acc)
    (h2 : ∃ flushed, flushed <+: acc ∧ wb.db = applyOps db flushed)
    (ho : ∀ r ∈ (wb.run tooBig commitFail ops).1, r = .ok ()) (hnone : wb.err = none) :
    (wb.run tooBig commitFail ops).2.err = none ∧
    applyWrites (wb.run tooBig commitFail ops).2.db (wb.run tooBig commitFail ops).2.pending =
      applyOps db (acc ++ ops) ∧
    ∃ flushed, flushed <+: acc ++ ops ∧ (wb.run tooBig commitFail ops).2.db = applyOps db flushed := by
  induction ops generalizing wb acc with
  | nil => refine ⟨hnone, ?_, ?_⟩ <;> simp only [List.append_nil, BadgerWB.run]
           · exact h hnone
           · exact h2
  | cons op ops ih =>
    have happ : ∀ m : DB, applyWrite m op.write = applyOps m [op] := by intro m; cases op <;> rfl
    have hext : ∀ l : List BatchOp, applyOps (applyOps db l) [op] = applyOps db (l ++ [op]) := by
      intro l; simp [applyOps, List.foldl_append]
    have hstep : ∃ wb', wb.put tooBig commitFail op = (.ok (), wb') ∧ wb'.err = none ∧
        applyWrites wb'.db wb'.pending = applyOps db (acc ++ [op]) ∧
        ∃ flushed, flushed <+: acc ++ [op] ∧ wb'.db = applyOps db flushed := by
      have hr : (wb.put tooBig commitFail op).1 = .ok () := by
        apply ho
        simp only [BadgerWB.run]
        exact List.mem_cons_self
      unfold BadgerWB.put at hr ⊢
      cases hk : keyErr op.write.1 with
      | some e => rw [hk] at hr; simp at hr
      | none =>
        rw [hk] at hr
        simp only at hr ⊢
        by_cases hb : tooBig wb.attempts
        · rw [if_neg (by simp [hb])] at hr ⊢
          rw [hnone] at hr ⊢
          simp only at hr ⊢
          cases hc : commitFail wb.attempts with
          | some e => rw [hc] at hr; simp at hr
          | none =>
            rw [hc] at hr
            simp only at hr ⊢
            by_cases hb2 : tooBig (wb.attempts + 1)
            · rw [if_pos hb2] at hr; simp at hr
            · rw [if_neg hb2]
              refine ⟨_, rfl, rfl, ?_, acc, List.prefix_append _ _, h hnone⟩
              show applyWrite (applyWrites wb.db wb.pending) op.write = _
              rw [happ, h hnone, hext]
        · rw [if_pos (by simp [hb])]
          refine ⟨_, rfl, hnone, ?_, ?_⟩
          · show applyWrites wb.db (wb.pending ++ [op.write]) = _
            rw [applyWrites, List.foldl_append]
            show applyWrite (applyWrites wb.db wb.pending) op.write = _
            rw [happ, h hnone, hext]
          · obtain ⟨f, hf1, hf2⟩ := h2
            exact ⟨f, hf1.trans (List.prefix_append _ _), hf2⟩
    obtain ⟨wb', h1, he, hap, hfl⟩ := hstep
    have hrun : wb.run tooBig commitFail (op :: ops) =
        (.ok () :: (wb'.run tooBig commitFail ops).1, (wb'.run tooBig commitFail ops).2) := by
      simp only [BadgerWB.run, h1]
    rw [hrun] at ho ⊢
    have := ih wb' (acc ++ [op]) (fun _ => hap) hfl (fun r hr => ho r (by simp [hr])) he
    simpa using this

/-- Badger: if every operation of a batch and its Commit reported success, the store is as if the
operations had been applied one by one in order, however often the engine had to start a new
transaction underneath. -/
theorem C24_badger_batch_in_order (tooBig : Nat → Bool) (commitFail : Nat → Option Err) (db : DB)
    (ops : List BatchOp) (fail : Option Err) :
    let out := (⟨db, [], 0, none⟩ : BadgerWB).run tooBig commitFail ops
    (∀ r ∈ out.1, r = .ok ()) → (out.2.commit fail).1 = .ok () →
    (out.2.commit fail).2 = applyOps db ops := by
  intro out ho hc
  obtain ⟨h1, h2, -⟩ := batch_inv tooBig commitFail db ops ⟨db, [], 0, none⟩ [] (fun _ => rfl)
    ⟨[], List.prefix_refl _, rfl⟩ ho rfl
  unfold BadgerWB.commit at hc ⊢
  rw [show out.2.err = none from h1] at hc ⊢
  cases fail with
  | some e => simp at hc
  | none => simpa using h2

/-- Badger: Discard of a batch that never filled its transaction leaves the store unchanged. -/
theorem C24_badger_discard (tooBig : Nat → Bool) (commitFail : Nat → Option Err) (db : DB)
    (ops : List BatchOp) (h : ∀ n, tooBig n = false) :
    ((⟨db, [], 0, none⟩ : BadgerWB).run tooBig commitFail ops).2.discard = db := by
  have : ∀ (ops : List BatchOp) (wb : BadgerWB), (wb.run tooBig commitFail ops).2.db = wb.db := by
    intro ops
    induction ops with
    | nil => intro wb; rfl
    | cons op ops ih =>
      intro wb
      simp only [BadgerWB.run]
      rw [ih]
      unfold BadgerWB.put
      split
      · rfl
      · rw [if_pos (by simp [h])]
  exact this ops _

/-- Badger: Discard leaves what had been flushed — a front part of the batch — in the store (when all
operations were accepted). -/
theorem C24_badger_discard_prefix (tooBig : Nat → Bool) (commitFail : Nat → Option Err) (db : DB)
    (ops : List BatchOp) (ho : ∀ r ∈ ((⟨db, [], 0, none⟩ : BadgerWB).run tooBig commitFail ops).1, r = .ok ()) :
    ∃ flushed, flushed <+: ops ∧
      ((⟨db, [], 0, none⟩ : BadgerWB).run tooBig commitFail ops).2.discard = applyOps db flushed := by
  obtain ⟨-, -, h3⟩ := batch_inv tooBig commitFail db ops ⟨db, [], 0, none⟩ [] (fun _ => rfl)
    ⟨[], List.prefix_refl _, rfl⟩ ho rfl
  simpa [BadgerWB.discard] using h3

/-- So Discard of a large batch does not undo it. -/
theorem C24_badger_discard_false : ∃ (tooBig : Nat → Bool) (ops : List BatchOp),
    (∀ r ∈ ((⟨OMap.empty, [], 0, none⟩ : BadgerWB).run tooBig (fun _ => none) ops).1, r = .ok ()) ∧
    ((⟨OMap.empty, [], 0, none⟩ : BadgerWB).run tooBig (fun _ => none) ops).2.discard.get [1] ≠
      (OMap.empty : DB).get [1] := by
  refine ⟨fun n => n == 1, [.set [1] [1], .set [2] [2]], ?_⟩
  decide

/-- LevelDB: a batch is applied in order, all or nothing. -/
theorem C24_leveldb_batch (db : LevelDB.LDB) (ops : List BatchOp) (fail : Option Err) :
    ((LevelDB.batchCommit db ops fail).1 = .ok () ∧
      boxed (LevelDB.batchCommit db ops fail).2 = applyOps (boxed db) ops) ∨
    ((LevelDB.batchCommit db ops fail).1 ≠ .ok () ∧ (LevelDB.batchCommit db ops fail).2 = db) := by
  unfold LevelDB.batchCommit
  cases fail with
  | some e => exact .inr ⟨by simp, rfl⟩
  | none =>
    refine .inl ⟨rfl, ?_⟩
    simp only
    induction ops generalizing db with
    | nil => rfl
    | cons op ops ih =>
      simp only [List.foldl_cons, applyOps]
      rw [ih]
      unfold applyOps
      congr 1
      apply OMap.ext
      intro j
      cases op with
      | set k v => simp only [boxed_get, OMap.get_set]; split <;> simp_all
      | del k => simp only [boxed_get, OMap.get_del]; split <;> simp_all

/-! ### C59: expiry -/

/-- Clock readings the engine can turn into a Unix time: from 1970-01-01T00:00:01 on, below 2^63
seconds. -/
def Plausible (t : Int) : Prop := 1000000000 ≤ t ∧ t < 9223372036854775808 * 1000000000

theorem unix_toNat {t : Int} (h : Plausible t) :
    ((UInt64.ofInt (t / 1000000000)).toNat : Int) = t / 1000000000 := by
  obtain ⟨h1, h2⟩ := h
  have h3 : 0 ≤ t / 1000000000 := Int.ediv_nonneg (by omega) (by omega)
  have h4 : t / 1000000000 < 9223372036854775808 := by omega
  unfold UInt64.ofInt
  rw [UInt64.toNat_ofNat']
  omega

/-- A value Set with TTL `d` at time `t₀` is readable (with its tag) at every time at least a second
before `t₀ + d`, and gone at every time from `t₀ + d` on. -/
theorem C59_ttl (t₀ t : Int) (v : Bytes) (vm : VMetaReq) (h0 : Plausible (t₀ + vm.ttl.toInt))
    (ht : Plausible t) :
    (t + 1000000000 ≤ t₀ + vm.ttl.toInt → (mkVal t₀ v (some vm)).live t = true) ∧
    (t₀ + vm.ttl.toInt ≤ t → (mkVal t₀ v (some vm)).live t = false) := by
  have e1 := unix_toNat h0
  have e2 := unix_toNat ht
  have hne : UInt64.ofInt ((t₀ + vm.ttl.toInt) / 1000000000) ≠ 0 := by
    intro h
    rw [h] at e1
    have := h0.1
    simp at e1
    omega
  constructor
  · intro h
    have hlt : UInt64.ofInt (t / 1000000000) < UInt64.ofInt ((t₀ + vm.ttl.toInt) / 1000000000) := by
      rw [UInt64.lt_iff_toNat_lt]; omega
    simp [mkVal, Val.live, hlt]
  · intro h
    have hlt : ¬ UInt64.ofInt (t / 1000000000) < UInt64.ofInt ((t₀ + vm.ttl.toInt) / 1000000000) := by
      rw [UInt64.lt_iff_toNat_lt]; omega
    simp [mkVal, Val.live, hlt, hne]

/-- In particular a Set that gives a tag but no TTL (TTL 0) succeeds and its value can never be read. -/
theorem C59_tag_without_ttl_unreadable (env env' : Env) (db : DB) (k v : Bytes) (tag : UInt8)
    (hk : keyErr k = none) (hb : env.tooBig 0 = false) (h0 : Plausible env.now)
    (h1 : Plausible env'.now) (hle : env.now ≤ env'.now) :
    (Badger.set env none db k v (some ⟨0, tag⟩)).1 = .ok () ∧
    Badger.get env' (Badger.set env none db k v (some ⟨0, tag⟩)).2 k = .err .keyNotFound := by
  have hkn : k ≠ [] := by rintro rfl; simp [keyErr] at hk
  have hset : Badger.set env none db k v (some ⟨0, tag⟩) =
      (.ok (), db.set k (mkVal env.now v (some ⟨0, tag⟩))) := by
    simp [Badger.set, Txn.start, Txn.set, Txn.modify, hk, hb, Txn.commit, applyWrites, applyWrite]
  have z : (0 : Int64).toInt = 0 := rfl
  have hd := (C59_ttl env.now env'.now v ⟨0, tag⟩ (by simpa [z] using h0) h1).2 (by simpa [z] using hle)
  rw [hset]
  refine ⟨rfl, ?_⟩
  simp [Badger.get, Txn.get, hkn, Txn.start, hd]

/-- A Set with a TTL of at least one second can be read back at once, tag included. -/
theorem C59_ttl_readable (env : Env) (db : DB) (k v : Bytes) (vm : VMetaReq) (hk : keyErr k = none)
    (hb : env.tooBig 0 = false) (h0 : Plausible env.now) (h1 : Plausible (env.now + vm.ttl.toInt))
    (hd : 1000000000 ≤ vm.ttl.toInt) :
    (Badger.set env none db k v (some vm)).1 = .ok () ∧
    ∃ e, Badger.get env (Badger.set env none db k v (some vm)).2 k = .ok ⟨v, vm.tag, e⟩ := by
  have hkn : k ≠ [] := by rintro rfl; simp [keyErr] at hk
  have hset : Badger.set env none db k v (some vm) =
      (.ok (), db.set k (mkVal env.now v (some vm))) := by
    simp [Badger.set, Txn.start, Txn.set, Txn.modify, hk, hb, Txn.commit, applyWrites, applyWrite]
  have hl := (C59_ttl env.now env.now v vm h1 h0).1 (by omega)
  rw [hset]
  refine ⟨rfl, (mkVal env.now v (some vm)).expiresAt, ?_⟩
  simp [Badger.get, Txn.get, hkn, Txn.start, hl]
  rfl

example : Plausible 1700000000000000000 := ⟨by decide, by decide⟩

end Mondis.Props
