import Verif.Props.OldSequence
import Verif.Props.Document
/-!
# C46: collection ids; C62: InsertOne

Both draw ids from a document.Sequence (C37) in one transaction and use them in another.
-/
namespace Mondis.Props
open Mondis.Doc Mondis.Memcomparable Mondis.Prog Mondis.Spec
open Mondis.Sequence (Circ)
open Mondis.Sequence.Old (Seq)

/-! ### What drawing an id does to the rest of the database -/

namespace OldSeq
open Sequence.Old

theorem lease_writes (key : Bytes) (bw old : UInt64) : (lease key bw old).Writes (fun k => k = key) := by
  unfold lease
  intro r
  cases r with
  | ok v =>
    simp only
    split
    · trivial
    · trivial
    · exact ⟨rfl, rfl, fun _ => trivial⟩
  | panic => trivial
  | err e => cases e <;> first | trivial | exact ⟨rfl, rfl, fun _ => trivial⟩

theorem commit_get {t : Txn} {fail : Option Err} {db : DB} {k : Bytes} (h : k ∉ t.writes.map Prod.fst) :
    (t.commit fail db).2.get k = db.get k := by
  unfold Txn.commit
  split
  · rfl
  · split
    · rfl
    · exact get_applyWrites_of_not_mem h

theorem updateLease_get (s : Seq) (c : Circ) (db : DB) {k : Bytes} (hk : k ≠ s.key) :
    (s.updateLease c db).2.2.get k = db.get k := by
  have hw : k ∉ (Util.body c.env true (lease s.key s.bandwidth s.next) c.snap).2.writes.map Prod.fst := by
    obtain ⟨ws, h1, h2⟩ := run_writes (lease_writes s.key s.bandwidth s.next)
      (Txn.start { c.env with update := true } c.snap)
    intro h
    obtain ⟨w, hw, rfl⟩ := List.mem_map.mp h
    have hw : w ∈ ((lease s.key s.bandwidth s.next).run (Txn.start { c.env with update := true } c.snap)).2.writes := hw
    rw [h1] at hw
    exact hk (h2 w (by simpa [Txn.start] using hw)).1
  have hc := commit_get (fail := c.fail) (db := db) hw
  unfold Seq.updateLease
  generalize Util.body c.env true (lease s.key s.bandwidth s.next) c.snap = x at *
  obtain ⟨r, t⟩ := x
  match r with
  | .panic => rfl
  | .err e => rfl
  | .ok (n, .err e) => rfl
  | .ok (n, .panic) => rfl
  | .ok (n, .ok u) =>
    simp only at hc ⊢
    generalize t.commit c.fail db = y at *
    obtain ⟨r, db'⟩ := y
    cases r <;> exact hc

theorem nextId_get (s : Seq) (c : Circ) (db : DB) {k : Bytes} (hk : k ≠ s.key) :
    (s.nextId c db).2.2.get k = db.get k := by
  have h := updateLease_get s c db hk
  unfold Seq.nextId
  by_cases hl : s.next ≥ s.leased
  · simp only [if_pos hl]
    generalize s.updateLease c db = y at *
    obtain ⟨r, s', db'⟩ := y
    cases r <;> exact h
  · simp only [if_neg hl]

theorem updateLease_key (s : Seq) (c : Circ) (db : DB) : (s.updateLease c db).2.1.key = s.key := by
  unfold Seq.updateLease
  generalize Util.body c.env true (lease s.key s.bandwidth s.next) c.snap = x
  obtain ⟨r, t⟩ := x
  match r with
  | .panic => rfl
  | .err e => rfl
  | .ok (n, .err e) => rfl
  | .ok (n, .panic) => rfl
  | .ok (n, .ok u) =>
    simp only
    generalize t.commit c.fail db = y
    obtain ⟨r, db'⟩ := y
    cases r <;> rfl

/-- An id is fresh when it is drawn. -/
theorem Inv.fresh {key : Bytes} (hk : key ≠ []) {c₀ st : UInt64} {w : World} (h : Inv key c₀ w st) {i : Nat} {c : Circ}
    (hs : Sound key w (.next i c)) {s : Seq} (hi : w.holders[i]? = some s) {u : UInt64}
    (hu : (s.nextId c w.db).1 = .ok u) : u ∉ w.out ∧ ¬ u ≤ c₀ := by
  obtain ⟨st', h'⟩ := h.step hk _ hs
  have hids := h'.ids u
  simp only [World.step, hi, hu] at hids
  rw [List.count_cons_self] at hids
  refine ⟨fun hm => ?_, fun hm => ?_⟩
  · have := List.count_pos_iff.mpr hm
    omega
  · rw [if_pos hm] at hids; omega

theorem stored64_congr {key : Bytes} {db db' : DB} (h : db'.get key = db.get key) : stored64 key db' = stored64 key db := by
  unfold stored64; rw [h]

end OldSeq

/-! ### C46 -/

namespace Cid
open Sequence.Old

/-- Any number of DB objects over one store: the database, the objects' collection sequences, all versions
of the database so far, and the answers (name, id) given so far. -/
structure W where
  db : DB
  holders : List Seq := []
  past : List DB := [db]
  log : List (Bytes × Int64) := []

inductive Ev where
  /-- NewDB -/
  | openDB (c : Circ)
  /-- Collection(name) on the i-th object, first use of the name by that object: getCollectionID -/
  | collection (i : Nat) (name : Bytes) (c cs : Circ)
  /-- Close -/
  | close (i : Nat) (c : Circ)
  | crash (i : Nat)
  /-- any other transaction commits -/
  | other (db : DB)

/-- The part that document.Sequence is about. -/
def W.seqs (w : W) : World := { db := w.db, holders := w.holders }

def W.step (w : W) : Ev → W
  | .openDB c =>
    let o := w.seqs.step collectionSequenceKey (.new collectionIDBandWidth c)
    { w with db := o.db, holders := o.holders, past := o.db :: w.past }
  | .close i c =>
    let o := w.seqs.step collectionSequenceKey (.release i c)
    { w with db := o.db, holders := o.holders }
  | .crash i => { w with holders := w.holders.eraseIdx i }
  | .other db => { w with db := db, past := db :: w.past }
  | .collection i name c cs => match w.holders[i]? with
    | none => w
    | some s =>
      let x := getCollectionID name s c cs w.db
      { db := x.2.2, holders := w.holders.set i x.2.1, past := x.2.2 :: w.past, log := match x.1 with
          | .ok cid => (name, cid) :: w.log
          | _ => w.log }

/-- What is assumed about an event.  The storage: a transaction reads an earlier version of the database, and
its commit is refused if the name it found missing has been stored since; renewals are `Fair` (see C37).
Other transactions write neither collection names nor the counter. -/
def Sound (w : W) : Ev → Prop
  | .openDB c => OldSeq.Sound collectionSequenceKey w.seqs (.new collectionIDBandWidth c)
  | .close _ _ | .crash _ => True
  | .other db => stored64 collectionSequenceKey db = stored64 collectionSequenceKey w.db ∧
      ∀ n, db.get (metaCollectionName2IDKey n) = w.db.get (metaCollectionName2IDKey n)
  | .collection i name c cs =>
      (∃ p ∈ w.past, ∀ n, c.snap.get (metaCollectionName2IDKey n) = p.get (metaCollectionName2IDKey n)) ∧
      (c.fail = none → c.snap.get (metaCollectionName2IDKey name) = none →
        w.db.get (metaCollectionName2IDKey name) = none) ∧
      OldSeq.Sound collectionSequenceKey w.seqs (.next i cs)

def run : W → List Ev → W
  | w, [] => w
  | w, e :: es => run (w.step e) es

def AllSound : W → List Ev → Prop
  | _, [] => True
  | w, e :: es => Sound w e ∧ AllSound (w.step e) es

theorem key_ne : collectionSequenceKey ≠ [] := by decide

theorem cn_ne (n : Bytes) : metaCollectionName2IDKey n ≠ collectionSequenceKey := by
  rw [cnameKey_eq]
  intro h
  simp [metaCName2IDPrefix, collectionSequenceKey, metaSequenceKey, metaSequencePrefix, metaPrefix] at h

theorem cn_ne_nil (n : Bytes) : metaCollectionName2IDKey n ≠ [] := by
  rw [cnameKey_eq]; simp [metaCName2IDPrefix, metaPrefix]

theorem cn_inj {n n' : Bytes} (h : metaCollectionName2IDKey n = metaCollectionName2IDKey n') : n = n' := by
  rw [cnameKey_eq, cnameKey_eq] at h
  have h := List.append_cancel_left h
  have h1 := C03_bytes_roundtrip n []
  have h2 := C03_bytes_roundtrip n' []
  rw [h, h2] at h1
  simpa using h1.symm

/-- The entry of a collection name. -/
def Entry (v : Val) (u : UInt64) : Prop := v.expiresAt = 0 ∧ v.value = Numeric.encode2Binary u []

structure Inv (c₀ : UInt64) (w : W) (out : List UInt64) (st : UInt64) : Prop where
  seq : OldSeq.Inv collectionSequenceKey c₀ { w.seqs with out := out } st
  past : ∀ p ∈ w.past, ∀ n v, p.get (metaCollectionName2IDKey n) = some v →
    w.db.get (metaCollectionName2IDKey n) = some v
  form : ∀ n v, w.db.get (metaCollectionName2IDKey n) = some v → ∃ u, Entry v u ∧ u ∈ out
  inj : ∀ n n' v v' u, w.db.get (metaCollectionName2IDKey n) = some v →
    w.db.get (metaCollectionName2IDKey n') = some v' → Entry v u → Entry v' u → n = n'
  log : ∀ e ∈ w.log, ∃ v u, w.db.get (metaCollectionName2IDKey e.1) = some v ∧ Entry v u ∧ e.2 = u.toInt64

theorem entry_unique {v : Val} {u u' : UInt64} (h : Entry v u) (h' : Entry v u') : u = u' := by
  have h1 := C10_binary_roundtrip u
  have h2 := C10_binary_roundtrip u'
  rw [← h.2] at h1
  rw [← h'.2, h1] at h2
  simpa using h2

/-- Steps that leave the collection names alone. -/
theorem Inv.same {c₀ st st' : UInt64} {w w' : W} {out out' : List UInt64} (h : Inv c₀ w out st)
    (hseq : OldSeq.Inv collectionSequenceKey c₀ { w'.seqs with out := out' } st')
    (hdb : ∀ n, w'.db.get (metaCollectionName2IDKey n) = w.db.get (metaCollectionName2IDKey n))
    (hpast : ∀ p ∈ w'.past, p ∈ w.past ∨ p = w'.db) (hout : ∀ u ∈ out, u ∈ out') (hlog : w'.log = w.log) :
    Inv c₀ w' out' st' where
  seq := hseq
  past := by
    intro p hp n v hv
    rcases hpast p hp with hp | rfl
    · rw [hdb]; exact h.past p hp n v hv
    · exact hv
  form := by
    intro n v hv
    rw [hdb] at hv
    obtain ⟨u, h1, h2⟩ := h.form n v hv
    exact ⟨u, h1, hout u h2⟩
  inj := by
    intro n n' v v' u hv hv'
    rw [hdb] at hv hv'
    exact h.inj n n' v v' u hv hv'
  log := by
    intro e he
    rw [hlog] at he
    rw [hdb]
    exact h.log e he

/-- A fresh id is stored under a name that had none. -/
theorem Inv.add {c₀ st st' : UInt64} {w : W} {out : List UInt64} (h : Inv c₀ w out st) {name : Bytes} {u : UInt64}
    {v : Val} {db' : DB} {hs : List Seq} (hv : Entry v u) (hu : u ∉ out)
    (hnone : w.db.get (metaCollectionName2IDKey name) = none)
    (hdb : ∀ n, db'.get (metaCollectionName2IDKey n) =
      if name = n then some v else w.db.get (metaCollectionName2IDKey n))
    (hseq : OldSeq.Inv collectionSequenceKey c₀ { db := db', holders := hs, out := u :: out } st') :
    Inv c₀ { db := db', holders := hs, past := db' :: w.past, log := (name, u.toInt64) :: w.log } (u :: out) st' where
  seq := hseq
  past := by
    intro p hp n v' hv'
    rcases List.mem_cons.mp hp with rfl | hp
    · exact hv'
    · have := h.past p hp n v' hv'
      show db'.get _ = _
      rw [hdb]
      split
      · rename_i e; subst e; rw [hnone] at this; cases this
      · exact this
  form := by
    intro n v' hv'
    have hv' : db'.get (metaCollectionName2IDKey n) = some v' := hv'
    rw [hdb] at hv'
    split at hv'
    · cases hv'; exact ⟨u, hv, by simp⟩
    · obtain ⟨u', h1, h2⟩ := h.form n v' hv'
      exact ⟨u', h1, by simp [h2]⟩
  inj := by
    intro n n' v1 v2 u' h1 h2 e1 e2
    have h1 : db'.get (metaCollectionName2IDKey n) = some v1 := h1
    have h2 : db'.get (metaCollectionName2IDKey n') = some v2 := h2
    rw [hdb] at h1 h2
    split at h1 <;> split at h2
    · rename_i a b; rw [← a, ← b]
    · exfalso
      cases h1
      have := entry_unique hv e1
      subst this
      obtain ⟨u2, h3, h4⟩ := h.form n' v2 h2
      exact hu (entry_unique e2 h3 ▸ h4)
    · exfalso
      cases h2
      have := entry_unique hv e2
      subst this
      obtain ⟨u2, h3, h4⟩ := h.form n v1 h1
      exact hu (entry_unique e1 h3 ▸ h4)
    · exact h.inj n n' v1 v2 u' h1 h2 e1 e2
  log := by
    intro e he
    rcases List.mem_cons.mp he with rfl | he
    · exact ⟨v, u, by show db'.get _ = _; rw [hdb, if_pos rfl], hv, rfl⟩
    · obtain ⟨v', u', h1, h2⟩ := h.log e he
      refine ⟨v', u', ?_, h2⟩
      show db'.get _ = _
      rw [hdb]
      split
      · rename_i e'; rw [← e', hnone] at h1; cases h1
      · exact h1

theorem Inv.step {c₀ st : UInt64} {w : W} {out : List UInt64} (h : Inv c₀ w out st) (e : Ev) (hs : Sound w e) :
    ∃ out' st', Inv c₀ (w.step e) out' st' := by
  have hold : ∀ e', OldSeq.Sound collectionSequenceKey w.seqs e' →
      OldSeq.Sound collectionSequenceKey { w.seqs with out := out } e' := by
    intro e' h'; cases e' <;> exact h'
  cases e with
  | openDB c =>
    obtain ⟨st', h'⟩ := h.seq.step key_ne (.new collectionIDBandWidth c) (hold (.new collectionIDBandWidth c) hs)
    refine ⟨out, st', h.same (w' := w.step (.openDB c)) h' ?_ ?_ (fun _ h => h) rfl⟩
    · intro n
      show (Seq.new collectionSequenceKey collectionIDBandWidth c w.db).2.2.get _ = _
      unfold Seq.new
      rw [if_neg (by decide)]
      exact OldSeq.updateLease_get _ _ _ (cn_ne n)
    · intro p hp
      rcases List.mem_cons.mp hp with rfl | hp
      · exact .inr rfl
      · exact .inl hp
  | close i c =>
    obtain ⟨st', h'⟩ := h.seq.step key_ne (.release i c) trivial
    refine ⟨out, st', h.same (w' := w.step (.close i c)) ?_ ?_ (fun _ h => .inl h) (fun _ h => h) rfl⟩
    · simp only [W.step, W.seqs, World.step] at h' ⊢
      split at h' <;> simp_all
    · intro n
      simp only [W.step, W.seqs, World.step]
      split
      · rfl
      · simp only; rw [C37_release_keeps_db]
  | crash i =>
    obtain ⟨st', h'⟩ := h.seq.step key_ne (.crash i) trivial
    exact ⟨out, st', h.same (w' := w.step (.crash i)) h' (fun _ => rfl) (fun _ h => .inl h) (fun _ h => h) rfl⟩
  | other db =>
    obtain ⟨st', h'⟩ := h.seq.step key_ne (.other db) hs.1
    refine ⟨out, st', h.same (w' := w.step (.other db)) h' hs.2 ?_ (fun _ h => h) rfl⟩
    intro p hp
    rcases List.mem_cons.mp hp with rfl | hp
    · exact .inr rfl
    · exact .inl hp
  | collection i name c cs =>
    obtain ⟨⟨p, hp, hsnap⟩, hconf, hseq⟩ := hs
    simp only [W.step]
    cases hi : w.holders[i]? with
    | none => exact ⟨out, st, h⟩
    | some s =>
      have hset : ∀ l : List Seq, l[i]? = some s → l.set i s = l := by
        intro l hl
        apply List.ext_getElem?
        intro j
        rw [List.getElem?_set]
        split
        · rename_i e; subst e; rw [hl]; split <;> simp_all
        · rfl
      -- nothing changed
      have hsame : ∀ log', (∀ e ∈ log', e ∈ w.log ∨ ∃ v u, w.db.get (metaCollectionName2IDKey e.1) = some v ∧
          Entry v u ∧ e.2 = u.toInt64) →
          ∃ out' st', Inv c₀ { db := w.db, holders := w.holders.set i s, past := w.db :: w.past, log := log' } out' st' := by
        intro log' hl
        rw [hset _ hi]
        refine ⟨out, st, h.seq, ?_, h.form, h.inj, ?_⟩
        · intro p hp
          rcases List.mem_cons.mp hp with rfl | hp
          · exact fun _ _ hv => hv
          · exact h.past p hp
        · intro e he
          rcases hl e he with he | he
          · exact h.log e he
          · exact he
      have hk := cn_ne_nil name
      have hfresh := fun u => h.seq.fresh key_ne (hold (.next i cs) hseq) hi (u := u)
      obtain ⟨st', hnext⟩ := h.seq.step key_ne (.next i cs) (hold (.next i cs) hseq)
      have hkey : s.key = collectionSequenceKey := (h.seq.holders s (List.mem_of_getElem? hi)).1
      have hget : ∀ n, (s.nextId cs w.db).2.2.get (metaCollectionName2IDKey n) = w.db.get (metaCollectionName2IDKey n) :=
        fun n => OldSeq.nextId_get s cs w.db (by rw [hkey]; exact cn_ne n)
      simp only [World.step, W.seqs, hi] at hnext
      -- an id was drawn (or not), nothing else happened
      have hdrawn : ∀ (r : Res Int64), (∀ x, r ≠ .ok x) → ∃ out' st', Inv c₀ { db := (s.nextId cs w.db).2.2, holders := w.holders.set i (s.nextId cs w.db).2.1, past := (s.nextId cs w.db).2.2 :: w.past, log := match r with
          | .ok cid => (name, cid) :: w.log
          | _ => w.log } out' st' := by
        intro r hr
        refine ⟨_, _, h.same (out' := match (s.nextId cs w.db).1 with | .ok v => v :: out | _ => out) (st' := st') ?_ hget ?_ ?_ ?_⟩
        · simp only [W.seqs]
          generalize s.nextId cs w.db = x at *
          obtain ⟨x, s', db'⟩ := x
          cases x <;> exact hnext
        · intro p hp
          rcases List.mem_cons.mp hp with rfl | hp
          · exact .inr rfl
          · exact .inl hp
        · intro u hu
          split
          · exact List.mem_cons_of_mem _ hu
          · exact hu
        · cases r with
          | ok x => exact absurd rfl (hr x)
          | err => rfl
          | panic => rfl
      unfold getCollectionID
      simp only [getK, Prog.run, Txn.get, if_neg hk, Txn.start, List.map_nil, List.not_mem_nil, if_false]
      cases hg : c.snap.get (metaCollectionName2IDKey name) with
      | some v =>
        have hdb := h.past p hp name v (by rw [← hsnap]; exact hg)
        obtain ⟨u, hu, -⟩ := h.form name v hdb
        have hlive : v.live c.env.now = true := by simp [Val.live, hu.1]
        have hd : Numeric.decodeFromBinary v.value = .ok u := by rw [hu.2]; exact C10_binary_roundtrip u
        simp only [hlive, if_true, hd]
        apply hsame
        intro e he
        rcases List.mem_cons.mp he with rfl | he
        · exact .inr ⟨v, u, hdb, hu, rfl⟩
        · exact .inl he
      | none =>
        simp only
        cases hx : (s.nextId cs w.db).1 with
        | err e =>
          have hx' : s.nextId cs w.db = (.err e, (s.nextId cs w.db).2) := by rw [← hx]
          rw [hx']
          exact hdrawn (.err e) (by simp)
        | panic =>
          have hx' : s.nextId cs w.db = (.panic, (s.nextId cs w.db).2) := by rw [← hx]
          rw [hx']
          exact hdrawn .panic (by simp)
        | ok u =>
          have hx' : s.nextId cs w.db = (.ok u, (s.nextId cs w.db).2) := by rw [← hx]
          rw [hx']
          simp only [setK, Prog.run, Txn.set, Txn.modify, Bool.not_true, Bool.false_eq_true, if_false]
          cases keyErr (metaCollectionName2IDKey name) with
          | some e => exact hdrawn (.err e) (by simp)
          | none =>
            simp only
            by_cases htb : c.env.tooBig 0 = true
            · simp only [htb, if_true]
              exact hdrawn (.err .txnTooBig) (by simp)
            · simp only [htb]
              simp only [Bool.false_eq_true, if_false, Txn.commit, List.nil_append, List.cons_ne_nil]
              cases hf : c.fail with
              | some e => exact hdrawn (.err e) (by simp)
              | none =>
                simp only [applyWrites, List.foldl, applyWrite]
                have hnone := hconf hf hg
                have hu := (hfresh u hx).1
                refine ⟨u :: out, st', h.add (v := mkVal c.env.now (Numeric.encode2Binary u []) none) ⟨rfl, rfl⟩ hu hnone ?_ ?_⟩
                · intro n
                  rw [OMap.get_set]
                  by_cases hn : name = n
                  · subst hn; simp
                  · rw [if_neg hn, if_neg (fun e => hn (cn_inj e)), hget]
                · rw [hx] at hnext
                  refine ⟨?_, hnext.holders, hnext.ids⟩
                  rw [← hnext.stored]
                  apply OldSeq.stored64_congr
                  rw [OMap.get_set, if_neg (cn_ne name)]

theorem Inv.run {c₀ st : UInt64} {w : W} {out : List UInt64} (h : Inv c₀ w out st) (es : List Ev) (hs : AllSound w es) :
    ∃ out' st', Inv c₀ (run w es) out' st' := by
  induction es generalizing w out st with
  | nil => exact ⟨out, st, h⟩
  | cons e es ih =>
    obtain ⟨out', st', h'⟩ := h.step e hs.1
    exact ih h' hs.2

theorem toInt64_inj {u u' : UInt64} (h : u.toInt64 = u'.toInt64) : u = u' := by
  have := congrArg Int64.toUInt64 h
  simpa using this

end Cid

/-- document.DB over one store: however many DB objects are opened, used by turns, closed and crashed, a
collection name always gets the same id and two names never share one. -/
theorem C46_stable_distinct (db : DB) (c₀ : UInt64) (es : List Cid.Ev)
    (hnone : ∀ n, db.get (metaCollectionName2IDKey n) = none) (h0 : stored64 collectionSequenceKey db = some c₀)
    (hs : Cid.AllSound { db := db } es) :
    ∀ a ∈ (Cid.run { db := db } es).log, ∀ b ∈ (Cid.run { db := db } es).log, (a.1 = b.1 ↔ a.2 = b.2) := by
  have h : Cid.Inv c₀ { db := db } [] c₀ := by
    refine ⟨⟨h0, by simp [Cid.W.seqs], ?_⟩, ?_, ?_, ?_, by simp⟩
    · intro v
      simp only [Cid.W.seqs, List.count_nil, List.map_nil, List.sum_nil, UInt64.lt_iff_toNat_lt, UInt64.le_iff_toNat_le]
      split <;> split <;> omega
    · intro p hp n v hv; rw [List.mem_singleton.mp hp] at hv; exact hv
    · intro n v hv; simp only at hv; rw [hnone] at hv; cases hv
    · intro n n' v v' u hv; simp only at hv; rw [hnone] at hv; cases hv
  obtain ⟨out, st, h⟩ := h.run es hs
  intro a ha b hb
  obtain ⟨v, u, h1, h2, h3⟩ := h.log a ha
  obtain ⟨v', u', h1', h2', h3'⟩ := h.log b hb
  constructor
  · intro e
    rw [e, h1'] at h1
    cases h1
    rw [h3, h3', Cid.entry_unique h2 h2']
  · intro e
    rw [h3, h3'] at e
    have := Cid.toInt64_inj e
    subst this
    exact h.inj a.1 b.1 v v' u h1 h1' h2 h2'

namespace Cid

def demoName1 : Bytes := [97]
def demoName2 : Bytes := [98]
def demoHistory : List Ev :=
  let w1 := ({ db := .empty } : W).step (.openDB (calmCirc .empty))
  let e2 : Ev := .collection 0 demoName1 (calmCirc w1.db) (calmCirc w1.db)
  let w2 := w1.step e2
  let e3 : Ev := .openDB (calmCirc w2.db)
  let w3 := w2.step e3
  let e4 : Ev := .collection 1 demoName1 (calmCirc w3.db) (calmCirc w3.db)
  let w4 := w3.step e4
  let e5 : Ev := .collection 1 demoName2 (calmCirc w4.db) (calmCirc w4.db)
  [.openDB (calmCirc .empty), e2, e3, e4, e5]

set_option maxRecDepth 40000 in
/-- Two objects, two names: the second object finds the name of the first. -/
theorem demo_log : (run { db := .empty } demoHistory).log = [(demoName2, 51), (demoName1, 1), (demoName1, 1)] := by
  decide

theorem calm_new {w : W} {v bw : UInt64} (hv : stored64 collectionSequenceKey w.db = some v) (hb : bw ≠ 0)
    (hf : v.toNat + bw.toNat < 2 ^ 64) :
    OldSeq.Sound collectionSequenceKey w.seqs (.new bw (calmCirc w.db)) :=
  ⟨hb, fun v' h => by
    have h : stored64 collectionSequenceKey w.db = some v' := h
    rw [hv] at h; cases h; exact hf, ⟨v, hv, by simp [UInt64.le_iff_toNat_le]⟩, fun _ _ _ _ => rfl⟩

theorem calm_next {w : W} {v : UInt64} {i : Nat} {s : Seq} (hv : stored64 collectionSequenceKey w.db = some v)
    (hi : w.holders[i]? = some s) (hl : s.leased ≤ v) (hf : v.toNat + s.bandwidth.toNat < 2 ^ 64) :
    OldSeq.Sound collectionSequenceKey w.seqs (.next i (calmCirc w.db)) := by
  intro s' hs
  have hs : w.holders[i]? = some s' := hs
  rw [hi] at hs
  cases hs
  exact ⟨fun v' h => by
    have h : stored64 collectionSequenceKey w.db = some v' := h
    rw [hv] at h; cases h; exact hf, ⟨v, hv, hl⟩, fun _ _ _ _ => rfl⟩

theorem calm_collection {w : W} {v : UInt64} {i : Nat} {s : Seq} (name : Bytes) (hp : w.db ∈ w.past)
    (hv : stored64 collectionSequenceKey w.db = some v)
    (hi : w.holders[i]? = some s) (hl : s.leased ≤ v) (hf : v.toNat + s.bandwidth.toNat < 2 ^ 64) :
    Sound w (.collection i name (calmCirc w.db) (calmCirc w.db)) :=
  ⟨⟨w.db, hp, fun _ => rfl⟩, fun _ h => h, calm_next hv hi hl hf⟩

set_option maxRecDepth 40000 in
/-- The demonstration meets the assumptions of `C46_stable_distinct`. -/
example : AllSound { db := .empty } demoHistory := by
  refine ⟨?_, ?_, ?_, ?_, ?_, trivial⟩
  · exact calm_new (v := 0) (by decide) (by decide) (by decide)
  · exact calm_collection (v := 50) _ (.head _) (by decide) rfl (by decide) (by decide)
  · exact calm_new (v := 50) (by decide) (by decide) (by decide)
  · exact calm_collection (v := 100) _ (.head _) (by decide) rfl (by decide) (by decide)
  · exact calm_collection (v := 100) _ (.head _) (by decide) rfl (by decide) (by decide)

end Cid
end Mondis.Props
