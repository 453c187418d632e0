import Verif.Props.CollectionIds
/-!
# C62: InsertOne of package document

Any number of Collection objects for one collection (in several processes, or after reopening), each with
its own lease of ids.
-/
namespace Mondis.Props
open Mondis.Doc Mondis.Memcomparable Mondis.Prog Mondis.Spec
open Mondis.Sequence (Circ)
open Mondis.Sequence.Old (Seq)

namespace Ins
open Sequence.Old

variable {D : Type}

/-- The database, the collection objects' document sequences, and the ids answered so far by InsertOne. -/
structure W where
  db : DB
  holders : List Seq := []
  log : List Int64 := []

inductive Ev (D : Type) where
  /-- newCollection: NewSequence(kvdb, name, documentIDBandWidth) -/
  | openColl (c : Circ)
  /-- InsertOne(doc, txn) on the i-th object; `t` is the transaction given, if any.  In that case what it
  writes shows up in the database later, with an `other` event, if at all. -/
  | insert (i : Nat) (doc : D) (cs : Circ) (t : Option Txn) (env : Env) (fail : Option Err)
  /-- close -/
  | close (i : Nat) (c : Circ)
  | crash (i : Nat)
  /-- any other transaction commits -/
  | other (db : DB)

def W.seqs (w : W) : World := { db := w.db, holders := w.holders }

def W.step (C : Codec D) (name : Bytes) (cid : Int64) (w : W) : Ev D → W
  | .openColl c =>
    let o := w.seqs.step (metaSequenceKey name) (.new documentIDBandWidth c)
    { w with db := o.db, holders := o.holders }
  | .close i c =>
    let o := w.seqs.step (metaSequenceKey name) (.release i c)
    { w with db := o.db, holders := o.holders }
  | .crash i => { w with holders := w.holders.eraseIdx i }
  | .other db => { w with db := db }
  | .insert i doc cs t env fail => match w.holders[i]? with
    | none => w
    | some s =>
      let x := insertOneFull C .open cid doc s cs t env fail w.db
      { db := x.2.2.1, holders := w.holders.set i x.2.1, log := match x.1 with
          | .ok did => did :: w.log
          | _ => w.log }

/-- What is assumed about an event: renewals are `Fair` (see C37), other transactions leave the counter
alone, and store documents of the collection only under ids that are in use already or were handed out by
InsertOne. -/
def Sound (name : Bytes) (cid : Int64) (w : W) : Ev D → Prop
  | .openColl c => OldSeq.Sound (metaSequenceKey name) w.seqs (.new documentIDBandWidth c)
  | .close _ _ | .crash _ => True
  | .other db => stored64 (metaSequenceKey name) db = stored64 (metaSequenceKey name) w.db ∧
      ∀ did, db.get (documentKey cid did) ≠ none → w.db.get (documentKey cid did) ≠ none ∨ did ∈ w.log
  | .insert i _ cs _ _ _ => OldSeq.Sound (metaSequenceKey name) w.seqs (.next i cs)

def run (C : Codec D) (name : Bytes) (cid : Int64) : W → List (Ev D) → W
  | w, [] => w
  | w, e :: es => run C name cid (w.step C name cid e) es

def AllSound (C : Codec D) (name : Bytes) (cid : Int64) : W → List (Ev D) → Prop
  | _, [] => True
  | w, e :: es => Sound name cid w e ∧ AllSound C name cid (w.step C name cid e) es

theorem key_ne (name : Bytes) : metaSequenceKey name ≠ [] := by
  simp [metaSequenceKey, metaSequencePrefix, metaPrefix]

theorem dk_ne (name : Bytes) (cid did : Int64) : documentKey cid did ≠ metaSequenceKey name := by
  rw [documentKey_eq]
  intro h
  simp [collectionPrefix, metaSequenceKey, metaSequencePrefix, metaPrefix] at h

structure Inv (name : Bytes) (cid : Int64) (c₀ : UInt64) (w : W) (out : List UInt64) (st : UInt64) : Prop where
  seq : OldSeq.Inv (metaSequenceKey name) c₀ { w.seqs with out := out } st
  used : ∀ did, w.db.get (documentKey cid did) ≠ none → did.toUInt64 ∈ out ∨ did.toUInt64 ≤ c₀
  log : ∀ did ∈ w.log, did.toUInt64 ∈ out
  nodup : w.log.Nodup

/-- What InsertOne does without a transaction. -/
theorem insert_cases (C : Codec D) (cid : Int64) (doc : D) (s : Seq) (cs : Circ) (t : Option Txn) (env : Env)
    (fail : Option Err) (db : DB) :
    (∃ r t', insertOneFull C .open cid doc s cs t env fail db = (r, s, db, t') ∧ ∀ x, r ≠ .ok x) ∨
    (∃ r t', insertOneFull C .open cid doc s cs t env fail db = (r, (s.nextId cs db).2.1, (s.nextId cs db).2.2, t') ∧
      ∀ x, r = .ok x → t ≠ none ∧ ∃ u, (s.nextId cs db).1 = .ok u ∧ x = u.toInt64) ∨
    (∃ u b d v, (s.nextId cs db).1 = .ok u ∧ C.marshal doc = .ok b ∧ C.norm doc = .ok d ∧ C.unmarshal v.value = .ok d ∧
      v.expiresAt = 0 ∧ t = none ∧ insertOneFull C .open cid doc s cs t env fail db =
      (.ok u.toInt64, (s.nextId cs db).2.1, (s.nextId cs db).2.2.set (documentKey cid u.toInt64) v, none)) := by
  unfold insertOneFull
  have hl := C.law doc
  cases hm : C.marshal doc with
  | err e => exact .inl ⟨_, _, rfl, by simp⟩
  | panic => exact .inl ⟨_, _, rfl, by simp⟩
  | ok b =>
    rw [hm] at hl
    obtain ⟨hl1, d, hl2⟩ := hl
    simp only [checkState]
    generalize s.nextId cs db = x
    obtain ⟨r, s', db'⟩ := x
    cases r with
    | err e => exact .inr (.inl ⟨_, _, rfl, by simp⟩)
    | panic => exact .inr (.inl ⟨_, _, rfl, by simp⟩)
    | ok u =>
      cases t with
      | some t =>
        refine .inr (.inl ⟨_, _, rfl, ?_⟩)
        intro x hx
        generalize ((insertOne C cid u.toInt64 doc).run t).1 = r at hx
        cases r with
        | ok a => simp only [Res.map', Res.ok.injEq] at hx; exact ⟨by simp, u, rfl, hx.symm⟩
        | err e => simp [Res.map'] at hx
        | panic => simp [Res.map'] at hx
      | none =>
        have hp : insertOne C cid u.toInt64 doc = setK (documentKey cid u.toInt64) b := by
          unfold insertOne; rw [hm]; rfl
        simp only [hp, Util.runInNewUpdateTxn, Util.body, setK, Prog.run, Txn.start, Txn.set, Txn.modify, Bool.not_true,
          Bool.false_eq_true, if_false, documentKey_ok]
        by_cases htb : env.tooBig 0 = true
        · simp only [htb, if_true]
          exact .inr (.inl ⟨_, _, rfl, by simp [Res.map']⟩)
        · simp only [htb, Bool.false_eq_true, if_false, Txn.commit, List.nil_append, List.cons_ne_nil]
          cases fail with
          | some e => exact .inr (.inl ⟨_, _, rfl, by simp [Res.map']⟩)
          | none =>
            refine .inr (.inr ⟨u, b, d, mkVal env.now b none, rfl, rfl, hl2, ?_, rfl, trivial, rfl⟩)
            rw [← hl2, hl1]; rfl

theorem Inv.step {name : Bytes} {cid : Int64} (C : Codec D) {c₀ st : UInt64} {w : W} {out : List UInt64}
    (h : Inv name cid c₀ w out st) (e : Ev D) (hs : Sound name cid w e) :
    ∃ out' st', Inv name cid c₀ (w.step C name cid e) out' st' := by
  have hold : ∀ e', OldSeq.Sound (metaSequenceKey name) w.seqs e' →
      OldSeq.Sound (metaSequenceKey name) { w.seqs with out := out } e' := by
    intro e' h'; cases e' <;> exact h'
  cases e with
  | openColl c =>
    obtain ⟨st', h'⟩ := h.seq.step (key_ne name) (.new documentIDBandWidth c) (hold (.new documentIDBandWidth c) hs)
    refine ⟨out, st', h', ?_, h.log, h.nodup⟩
    intro did hd
    refine h.used did ?_
    intro h0
    apply hd
    show (Seq.new (metaSequenceKey name) documentIDBandWidth c w.db).2.2.get _ = _
    unfold Seq.new
    rw [if_neg (by decide)]
    rw [← h0]
    exact OldSeq.updateLease_get _ _ _ (dk_ne name cid did)
  | close i c =>
    obtain ⟨st', h'⟩ := h.seq.step (key_ne name) (.release i c) trivial
    have hdb : ∀ k, (w.step C name cid (.close i c)).db.get k = w.db.get k := by
      intro k
      simp only [W.step, W.seqs, World.step]
      split
      · rfl
      · simp only; rw [C37_release_keeps_db]
    refine ⟨out, st', ?_, ?_, h.log, h.nodup⟩
    · simp only [W.step, W.seqs, World.step] at h' ⊢
      split at h' <;> simp_all
    · intro did hd
      rw [hdb] at hd
      exact h.used did hd
  | crash i =>
    obtain ⟨st', h'⟩ := h.seq.step (key_ne name) (.crash i) trivial
    exact ⟨out, st', h', h.used, h.log, h.nodup⟩
  | other db =>
    obtain ⟨st', h'⟩ := h.seq.step (key_ne name) (.other db) hs.1
    refine ⟨out, st', h', ?_, h.log, h.nodup⟩
    intro did hd
    rcases hs.2 did hd with hd | hd
    · exact h.used did hd
    · exact .inl (h.log did hd)
  | insert i doc cs t env fail =>
    simp only [W.step]
    cases hi : w.holders[i]? with
    | none => exact ⟨out, st, h⟩
    | some s =>
      have hfresh := fun u => h.seq.fresh (key_ne name) (hold (.next i cs) hs) hi (u := u)
      obtain ⟨st', hnext⟩ := h.seq.step (key_ne name) (.next i cs) (hold (.next i cs) hs)
      have hkey : s.key = metaSequenceKey name := (h.seq.holders s (List.mem_of_getElem? hi)).1
      have hget : ∀ did, (s.nextId cs w.db).2.2.get (documentKey cid did) = w.db.get (documentKey cid did) :=
        fun did => OldSeq.nextId_get s cs w.db (by rw [hkey]; exact dk_ne name cid did)
      simp only [World.step, W.seqs, hi] at hnext
      simp only
      rcases insert_cases C cid doc s cs t env fail w.db with ⟨r, t', hx, hr⟩ | ⟨r, t', hx, hr⟩ | ⟨u, b, d, v, hu, -, -, -, -, -, hx⟩
      · rw [hx]
        refine ⟨out, st, ?_⟩
        have hset : w.holders.set i s = w.holders := by
          apply List.ext_getElem?
          intro j
          rw [List.getElem?_set]
          split
          · rename_i e; subst e; rw [hi]; split <;> simp_all
          · rfl
        simp only [hset]
        exact h
      · rw [hx]
        simp only
        refine ⟨match (s.nextId cs w.db).1 with | .ok v => v :: out | _ => out, st', ?_, ?_, ?_, ?_⟩
        · simp only [W.seqs]
          generalize s.nextId cs w.db = x at *
          obtain ⟨x, s', db'⟩ := x
          cases x <;> exact hnext
        · intro did hd
          simp only [hget] at hd
          rcases h.used did hd with h1 | h1
          · left
            split
            · exact List.mem_cons_of_mem _ h1
            · exact h1
          · exact .inr h1
        · intro did hd
          cases r with
          | ok x =>
            obtain ⟨-, u, hu, rfl⟩ := hr x rfl
            rw [hu]
            rcases List.mem_cons.mp hd with rfl | hd
            · simp
            · exact List.mem_cons_of_mem _ (h.log did hd)
          | err e =>
            split
            · exact List.mem_cons_of_mem _ (h.log did hd)
            · exact h.log did hd
          | panic =>
            split
            · exact List.mem_cons_of_mem _ (h.log did hd)
            · exact h.log did hd
        · cases r with
          | ok x =>
            obtain ⟨-, u, hu, rfl⟩ := hr x rfl
            refine List.nodup_cons.mpr ⟨fun hm => (hfresh u hu).1 ?_, h.nodup⟩
            simpa using h.log _ hm
          | err e => exact h.nodup
          | panic => exact h.nodup
      · rw [hx]
        rw [hu] at hnext
        refine ⟨u :: out, st', ?_, ?_, ?_, ?_⟩
        · refine ⟨?_, hnext.holders, hnext.ids⟩
          rw [← hnext.stored]
          apply OldSeq.stored64_congr
          show (OMap.set _ _ _).get _ = _
          rw [OMap.get_set, if_neg (dk_ne name cid _)]
        · intro did hd
          have hd : (OMap.set _ _ _).get _ ≠ none := hd
          rw [OMap.get_set] at hd
          by_cases he : documentKey cid u.toInt64 = documentKey cid did
          · obtain ⟨-, e⟩ := documentKey_inj he
            subst e
            left; simp
          · rw [if_neg he, hget] at hd
            rcases h.used did hd with h1 | h1
            · exact .inl (List.mem_cons_of_mem _ h1)
            · exact .inr h1
        · intro did hd
          rcases List.mem_cons.mp hd with rfl | hd
          · simp
          · exact List.mem_cons_of_mem _ (h.log did hd)
        · refine List.nodup_cons.mpr ⟨fun hm => (hfresh u hu).1 ?_, h.nodup⟩
          simpa using h.log _ hm

theorem Inv.run {name : Bytes} {cid : Int64} (C : Codec D) {c₀ st : UInt64} {w : W} {out : List UInt64}
    (h : Inv name cid c₀ w out st) (es : List (Ev D)) (hs : AllSound C name cid w es) :
    ∃ out' st', Inv name cid c₀ (run C name cid w es) out' st' := by
  induction es generalizing w out st with
  | nil => exact ⟨out, st, h⟩
  | cons e es ih =>
    obtain ⟨out', st', h'⟩ := h.step C e hs.1
    exact ih h' hs.2

theorem inv_init {name : Bytes} {cid : Int64} {db : DB} {c₀ : UInt64} (h0 : stored64 (metaSequenceKey name) db = some c₀)
    (hd : ∀ did, db.get (documentKey cid did) ≠ none → did.toUInt64 ≤ c₀) :
    Inv name cid c₀ { db := db } [] c₀ := by
  refine ⟨⟨h0, by simp [W.seqs], ?_⟩, fun did h => .inr (hd did h), by simp, by simp⟩
  intro v
  simp only [W.seqs, List.count_nil, List.map_nil, List.sum_nil, UInt64.lt_iff_toNat_lt, UInt64.le_iff_toNat_le]
  split <;> split <;> omega

end Ins
open Ins

/-- InsertOne, called on any of several Collection objects after any history: if it answers `did` without a
transaction given, then no document had this id, it was never answered before, the document is stored
under it and no other document changes. -/
theorem C62_insert {D : Type} (C : Codec D) (name : Bytes) (cid : Int64) (db : DB) (c₀ : UInt64) (es : List (Ins.Ev D))
    (h0 : stored64 (metaSequenceKey name) db = some c₀)
    (hd : ∀ did, db.get (documentKey cid did) ≠ none → did.toUInt64 ≤ c₀)
    (hs : Ins.AllSound C name cid { db := db } es)
    (i : Nat) (s : Seq) (hi : (Ins.run C name cid { db := db } es).holders[i]? = some s)
    (doc : D) (cs : Circ) (env : Env) (fail : Option Err)
    (hnext : OldSeq.Sound (metaSequenceKey name) (Ins.run C name cid { db := db } es).seqs (.next i cs))
    (did : Int64) (s' : Seq) (db' : DB) (t' : Option Txn)
    (hins : insertOneFull C .open cid doc s cs none env fail (Ins.run C name cid { db := db } es).db = (.ok did, s', db', t')) :
    (Ins.run C name cid { db := db } es).db.get (documentKey cid did) = none ∧
    did ∉ (Ins.run C name cid { db := db } es).log ∧
    (∃ d v, C.norm doc = .ok d ∧ db'.get (documentKey cid did) = some v ∧ v.expiresAt = 0 ∧ C.unmarshal v.value = .ok d) ∧
    ∀ c d, (c, d) ≠ (cid, did) →
      db'.get (documentKey c d) = (Ins.run C name cid { db := db } es).db.get (documentKey c d) := by
  obtain ⟨out, st, h⟩ := (inv_init h0 hd).run C es hs
  generalize Ins.run C name cid { db := db } es = w at *
  have hold : ∀ e', OldSeq.Sound (metaSequenceKey name) w.seqs e' →
      OldSeq.Sound (metaSequenceKey name) { w.seqs with out := out } e' := by
    intro e' h'; cases e' <;> exact h'
  have hkey : s.key = metaSequenceKey name := (h.seq.holders s (List.mem_of_getElem? hi)).1
  rcases insert_cases C cid doc s cs none env fail w.db with ⟨r, t', hx, hr⟩ | ⟨r, t', hx, hr⟩ | ⟨u, b, d, v, hu, -, hn, hv, he, -, hx⟩
  · rw [hins] at hx
    simp only [Prod.mk.injEq] at hx
    exact absurd hx.1.symm (hr did)
  · rw [hins] at hx
    simp only [Prod.mk.injEq] at hx
    exact absurd rfl (hr did hx.1.symm).1
  · rw [hins] at hx
    simp only [Prod.mk.injEq, Res.ok.injEq] at hx
    obtain ⟨rfl, -, rfl, -⟩ := hx
    obtain ⟨hf1, hf2⟩ := h.seq.fresh (key_ne name) (hold (.next i cs) hnext) hi hu
    refine ⟨?_, ?_, ⟨d, v, hn, by rw [OMap.get_set, if_pos rfl], he, hv⟩, ?_⟩
    · cases hg : w.db.get (documentKey cid u.toInt64) with
      | none => rfl
      | some v' =>
        rcases h.used u.toInt64 (by rw [hg]; simp) with h1 | h1
        · exact absurd (by simpa using h1) hf1
        · exact absurd (by simpa using h1) hf2
    · intro hm
      exact hf1 (by simpa using h.log _ hm)
    · intro c d' hne
      rw [OMap.get_set, if_neg, OldSeq.nextId_get s cs w.db (by rw [hkey]; exact dk_ne name c d')]
      intro e
      obtain ⟨e1, e2⟩ := documentKey_inj e
      exact hne (by rw [e1, e2])

/-- All ids answered by InsertOne, with and without a transaction, in any history are different. -/
theorem C62_ids_distinct {D : Type} (C : Codec D) (name : Bytes) (cid : Int64) (db : DB) (c₀ : UInt64) (es : List (Ins.Ev D))
    (h0 : stored64 (metaSequenceKey name) db = some c₀)
    (hd : ∀ did, db.get (documentKey cid did) ≠ none → did.toUInt64 ≤ c₀)
    (hs : Ins.AllSound C name cid { db := db } es) : (Ins.run C name cid { db := db } es).log.Nodup := by
  obtain ⟨out, st, h⟩ := (inv_init h0 hd).run C es hs
  exact h.nodup

/-! ### Demonstrations -/

namespace Ins

def demoName : Bytes := [97]
/-- A fresh collection, opened once. -/
def demoOpen : W := ({ db := .empty } : W).step demoCodec demoName 1 (.openColl (calmCirc .empty))
def demoEvents : List (Ev Bytes) :=
  let e2 : Ev Bytes := .insert 0 [5] (calmCirc demoOpen.db) none plainEnv none
  let w2 := demoOpen.step demoCodec demoName 1 e2
  let e3 : Ev Bytes := .openColl (calmCirc w2.db)
  let w3 := w2.step demoCodec demoName 1 e3
  let e4 : Ev Bytes := .insert 1 [6] (calmCirc w3.db) none plainEnv none
  let w4 := w3.step demoCodec demoName 1 e4
  let e5 : Ev Bytes := .insert 0 [7] (calmCirc w4.db) (some (Txn.start plainEnv w4.db)) plainEnv none
  [.openColl (calmCirc .empty), e2, e3, e4, .crash 1, e5]

set_option maxRecDepth 40000 in
theorem demo_log : (run demoCodec demoName 1 { db := .empty } demoEvents).log = [2, 1001, 1] := by decide

theorem calm_new {name : Bytes} {w : W} {v bw : UInt64} (hv : stored64 (metaSequenceKey name) w.db = some v) (hb : bw ≠ 0)
    (hf : v.toNat + bw.toNat < 2 ^ 64) :
    OldSeq.Sound (metaSequenceKey name) w.seqs (.new bw (calmCirc w.db)) :=
  ⟨hb, fun v' h => by
    have h : stored64 (metaSequenceKey name) w.db = some v' := h
    rw [hv] at h; cases h; exact hf, ⟨v, hv, by simp [UInt64.le_iff_toNat_le]⟩, fun _ _ _ _ => rfl⟩

theorem calm_next {name : Bytes} {w : W} {v : UInt64} {i : Nat} {s : Seq} {db : DB} (hdb : db = w.db)
    (hv : stored64 (metaSequenceKey name) w.db = some v)
    (hi : w.holders[i]? = some s) (hl : s.leased ≤ v) (hf : v.toNat + s.bandwidth.toNat < 2 ^ 64) :
    OldSeq.Sound (metaSequenceKey name) w.seqs (.next i (calmCirc db)) := by
  subst hdb
  intro s' hs
  have hs : w.holders[i]? = some s' := hs
  rw [hi] at hs
  cases hs
  exact ⟨fun v' h => by
    have h : stored64 (metaSequenceKey name) w.db = some v' := h
    rw [hv] at h; cases h; exact hf, ⟨v, hv, hl⟩, fun _ _ _ _ => rfl⟩

set_option maxRecDepth 40000 in
/-- The demonstration meets the assumptions of `C62_ids_distinct` and `C62_insert`. -/
example : AllSound demoCodec demoName 1 { db := .empty } demoEvents := by
  refine ⟨?_, ?_, ?_, ?_, trivial, ?_, trivial⟩
  · exact calm_new (v := 0) (by decide) (by decide) (by decide)
  · exact calm_next (v := 1000) rfl (by decide) rfl (by decide) (by decide)
  · exact calm_new (v := 1000) (by decide) (by decide) (by decide)
  · exact calm_next (v := 2000) rfl (by decide) rfl (by decide) (by decide)
  · exact calm_next (v := 2000) rfl (by decide) rfl (by decide) (by decide)

end Ins

set_option maxRecDepth 40000 in
/-- The assumption on the other transactions is needed: in a fresh collection, InsertOneManaged(1, [9])
succeeds, then InsertOne([5]) answers the same id 1 without an error, and the first document is gone. -/
theorem C62_managed_false :
    ((Util.runInNewUpdateTxn plainEnv none (insertOneManaged demoCodec 1 1 [9]) Ins.demoOpen.db Ins.demoOpen.db).1 = .ok ()) ∧
    let db := (Util.runInNewUpdateTxn plainEnv none (insertOneManaged demoCodec 1 1 [9]) Ins.demoOpen.db Ins.demoOpen.db).2
    db.get (documentKey 1 1) = some ⟨[9], 0, 0⟩ ∧
    ∃ s, Ins.demoOpen.holders = [s] ∧
      (insertOneFull demoCodec .open 1 [5] s (calmCirc db) none plainEnv none db).1 = .ok 1 ∧
      (insertOneFull demoCodec .open 1 [5] s (calmCirc db) none plainEnv none db).2.2.1.get (documentKey 1 1) = some ⟨[5], 0, 0⟩ := by
  exact ⟨by decide, by decide, ⟨metaSequenceKey Ins.demoName, 1000, 0, 1000⟩, rfl, by decide, by decide⟩

end Mondis.Props
