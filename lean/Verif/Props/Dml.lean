import Verif.Model.Dml
import Verif.Props.Schema
import Verif.Props.Sequence
import Verif.Props.Document
/-!
# C42, C56, C63 and the rest of C51: transactions of package dml
-/
namespace Mondis.Props
open Mondis.Schema Mondis.Dml Mondis.Prog

namespace DmlT
variable {σ D : Type}

/-! ### C56 -/

/-- **C56**: Commit of an update transaction runs all its cancel functions, once and in order, exactly when
it answers an error, and then the database is as before; when it succeeds none runs and the transaction's
writes are in the database. -/
theorem C56_commit (t : DTxn σ) (h : Handle) (fail : Option Err) (s : σ) (db : DB) (hu : t.update = true) :
    (∀ e, (t.commit h fail s db).1 = .err e →
      (t.commit h fail s db).2.2.2 = (t.cancels.foldl (fun s f => f s) s, db) ∧
      (t.commit h fail s db).2.1.cancels = []) ∧
    ((t.commit h fail s db).1 = .ok () → (t.commit h fail s db).2.2.2 = (s, applyWrites db t.kv.writes)) ∧
    ((t.commit h fail s db).1 = .panic → (t.commit h fail s db).2.2.2 = (s, db)) := by
  unfold DTxn.commit
  rw [if_neg (by simp [hu])]
  generalize h.check t.start (fun cid => t.referred.contains cid) = x
  obtain ⟨r, h'⟩ := x
  cases r with
  | panic => simp
  | err e => simp [DTxn.cancelAll]
  | ok b =>
    cases b with
    | false => simp [DTxn.cancelAll]
    | true =>
      simp only [Txn.commit]
      by_cases hw : t.kv.writes = []
      · simp [hw, applyWrites]
      · rw [if_neg hw]
        cases fail with
        | none => simp
        | some e => simp [DTxn.cancelAll]

/-- Commit of a read-only transaction does nothing and succeeds; it has no cancel functions, because adding
one panics. -/
theorem C56_read_only (t : DTxn σ) (h : Handle) (fail : Option Err) (s : σ) (db : DB) (hu : t.update = false) :
    t.commit h fail s db = (.ok (), t, h, s, db) ∧ ∀ f, t.addCancelFunc f = .panic := by
  simp [DTxn.commit, DTxn.addCancelFunc, hu]

/-- A second Commit after a failed one does not run them again. -/
theorem C56_once (t : DTxn σ) (h h2 : Handle) (fail fail2 : Option Err) (s s2 : σ) (db db2 : DB) (e : Err)
    (h1 : (t.commit h fail s db).1 = .err e) :
    ((t.commit h fail s db).2.1.commit h2 fail2 s2 db2).2.2.2.1 = s2 := by
  by_cases hu : t.update = true
  · have hc := ((C56_commit t h fail s db hu).1 e h1).2
    generalize (t.commit h fail s db).2.1 = t' at hc
    by_cases hu' : t'.update = true
    · have := C56_commit t' h2 fail2 s2 db2 hu'
      cases hr : (t'.commit h2 fail2 s2 db2).1 with
      | ok u => rw [this.2.1 hr]
      | err e' => rw [(this.1 e' hr).1, hc]; rfl
      | panic => rw [this.2.2 hr]
    · rw [(C56_read_only t' h2 fail2 s2 db2 (by simpa using hu')).1]
  · rw [(C56_read_only t h fail s db (by simpa using hu)).1] at h1
    cases h1

/-- InsertOne of several documents into one collection, in one transaction: the answers. -/
def insertMany (C : Doc.Codec D) (dbName coll : Bytes) : List (D × Sequence.Circ) → DTxn Seqs → Seqs → DB →
    List (Res Int64) × DTxn Seqs × Seqs × DB
  | [], t, s, db => ([], t, s, db)
  | (d, cs) :: ds, t, s, db =>
    let x := insertOneIn C dbName coll d cs t s db
    let y := insertMany C dbName coll ds x.2.1 x.2.2.1 x.2.2.2
    (x.1 :: y.1, y.2)

/-- The ids answered. -/
def okIds : List (Res Int64) → List Int64
  | [] => []
  | .ok i :: l => i :: okIds l
  | _ :: l => okIds l

theorem insert_cases (C : Doc.Codec D) (dbName coll : Bytes) (d : D) (cs : Sequence.Circ) (t : DTxn Seqs)
    (s : Seqs) (db : DB) (ci : CollectionInfo) (hci : MetaCache.collectionInfo t.start dbName coll = some ci)
    (hu : t.update = true) (hs : (s ci.id).isSome) :
    let x := insertOneIn C dbName coll d cs t s db
    x.2.1.start = t.start ∧ x.2.1.update = true ∧ (x.2.2.1 ci.id).isSome ∧
    (∃ ids : List Int64, x.2.1.cancels = t.cancels ++ ids.map (fun did => putBack ci.id did) ∧
      (∀ i, x.1 = .ok i → ids = [i]) ∧ ids.length ≤ 1) := by
  unfold insertOneIn
  cases hm : C.marshal d with
  | err e => exact ⟨rfl, hu, hs, [], by simp, by simp, by simp⟩
  | panic => exact ⟨rfl, hu, hs, [], by simp, by simp, by simp⟩
  | ok b =>
    obtain ⟨q, hq⟩ := Option.isSome_iff_exists.mp hs
    simp only [insertFunc, hci, if_true, hq]
    generalize q.nextId cs db = x
    obtain ⟨r, q', db'⟩ := x
    cases r with
    | err e => exact ⟨rfl, hu, by simp [Seqs.set], [], by simp [DTxn.referredCollections], by simp, by simp⟩
    | panic => exact ⟨rfl, hu, by simp [Seqs.set], [], by simp [DTxn.referredCollections], by simp, by simp⟩
    | ok did =>
      simp only [DTxn.addCancelFunc, DTxn.referredCollections, hu, if_true]
      refine ⟨trivial, trivial, by simp [Seqs.set], [did], rfl, ?_, by simp⟩
      intro i hi
      generalize (Prog.run (setK (Doc.documentKey ci.id did) b) t.kv).1 = r at hi
      cases r with
      | ok a => simp only [Res.map', Res.ok.injEq] at hi; rw [hi]
      | err e => simp [Res.map'] at hi
      | panic => simp [Res.map'] at hi

theorem insertMany_cancels (C : Doc.Codec D) (dbName coll : Bytes) (ci : CollectionInfo) (ds : List (D × Sequence.Circ))
    (t : DTxn Seqs) (s : Seqs) (db : DB) (hci : MetaCache.collectionInfo t.start dbName coll = some ci)
    (hu : t.update = true) (hs : (s ci.id).isSome) :
    let x := insertMany C dbName coll ds t s db
    x.2.1.update = true ∧ (x.2.2.1 ci.id).isSome ∧
    ∃ ids : List Int64, x.2.1.cancels = t.cancels ++ ids.map (fun did => putBack ci.id did) ∧
      (okIds x.1).Sublist ids ∧ ids.length ≤ ds.length := by
  induction ds generalizing t s db with
  | nil => exact ⟨hu, hs, [], by simp [insertMany], by simp [insertMany, okIds], by simp⟩
  | cons d ds ih =>
    obtain ⟨d, cs⟩ := d
    obtain ⟨h1, h2, h3, ids, h4, h5, h6⟩ := insert_cases C dbName coll d cs t s db ci hci hu hs
    obtain ⟨g1, g2, ids', g3, g4, g5⟩ := ih (insertOneIn C dbName coll d cs t s db).2.1
      (insertOneIn C dbName coll d cs t s db).2.2.1 (insertOneIn C dbName coll d cs t s db).2.2.2
      (by rw [h1]; exact hci) h2 h3
    refine ⟨g1, g2, ids ++ ids', ?_, ?_, by simp only [List.length_append, List.length_cons]; omega⟩
    · simp only [insertMany]; rw [g3, h4]; simp
    · simp only [insertMany]
      cases hr : (insertOneIn C dbName coll d cs t s db).1 with
      | ok i =>
        simp only [okIds]
        rw [h5 i hr]
        exact g4.cons_cons i
      | err e => exact g4.trans (List.sublist_append_right _ _)
      | panic => exact g4.trans (List.sublist_append_right _ _)

theorem putBacks (cid : Int64) (ids : List Int64) (s : Seqs) (q : Sequence.Seq) (h : s cid = some q) :
    (ids.map (fun did => putBack cid did)).foldl (fun s f => f s) s cid = some (q.putBack ids) := by
  induction ids generalizing s q with
  | nil => simpa [Sequence.Seq.putBack] using h
  | cons i ids ih =>
    simp only [List.map_cons, List.foldl_cons]
    rw [ih _ (q.putBack [i]) (by simp [putBack, h])]
    simp [Sequence.Seq.putBack]

/-- Documents inserted in one transaction whose Commit fails: the database is as it was before the Commit,
and the collection's sequence gets back all the ids it answered (in that order, possibly with further ids of
inserts that failed after drawing an id; never more ids than inserts).  If Commit succeeds it gets back nothing. -/
theorem C56_ids (C : Doc.Codec D) (dbName coll : Bytes) (ci : CollectionInfo) (ds : List (D × Sequence.Circ))
    (h : Handle) (env : Env) (snap : DB) (s : Seqs) (db : DB)
    (hci : MetaCache.collectionInfo h.cache dbName coll = some ci) (hs : (s ci.id).isSome)
    (h' : Handle) (fail : Option Err) (db' : DB) :
    let x := insertMany C dbName coll ds (DTxn.new h true env snap) s db
    let y := x.2.1.commit h' fail x.2.2.1 db'
    (∀ e, y.1 = .err e → y.2.2.2.2 = db' ∧ ∃ q ids, x.2.2.1 ci.id = some q ∧
      y.2.2.2.1 ci.id = some (q.putBack ids) ∧ (okIds x.1).Sublist ids ∧ ids.length ≤ ds.length) ∧
    (y.1 = .ok () → y.2.2.2.1 = x.2.2.1) := by
  obtain ⟨h1, h2, ids, h3, h4, h5⟩ := insertMany_cancels C dbName coll ci ds (DTxn.new h true env snap) s db hci rfl hs
  obtain ⟨q, hq⟩ := Option.isSome_iff_exists.mp h2
  have hc := C56_commit (insertMany C dbName coll ds (DTxn.new h true env snap) s db).2.1 h' fail
    (insertMany C dbName coll ds (DTxn.new h true env snap) s db).2.2.1 db' h1
  constructor
  · intro e he
    have := (hc.1 e he).1
    refine ⟨by rw [this], q, ids, hq, ?_, h4, h5⟩
    rw [this, h3]
    simp only [DTxn.new, List.nil_append]
    exact putBacks ci.id ids _ q hq
  · intro he
    rw [hc.2.1 he]

/-! ### C42 -/

/-- **C42**: in a transaction, InsertOne into a collection that is not in the schema answers id 0 and no
error, and changes nothing: not the transaction, not the database, no sequence. -/
theorem C42_missing (C : Doc.Codec D) (dbName coll : Bytes) (doc : D) (cs : Sequence.Circ) (t : DTxn Seqs) (s : Seqs)
    (db : DB) (b : Bytes) (hm : C.marshal doc = .ok b)
    (hc : MetaCache.collectionInfo t.start dbName coll = none) :
    insertOneIn C dbName coll doc cs t s db = (.ok 0, t, s, db) := by
  simp [insertOneIn, hm, insertFunc, hc]

/-- Without a transaction too, if the schema is the same at the commit. -/
theorem C42_missing_auto (C : Doc.Codec D) (dbName coll : Bytes) (doc : D) (cs : Sequence.Circ) (h : Handle) (env : Env)
    (snap : DB) (fail : Option Err) (s : Seqs) (db : DB) (b : Bytes) (hm : C.marshal doc = .ok b)
    (hc : MetaCache.collectionInfo h.cache dbName coll = none) :
    insertOne C dbName coll doc cs h h env snap fail s db = (.ok 0, h, s, db) := by
  have hchk : ∀ r, h.check h.cache r = (.ok true, h) := by
    intro r
    obtain ⟨c, n⟩ := h
    cases c with
    | none => rfl
    | some c => simp [Handle.check, Handle.checkLoop]
  simp [insertOne, hm, insertFunc, DTxn.new, hc, DTxn.commit, hchk, Txn.commit, Txn.start]

/-- Every other operation reports it. -/
theorem C42_others {α : Type} (dbName coll : Bytes) (p : Int64 → Prog α) (t : DTxn Seqs)
    (hc : MetaCache.collectionInfo t.start dbName coll = none) :
    withCollection dbName coll p t = (.err errCollectionNotExists, t) := by
  simp [withCollection, hc]

/-! ### C63 -/

/-- **C63**: InsertOne into an existing collection in a read-only transaction panics as soon as its sequence
hands out an id; the id is used up. -/
theorem C63_read_only (C : Doc.Codec D) (dbName coll : Bytes) (doc : D) (cs : Sequence.Circ) (t : DTxn Seqs) (s : Seqs)
    (db : DB) (b : Bytes) (ci : CollectionInfo) (q : Sequence.Seq) (did : Int64) (hm : C.marshal doc = .ok b)
    (hc : MetaCache.collectionInfo t.start dbName coll = some ci) (hq : s ci.id = some q)
    (hn : (q.nextId cs db).1 = .ok did) (hu : t.update = false) :
    (insertOneIn C dbName coll doc cs t s db).1 = .panic ∧
    (insertOneIn C dbName coll doc cs t s db).2.2.1 ci.id = some (q.nextId cs db).2.1 := by
  simp only [insertOneIn, hm, insertFunc, hc, if_true, hq]
  generalize q.nextId cs db = x at hn
  obtain ⟨r, q', db'⟩ := x
  subst hn
  simp [DTxn.addCancelFunc, DTxn.referredCollections, hu, Seqs.set]

/-! ### C51: what a successful Commit says -/

/-- Operations of a transaction the user opened. -/
inductive TOp (D : Type) where
  | insert (dbName coll : Bytes) (doc : D) (cs : Sequence.Circ)
  | other (dbName coll : Bytes) (p : Int64 → Prog Unit)

/-- The collection an operation is about. -/
def TOp.coll : TOp D → Bytes × Bytes
  | .insert d c _ _ | .other d c _ => (d, c)

/-- Run operations, whatever each of them answers. -/
def runOps (C : Doc.Codec D) : List (TOp D) → DTxn Seqs → Seqs → DB → DTxn Seqs × Seqs × DB
  | [], t, s, db => (t, s, db)
  | .insert d c doc cs :: ops, t, s, db =>
    let x := insertOneIn C d c doc cs t s db
    runOps C ops x.2.1 x.2.2.1 x.2.2.2
  | .other d c p :: ops, t, s, db => runOps C ops (withCollection d c p t).2 s db

theorem insertOneIn_referred (C : Doc.Codec D) (d c : Bytes) (doc : D) (cs : Sequence.Circ) (t : DTxn Seqs) (s : Seqs)
    (db : DB) (b : Bytes) (hm : C.marshal doc = .ok b) (ci : CollectionInfo)
    (hci : MetaCache.collectionInfo t.start d c = some ci) :
    ci.id ∈ (insertOneIn C d c doc cs t s db).2.1.referred := by
  simp only [insertOneIn, hm, insertFunc, hci, if_true]
  cases hq : s ci.id with
  | none => simp [DTxn.referredCollections]
  | some q =>
    simp only
    generalize q.nextId cs db = x
    obtain ⟨r, q', db'⟩ := x
    cases r with
    | err e => simp [DTxn.referredCollections]
    | panic => simp [DTxn.referredCollections]
    | ok did =>
      simp only [DTxn.addCancelFunc, DTxn.referredCollections]
      by_cases hu : t.update = true <;> simp [hu]

theorem insertOneIn_keeps (C : Doc.Codec D) (d c : Bytes) (doc : D) (cs : Sequence.Circ) (t : DTxn Seqs) (s : Seqs)
    (db : DB) : (insertOneIn C d c doc cs t s db).2.1.start = t.start ∧
      (insertOneIn C d c doc cs t s db).2.1.update = t.update ∧
      ∀ x ∈ t.referred, x ∈ (insertOneIn C d c doc cs t s db).2.1.referred := by
  simp only [insertOneIn]
  cases hm : C.marshal doc with
  | err e => exact ⟨rfl, rfl, fun _ h => h⟩
  | panic => exact ⟨rfl, rfl, fun _ h => h⟩
  | ok b =>
    simp only [insertFunc]
    cases hci : MetaCache.collectionInfo t.start d c with
    | none => exact ⟨rfl, rfl, fun _ h => h⟩
    | some ci =>
      simp only [if_true]
      cases hq : s ci.id with
      | none => exact ⟨rfl, rfl, fun _ h => by simp [DTxn.referredCollections, h]⟩
      | some q =>
        simp only
        generalize q.nextId cs db = x
        obtain ⟨r, q', db'⟩ := x
        cases r with
        | err e => exact ⟨rfl, rfl, fun _ h => by simp [DTxn.referredCollections, h]⟩
        | panic => exact ⟨rfl, rfl, fun _ h => by simp [DTxn.referredCollections, h]⟩
        | ok did =>
          simp only [DTxn.addCancelFunc, DTxn.referredCollections]
          by_cases hu : t.update = true
          · simp only [hu, if_true]; exact ⟨trivial, trivial, fun _ h => by simp [h]⟩
          · simp only [hu, if_false, Bool.false_eq_true]
            exact ⟨trivial, trivial, fun _ h => by simp [h]⟩

theorem withCollection_keeps {α : Type} (d c : Bytes) (p : Int64 → Prog α) (t : DTxn Seqs) :
    (withCollection d c p t).2.start = t.start ∧ (withCollection d c p t).2.update = t.update ∧
      (∀ x ∈ t.referred, x ∈ (withCollection d c p t).2.referred) ∧
      ∀ ci, MetaCache.collectionInfo t.start d c = some ci → ci.id ∈ (withCollection d c p t).2.referred := by
  simp only [withCollection]
  cases hci : MetaCache.collectionInfo t.start d c with
  | none => exact ⟨rfl, rfl, fun _ h => h, by simp⟩
  | some ci =>
    refine ⟨rfl, rfl, fun _ h => by simp [DTxn.referredCollections, h], ?_⟩
    rintro ci' ⟨⟩
    simp [DTxn.referredCollections]

theorem runOps_keeps (C : Doc.Codec D) (ops : List (TOp D)) (t : DTxn Seqs) (s : Seqs) (db : DB) :
    (runOps C ops t s db).1.start = t.start ∧ (runOps C ops t s db).1.update = t.update ∧
      (∀ x ∈ t.referred, x ∈ (runOps C ops t s db).1.referred) ∧
      ∀ op ∈ ops, (∀ d c doc cs, op = .insert d c doc cs → ∃ b, C.marshal doc = .ok b) →
        ∀ ci, MetaCache.collectionInfo t.start op.coll.1 op.coll.2 = some ci →
          ci.id ∈ (runOps C ops t s db).1.referred := by
  induction ops generalizing t s db with
  | nil => exact ⟨rfl, rfl, fun _ h => h, by simp⟩
  | cons op ops ih =>
    cases op with
    | insert d c doc cs =>
      obtain ⟨a1, a2, a3⟩ := insertOneIn_keeps C d c doc cs t s db
      obtain ⟨h1, h2, h3, h4⟩ := ih (insertOneIn C d c doc cs t s db).2.1 (insertOneIn C d c doc cs t s db).2.2.1
        (insertOneIn C d c doc cs t s db).2.2.2
      simp only [runOps]
      refine ⟨by rw [h1, a1], by rw [h2, a2], fun x hx => h3 x (a3 x hx), ?_⟩
      intro op hop hok ci hci
      rcases List.mem_cons.mp hop with rfl | hop
      · obtain ⟨b, hb⟩ := hok d c doc cs rfl
        exact h3 _ (insertOneIn_referred C d c doc cs t s db b hb ci hci)
      · exact h4 op hop hok ci (by rw [a1]; exact hci)
    | other d c p =>
      obtain ⟨a1, a2, a3, a4⟩ := withCollection_keeps d c p t
      obtain ⟨h1, h2, h3, h4⟩ := ih (withCollection d c p t).2 s db
      simp only [runOps]
      refine ⟨by rw [h1, a1], by rw [h2, a2], fun x hx => h3 x (a3 x hx), ?_⟩
      intro op hop hok ci hci
      rcases List.mem_cons.mp hop with rfl | hop
      · exact h3 _ (a4 ci hci)
      · exact h4 op hop hok ci (by rw [a1]; exact hci)

theorem commit_ok {t : DTxn σ} {h : Handle} {fail : Option Err} {s : σ} {db : DB} (hu : t.update = true)
    (hok : (t.commit h fail s db).1 = .ok ()) : (h.check t.start (fun cid => t.referred.contains cid)).1 = .ok true := by
  unfold DTxn.commit at hok
  rw [if_neg (by simp [hu])] at hok
  generalize h.check t.start (fun cid => t.referred.contains cid) = x at hok
  obtain ⟨r, h'⟩ := x
  cases r with
  | panic => simp at hok
  | err e => simp at hok
  | ok b => cases b with
    | false => simp at hok
    | true => rfl

/-- **C51** for a transaction the user opened with the schema `c₀`: if Commit succeeds while the published
schema is `c` (loaded in full at `v₀`, batches `bs` since), then none of the diffs after `c₀`'s version
touched any collection an operation of the transaction used. -/
theorem C51_commit (C : Doc.Codec D) (ops : List (TOp D)) (c₀ : MetaCache) (r₀ r : Nat) (env : Env) (snap : DB) (s : Seqs)
    (db : DB) (v₀ : Int) (dbs : List DBInfo) (bs : List (List SchemaDiff)) (c : MetaCache)
    (h : Sch.applyAll (MetaCache.new v₀ dbs) bs = .ok c) (fail : Option Err) (db' : DB)
    (hm : ∀ op ∈ ops, ∀ d c doc cs, op = .insert d c doc cs → ∃ b, C.marshal doc = .ok b)
    (hok : let x := runOps C ops (DTxn.new ⟨some c₀, r₀⟩ true env snap) s db
      (x.1.commit ⟨some c, r⟩ fail x.2.1 db').1 = .ok ()) :
    ∀ op ∈ ops, ∀ ci, MetaCache.collectionInfo (some c₀) op.coll.1 op.coll.2 = some ci →
      ∀ d ∈ bs.flatten, c₀.version < d.version → ci.id ∉ d.collectionIDs := by
  intro op hop ci hci d hd hlt hmem
  obtain ⟨h1, h2, -, h4⟩ := runOps_keeps C ops (DTxn.new ⟨some c₀, r₀⟩ true env snap) s db
  have hchk := commit_ok (h2.trans rfl) hok
  rw [h1] at hchk
  have hU := ((Sch.C51_exact v₀ dbs bs c c₀ h r _).2.mp hchk).2.2 d hd hlt ci.id hmem
  have hr := h4 op hop (hm op hop) ci hci
  have : ((runOps C ops (DTxn.new ⟨some c₀, r₀⟩ true env snap) s db).1.referred.contains ci.id) = true := by
    rw [List.contains_iff_mem]; exact hr
  exact absurd (hU.symm.trans this) (by simp)

/-- Operations that open their own transaction are not protected: they note no collections, so Commit
accepts whatever changed in the meantime, as long as the window reaches back. -/
theorem C51_auto_false (t : DTxn σ) (c₀ c : MetaCache) (r : Nat) (v₀ : Int) (dbs : List DBInfo)
    (bs : List (List SchemaDiff)) (h : Sch.applyAll (MetaCache.new v₀ dbs) bs = .ok c) (s : σ) (db : DB)
    (hu : t.update = true) (hst : t.start = some c₀) (href : t.referred = [])
    (hv : v₀ ≤ c₀.version ∧ c.version - c₀.version ≤ 100) :
    (t.commit ⟨some c, r⟩ none s db).1 = .ok () ∧
      (t.commit ⟨some c, r⟩ none s db).2.2.2.2 = applyWrites db t.kv.writes := by
  have hchk : (Handle.check ⟨some c, r⟩ (some c₀) (fun cid => t.referred.contains cid)).1 = .ok true :=
    (Sch.C51_exact v₀ dbs bs c c₀ h r _).2.mpr ⟨hv.1, hv.2, by intro d _ _ id _; simp [href]⟩
  have h1 : (t.commit ⟨some c, r⟩ none s db).1 = .ok () := by
    unfold DTxn.commit
    rw [if_neg (by simp [hu]), hst]
    generalize Handle.check ⟨some c, r⟩ (some c₀) (fun cid => t.referred.contains cid) = x at hchk
    obtain ⟨q, h'⟩ := x
    subst hchk
    simp only [Txn.commit]
    by_cases hw : t.kv.writes = [] <;> simp [hw]
  exact ⟨h1, by rw [(C56_commit t _ _ s db hu).2.1 h1]⟩

/-! ### A concrete case -/

/-- Database [1] with one collection, [7], whose id is 11. -/
def demoDB : DBInfo := { id := 10, name := [1], collections := OMap.empty.set [7] { id := 11, name := [7] } }
def demoStart : MetaCache := MetaCache.new 7 [demoDB]
/-- Version 8 creates database [2] with collection 21, version 9 changes collection 11. -/
def demoDiffs : List (List SchemaDiff) :=
  [[⟨8, .createSchema, [21], some { id := 20, name := [2] }⟩], [⟨9, .createSchema, [11], some { id := 30, name := [3] }⟩]]
def demoNow (n : Nat) : MetaCache := match Sch.applyAll demoStart (demoDiffs.take n) with
  | .ok c => c
  | _ => demoStart
def demoSeq : Sequence.Seq := { cell := .str [100], next := 3, leased := 10, bandwidth := 10 }
def demoSeqs : Seqs := fun c => if c = 11 then some demoSeq else none

example : (MetaCache.collectionInfo (some demoStart) [1] [7]).map (·.id) = some 11 := by decide

/-- Inserting documents [5], [] (which does not marshal) and [6] in one transaction: two ids; if Commit runs
at version 8 it succeeds, at version 9 it reports the conflict and the sequence gets the ids back; with an
engine failure too. -/
example :
    let x := insertMany demoCodec [1] [7] [([5], calmCirc .empty), ([], calmCirc .empty), ([6], calmCirc .empty)]
      (DTxn.new ⟨some demoStart, 0⟩ true plainEnv .empty) demoSeqs .empty
    x.1 = [.ok 4, .err .parse, .ok 5] ∧
    (x.2.1.commit ⟨some (demoNow 1), 0⟩ none x.2.2.1 .empty).1 = .ok () ∧
    (x.2.1.commit ⟨some (demoNow 2), 0⟩ none x.2.2.1 .empty).1 = .err errDDLConflict ∧
    ((x.2.1.commit ⟨some (demoNow 2), 0⟩ none x.2.2.1 .empty).2.2.2.1 11).map (·.putbacks) = some [4, 5] ∧
    (x.2.1.commit ⟨some (demoNow 1), 0⟩ (some (.other 1)) x.2.2.1 .empty).1 = .err (.other 1) := by
  decide

/-- InsertOne without a transaction: the collection is changed by version 9 before the commit, which
succeeds all the same. -/
example :
    (insertOne demoCodec [1] [7] [5] (calmCirc .empty) ⟨some demoStart, 0⟩ ⟨some (demoNow 2), 0⟩ plainEnv .empty none
      demoSeqs .empty).1 = .ok 4 := by
  decide

/-- Collection [8] does not exist. -/
example : MetaCache.collectionInfo (some demoStart) [1] [8] = none ∧ demoCodec.marshal [5] = .ok [5] := by
  exact ⟨rfl, rfl⟩

/-- A read-only transaction. -/
example : (DTxn.new ⟨some demoStart, 0⟩ false plainEnv .empty : DTxn Seqs).update = false ∧
    (demoSeq.nextId (calmCirc .empty) .empty).1 = .ok 4 := by
  exact ⟨rfl, rfl⟩

theorem demo_now : Sch.applyAll (MetaCache.new 7 [demoDB]) (demoDiffs.take 1) = .ok (demoNow 1) := rfl

end DmlT
end Mondis.Props
