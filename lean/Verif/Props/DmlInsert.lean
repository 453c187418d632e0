import Verif.Props.Dml
/-!
# C64: InsertOne of package dml
-/
namespace Mondis.Props
open Mondis.Schema Mondis.Dml Mondis.Prog

namespace DmlT
variable {D : Type}

/-- Running Set on a document key in an update transaction: it is recorded, or the transaction is full. -/
theorem set_doc (t : Mondis.Txn) (hu : t.env.update = true) (cid did : Int64) (data : Bytes) :
    (∃ t', (setK (Doc.documentKey cid did) data).run t = (.ok (), t') ∧
      t'.writes = t.writes ++ [(Doc.documentKey cid did, some { value := data })] ∧
      t'.view = t.view.set (Doc.documentKey cid did) { value := data }) ∨
    (∃ t', (setK (Doc.documentKey cid did) data).run t = (.err .txnTooBig, t') ∧ t'.writes = t.writes ∧
      ∃ n, t.env.tooBig n = true) := by
  by_cases hb : t.env.tooBig t.attempts = true
  · exact .inr ⟨{ t with attempts := t.attempts + 1 },
      by simp [setK, Prog.run, Txn.set, Txn.modify, hu, Doc.documentKey_ok, hb], rfl, _, hb⟩
  · have hb : t.env.tooBig t.attempts = false := by simpa using hb
    exact .inl ⟨_, by simp [setK, Prog.run, Txn.set, Txn.modify, hu, Doc.documentKey_ok, hb]; rfl,
      by simp [mkVal], by simp [mkVal, applyWrite]⟩

/-- **C64** InsertOne without a transaction into a collection in the schema, when its sequence hands out `did`
(leaving the store `db'` and the sequence `q'`): it answers `did` and has stored the document under it, and
changed nothing else; or it answers an error and has stored nothing, and the id is used up or put back.  If the
transaction is not full and the commit is accepted, it does answer `did`. -/
theorem C64_auto (C : Doc.Codec D) (dbName coll : Bytes) (doc : D) (cs : Sequence.Circ) (h h' : Handle) (env : Env)
    (snap : DB) (fail : Option Err) (s : Seqs) (db db' : DB) (data : Bytes) (ci : CollectionInfo) (q q' : Sequence.Seq)
    (did : Int64) (hm : C.marshal doc = .ok data) (hc : MetaCache.collectionInfo h.cache dbName coll = some ci)
    (hq : s ci.id = some q) (hn : q.nextId cs db = (.ok did, q', db')) :
    let out := insertOne C dbName coll doc cs h h' env snap fail s db
    ((out.1 = .ok did ∧ out.2.2.2 = db'.set (Doc.documentKey ci.id did) { value := data } ∧
        out.2.2.1 ci.id = some q') ∨
      ((∀ d, out.1 ≠ .ok d) ∧ out.2.2.2 = db' ∧
        (out.2.2.1 ci.id = some q' ∨ out.2.2.1 ci.id = some (q'.putBack [did])))) ∧
    (∀ cid, cid ≠ ci.id → out.2.2.1 cid = s cid) ∧
    ((∀ n, env.tooBig n = false) → (h'.check h.cache (fun _ => false)).1 = .ok true → fail = none → out.1 = .ok did) := by
  intro out
  have hfun : insertFunc dbName coll data false cs (DTxn.new h true env snap) s db =
      (((setK (Doc.documentKey ci.id did) data).run (Txn.start { env with update := true } snap)).1.map' (fun _ => did),
        { kv := ((setK (Doc.documentKey ci.id did) data).run (Txn.start { env with update := true } snap)).2,
          start := h.cache, cancels := [putBack ci.id did], update := true }, s.set ci.id q', db') := by
    simp [insertFunc, DTxn.new, hc, hq, hn, DTxn.addCancelFunc]
  have ho : out = insertOne C dbName coll doc cs h h' env snap fail s db := rfl
  clear_value out
  simp only [insertOne, hm, hfun] at ho
  have hother : ∀ cid, cid ≠ ci.id → (s.set ci.id q') cid = s cid ∧ putBack ci.id did (s.set ci.id q') cid = s cid := by
    intro cid hcid; simp [Seqs.set, putBack, hcid]
  have hself : (s.set ci.id q') ci.id = some q' ∧ putBack ci.id did (s.set ci.id q') ci.id = some (q'.putBack [did]) := by
    simp [Seqs.set, putBack]
  rcases set_doc (Txn.start { env with update := true } snap) rfl ci.id did data with ⟨t', hr, hw, -⟩ | ⟨t', hr, hw, n, hbig⟩
  · rw [hr] at ho
    simp only [Res.map', DTxn.commit, Bool.true_eq_false, if_false, List.contains_nil] at ho
    have hw' : t'.writes ≠ [] := by rw [hw]; simp [Txn.start]
    cases hk : h'.check h.cache (fun _ => false) with
    | mk rk hh =>
      rw [hk] at ho
      cases rk with
      | panic => subst ho; exact ⟨.inr ⟨by simp, rfl, .inl hself.1⟩, fun cid hcid => (hother cid hcid).1, by simp⟩
      | err e =>
        subst ho
        exact ⟨.inr ⟨by simp, rfl, .inr hself.2⟩, fun cid hcid => (hother cid hcid).2, by simp⟩
      | ok b =>
        cases b with
        | false =>
          subst ho
          exact ⟨.inr ⟨by simp, rfl, .inr hself.2⟩, fun cid hcid => (hother cid hcid).2, by simp⟩
        | true =>
          simp only [Txn.commit, if_neg hw'] at ho
          cases fail with
          | none =>
            subst ho
            refine ⟨.inl ⟨rfl, ?_, hself.1⟩, fun cid hcid => (hother cid hcid).1, fun _ _ _ => rfl⟩
            show applyWrites db' t'.writes = _
            rw [hw]; simp [Txn.start, applyWrites, applyWrite]
          | some e =>
            subst ho
            exact ⟨.inr ⟨by simp, rfl, .inr hself.2⟩, fun cid hcid => (hother cid hcid).2, by simp⟩
  · rw [hr] at ho
    simp only [Res.map'] at ho
    subst ho
    refine ⟨.inr ⟨by simp, rfl, .inl hself.1⟩, fun cid hcid => (hother cid hcid).1, fun hb => ?_⟩
    have : (Txn.start { env with update := true } snap).env.tooBig n = env.tooBig n := rfl
    rw [this, hb n] at hbig
    cases hbig

/-- **C64** InsertOne in an update transaction of the caller: the store changes at most by the renewal of the
sequence's lease; if it answers `did`, reading the document key in the transaction gives the document, and
committing the transaction adds it; in any case the collection is noted for the check at commit, and the id goes
back to the sequence if the commit fails. -/
theorem C64_in_txn (C : Doc.Codec D) (dbName coll : Bytes) (doc : D) (cs : Sequence.Circ) (t : DTxn Seqs) (s : Seqs)
    (db db' : DB) (data : Bytes) (ci : CollectionInfo) (q q' : Sequence.Seq)
    (did : Int64) (hm : C.marshal doc = .ok data) (hc : MetaCache.collectionInfo t.start dbName coll = some ci)
    (hq : s ci.id = some q) (hn : q.nextId cs db = (.ok did, q', db')) (hu : t.update = true)
    (hu' : t.kv.env.update = true) :
    let out := insertOneIn C dbName coll doc cs t s db
    out.2.2.2 = db' ∧ out.2.2.1 = s.set ci.id q' ∧ ci.id ∈ out.2.1.referred ∧
    out.2.1.cancels = t.cancels ++ [putBack ci.id did] ∧
    ((out.1 = .ok did ∧ out.2.1.kv.view = t.kv.view.set (Doc.documentKey ci.id did) { value := data } ∧
        out.2.1.kv.writes = t.kv.writes ++ [(Doc.documentKey ci.id did, some { value := data })]) ∨
      (out.1 = .err .txnTooBig ∧ out.2.1.kv.writes = t.kv.writes ∧ ∃ n, t.kv.env.tooBig n = true)) := by
  intro out
  have ho : out = insertOneIn C dbName coll doc cs t s db := rfl
  clear_value out
  simp only [insertOneIn, hm, insertFunc, hc, hq, hn, if_true, DTxn.addCancelFunc, DTxn.referredCollections, hu] at ho
  rcases set_doc t.kv hu' ci.id did data with ⟨t', hr, hw, hv⟩ | ⟨t', hr, hw, hb⟩
  · rw [hr] at ho
    subst ho
    exact ⟨rfl, rfl, by simp, rfl, .inl ⟨rfl, hv, hw⟩⟩
  · rw [hr] at ho
    subst ho
    exact ⟨rfl, rfl, by simp, rfl, .inr ⟨rfl, hw, hb⟩⟩

/-- **C64** The commit of InsertOne without a transaction is not checked against changes of its collection: with a
cache fed with any diffs since, whichever collections they touch, the check of such a commit accepts whenever
the recorded window reaches back to the start. (One would expect a conflict if the collection was changed.) -/
theorem C64_auto_unchecked_false (C : Doc.Codec D) (dbName coll : Bytes) (doc : D) (cs : Sequence.Circ) (s₀ c : MetaCache)
    (v₀ : Int) (dbs : List DBInfo) (bs : List (List SchemaDiff)) (ha : Sch.applyAll (MetaCache.new v₀ dbs) bs = .ok c)
    (h1 : v₀ ≤ s₀.version) (h2 : c.version - s₀.version ≤ 100) (env : Env) (hb : ∀ n, env.tooBig n = false)
    (snap : DB) (s : Seqs) (db db' : DB) (data : Bytes) (ci : CollectionInfo) (q q' : Sequence.Seq) (did : Int64)
    (hm : C.marshal doc = .ok data) (hc : MetaCache.collectionInfo (some s₀) dbName coll = some ci)
    (hq : s ci.id = some q) (hn : q.nextId cs db = (.ok did, q', db')) :
    (insertOne C dbName coll doc cs ⟨some s₀, 0⟩ ⟨some c, 0⟩ env snap none s db).1 = .ok did := by
  refine (C64_auto C dbName coll doc cs ⟨some s₀, 0⟩ ⟨some c, 0⟩ env snap none s db db' data ci q q' did hm hc hq hn).2.2 hb ?_ rfl
  refine (Sch.C51_exact v₀ dbs bs c s₀ ha 0 _).2.mpr ⟨h1, h2, ?_⟩
  intro d _ _ cid _
  rfl

/-- A case that meets the hypotheses of C64: collection [7] of database [1], whose sequence hands out 4. -/
example : demoCodec.marshal [5] = .ok [5] ∧
    (MetaCache.collectionInfo (some demoStart) [1] [7]).map (·.id) = some 11 ∧ (demoSeqs 11).isSome = true ∧
    (demoSeq.nextId (calmCirc .empty) .empty).1 = .ok 4 ∧
    (insertOne demoCodec [1] [7] [5] (calmCirc .empty) ⟨some demoStart, 0⟩ ⟨some (demoNow 1), 0⟩ plainEnv .empty none
      demoSeqs .empty).1 = .ok 4 := by
  decide

end DmlT
end Mondis.Props
