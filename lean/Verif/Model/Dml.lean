import Verif.Model.Schema
import Verif.Model.Document
/-!
# Model of document/txn/txn.go and of what document/dml/ adds to Model/Document
-/
namespace Mondis.Dml
open Mondis Prog Schema

/-- txn.go:13-21 Txn.  Cancel functions act on a state `σ` outside the transaction. -/
structure DTxn (σ : Type) where
  kv : Mondis.Txn
  start : Option MetaCache
  referred : List Int64 := []
  /-- in the order they were added -/
  cancels : List (σ → σ) := []
  update : Bool

/-- txn.go:30-33 ErrDDLConflict -/
def errDDLConflict : Err := .other 90
/-- dml/db.go:21 ErrCollectionNotExists -/
def errCollectionNotExists : Err := .other 91
/-- dml/sequence.go:16 ErrSequenceNotExists -/
def errSequenceNotExists : Err := .other 92

namespace DTxn
variable {σ : Type}

/-- txn.go:24-28 NewTxn: the schema cache is taken before the snapshot. -/
def new (h : Handle) (update : Bool) (env : Env) (snap : DB) : DTxn σ :=
  { kv := Txn.start { env with update := update } snap, start := h.cache, update := update }

/-- txn.go:71-76 AddCancelFunc -/
def addCancelFunc (t : DTxn σ) (f : σ → σ) : Res (DTxn σ) :=
  if t.update then .ok { t with cancels := t.cancels ++ [f] } else .panic

/-- txn.go:84-92 ReferredCollections -/
def referredCollections (t : DTxn σ) (cids : List Int64) : DTxn σ := { t with referred := t.referred ++ cids }

/-- txn.go:47-54: the deferred function when err is not nil. -/
def cancelAll (t : DTxn σ) (s : σ) : DTxn σ × σ := ({ t with cancels := [] }, t.cancels.foldl (fun s f => f s) s)

/-- txn.go:41-68 Commit.  `h` is the handle when Check runs, `db` the database and `fail` the engine's
answer when the engine commits; nothing keeps the schema from changing in between.  Check with
context.Background() returns no error.  While a panic unwinds err is nil, so no cancel function runs. -/
def commit (t : DTxn σ) (h : Handle) (fail : Option Err) (s : σ) (db : DB) :
    Res Unit × DTxn σ × Handle × σ × DB :=
  if t.update = false then (.ok (), t, h, s, db)
  else match h.check t.start (fun cid => t.referred.contains cid) with
    | (.panic, h) => (.panic, t, h, s, db)
    | (.err e, h) => (.err e, (t.cancelAll s).1, h, (t.cancelAll s).2, db)
    | (.ok false, h) => (.err errDDLConflict, (t.cancelAll s).1, h, (t.cancelAll s).2, db)
    | (.ok true, h) => match t.kv.commit fail db with
      | (.ok _, db) => (.ok (), t, h, s, db)
      | (.err e, db) => (.err e, (t.cancelAll s).1, h, (t.cancelAll s).2, db)
      | (.panic, db) => (.panic, t, h, s, db)

end DTxn

/-- dml/sequence.go:14 sequenceMap: the sequence object of each collection id, if there is one. -/
abbrev Seqs := Int64 → Option Sequence.Seq

/-- seq.PutBack(did) on the sequence of `cid`.  The closure holds the object itself; it is the one in the
map unless the collection's sequence was dropped meanwhile. -/
def putBack (cid did : Int64) (s : Seqs) : Seqs := fun c =>
  if c = cid then (s c).map (fun q => q.putBack [did]) else s c

/-- Replace the sequence of `cid`. -/
def Seqs.set (s : Seqs) (cid : Int64) (q : Sequence.Seq) : Seqs := fun c => if c = cid then some q else s c

variable {D : Type}

/-- dml/collection.go:55-87 insertFunc; `data` is the marshalled document, `mark` says whether the caller
gave the transaction, `cs` are the circumstances of the sequence's renewal.  A missing collection sets the
captured `err` and returns nil (:58-59), which the caller then overwrites (:90, :92).  A failing Set does
not return either: the test (:79) is on the captured `err`. -/
def insertFunc (dbName coll data : Bytes) (mark : Bool) (cs : Sequence.Circ) (t : DTxn Seqs) (s : Seqs) (db : DB) :
    Res Int64 × DTxn Seqs × Seqs × DB :=
  match MetaCache.collectionInfo t.start dbName coll with
  | none => (.ok 0, t, s, db)
  | some ci =>
    let t := if mark then t.referredCollections [ci.id] else t
    match s ci.id with
    | none => (.err errSequenceNotExists, t, s, db)
    | some q =>
      match q.nextId cs db with
      | (.err e, q, db) => (.err e, t, s.set ci.id q, db)
      | (.panic, q, db) => (.panic, t, s.set ci.id q, db)
      | (.ok did, q, db) =>
        let (r, kv) := (setK (Doc.documentKey ci.id did) data).run t.kv
        match ({ t with kv := kv } : DTxn Seqs).addCancelFunc (putBack ci.id did) with
        | .ok t => (r.map' (fun _ => did), t, s.set ci.id q, db)
        | _ => (.panic, { t with kv := kv }, s.set ci.id q, db)

/-- dml/collection.go:47-95 InsertOne in a given transaction -/
def insertOneIn (C : Doc.Codec D) (dbName coll : Bytes) (doc : D) (cs : Sequence.Circ) (t : DTxn Seqs) (s : Seqs)
    (db : DB) : Res Int64 × DTxn Seqs × Seqs × DB :=
  match C.marshal doc with
  | .err e => (.err e, t, s, db)
  | .panic => (.panic, t, s, db)
  | .ok data => insertFunc dbName coll data true cs t s db

/-- dml/collection.go:47-95 InsertOne without a transaction, with dml/base.go:20-31 RunInNewUpdateTxn.
`h`, `snap` and `h'`: handle and database when the transaction starts, and the handle when it commits. -/
def insertOne (C : Doc.Codec D) (dbName coll : Bytes) (doc : D) (cs : Sequence.Circ) (h h' : Handle) (env : Env)
    (snap : DB) (fail : Option Err) (s : Seqs) (db : DB) : Res Int64 × Handle × Seqs × DB :=
  match C.marshal doc with
  | .err e => (.err e, h', s, db)
  | .panic => (.panic, h', s, db)
  | .ok data =>
    match insertFunc dbName coll data false cs (DTxn.new h true env snap) s db with
    | (.err e, _, s, db) => (.err e, h', s, db)
    | (.panic, _, s, db) => (.panic, h', s, db)
    | (.ok did, t, s, db) =>
      match t.commit h' fail s db with
      | (.ok _, _, h', s, db) => (.ok did, h', s, db)
      | (.err e, _, h', s, db) => (.err e, h', s, db)
      | (.panic, _, h', s, db) => (.panic, h', s, db)

/-- The other operations in a given transaction: dml/collection.go:123-137 (DeleteOne), :161-199
(updateOne), :220-230 (GetOne), :257-265 (GetMany), :302-310 (GetDidRange), :351-359 (GetAll), :394-402
(Count), :428-436 (deleteAllWithTxn): find the collection in the schema the transaction started with, note
that it was referred to, and run the program of Model/Document on its id. -/
def withCollection {α : Type} (dbName coll : Bytes) (p : Int64 → Prog α) (t : DTxn Seqs) : Res α × DTxn Seqs :=
  match MetaCache.collectionInfo t.start dbName coll with
  | none => (.err errCollectionNotExists, t)
  | some ci =>
    let t := t.referredCollections [ci.id]
    let (r, kv) := (p ci.id).run t.kv
    (r, { t with kv := kv })

end Mondis.Dml
