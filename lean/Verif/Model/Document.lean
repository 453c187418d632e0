import Verif.Spec.Document
import Verif.Model.DocKeys
import Verif.Model.Provider
import Verif.Model.Util
import Verif.Model.Sequence
/-!
# Model of document/collection.go and document/dml/collection.go

BSON is a parameter: a pair of functions with a round-trip law.  The two Collection types run the same
programs; `cid` is Collection.cid in package document, and the ID found in the schema cache in package
dml (see Model/Dml).  Results besides a non-nil error are not modelled.
-/
namespace Mondis.Doc
open Mondis Prog

/-- *contract* bson.Marshal / bson.Unmarshal: what was marshalled unmarshals to the same document up to
normalisation (`norm`: a bson.M comes back as a bson.M with e.g. int as int32/int64), or is refused. -/
structure Codec (D : Type) where
  marshal : D → Res Bytes
  unmarshal : Bytes → Res D
  norm : D → Res D
  law : ∀ d, match marshal d with
    | .ok b => norm d = unmarshal b ∧ ∃ d', norm d = .ok d'
    | .err e => norm d = .err e
    | .panic => norm d = .panic

/-- provider/badger_txn.go:29-42 Exists -/
def existsK (k : Bytes) : Prog Bool := .get k (fun r => match r with
  | .ok _ => .done (.ok true)
  | .err .keyNotFound => .done (.ok false)
  | .err e => .done (.err e)
  | .panic => .done .panic)

/-- txn.Get with kv.ErrKeyNotFound turned into ErrDocNotFound: collection.go:243-250, 350-357;
dml/collection.go:231-238, 270-277 -/
def getDoc (k : Bytes) : Prog Val := .get k (fun r => match r with
  | .err .keyNotFound => .done (.err Spec.errDocNotFound)
  | r => .done r)

variable {D : Type}

/-- collection.go:62-65, 82-85 InsertOne once the sequence gave `did`; dml/collection.go:48-51, 76-78 -/
def insertOne (C : Codec D) (cid did : Int64) (doc : D) : Prog Unit := do
  let data ← ofRes (C.marshal doc)
  setK (documentKey cid did) data

/-- collection.go:123-127, dml/collection.go:147-151 -/
inductive UpdateFor where
  | update | upsert | insert
  deriving DecidableEq, Repr

/-- collection.go:129-184 updateOne, dml/collection.go:153-208: (existsForUpdate, isNewForUpsert) -/
def updateOne (C : Codec D) (cid did : Int64) (doc : D) (mode : UpdateFor) : Prog (Bool × Bool) := do
  let data ← ofRes (C.marshal doc)
  let docKey := documentKey cid did
  let ex ← existsK docKey
  match mode with
  | .update =>
    if ex = false then pure (ex, false)
    else do
      setK docKey data
      pure (ex, false)
  | .upsert =>
    setK docKey data
    pure (ex, !ex)
  | .insert =>
    if ex then fail Spec.errDocExists
    else do
      setK docKey data
      pure (ex, false)

/-- collection.go:110-113, dml/collection.go:98-102 InsertOneManaged -/
def insertOneManaged (C : Codec D) (cid did : Int64) (doc : D) : Prog Unit := do
  let _ ← updateOne C cid did doc .insert
  pure ()

/-- collection.go:116-119, dml/collection.go:105-109 UpdateOne -/
def update (C : Codec D) (cid did : Int64) (doc : D) : Prog Bool := do
  let r ← updateOne C cid did doc .update
  pure r.1

/-- collection.go:187-190, dml/collection.go:112-116 UpsertOne -/
def upsert (C : Codec D) (cid did : Int64) (doc : D) : Prog Bool := do
  let r ← updateOne C cid did doc .upsert
  pure r.2

/-- collection.go:193-221, dml/collection.go:119-145 DeleteOne -/
def deleteOne (cid did : Int64) : Prog Unit := delK (documentKey cid did)

/-- collection.go:224-253, dml/collection.go:211-242 GetOne -/
def getOne (C : Codec D) (cid did : Int64) : Prog D := do
  let v ← getDoc (documentKey cid did)
  ofRes (C.unmarshal v.value)

/-- collection.go:330-368, dml/collection.go:245-290 GetMany -/
def getMany (C : Codec D) (cid : Int64) : List Int64 → Prog (List D)
  | [] => pure []
  | did :: dids => do
    let v ← getDoc (documentKey cid did)
    let d ← ofRes (C.unmarshal v.value)
    let ds ← getMany C cid dids
    pure (d :: ds)

/-- collection.go:256-280, dml/collection.go:385-410 Count -/
def count (cid : Int64) : Prog Nat := do
  let l ← scanK { pfx := documentKeyPrefix cid }
  pure l.length

/-- The callback of GetAll applied to the entries in turn. -/
def unmarshalAll (C : Codec D) : List (Bytes × Val) → Res (List D)
  | [] => .ok []
  | e :: l => do
    let d ← C.unmarshal e.2.value
    let ds ← unmarshalAll C l
    pure (d :: ds)

/-- dml/collection.go:340-382 GetAll -/
def getAll (C : Codec D) (cid : Int64) : Prog (List D) := do
  let l ← scanK { pfx := documentKeyPrefix cid }
  ofRes (unmarshalAll C l)

/-- The callback of deleteAllWithTxn applied to the entries in turn. -/
def deleteEach : List (Bytes × Val) → Nat → Prog Nat
  | [], n => pure n
  | e :: l, n => do
    delK e.1
    deleteEach l (n + 1)

/-- collection.go:310-327, dml/collection.go:427-453 deleteAllWithTxn -/
def deleteAll (cid : Int64) : Prog Nat := do
  let l ← scanK { pfx := documentKeyPrefix cid }
  deleteEach l 0

/-- dml/collection.go:293-337 GetDidRange.  Both scans have an offset and no prefix, their callbacks stop
at the first entry. -/
def getDidRange (cid : Int64) : Prog (Int64 × Int64) := do
  let l ← scanK { offset := documentKeyPrefix cid }
  let min ← match l with
    | [] => pure 0
    | e :: _ => do let r ← ofRes (decodeDocumentKey e.1); pure r.2
  let l ← scanK { reverse := true, offset := Key.prefixNext (documentKeyPrefix cid) }
  let max ← match l with
    | [] => pure 0
    | e :: _ => do let r ← ofRes (decodeDocumentKey e.1); pure r.2
  pure (min, max)

/-- The program an operation runs in the transaction it is given, or in its own. -/
def exec (C : Codec D) : Spec.DocOp D → Prog (Spec.DocOut D)
  | .insert cid did d => do insertOne C cid did d; pure .unit
  | .insertManaged cid did d => do insertOneManaged C cid did d; pure .unit
  | .update cid did d => do let b ← update C cid did d; pure (.flag b)
  | .upsert cid did d => do let b ← upsert C cid did d; pure (.flag b)
  | .delete cid did => do deleteOne cid did; pure .unit
  | .getOne cid did => do let d ← getOne C cid did; pure (.doc d)
  | .getMany cid dids => do let ds ← getMany C cid dids; pure (.docs ds)
  | .getAll cid => do let ds ← getAll C cid; pure (.docs ds)
  | .count cid => do let n ← count cid; pure (.num n)
  | .deleteAll cid => do let n ← deleteAll cid; pure (.num n)

/-- Does the operation open an update transaction when none is given?  In package document DeleteAll
opens a read-only one (collection.go:301), in package dml an update one (dml/collection.go:416). -/
def updates (dml : Bool) : Spec.DocOp D → Bool
  | .insert .. | .insertManaged .. | .update .. | .upsert .. | .delete .. => true
  | .deleteAll _ => dml
  | _ => false

/-- An operation called without a transaction. -/
def auto (dml : Bool) (C : Codec D) (op : Spec.DocOp D) (env : Env) (fail : Option Err) (db : DB) :
    Res (Spec.DocOut D) × DB :=
  if updates dml op then Util.runInNewUpdateTxn env fail (exec C op) db db
  else Util.runInNewTxn env (exec C op) db db

/-! ## document.DB and its Collection objects -/

/-- document/db.go:98-102 -/
inductive DBState where
  | «open» | closing | closed
  deriving DecidableEq, Repr

def errAlreadyClosing : Err := .other 63
def errAlreadyClosed : Err := .other 64

/-- document/db.go:114-126 checkState -/
def checkState : DBState → Res Unit
  | .open => .ok ()
  | .closing => .err errAlreadyClosing
  | .closed => .err errAlreadyClosed

/-- collection.go:60-98 InsertOne, all of it: marshal, state check, id, write.  `seq` is the collection's
sequence, `cs` the circumstances of its renewal, and `t` the transaction given, if any (then the last
component is that transaction afterwards).  closer.Add fails only after Close began, when checkState
already answered. -/
def insertOneFull (C : Codec D) (st : DBState) (cid : Int64) (doc : D) (seq : Sequence.Old.Seq)
    (cs : Sequence.Circ) (t : Option Txn) (env : Env) (fail : Option Err) (db : DB) :
    Res Int64 × Sequence.Old.Seq × DB × Option Txn :=
  match C.marshal doc with
  | .err e => (.err e, seq, db, t)
  | .panic => (.panic, seq, db, t)
  | .ok _ =>
    match checkState st with
    | .err e => (.err e, seq, db, t)
    | .panic => (.panic, seq, db, t)
    | .ok _ =>
      match seq.nextId cs db with
      | (.err e, seq, db) => (.err e, seq, db, t)
      | (.panic, seq, db) => (.panic, seq, db, t)
      | (.ok u, seq, db) =>
        let did := u.toInt64
        match t with
        | some t =>
          let (r, t') := (insertOne C cid did doc).run t
          (r.map' (fun _ => did), seq, db, some t')
        | none =>
          let (r, db') := Util.runInNewUpdateTxn env fail (insertOne C cid did doc) db db
          (r.map' (fun _ => did), seq, db', none)

/-- document/db.go:164-201 getCollectionID.  `c` are the circumstances of its own update transaction, `cs`
those of the renewal inside collectionSequence.Next (a transaction of its own, which commits in between). -/
def getCollectionID (name : Bytes) (seq : Sequence.Old.Seq) (c cs : Sequence.Circ) (db : DB) :
    Res Int64 × Sequence.Old.Seq × DB :=
  let key := metaCollectionName2IDKey name
  match (getK key).run (Txn.start { c.env with update := true } c.snap) with
  | (.ok v, _) => match Numeric.decodeFromBinary v.value with
    | .ok u => (.ok u.toInt64, seq, db)
    | .err e => (.err e, seq, db)
    | .panic => (.panic, seq, db)
  | (.panic, _) => (.panic, seq, db)
  | (.err .keyNotFound, t) =>
    match seq.nextId cs db with
    | (.err e, seq, db) => (.err e, seq, db)
    | (.panic, seq, db) => (.panic, seq, db)
    | (.ok u, seq, db) =>
      match (setK key (Numeric.encode2Binary u [])).run t with
      | (.err e, _) => (.err e, seq, db)
      | (.panic, _) => (.panic, seq, db)
      | (.ok _, t) => match t.commit c.fail db with
        | (.ok _, db) => (.ok u.toInt64, seq, db)
        | (.err e, db) => (.err e, seq, db)
        | (.panic, db) => (.panic, seq, db)
  | (.err e, _) => (.err e, seq, db)

/-- keys.go:33 collectionIDBandWidth -/
def collectionIDBandWidth : UInt64 := 50
/-- keys.go:34 indexIDBandWidth -/
def indexIDBandWidth : UInt64 := 50
/-- keys.go:35 documentIDBandWidth -/
def documentIDBandWidth : UInt64 := 1000
/-- db.go:32: the collection sequence is the one with keyword "collection" (keys.go:31) -/
def collectionSequenceKey : Bytes := metaSequenceKey [99, 111, 108, 108, 101, 99, 116, 105, 111, 110]

end Mondis.Doc
