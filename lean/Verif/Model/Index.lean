import Verif.Model.Document
/-!
# Model of the index catalogue: document/collection.go:370-601
-/
namespace Mondis.Doc
open Mondis Prog

/-- collection.go:371-387 IndexDefinition (IndexOption has the one field Unique) -/
structure IndexDef where
  name : Bytes
  fields : List IndexField
  unique : Bool := false
  deriving DecidableEq, Repr

/-- *contract* bson.Marshal / bson.Unmarshal on IndexDefinition (strings, booleans and a slice of such
structs): lossless, never refused. -/
structure IndexCodec where
  marshal : IndexDef → Bytes
  unmarshal : Bytes → Res IndexDef
  law : ∀ d, unmarshal (marshal d) = .ok d

/-- collection.go:103 ErrIndexNameEmpty -/
def errIndexNameEmpty : Err := .other 65
/-- collection.go:105 ErrIndexFieldsEmpty -/
def errIndexFieldsEmpty : Err := .other 66
/-- collection.go:433 "there already exists index %s on the same columns" -/
def errSameColumns : Err := .other 67

/-- db.go:33: the index sequence is the one with keyword "index" (keys.go:32) -/
def indexSequenceKey : Bytes := metaSequenceKey [105, 110, 100, 101, 120]

/-- collection.go:428-441: is there an index on these columns?  The Get of an entry with an empty value
answers a nil slice and no error, which counts as absent. -/
def checkColumns (ciKey : Bytes) : Prog Unit := .get ciKey (fun r => match r with
  | .ok v => if v.value = [] then .done (.ok ()) else .done (.err errSameColumns)
  | .err .keyNotFound => .done (.ok ())
  | .err e => .done (.err e)
  | .panic => .done .panic)

/-- collection.go:446-457: the three writes.  The error of the second one is ignored. -/
def writeIndex (IC : IndexCodec) (cid iid : Int64) (ciKey : Bytes) (d : IndexDef) : Prog Unit := do
  setK ciKey d.name
  let iidv ← ofRes (Compact.encodeVarint [] iid)
  (setK (indexName2IDKey cid d.name) iidv).andThen (fun r => match r with
    | .panic => .done .panic
    | _ => setK (metaIndexKey iid) (IC.marshal d))

/-- collection.go:399-468 CreateIndex.  `seq` is the DB's index sequence, `c` the circumstances of
CreateIndex's own transaction and `cs` those of the renewal inside indexSequence.Next.  `mem` is the
object's indexMap; idef.Fields is the slice that keys.go:88-94 rearranged in place. -/
def createIndex (IC : IndexCodec) (st : DBState) (cid : Int64) (d : IndexDef) (seq : Sequence.Old.Seq)
    (c cs : Sequence.Circ) (mem : OMap IndexDef) (db : DB) :
    Res Int64 × Sequence.Old.Seq × DB × OMap IndexDef :=
  if d.name = [] then (.err errIndexNameEmpty, seq, db, mem)
  else if d.fields = [] then (.err errIndexFieldsEmpty, seq, db, mem)
  else match checkState st with
    | .err e => (.err e, seq, db, mem)
    | .panic => (.panic, seq, db, mem)
    | .ok _ =>
      match columnsIndexedKey cid d.fields with
      | .err e => (.err e, seq, db, mem)
      | .panic => (.panic, seq, db, mem)
      | .ok ciKey =>
        match (checkColumns ciKey).run (Txn.start { c.env with update := true } c.snap) with
        | (.err e, _) => (.err e, seq, db, mem)
        | (.panic, _) => (.panic, seq, db, mem)
        | (.ok _, t) =>
          match seq.nextId cs db with
          | (.err e, seq, db) => (.err e, seq, db, mem)
          | (.panic, seq, db) => (.panic, seq, db, mem)
          | (.ok u, seq, db) =>
            match (writeIndex IC cid u.toInt64 ciKey d).run t with
            | (.err e, _) => (.err e, seq, db, mem)
            | (.panic, _) => (.panic, seq, db, mem)
            | (.ok _, t) => match t.commit c.fail db with
              | (.ok _, db) => (.ok u.toInt64, seq, db, mem.set d.name { d with fields := normFields d.fields })
              | (.err e, db) => (.err e, seq, db, mem)
              | (.panic, db) => (.panic, seq, db, mem)

/-- collection.go:483-507, the scan's callback for the entries in turn: an entry whose key belongs to
another collection, or whose value has bytes left over, ends the scan without an error. -/
def getIndexesLoop (IC : IndexCodec) (cid : Int64) : List (Bytes × Val) → Prog (List IndexDef)
  | [] => pure []
  | (k, v) :: l =>
    match decodeIndexName2IDKey k with
    | .err e => fail e
    | .panic => .done .panic
    | .ok (cid', _) =>
      if cid' ≠ cid then pure []
      else match Compact.decodeVarint v.value with
        | .err e => fail e
        | .panic => .done .panic
        | .ok (leftover, iid) =>
          if leftover.length > 0 then pure []
          else do
            let w ← getK (metaIndexKey iid)
            let d ← ofRes (IC.unmarshal w.value)
            let ds ← getIndexesLoop IC cid l
            pure (d :: ds)

/-- collection.go:470-516 getIndexes -/
def getIndexes (IC : IndexCodec) (cid : Int64) : Prog (List IndexDef) := do
  let l ← scanK { pfx := indexNameKeyPrefix cid }
  getIndexesLoop IC cid l

/-- collection.go:50-56: the indexMap of a new Collection object -/
def memOf (ds : List IndexDef) : OMap IndexDef := ds.foldl (fun m d => m.set d.name d) .empty

/-- collection.go:551-591 DropIndex inside its transaction; `none` if there is no such index. -/
def dropIndexTxn (IC : IndexCodec) (cid : Int64) (iname : Bytes) : Prog (Option IndexDef) :=
  .get (indexName2IDKey cid iname) (fun r => match r with
    | .err .keyNotFound => .done (.ok none)
    | .panic => .done .panic
    | r => do
      let (_, iid) ← ofRes (Compact.decodeVarint (match r with | .ok v => v.value | _ => []))
      let w ← getK (metaIndexKey iid)
      let d ← ofRes (IC.unmarshal w.value)
      let ciKey ← ofRes (columnsIndexedKey cid d.fields)
      delK ciKey
      delK (metaIndexKey iid)
      delK (indexName2IDKey cid iname)
      pure (some d))

/-- collection.go:532-601 DropIndex.  The first component is `exists`. -/
def dropIndex (IC : IndexCodec) (st : DBState) (cid : Int64) (iname : Bytes) (c : Sequence.Circ) (mem : OMap IndexDef)
    (db : DB) : Res Bool × DB × OMap IndexDef :=
  if iname = [] then (.err errIndexNameEmpty, db, mem)
  else match checkState st with
    | .err e => (.err e, db, mem)
    | .panic => (.panic, db, mem)
    | .ok _ =>
      match (dropIndexTxn IC cid iname).run (Txn.start { c.env with update := true } c.snap) with
      | (.err e, _) => (.err e, db, mem)
      | (.panic, _) => (.panic, db, mem)
      | (.ok none, _) => (.ok false, db, mem)
      | (.ok (some d), t) => match t.commit c.fail db with
        | (.ok _, db) => (.ok true, db, mem.del d.name)
        | (.err e, db) => (.err e, db, mem)
        | (.panic, db) => (.panic, db, mem)

end Mondis.Doc
