import Verif.Model.Provider
/-!
# Model of the non-transactional provider operations (provider/badger.go, provider/leveldb.go) and of
the write batches
-/
namespace Mondis

namespace Badger

/-- provider/badger.go:44-55 Set: one write in a transaction of its own.  `fail` is the engine's
reason for refusing the commit. -/
def set (env : Env) (fail : Option Err) (db : DB) (k v : Bytes) (vm : Option VMetaReq) :
    Res Unit × DB :=
  match (Txn.start { env with update := true } db).set k v vm with
  | (.ok _, t) => t.commit fail db
  | (r, _) => (r, db)

/-- provider/badger.go:76-86 Delete.  The error of badger's own Delete is returned unmapped;
ErrTxnTooBig cannot arise from a single small write, so both are written as the same error here. -/
def delete (env : Env) (fail : Option Err) (db : DB) (k : Bytes) : Res Unit × DB :=
  match (Txn.start { env with update := true } db).delete k with
  | (.ok _, t) => t.commit fail db
  | (r, _) => (r, db)

/-- provider/badger.go:67-73 Get -/
def get (env : Env) (db : DB) (k : Bytes) : Res Val :=
  ((Txn.start { env with update := false } db).get k).1

/-- provider/badger.go:58-64 Exists -/
def exists' (env : Env) (db : DB) (k : Bytes) : Res Bool :=
  ((Txn.start { env with update := false } db).exists' k).1

/-- provider/badger.go:89-96 Scan -/
def scan (env : Env) (db : DB) (o : ScanOption) : List (Bytes × Val) :=
  (Txn.start { env with update := false } db).scan o

end Badger

/-! ## Write batches -/

/-- A batched operation. -/
inductive BatchOp where
  | set (k v : Bytes)
  | del (k : Bytes)
  deriving DecidableEq, Repr

/-- The write a batched operation stands for. -/
def BatchOp.write : BatchOp → Bytes × Option Val
  | .set k v => (k, some { value := v })
  | .del k => (k, none)

/-- provider/badger_wb.go over *contract* badger v1.6.0 WriteBatch: `db` already contains what was
flushed when the batch's transaction became full; `pending` is the current transaction's writes. -/
structure BadgerWB where
  db : DB
  pending : List (Bytes × Option Val) := []
  attempts : Nat := 0
  /-- sticky error (wb.err) -/
  err : Option Err := none

namespace BadgerWB

/-- *contract* WriteBatch.SetEntry / Delete: try; when the transaction is full commit it, start a
new one and try again, and make a second refusal permanent.  `tooBig` as in `Env`; `commitFail`
says whether the engine refuses the n-th intermediate commit. -/
def put (tooBig : Nat → Bool) (commitFail : Nat → Option Err) (wb : BadgerWB) (op : BatchOp) :
    Res Unit × BadgerWB :=
  match keyErr op.write.1 with
  | some e => (.err e, wb)
  | none =>
    if !tooBig wb.attempts then
      (.ok (), { wb with pending := wb.pending ++ [op.write], attempts := wb.attempts + 1 })
    else match wb.err with
      | some e => (.err e, { wb with attempts := wb.attempts + 1 })
      | none => match commitFail wb.attempts with
        | some e => (.err e, { wb with err := some e, pending := [], attempts := wb.attempts + 1 })
        | none =>
          let db' := applyWrites wb.db wb.pending
          if tooBig (wb.attempts + 1) then
            (.err .txnTooBig, ⟨db', [], wb.attempts + 2, some .txnTooBig⟩)
          else (.ok (), ⟨db', [op.write], wb.attempts + 2, none⟩)

/-- provider/badger_wb.go:15-17 Commit, *contract* WriteBatch.Flush -/
def commit (wb : BadgerWB) (fail : Option Err) : Res Unit × DB :=
  match wb.err with
  | some e => (.err e, wb.db)
  | none => match fail with
    | some e => (.err e, wb.db)
    | none => (.ok (), applyWrites wb.db wb.pending)

/-- provider/badger_wb.go:19-21 Discard, *contract* WriteBatch.Cancel: only the current transaction
is dropped. -/
def discard (wb : BadgerWB) : DB := wb.db

/-- A batch: its answers and its final state. -/
def run (tooBig : Nat → Bool) (commitFail : Nat → Option Err) (wb : BadgerWB) :
    List BatchOp → List (Res Unit) × BadgerWB
  | [] => ([], wb)
  | op :: ops =>
    let (r, wb) := wb.put tooBig commitFail op
    let (rs, wb) := wb.run tooBig commitFail ops
    (r :: rs, wb)

end BadgerWB

/-! ## LevelDB -/

namespace LevelDB

/-- Contents of a LevelDB database: plain values. -/
abbrev LDB := OMap Bytes

/-- provider/leveldb.go:48-55 Set.  *contract* Put accepts every key, also the empty one. -/
def set (db : LDB) (k v : Bytes) (vm : Option VMetaReq) : Res Unit × LDB :=
  match vm with
  | some _ => (.err .unsupported, db)
  | none => (.ok (), db.set k v)

/-- provider/leveldb.go:58-62 Exists -/
def exists' (db : LDB) (k : Bytes) : Res Bool := .ok (db.get k).isSome

/-- provider/leveldb.go:65-77 Get -/
def get (db : LDB) (k : Bytes) : Res Bytes :=
  match db.get k with
  | some v => .ok v
  | none => .err .keyNotFound

/-- provider/leveldb.go:80-83 Delete -/
def delete (db : LDB) (k : Bytes) : Res Unit × LDB := (.ok (), db.del k)

/-- *contract* goleveldb util.BytesPrefix: the exclusive upper bound of the range of keys with a
prefix: the last byte that is not 0xFF incremented and the rest cut off; none if all are 0xFF. -/
def prefixLimit : Bytes → Option Bytes
  | [] => none
  | b :: rest =>
    match prefixLimit rest with
    | some l => some (b :: l)
    | none => if b = 0xFF then none else some [b + 1]

/-- Is the key inside util.BytesPrefix(prefix)? -/
def inRange (pfx k : Bytes) : Bool :=
  decide (pfx ≤ k) && match prefixLimit pfx with
    | some l => decide (k < l)
    | none => true

/-- provider/leveldb.go:88-119 Scan: the entries handed to the callback if it never stops.
*contract* the iterator is confined to the range, `Seek` goes to the first key ≥ the given one inside
the range, `Next` on a fresh iterator goes to the first key. -/
def scan (db : LDB) (o : ScanOption) : Res (List (Bytes × Bytes)) :=
  if o.reverse then .err .unsupported
  else
    let range := db.ents.filter (fun e => inRange o.pfx e.1)
    .ok (if o.offset = [] then range else range.dropWhile (fun e => decide (e.1 < o.offset)))

/-- provider/leveldb_wb.go: a batch is a list of operations, applied atomically by Commit
(*contract* DB.Write) and forgotten by Discard. -/
def batchCommit (db : LDB) (ops : List BatchOp) (fail : Option Err) : Res Unit × LDB :=
  match fail with
  | some e => (.err e, db)
  | none => (.ok (), ops.foldl (fun m op => match op with
      | .set k v => m.set k v
      | .del k => m.del k) db)

end LevelDB
end Mondis
