import Verif.Model.Job
import Verif.Model.Sequence
import Verif.Lemmas.StructStep
/-!
# Model of document/meta/meta.go

A function of package meta is a sequence of calls of package structure, each on the user key and with the
arguments given (`SProg`); `SProg.prog` turns it into a program over the transaction.
-/
namespace Mondis

/-- A program over the operations of a TxStructure. -/
inductive SProg (α : Type) where
  | done (r : Res α)
  | op (o : Spec.SOp) (cont : Res Spec.Out → SProg α)

namespace SProg

/-- Sequencing with error inspection. -/
def andThen {α β : Type} : SProg α → (Res α → SProg β) → SProg β
  | done r, f => f r
  | op o c, f => .op o (fun r => (c r).andThen f)

/-- `if err != nil { return }` sequencing. -/
def bind {α β : Type} (p : SProg α) (f : α → SProg β) : SProg β :=
  p.andThen (fun r => match r with
    | .ok a => f a
    | .err e => .done (.err e)
    | .panic => .done .panic)

instance : Monad SProg where
  pure a := .done (.ok a)
  bind := bind

/-- The program over the transaction: every operation as package structure performs it. -/
def prog {α : Type} (pfx : Bytes) : SProg α → Prog α
  | done r => .done r
  | op o c => (Structure.exec pfx o).andThen (fun r => (c r).prog pfx)

/-- Lift a pure result. -/
def ofRes {α : Type} (r : Res α) : SProg α := .done r

/-- An operation answering nothing but an error. -/
def unitOp (o : Spec.SOp) : SProg Unit := .op o (fun r => .done (r.map' (fun _ => ())))
/-- An operation answering bytes. -/
def bytesOp (o : Spec.SOp) : SProg Bytes := .op o (fun r => match r with
  | .ok (.bytes b) => .done (.ok b)
  | .ok _ => .done .panic
  | .err e => .done (.err e)
  | .panic => .done .panic)
/-- An operation answering an int64. -/
def intOp (o : Spec.SOp) : SProg Int64 := .op o (fun r => match r with
  | .ok (.int i) => .done (.ok (Int64.ofInt i))
  | .ok _ => .done .panic
  | .err e => .done (.err e)
  | .panic => .done .panic)
/-- An operation answering a list of values. -/
def listOp (o : Spec.SOp) : SProg (List Bytes) := .op o (fun r => match r with
  | .ok (.list l) => .done (.ok l)
  | .ok _ => .done .panic
  | .err e => .done (.err e)
  | .panic => .done .panic)
/-- An operation answering field-value pairs. -/
def pairsOp (o : Spec.SOp) : SProg (List (Bytes × Bytes)) := .op o (fun r => match r with
  | .ok (.pairs l) => .done (.ok l)
  | .ok _ => .done .panic
  | .err e => .done (.err e)
  | .panic => .done .panic)

end SProg

/-- Decode values in order, stopping at the first error (the loops of meta.go:302-316, 328-335, 559-566,
599-609). -/
def decodeAll {α : Type} (f : Bytes → Res α) : List Bytes → Res (List α)
  | [] => .ok []
  | v :: vs => match f v with
    | .ok a => (decodeAll f vs).map' (a :: ·)
    | .err e => .err e
    | .panic => .panic

namespace Meta
open Schema Spec SProg

/-- meta.go:47-56 "schemaVersion" -/
def schemaVersionKey : Bytes := [115, 99, 104, 101, 109, 97, 86, 101, 114, 115, 105, 111, 110]
/-- meta.go:47-56 "schemaDiff" -/
def schemaDiffPrefix : Bytes := [115, 99, 104, 101, 109, 97, 68, 105, 102, 102]
/-- meta.go:47-56 "bootstrap" -/
def bootstrapKey : Bytes := [98, 111, 111, 116, 115, 116, 114, 97, 112]
/-- meta.go:47-56 "globalID" -/
def globalIDKey : Bytes := [103, 108, 111, 98, 97, 108, 73, 68]
/-- meta.go:47-56 "dbs" -/
def dbsKey : Bytes := [100, 98, 115]
/-- meta.go:47-56 "db" -/
def dbPrefix : Bytes := [100, 98]
/-- meta.go:47-56 "collectionInfo" -/
def collectionInfoPrefix : Bytes := [99, 111, 108, 108, 101, 99, 116, 105, 111, 110, 73, 110, 102, 111]
/-- meta.go:47-56 "didSequence" -/
def didSequencePrefix : Bytes := [100, 105, 100, 83, 101, 113, 117, 101, 110, 99, 101]
/-- meta.go:430-435 "DDLJobList" -/
def ddlJobListKey : Bytes := [68, 68, 76, 74, 111, 98, 76, 105, 115, 116]
/-- meta.go:430-435 "DDLJobAddIdxList" -/
def ddlJobAddIdxListKey : Bytes := [68, 68, 76, 74, 111, 98, 65, 100, 100, 73, 100, 120, 76, 105, 115, 116]
/-- meta.go:430-435 "DDLJobHistory" -/
def ddlJobHistoryKey : Bytes := [68, 68, 76, 74, 111, 98, 72, 105, 115, 116, 111, 114, 121]
/-- meta.go:430-435 "DDLJobReorg" -/
def ddlJobReorgKey : Bytes := [68, 68, 76, 74, 111, 98, 82, 101, 111, 114, 103]

def errDBNotExists : Err := .other 100
def errDBExists : Err := .other 101
def errCollectionExists : Err := .other 102
def errCollectionNotExists : Err := .other 103
def errJobNotExists : Err := .other 104

/-- meta.go:437-445 JobListKeyType: DefaultJobListKey and AddIndexJobListKey -/
inductive ListKey where
  | default | addIndex
  deriving DecidableEq, Repr

/-- The key of a job list. -/
def ListKey.key : ListKey → Bytes
  | .default => ddlJobListKey
  | .addIndex => ddlJobAddIdxListKey

/-- fmt.Sprintf("%s:%d", prefix, id) -/
def idKey (pfx : Bytes) (id : Int64) : Bytes := pfx ++ (58 :: Numeric.formatInt id)

/-- meta.go:84-86 dbKeyByID -/
def dbKeyByID (id : Int64) : Bytes := idKey dbPrefix id
/-- meta.go:88-90 collectionInfoKeyByID -/
def collectionInfoKeyByID (id : Int64) : Bytes := idKey collectionInfoPrefix id
/-- meta.go:92-94 didSequenceKeyByID -/
def didSequenceKeyByID (id : Int64) : Bytes := idKey didSequencePrefix id
/-- meta.go:394-396 schemaDiffKey -/
def schemaDiffKey (v : Int64) : Bytes := idKey schemaDiffPrefix v
/-- meta.go:570-572 historyJobIDKey; meta.go:633-635 reorgJobStartHandle -/
def jobIDKey (id : Int64) : Bytes := Numeric.encode2Binary id.toUInt64 []
/-- meta.go:637-642 reorgJobEndHandle -/
def jobEndKey (id : Int64) : Bytes := Numeric.encode2Binary id.toUInt64 [] ++ [95, 101, 110, 100]

/-- `if err == kv.ErrKeyNotFound { err = e }` -/
def notFoundIs {α : Type} (e : Err) (p : SProg α) : SProg α :=
  p.andThen (fun r => match r with
    | .err .keyNotFound => .done (.err e)
    | r => .done r)

/-- `if err == kv.ErrKeyNotFound { err = nil; return }`: a nil answer. -/
def notFoundNil {α : Type} (p : SProg α) : SProg (Option α) :=
  p.andThen (fun r => match r with
    | .ok a => .done (.ok (some a))
    | .err .keyNotFound => .done (.ok none)
    | .err e => .done (.err e)
    | .panic => .done .panic)

/-- `if err == ErrKeyNotFound { err = nil } else if err == nil { err = e }` -/
def mustBeAbsent {α : Type} (e : Err) (p : SProg α) : SProg Unit :=
  p.andThen (fun r => match r with
    | .ok _ => .done (.err e)
    | .err .keyNotFound => .done (.ok ())
    | .err e' => .done (.err e')
    | .panic => .done .panic)

/-- meta.go:96-102 checkDBExists -/
def checkDBExists (dbKey : Bytes) : SProg Unit := do
  let _ ← notFoundIs errDBNotExists (bytesOp (.hget dbsKey dbKey))
  pure ()

/-- meta.go:104-112 checkDBNotExists -/
def checkDBNotExists (dbKey : Bytes) : SProg Unit :=
  mustBeAbsent errDBExists (bytesOp (.hget dbsKey dbKey))

/-- meta.go:114-120 checkCollectionExists -/
def checkCollectionExists (dbKey collectionKey : Bytes) : SProg Unit := do
  let _ ← notFoundIs errCollectionNotExists (bytesOp (.hget dbKey collectionKey))
  pure ()

/-- meta.go:122-130 checkCollectionNotExists -/
def checkCollectionNotExists (dbKey collectionKey : Bytes) : SProg Unit :=
  mustBeAbsent errCollectionExists (bytesOp (.hget dbKey collectionKey))

/-- meta.go:133-135 GetGlobalID -/
def getGlobalID : SProg Int64 := intOp (.getInt globalIDKey)

/-- meta.go:138-140 GenGlobalID -/
def genGlobalID : SProg Int64 := intOp (.inc globalIDKey 1)

/-- meta.go:143-151 GenGlobalIDs: (start, end] -/
def genGlobalIDs (n : Int64) : SProg (Int64 × Int64) := do
  let e ← intOp (.inc globalIDKey n)
  pure (e - n, e)

/-- meta.go:154-160 GetSchemaVersion -/
def getSchemaVersion : SProg Int64 := do
  let v ← notFoundNil (intOp (.getInt schemaVersionKey))
  pure (v.getD 0)

/-- meta.go:163-165 GenSchemaVersion -/
def genSchemaVersion : SProg Int64 := intOp (.inc schemaVersionKey 1)

/-- meta.go:168-181 CreateDatabase -/
def createDatabase (J : Json) (d : DBInfo) : SProg Unit := do
  let dbKey := dbKeyByID d.id
  checkDBNotExists dbKey
  unitOp (.hset dbsKey dbKey (J.db d))

/-- meta.go:184-197 UpdateDatabase -/
def updateDatabase (J : Json) (d : DBInfo) : SProg Unit := do
  let dbKey := dbKeyByID d.id
  checkDBExists dbKey
  unitOp (.hset dbsKey dbKey (J.db d))

/-- meta.go:200-219 CreateCollection -/
def createCollection (J : Json) (dbID : Int64) (c : CollectionInfo) : SProg Unit := do
  let dbKey := dbKeyByID dbID
  checkDBExists dbKey
  let collectionInfoKey := collectionInfoKeyByID c.id
  checkCollectionNotExists dbKey collectionInfoKey
  unitOp (.hset dbKey collectionInfoKey (J.coll c))

/-- meta.go:222-238 DropDatabase -/
def dropDatabase (dbID : Int64) : SProg Unit := do
  let dbKey := dbKeyByID dbID
  checkDBExists dbKey
  unitOp (.hclear dbKey)
  unitOp (.hdel dbsKey [dbKey])

/-- meta.go:242-264 DropCollection -/
def dropCollection (dbID collectionID : Int64) (delAutoID : Bool) : SProg Unit := do
  let dbKey := dbKeyByID dbID
  checkDBExists dbKey
  let collectionInfoKey := collectionInfoKeyByID collectionID
  checkCollectionExists dbKey collectionInfoKey
  unitOp (.hdel dbKey [collectionInfoKey])
  if delAutoID then unitOp (.hdel dbKey [didSequenceKeyByID collectionID]) else pure ()

/-- meta.go:267-287 UpdateCollection -/
def updateCollection (J : Json) (dbID : Int64) (c : CollectionInfo) : SProg Unit := do
  let dbKey := dbKeyByID dbID
  checkDBExists dbKey
  let collectionInfoKey := collectionInfoKeyByID c.id
  checkCollectionExists dbKey collectionInfoKey
  unitOp (.hset dbKey collectionInfoKey (J.coll c))

/-- meta.go:290-318 ListCollections -/
def listCollections (J : Json) (dbID : Int64) : SProg (List CollectionInfo) := do
  let dbKey := dbKeyByID dbID
  checkDBExists dbKey
  let res ← pairsOp (.hgetAll dbKey)
  ofRes (decodeAll J.uncoll ((res.filter (fun r => Key.hasPrefix r.1 collectionInfoPrefix)).map Prod.snd))

/-- meta.go:321-337 ListDatabases -/
def listDatabases (J : Json) : SProg (List DBInfo) := do
  let res ← pairsOp (.hgetAll dbsKey)
  ofRes (decodeAll J.undb (res.map Prod.snd))

/-- meta.go:340-353 GetDatabase -/
def getDatabase (J : Json) (dbID : Int64) : SProg DBInfo := do
  let value ← notFoundIs errDBNotExists (bytesOp (.hget dbsKey (dbKeyByID dbID)))
  ofRes (J.undb value)

/-- meta.go:356-376 GetCollection -/
def getCollection (J : Json) (dbID collectionID : Int64) : SProg CollectionInfo := do
  let dbKey := dbKeyByID dbID
  checkDBExists dbKey
  let value ← notFoundIs errCollectionNotExists (bytesOp (.hget dbKey (collectionInfoKeyByID collectionID)))
  ofRes (J.uncoll value)

/-- meta.go:379-387 GetBootstrapVersion -/
def getBootstrapVersion : SProg Int64 := do
  let v ← notFoundNil (intOp (.getInt bootstrapKey))
  pure (v.getD 0)

/-- meta.go:389-392 FinishBootstrap -/
def finishBootstrap (version : Int64) : SProg Unit := unitOp (.setInt bootstrapKey version)

/-- meta.go:399-411 GetSchemaDiff -/
def getSchemaDiff (J : Json) (v : Int64) : SProg (Option StoredDiff) := do
  match ← notFoundNil (bytesOp (.get (schemaDiffKey v))) with
  | none => pure none
  | some data =>
    let d ← ofRes (J.undiff data)
    pure (some d)

/-- meta.go:414-422 SetSchemaDiff -/
def setSchemaDiff (J : Json) (d : StoredDiff) : SProg Unit :=
  unitOp (.set (schemaDiffKey d.version) (J.diff d))

/-- meta.go:446-461 EnQueueDDLJob -/
def enQueueDDLJob (J : Json) (l : ListKey) (j : Job) : SProg Unit :=
  unitOp (.rpush l.key [J.job j.sealed])

/-- meta.go:464-482 DeQueueDDLJob -/
def deQueueDDLJob (J : Json) (l : ListKey) : SProg (Option Job) := do
  match ← notFoundNil (bytesOp (.lpop l.key)) with
  | none => pure none
  | some value =>
    let j ← ofRes (J.unjob value)
    pure (some j)

/-- meta.go:484-509 GetDDLJobByIdx -/
def getDDLJobByIdx (J : Json) (l : ListKey) (index : Int64) : SProg (Option Job) := do
  match ← notFoundNil (bytesOp (.lindex l.key index)) with
  | none => pure none
  | some value =>
    let j ← ofRes (J.unjob value)
    pure (some j)

/-- meta.go:512-534 UpdateDDLJob -/
def updateDDLJob (J : Json) (l : ListKey) (index : Int64) (j : Job) : SProg Unit :=
  notFoundIs errJobNotExists (unitOp (.lset l.key index (J.job j.sealed)))

/-- meta.go:537-543 DDLJobQueueLen -/
def ddlJobQueueLen (l : ListKey) : SProg Int64 := intOp (.llen l.key)

/-- meta.go:546-568 GetAllDDLJobsInQueue -/
def getAllDDLJobsInQueue (J : Json) (l : ListKey) : SProg (List Job) := do
  let values ← listOp (.lgetAll l.key)
  ofRes (decodeAll J.unjob values)

/-- meta.go:575-581 AddHistoryDDLJob -/
def addHistoryDDLJob (J : Json) (j : Job) : SProg Unit :=
  unitOp (.hset ddlJobHistoryKey (jobIDKey j.id) (J.job j.sealed))

/-- meta.go:584-597 GetHistoryDDLJob -/
def getHistoryDDLJob (J : Json) (id : Int64) : SProg (Option Job) := do
  match ← notFoundNil (bytesOp (.hget ddlJobHistoryKey (jobIDKey id))) with
  | none => pure none
  | some value =>
    let j ← ofRes (J.unjob value)
    pure (some j)

/-- meta.go:613-621 GetAllHistoryDDLJobs -/
def getAllHistoryDDLJobs (J : Json) : SProg (List Job) := do
  let pairs ← pairsOp (.hgetAll ddlJobHistoryKey)
  ofRes (decodeAll J.unjob (pairs.map Prod.snd))

/-- meta.go:624-631 GetLastNHistoryDDLJobs -/
def getLastNHistoryDDLJobs (J : Json) (num : Int) : SProg (List Job) := do
  let pairs ← pairsOp (.hgetNDesc ddlJobHistoryKey num)
  ofRes (decodeAll J.unjob (pairs.map Prod.snd))

/-- meta.go:645-648 UpdateDDLReorgStartHandle -/
def updateDDLReorgStartHandle (id start : Int64) : SProg Unit :=
  unitOp (.hset ddlJobReorgKey (jobIDKey id) (Numeric.encode2Human start))

/-- meta.go:651-658 UpdateDDLReorgHandle -/
def updateDDLReorgHandle (id start end' : Int64) : SProg Unit := do
  unitOp (.hset ddlJobReorgKey (jobIDKey id) (Numeric.encode2Human start))
  unitOp (.hset ddlJobReorgKey (jobEndKey id) (Numeric.encode2Human end'))

/-- meta.go:661-668 RemoveDDLReorgHandle -/
def removeDDLReorgHandle (id : Int64) : SProg Unit := do
  unitOp (.hdel ddlJobReorgKey [jobIDKey id])
  unitOp (.hdel ddlJobReorgKey [jobEndKey id])

/-- meta.go:671-681 GetDDLReorgHandle -/
def getDDLReorgHandle (id : Int64) : SProg (Int64 × Int64) := do
  let s ← intOp (.hgetInt ddlJobReorgKey (jobIDKey id))
  let e ← intOp (.hgetInt ddlJobReorgKey (jobEndKey id))
  pure (s, e)

/-- The counter of a document id sequence (did_sequence.go:9-19 puts it into the hash of the database;
sequence/hash.go RenewLease adds to it). -/
def incDidSequence (dbID collectionID step : Int64) : SProg Int64 :=
  intOp (.hinc (dbKeyByID dbID) (didSequenceKeyByID collectionID) step)

end Meta
end Mondis
