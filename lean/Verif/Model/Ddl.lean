import Verif.Model.Client
import Verif.Model.Dml
/-!
# Model of document/ddl/

Every transaction of package ddl is a program over the functions of package meta (`Spec.Client`,
run by `MetaTxn.run`).  Timers, leases, logging and the notification channel are not modelled: when the
worker runs is up to the history.  `schemaVersion`, which is only passed to waitSchemaChanged (a sleep), is
left out.  Values that the code shares by pointer are updated together here.
-/
namespace Mondis.Ddl
open Mondis Schema Spec Meta

/-- ddl.go:19 ErrJobsInQueueExceeded -/
def errJobsInQueueExceeded : Err := .other 110
/-- ddl.go:21 ErrDBAlreadyExists -/
def errDBAlreadyExists : Err := .other 111
/-- ddl.go:23 ErrCollectionNotExists -/
def errCollectionNotExists : Err := .other 112
/-- ddl.go:25 ErrDBNotExists -/
def errDBNotExists : Err := .other 113
/-- ddl.go:27 ErrIndexAlreadyExists -/
def errIndexAlreadyExists : Err := .other 114
/-- ddl.go:31 ErrInvalidDDLState -/
def errInvalidDDLState : Err := .other 116
/-- input.go "db empty" -/
def errDBEmpty : Err := .other 117
/-- input.go "collection empty" -/
def errCollectionEmpty : Err := .other 118
/-- input.go "index name empty" -/
def errIndexNameEmpty : Err := .other 119
/-- input.go "index columns empty" -/
def errIndexColumnsEmpty : Err := .other 120
/-- ddl_worker.go:163 "invalid ddl job type" -/
def errInvalidJobType : Err := .other 121
/-- dml/sequence.go:17 ErrSequenceAlreadyExists -/
def errSequenceAlreadyExists : Err := .other 122

/-- ddl.go:13 maxJobsInQueue -/
def maxJobsInQueue : Int64 := 100
/-- ddl_worker.go:59 jobMaxErrorCount -/
def jobMaxErrorCount : Int64 := 3

/-- The order in which a `range` over a map visits its entries: any. -/
structure Order where
  visit : {α : Type} → List α → List α
  perm : ∀ {α : Type} (l : List α), (visit l).Perm l

/-! ## Input -/

/-- input.go:146-150 IndexInfo -/
structure IndexIn where
  name : Bytes
  columns : List Bytes
  unique : Bool := false

/-- input.go:145-155 IndexInfo.Validate -/
def IndexIn.validate (i : IndexIn) : Res Unit :=
  if i.name = [] then .err errIndexNameEmpty
  else if i.columns.length = 0 then .err errIndexColumnsEmpty
  else .ok ()

/-- input.go:166-179 ToModel -/
def IndexIn.toModel (i : IndexIn) : IndexInfo := { name := i.name, unique := i.unique, columns := i.columns }

/-- input.go:10-14 CreateSchemaInput -/
structure CreateSchemaInput where
  db : Bytes
  collections : List Bytes := []
  indices : OMap (List IndexIn) := OMap.empty

/-- The first error of a loop that stops at errors. -/
def firstErr {α : Type} (f : α → Res Unit) : List α → Res Unit
  | [] => .ok ()
  | a :: l => match f a with
    | .ok _ => firstErr f l
    | .err e => .err e
    | .panic => .panic

/-- input.go:17-37 CreateSchemaInput.Validate -/
def CreateSchemaInput.validate (o : Order) (i : CreateSchemaInput) : Res Unit :=
  if i.db = [] then .err errDBEmpty
  else match firstErr (fun cn : Bytes => if cn = [] then .err errCollectionEmpty else .ok ()) i.collections with
    | .ok _ => firstErr (fun l => firstErr IndexIn.validate l) (o.visit (i.indices.ents.map Prod.snd))
    | .err e => .err e
    | .panic => .panic

/-- input.go:97-101 AddIndexInput -/
structure AddIndexInput where
  db : Bytes
  collection : Bytes
  index : IndexIn

/-! ## util.go -/

/-- util.go:21-34 getDbInfo -/
def getDbInfo (name : Bytes) : Client (Option DBInfo) := do
  let l ← Client.one .listDatabases
  pure (l.find? (fun d => decide (d.name = name)))

/-- util.go:8-20 checkDBNameNotExists; `exists` is never set. -/
def checkDBNameNotExists (name : Bytes) : Client Unit :=
  (getDbInfo name).bind (fun
    | some _ => .done (.err errDBAlreadyExists)
    | none => pure ())

/-- util.go:36-54 checkIndexNameNotExists -/
def checkIndexNameNotExists (db coll idx : Bytes) : Client Bool :=
  (getDbInfo db).bind (fun
    | none => .done (.err errDBNotExists)
    | some d => match d.collections.get coll with
      | none => .done (.err errCollectionNotExists)
      | some c => pure (c.indices.bind (fun m => m.get idx)).isSome)

/-! ## ddl_api.go -/

/-- ddl_api.go:51-72: the loop over input.Collections.  A new collection has a nil index map, into which
the first index is stored: a panic. -/
def addCollections (ix : Bytes → List IndexIn) : List Bytes → DBInfo → Int64 → Res (DBInfo × Int64)
  | [], d, next => .ok (d, next)
  | cn :: cs, d, next =>
    let known := (d.collections.get cn).isSome
    let d := { d with collections := if known then d.collections
                        else d.collections.set cn { id := next + 1, name := cn },
                      collectionOrder := d.collectionOrder ++ [cn] }
    let next := if known then next else next + 1
    if ix cn = [] then addCollections ix cs d next else .panic

/-- ddl_api.go:43-78: the job for ids after `start` -/
def createJob (i : CreateSchemaInput) (start : Int64) : Res Job :=
  match addCollections (fun cn => (i.indices.get cn).getD []) i.collections { id := start + 1, name := i.db } (start + 1) with
  | .ok (d, next) => .ok { id := next + 1, type := .createSchema, arg := .db d }
  | .err e => .err e
  | .panic => .panic

/-- ddl_api.go:19: how many ids are taken -/
def CreateSchemaInput.idsTaken (i : CreateSchemaInput) : Int64 :=
  Int64.ofInt (2 + i.collections.length + i.indices.ents.length : Nat)

/-- ddl_api.go:20-84: the transaction of CreateSchema; EnQueueDDLJob fills in RawArg of the job handed back. -/
def createSchemaTxn (i : CreateSchemaInput) : Client Job := do
  let n ← Client.one (.ddlJobQueueLen .default)
  if n > maxJobsInQueue then .done (.err errJobsInQueueExceeded)
  else do
    checkDBNameNotExists i.db
    let (start, _) ← Client.one (.genGlobalIDs i.idsTaken)
    match createJob i start with
    | .ok j => do
      Client.one (.enQueueDDLJob .default j)
      pure j.sealed
    | .err e => .done (.err e)
    | .panic => .done .panic

/-- ddl_api.go:13-18, 20-84: CreateSchema up to the wait for the worker -/
def createSchema (o : Order) (i : CreateSchemaInput) : Client Job :=
  match i.validate o with
  | .ok _ => createSchemaTxn i
  | .err e => .done (.err e)
  | .panic => .done .panic

/-- ddl_api.go:97-129: the transaction of AddIndex -/
def addIndexTxn (i : AddIndexInput) : Client Job := do
  let ex ← checkIndexNameNotExists i.db i.collection i.index.name
  if ex then .done (.err errIndexAlreadyExists)
  else do
    let (start, _) ← Client.one (.genGlobalIDs 2)
    let j : Job := ⟨start + 2, .addIndex, .none, none, 0,
      .idx { i.index.toModel with id := start + 1, jobRedundant := some { db := i.db, collection := i.collection } },
      none, .absent, 0, 0⟩
    Client.one (.enQueueDDLJob .default j)
    pure j.sealed

/-- ddl_api.go:147-156 GetHistoryJob -/
def getHistoryJob (id : Int64) : Client (Option Job) := Client.one (.getHistoryDDLJob id)

/-- What one look of checkJob decides (ddl_worker.go:398-415): `none` to look again. -/
def checkOnce : Res (Option Job) → Option (Res Unit)
  | .ok (some j) =>
    if j.state = .synced then some (.ok ())
    else match j.error with
      | some e => some (.err e)
      | none => some .panic
  | _ => none

/-! ## ddl_worker.go -/

/-- What runJob returns; `after` lists the (database, collection) ids afterCommitFunc4Job creates sequences
for, in order, and `job` is the job as it was changed in place. -/
structure RunOut where
  job : Job
  after : List (Int64 × Int64) := []
  failNow : Bool := false
  err : Option Err := none

/-- The program with its outcome as a value. -/
def attempt {α : Type} : Client α → Client (Res α)
  | .done r => .done (.ok r)
  | .call c k => .call c (fun r => attempt (k r))

/-- Apply a function to all values of a map. -/
def mapVals {V W : Type} (f : V → W) (m : OMap V) : OMap W := ⟨m.ents.map (fun e => (e.1, f e.2)), by
  rw [List.pairwise_map]; exact m.sorted⟩

/-- ddl_worker.go:306-309: state of a collection and its indexes set to public -/
def publicColl (c : CollectionInfo) : CollectionInfo :=
  { c with state := .public, indices := c.indices.map (mapVals (fun i => { i with state := .public })) }

/-- ddl_worker.go:304-311 -/
def publicDB (d : DBInfo) : DBInfo := { d with state := .public, collections := mapVals publicColl d.collections }

/-- ddl_worker.go:448-460 job2CollectionIDs; a wrong type of Arg or a nil JobRedundant panics. -/
def job2CollectionIDs (o : Order) (j : Job) : Res (List Int64) :=
  match j.type, j.arg with
  | .createSchema, .db d => .ok ((o.visit d.collections.ents).map (fun e => e.2.id))
  | .createSchema, _ => .panic
  | .addIndex, .idx i => match i.jobRedundant with
    | some r => .ok [r.cid]
    | none => .panic
  | .addIndex, _ => .panic
  | _, _ => .ok []

/-- ddl_worker.go:364-380 updateSchemaVersion -/
def updateSchemaVersion (o : Order) (j : Job) : Client Unit := do
  let v ← Client.one .genSchemaVersion
  match job2CollectionIDs o j with
  | .ok ids => Client.one (.setSchemaDiff ⟨v, j.type, ids, j.raw.getD j.arg⟩)
  | .err e => .done (.err e)
  | .panic => .done .panic

/-- ddl_worker.go:343-361 updateSchemaVersionAndCollectionInfo (UpdateCollectionInfo is model.go:141-149) -/
def updateCollectionInfo (o : Order) (j : Job) (d : DBInfo) (c : CollectionInfo) : Client Unit := do
  Client.one (.updateCollection d.id c)
  if d.collections.get c.name = none then .done .panic
  else do
    Client.one (.updateDatabase { d with collections := d.collections.set c.name c })
    updateSchemaVersion o j

/-- ddl_worker.go:315-320: CreateCollection for each -/
def createCollections (db : Int64) : List CollectionInfo → Client Unit
  | [] => pure ()
  | c :: cs => do
    Client.one (.createCollection db c)
    createCollections db cs

/-- ddl_worker.go:286-341 onCreateSchema.  Arg is the decoded DBInfo, made public in place; RawArg stays. -/
def onCreateSchema (o₁ o₂ o₃ : Order) (job : Job) : Client RunOut :=
  match job.decodeDB with
  | .ok d =>
    let p := publicDB d
    let job := { job with arg := .db p }
    (attempt (do
      checkDBNameNotExists d.name
      Client.one (.createDatabase p)
      createCollections p.id ((o₁.visit p.collections.ents).map Prod.snd)
      updateSchemaVersion o₂ job)).bind (fun
      | .ok _ => pure { job := { job with state := .done, schemaState := .public },
                        after := (o₃.visit p.collections.ents).map (fun e => (p.id, e.2.id)) }
      | .err e => pure { job := job, err := some e }
      | .panic => .done .panic)
  | .err e => pure { job := { job with state := .cancelled, arg := .db {} }, err := some e }
  | .panic => .done .panic

/-- ddl_worker.go:234-248, 251-266: the index gets its next state (UpdateIndexInfo is model.go:193-201); a nil
index or a nil map panics. -/
def advanceIndex (c : CollectionInfo) (name : Bytes) (s : SchemaState) : Res CollectionInfo :=
  match c.indices with
  | none => .panic
  | some m => match m.get name with
    | none => .panic
    | some i =>
      let i := { i with state := s }
      let m := m.set name i
      if m.get i.name = none then .panic else .ok { c with indices := some (m.set i.name i) }

/-- ddl_worker.go:189-284 onAddIndex -/
def onAddIndex (o : Order) (job : Job) : Client RunOut :=
  match job.decodeIdx with
  | .ok info =>
    let job := { job with arg := .idx info }
    match info.jobRedundant with
    | none => .done .panic
    | some r =>
      (attempt (getDbInfo r.db)).bind (fun
      | .ok (some d) => match d.collections.get r.collection with
        | none => pure { job := job, failNow := true, err := some errCollectionNotExists }
        | some c =>
          let store (job job' : Job) (c : CollectionInfo) : Client RunOut :=
            (attempt (updateCollectionInfo o job { d with collections := d.collections.set r.collection c } c)).bind (fun
            | .ok _ => pure { job := job' }
            | .err e => pure { job := job, err := some e }
            | .panic => .done .panic)
          match job.schemaState with
          | .absent =>
            if (c.indices.bind (fun m => m.get info.name)).isSome then
              pure { job := job, failNow := true, err := some errIndexAlreadyExists }
            else match c.indices with
              | none => .done .panic
              | some m =>
                let job := { job with arg := .idx { info with jobRedundant := some { r with cid := c.id } } }
                store job { job with raw := none, schemaState := .deleteOnly }
                  { c with indices := some (m.set info.name { info with jobRedundant := none, state := .deleteOnly }),
                           indexOrder := c.indexOrder ++ [info.name] }
          | .deleteOnly => match advanceIndex c info.name .writeOnly with
            | .ok c => store job { job with schemaState := .writeOnly } c
            | _ => .done .panic
          | .writeOnly => match advanceIndex c info.name .writeReorganization with
            | .ok c => store job { job with schemaState := .writeReorganization } c
            | _ => .done .panic
          | .writeReorganization => pure { job := job }
          | _ => pure { job := job, failNow := true, err := some errInvalidDDLState }
      | .ok none => pure { job := job, failNow := true, err := some errDBNotExists }
      | .err e => pure { job := job, err := some e }
      | .panic => .done .panic)
  | .err e => pure { job := { job with state := .cancelled, arg := .idx {} }, err := some e }
  | .panic => .done .panic

/-- ddl_worker.go:146-166 runJob -/
def runJob (o₁ o₂ o₃ : Order) (job : Job) : Client RunOut :=
  if job.isFinished then pure { job := job }
  else
    let job := if job.state = .rollingback ∨ job.state = .cancelling then job else { job with state := .running }
    match job.type with
    | .createSchema => onCreateSchema o₁ o₂ o₃ job
    | .addIndex => onAddIndex o₂ job
    | _ => pure { job := { job with state := .cancelled }, err := some errInvalidJobType }

/-- ddl_worker.go:65-72: the variables that live across the iterations of handleJobQueue and matter there
(afterCommitFunc4Job is reset, :120) -/
structure Vars where
  failNow : Bool := false
  err : Option Err := none
  deriving DecidableEq

/-- What the transaction of one iteration leaves in the variables. -/
structure WorkOut where
  nojob : Bool := false
  vars : Vars
  after : List (Int64 × Int64) := []

/-- ddl_worker.go:122-134: what OnChanged is called with after an iteration; `none` if it is not called.  After an error it
may be the error of a runJob instead, of this iteration or the one before (:124, the variable outlives the iteration):
that it is an error is all that counts here. -/
def onChanged : Res WorkOut → Option (Option Err)
  | .ok out => if out.nojob then none else some out.vars.err
  | .err e => some (some e)
  | .panic => none

/-- ddl_worker.go:173-182 finishJob -/
def finishJob (j : Job) : Client Unit := do
  let _ ← Client.one (.deQueueDDLJob .default)
  Client.one (.addHistoryDDLJob j)

/-- ddl_worker.go:94-98: RunWithRecovery.  After a panic the job is marked Cancelling and the variables keep
what the previous iteration left.  (What the job's Arg was set to before a panic is lost: it is not stored,
RawArg being set.) -/
def recovered (job : Job) (vars : Vars) : Res RunOut → Job × Vars × List (Int64 × Int64)
  | .ok out => (out.job, ⟨out.failNow, out.err⟩, out.after)
  | _ => ({ job with state := .cancelling }, vars, [])

/-- ddl_worker.go:100-116: what is done with the job that ran -/
def settle (job : Job) (vars : Vars) : Client Unit :=
  let rest (job : Job) : Client Unit :=
    if job.state = .cancelled then finishJob job else Client.one (.updateDDLJob .default 0 job)
  match vars.err with
  | some e =>
    let job := { job with errorCount := job.errorCount + 1, error := some e }
    if vars.failNow ∨ job.errorCount ≥ jobMaxErrorCount then finishJob job else rest job
  | none => rest job

/-- ddl_worker.go:74-116: the transaction of one iteration of handleJobQueue -/
def workTxn (o₁ o₂ o₃ : Order) (vars : Vars) : Client WorkOut := do
  match (← Client.one (.getDDLJobByIdx .default 0)) with
  | none => pure { nojob := true, vars := vars }
  | some job =>
    if job.state = .done ∨ job.state = .rollbackDone then do
      finishJob { job with state := if job.state = .rollbackDone then .rollbackDone else .synced }
      pure { vars := vars }
    else do
      let r ← attempt (runJob o₁ o₂ o₃ job)
      settle (recovered job vars r).1 (recovered job vars r).2.1
      pure { vars := (recovered job vars r).2.1, after := (recovered job vars r).2.2 }

/-! ## The process -/

/-- A process serving one database: whether the worker was started (ddl.go:52-58, 84; Init does it last), the
variables of a running handleJobQueue, the sequences of document ids (dml/sequence.go:14, a variable of the
whole process), and whether the worker is stuck retrying CreateSequence (:332-339). -/
structure World where
  db : DB
  up : Bool := false
  vars : Vars := {}
  seqs : Dml.Seqs := fun _ => none
  stuck : Bool := false

/-- meta/did_sequence.go:11-20 NewDocIDSequence: where the counter is -/
def didCell (dbID cid : Int64) : Sequence.Cell := .hash (dbKeyByID dbID) (didSequenceKeyByID cid)

/-- meta/did_sequence.go:8 defaultDIDBandWidth -/
def defaultDIDBandWidth : Int64 := 1000

/-- dml/sequence.go:30-48 CreateSequence with bandwidth 0 (then the default is taken, did_sequence.go:12-14).
If NewHash fails nothing is stored. -/
def createSequence (dbID cid : Int64) (env : Env) (fail : Option Err) (w : World) : Res Unit × World :=
  if (w.seqs cid).isSome then (.err errSequenceAlreadyExists, w)
  else match Sequence.Seq.new (didCell dbID cid) defaultDIDBandWidth ⟨env, w.db, fail⟩ w.db with
    | (.ok _, some s, db) => (.ok (), { w with db := db, seqs := w.seqs.set cid s })
    | (.ok _, none, db) => (.panic, { w with db := db })
    | (.err e, _, db) => (.err e, { w with db := db })
    | (.panic, _, db) => (.panic, { w with db := db })

/-- ddl_worker.go:328-338 afterCommitFunc4Job: each is retried until it succeeds.  Attempts the engine refuses
change nothing and are left out; what fails without that fails for ever. -/
def afterCommit (env : Env) : List (Int64 × Int64) → World → World
  | [], w => w
  | (d, c) :: l, w => match createSequence d c env none w with
    | (.ok _, w) => afterCommit env l w
    | (_, w) => { w with stuck := true }

/-- ddl.go:60-79: the sequences Init creates; it stops at the first error.  `fail` is what the engine answers
to the commits. -/
def initSequences (env : Env) (fail : Int64 → Option Err) : List (Int64 × Int64) → World → Res Unit × World
  | [], w => (.ok (), w)
  | (d, c) :: l, w => match createSequence d c env (fail c) w with
    | (.ok _, w) => initSequences env fail l w
    | (.err e, w) => (.err e, w)
    | (.panic, w) => (.panic, w)

/-- Circumstances of a transaction. -/
structure Circ where
  env : Env
  fail : Option Err := none

/-- What can happen. -/
inductive Ev where
  | createSchema (o : Order) (i : CreateSchemaInput) (c : Circ)
  | addIndex (i : AddIndexInput) (c : Circ)
  | getJob (id : Int64) (c : Circ)
  /-- one iteration of handleJobQueue; `after` are the circumstances of the sequences created -/
  | work (o₁ o₂ o₃ : Order) (c : Circ) (after : Env)
  /-- a document id is drawn from the sequence of a collection -/
  | draw (cid : Int64) (c : Circ)
  /-- the process dies -/
  | crash
  /-- Init -/
  | init (o : DBInfo → Order) (env : Env) (fail : Int64 → Option Err)

/-- What an event answers its caller. -/
inductive Answer where
  | none
  | job (r : Res Job)
  | found (r : Res (Option Job))
  | worked (r : Res WorkOut)
  | inited (r : Res Unit)
  | id (r : Res Int64)

/-- ddl_api.go:85-89, 131-135, ddl_worker.go:432-437: after the commit the worker is notified.  Before a successful Init
(ddl.go:51-57) there is no worker in the map, and looking at its channel is a panic: the request is in the queue,
the caller does not learn of it. -/
def notifyWorker (up : Bool) : Res Job → Res Job
  | .ok j => if up then .ok j else .panic
  | r => r

/-- One event.  Transactions run one after the other: a transaction that does not commit at once is refused.
The transaction around Init's loop (ddl.go:60) only reads, so its commit is never refused. -/
def World.step (J : Json) (w : World) : Ev → Answer × World
  | .createSchema o i c =>
    let x := (⟨true, c.env, c.fail, Ddl.createSchema o i⟩ : MetaTxn Job).run J w.db
    (.job (notifyWorker w.up x.1), { w with db := x.2 })
  | .addIndex i c =>
    let x := (⟨true, c.env, c.fail, addIndexTxn i⟩ : MetaTxn Job).run J w.db
    (.job (notifyWorker w.up x.1), { w with db := x.2 })
  | .getJob id c =>
    let x := (⟨true, c.env, c.fail, getHistoryJob id⟩ : MetaTxn (Option Job)).run J w.db
    (.found x.1, { w with db := x.2 })
  | .work o₁ o₂ o₃ c after =>
    if w.stuck ∨ w.up = false then (.none, w)
    else
      let x := (⟨true, c.env, c.fail, workTxn o₁ o₂ o₃ w.vars⟩ : MetaTxn WorkOut).run J w.db
      match x.1 with
      | .ok out =>
        (.worked (.ok out), afterCommit after out.after
          { w with db := x.2, vars := if out.nojob then {} else out.vars })
      | r => (.worked r, { w with db := x.2, vars := {} })
  | .draw cid c => match w.seqs cid with
    | none => (.none, w)
    | some s =>
      let x := s.nextId ⟨c.env, w.db, c.fail⟩ w.db
      (.id x.1, { w with db := x.2.2, seqs := w.seqs.set cid x.2.1 })
  | .crash => (.none, { db := w.db })
  | .init o env fail =>
    let x := (⟨true, env, none, Client.one .listDatabases⟩ : MetaTxn (List DBInfo)).run J w.db
    match x.1 with
    | .ok l =>
      let y := initSequences env fail (l.flatMap (fun d => ((o d).visit d.collections.ents).map (fun e => (d.id, e.2.id))))
        { w with db := x.2 }
      match y.1 with
      | .ok _ => (.inited (.ok ()), { y.2 with up := true })
      | r => (.inited r, y.2)
    | .err e => (.inited (.err e), { w with db := x.2 })
    | .panic => (.inited .panic, { w with db := x.2 })

/-- A history. -/
def run (J : Json) : List Ev → World → List Answer × World
  | [], w => ([], w)
  | e :: es, w => ((w.step J e).1 :: (run J es (w.step J e).2).1, (run J es (w.step J e).2).2)

end Mondis.Ddl
