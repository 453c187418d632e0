import Verif.Model.Schema
/-!
# Model of document/model/model.go (jobs, stored diffs) and the contract of encoding/json

`RawArg` (raw JSON) is represented by the value it is the JSON of.
-/
namespace Mondis.Schema
open Mondis

/-- model.go:109-124 JobState -/
inductive JobState where
  | none | running | rollingback | rollbackDone | done | cancelled | synced | cancelling
  deriving DecidableEq, Repr

/-- The values an argument of a job can be: nil, a DBInfo (create schema), an IndexInfo (add index). -/
inductive JobArg where
  | null
  | db (d : DBInfo)
  | idx (i : IndexInfo)

/-- model.go:43-56 Job.  `arg` is the in-memory `Arg` (json:"-"), `raw` is `RawArg`, `none` when it is
empty.  `error` is any non-nil error value. -/
structure Job where
  id : Int64 := 0
  type : ActionType := .none
  state : JobState := .none
  error : Option Err := none
  errorCount : Int64 := 0
  arg : JobArg := .null
  raw : Option JobArg := none
  schemaState : SchemaState := .absent
  startTS : UInt64 := 0
  dependencyID : Int64 := 0

/-- model.go:57-63 SchemaDiff as it is stored; `raw` is `RawArg`, never empty once encoded. -/
structure StoredDiff where
  version : Int64
  type : ActionType
  collectionIDs : List Int64
  raw : JobArg

/-- model.go:240-251 Encode fills in RawArg (in place) from Arg when it is empty. -/
def Job.sealed (j : Job) : Job := { j with raw := some (j.raw.getD j.arg) }

/-- model.go:294-296 IsFinished -/
def Job.isFinished (j : Job) : Bool :=
  decide (j.state = .done) || decide (j.state = .rollbackDone) || decide (j.state = .cancelled)

/-- *contract* encoding/json: unmarshalling the argument into a DBInfo.  Unknown fields are ignored,
missing ones keep their zero value, null leaves the value alone; IndexInfo shares ID, Name and State. -/
def JobArg.asDB : JobArg → DBInfo
  | .null => {}
  | .db d => d
  | .idx i => { id := i.id, name := i.name, state := i.state }

/-- *contract* encoding/json: unmarshalling the argument into an IndexInfo. -/
def JobArg.asIdx : JobArg → IndexInfo
  | .null => {}
  | .db d => { id := d.id, name := d.name, state := d.state }
  | .idx i => i

/-- model.go:261-265 DecodeArg into a DBInfo; an empty RawArg is a syntax error. -/
def Job.decodeDB (j : Job) : Res DBInfo :=
  match j.raw with
  | none => .err .parse
  | some a => .ok a.asDB

/-- model.go:261-265 DecodeArg into an IndexInfo -/
def Job.decodeIdx (j : Job) : Res IndexInfo :=
  match j.raw with
  | none => .err .parse
  | some a => .ok a.asIdx

/-- model.go:336-340: a stored diff as `MetaCache.ApplyDiffs` sees it -/
def StoredDiff.toDiff (d : StoredDiff) : SchemaDiff :=
  { version := d.version.toInt, type := d.type, collectionIDs := d.collectionIDs, arg := some d.raw.asDB }

/-! ## Text

JSON strings are Unicode; encoding/json replaces bytes that are not UTF-8. -/

/-- The bytes are UTF-8. -/
def IsText (b : Bytes) : Prop := ∃ s : String, s.toUTF8.toList = b

/-- All strings in an index are text. -/
def IndexInfo.Text (i : IndexInfo) : Prop :=
  IsText i.name ∧ (∀ c ∈ i.columns, IsText c) ∧
    ∀ r, i.jobRedundant = some r → IsText r.collection ∧ IsText r.db

/-- All strings in a collection are text. -/
def CollectionInfo.Text (c : CollectionInfo) : Prop :=
  IsText c.name ∧ (∀ n ∈ c.indexOrder, IsText n) ∧
    ∀ m, c.indices = some m → ∀ k i, m.get k = some i → IsText k ∧ i.Text

/-- All strings in a database are text. -/
def DBInfo.Text (d : DBInfo) : Prop :=
  IsText d.name ∧ (∀ n ∈ d.collectionOrder, IsText n) ∧
    ∀ k c, d.collections.get k = some c → IsText k ∧ c.Text

/-- All strings in an argument are text. -/
def JobArg.Text : JobArg → Prop
  | .null => True
  | .db d => d.Text
  | .idx i => i.Text

/-- All strings in a job are text. -/
def Job.Text (j : Job) : Prop := j.arg.Text ∧ ∀ a, j.raw = some a → a.Text

/-- All strings in a stored diff are text. -/
def StoredDiff.Text (d : StoredDiff) : Prop := d.raw.Text

/-- *contract* encoding/json for the types stored by package meta.  Marshalling these types does not
fail and gives at least two bytes; unmarshalling what was marshalled gives the value back when all strings
are text.  A nil and an empty slice are identified, a nil and an empty index map are not.
`Job.Error` is an interface: a non-nil error (a pointer to a struct) marshals to a JSON object, which
cannot be unmarshalled into the interface type `error`. -/
structure Json where
  db : DBInfo → Bytes
  undb : Bytes → Res DBInfo
  coll : CollectionInfo → Bytes
  uncoll : Bytes → Res CollectionInfo
  job : Job → Bytes
  unjob : Bytes → Res Job
  diff : StoredDiff → Bytes
  undiff : Bytes → Res StoredDiff
  db_ne : ∀ d, db d ≠ []
  coll_ne : ∀ c, coll c ≠ []
  job_ne : ∀ j, job j ≠ []
  diff_ne : ∀ d, diff d ≠ []
  undb_db : ∀ d : DBInfo, d.Text → undb (db d) = .ok d
  uncoll_coll : ∀ c : CollectionInfo, c.Text → uncoll (coll c) = .ok c
  undiff_diff : ∀ d : StoredDiff, d.Text → undiff (diff d) = .ok d
  unjob_job : ∀ j : Job, j.Text → j.raw ≠ none → j.error = none →
    unjob (job j) = .ok { j with arg := .null }
  job_arg : ∀ (j : Job) (a : JobArg), job { j with arg := a } = job j
  unjob_error : ∀ j : Job, j.error ≠ none → unjob (job j) = .err .parse
  unjob_nil : unjob [] = .err .parse

end Mondis.Schema
