import Verif.Model.Ddl
/-!
# Specification of package ddl

What the schema and the queue of requests look like after each call and each turn of the worker, in terms of
the requests made.  (The imported model is used for the types of inputs, the names of errors and `onChanged`, what
the caller of the worker is told.)
-/
namespace Mondis.Spec
open Mondis Schema Ddl

/-- A request in the queue. -/
inductive Request where
  | create (job : Int64) (d : DBInfo)
  | index (job : Int64) (i : IndexInfo)

/-- What became of a request in the queue so far. -/
inductive Status where
  | waiting
  /-- carried out, not yet moved to the history -/
  | done
  /-- failed; the failure is recorded in the queue -/
  | failed
  /-- the worker panicked on it -/
  | crashed
  deriving DecidableEq

/-- The state of package ddl. -/
structure DState where
  /-- the ids 1 … lastID have been handed out -/
  lastID : Nat := 0
  /-- the databases, as requested, in the order they were created -/
  dbs : List DBInfo := []
  queue : List (Request × Status) := []
  /-- the finished requests: job id and database -/
  finished : List (Int64 × DBInfo) := []

/-- The names, each once, in order of first appearance. -/
def distinct (l : List Bytes) : List Bytes := l.foldl (fun s n => if n ∈ s then s else s ++ [n]) []

/-- Collections with these (distinct) names, numbered from `first` on. -/
def numbered (first : Nat) (names : List Bytes) : OMap CollectionInfo :=
  names.zipIdx.foldl (fun m e => m.set e.1 { id := Int64.ofNat (first + e.2), name := e.1 }) OMap.empty

/-- The database a request describes: it takes the id after `last`, its collections the following ones. -/
def requested (last : Nat) (i : CreateSchemaInput) : DBInfo :=
  { id := Int64.ofNat (last + 1), name := i.db, collections := numbered (last + 2) (distinct i.collections),
    collectionOrder := i.collections }

/-- The input is well-formed. -/
def ValidIndex (i : IndexIn) : Prop := i.name ≠ [] ∧ i.columns ≠ []

/-- The input is well-formed. -/
def ValidInput (i : CreateSchemaInput) : Prop :=
  i.db ≠ [] ∧ (∀ c ∈ i.collections, c ≠ []) ∧ ∀ n l, i.indices.get n = some l → ∀ x ∈ l, ValidIndex x

/-- An index is requested for one of the collections. -/
def WithIndex (i : CreateSchemaInput) : Prop := ∃ c ∈ i.collections, ∃ l, i.indices.get c = some l ∧ l ≠ []

namespace DState

/-- A database of this name exists. -/
def Has (A : DState) (name : Bytes) : Prop := ∃ d ∈ A.dbs, d.name = name

/-- The id of the job of a request. -/
def createJobID (last : Nat) (i : CreateSchemaInput) : Int64 :=
  Int64.ofNat (last + 2 + (distinct i.collections).length)

/-- The state with a request for a new database in the queue. -/
def enqueued (A : DState) (i : CreateSchemaInput) : DState :=
  { A with lastID := A.lastID + (2 + i.collections.length + i.indices.ents.length),
           queue := A.queue ++ [(.create (createJobID A.lastID i) (requested A.lastID i), .waiting)] }

/-- What CreateSchema may answer and leave when its transaction is not refused. -/
inductive Creates (A : DState) (i : CreateSchemaInput) : Res Job → DState → Prop where
  | invalid (e : Err) : ¬ ValidInput i → e ∈ [errDBEmpty, errCollectionEmpty, errIndexNameEmpty, errIndexColumnsEmpty] →
      Creates A i (.err e) A
  | full : ValidInput i → 100 < A.queue.length → Creates A i (.err errJobsInQueueExceeded) A
  | taken : ValidInput i → A.queue.length ≤ 100 → A.Has i.db → Creates A i (.err errDBAlreadyExists) A
  | crashes : ValidInput i → A.queue.length ≤ 100 → ¬ A.Has i.db → WithIndex i → Creates A i .panic A
  | ok (j : Job) : ValidInput i → A.queue.length ≤ 100 → ¬ A.Has i.db → ¬ WithIndex i →
      j.id = createJobID A.lastID i → j.type = .createSchema → j.arg = .db (requested A.lastID i) → j.error = none →
      Creates A i (.ok j) (A.enqueued i)

/-- The index a request describes. -/
def requestedIndex (last : Nat) (i : AddIndexInput) : IndexInfo :=
  { id := Int64.ofNat (last + 1), name := i.index.name, columns := i.index.columns, unique := i.index.unique,
    jobRedundant := some { db := i.db, collection := i.collection } }

/-- What AddIndex may answer and leave when its transaction is not refused. -/
inductive Adds (A : DState) (i : AddIndexInput) : Res Job → DState → Prop where
  | noDB : ¬ A.Has i.db → Adds A i (.err Ddl.errDBNotExists) A
  | noCollection (d : DBInfo) : d ∈ A.dbs → d.name = i.db → d.collections.get i.collection = none →
      Adds A i (.err Ddl.errCollectionNotExists) A
  | ok (d : DBInfo) (j : Job) : d ∈ A.dbs → d.name = i.db → d.collections.get i.collection ≠ none →
      j.id = Int64.ofNat (A.lastID + 2) → j.type = .addIndex → j.arg = .idx (requestedIndex A.lastID i) → j.error = none →
      Adds A i (.ok j) { A with lastID := A.lastID + 2,
                                queue := A.queue ++ [(.index (Int64.ofNat (A.lastID + 2)) (requestedIndex A.lastID i), .waiting)] }

open Classical in
/-- One turn of the worker: what it does to the first request. -/
noncomputable def work (A : DState) : DState :=
  match A.queue with
  | [] => A
  | (_, .failed) :: _ => A
  | (.create j d, .done) :: q => { A with queue := q, finished := A.finished ++ [(j, d)] }
  | (.create j d, _) :: q =>
    if A.Has d.name then { A with queue := (.create j d, .failed) :: q }
    else { A with queue := (.create j d, .done) :: q, dbs := A.dbs ++ [d] }
  | (.index j i, _) :: q => { A with queue := (.index j i, .crashed) :: q }

/-- The ids of a database and its collections. -/
def idsOf (d : DBInfo) : List Int64 := d.id :: d.collections.ents.map (fun e => e.2.id)

/-- The ids a request holds that are not yet those of an existing database. -/
def requestIDs : Request × Status → List Int64
  | (.create j _, .done) => [j]
  | (.create j d, _) => j :: idsOf d
  | (.index j i, _) => [j, i.id]

/-- All ids in use: of databases, collections, and jobs in the queue and in the history. -/
def ids (A : DState) : List Int64 :=
  A.dbs.flatMap idsOf ++ A.queue.flatMap requestIDs ++ A.finished.map Prod.fst

/-- The ids of the collections that exist, each with its database. -/
def collections (A : DState) : List (Int64 × Int64) :=
  A.dbs.flatMap (fun d => d.collections.ents.map (fun e => (d.id, e.2.id)))

end DState

/-- How a request is kept in the queue. -/
def jobOf : Request × Status → Job
  | (.create j d, .waiting) => { id := j, type := .createSchema, raw := some (.db d) }
  | (.create j d, .done) => { id := j, type := .createSchema, raw := some (.db d), state := .done, schemaState := .public }
  | (.create j d, .failed) => { id := j, type := .createSchema, raw := some (.db d), state := .running, errorCount := 1,
                                error := some errDBAlreadyExists }
  | (.create j d, .crashed) => { id := j, type := .createSchema, raw := some (.db d), state := .cancelling }
  | (.index j i, .crashed) => { id := j, type := .addIndex, raw := some (.idx i), state := .cancelling }
  | (.index j i, _) => { id := j, type := .addIndex, raw := some (.idx i) }

/-- How a finished request is kept in the history. -/
def syncedJob (j : Int64) (d : DBInfo) : Job :=
  { id := j, type := .createSchema, raw := some (.db d), state := .synced, schemaState := .public }

/-- What GetHistoryJob answers. -/
def DState.finishedJob (A : DState) (id : Int64) : Option Job :=
  (A.finished.find? (fun f => decide (f.1 = id))).map (fun f => syncedJob f.1 f.2)

/-- A process serving the database: is its worker running, and the sequences of which collections does it
have; and the last document id handed out for each collection, by this process or an earlier one. -/
structure Proc where
  state : DState := {}
  running : Bool := false
  has : Int64 → Bool := fun _ => false
  last : Int64 → Int := fun _ => 0

/-- What the caller of CreateSchema or AddIndex gets: as long as no worker was ever started, a panic in place of the
job. -/
def Proc.heard (P : Proc) : Res Job → Res Job
  | .ok j => if P.running then .ok j else .panic
  | r => r

/-- One event, and the answer to the caller. -/
inductive Proc.Step (P : Proc) : Ev → Answer → Proc → Prop where
  | create {o i c r A'} : P.state.Creates i r A' → P.Step (.createSchema o i c) (.job (P.heard r)) { P with state := A' }
  | createRefused {o i c e} : c.fail = some e → P.Step (.createSchema o i c) (.job (.err e)) P
  | index {i c r A'} : P.state.Adds i r A' → P.Step (.addIndex i c) (.job (P.heard r)) { P with state := A' }
  | indexRefused {i c e} : c.fail = some e → P.Step (.addIndex i c) (.job (.err e)) P
  | getJob {id c} : P.Step (.getJob id c) (.found (.ok (P.state.finishedJob id))) P
  | getJobRefused {id c e} : c.fail = some e → P.Step (.getJob id c) (.found (.err e)) P
  | work {o₁ o₂ o₃ c env r h} : P.running = true →
      (∀ x, h x = true ↔ P.has x = true ∨ ∃ p ∈ P.state.work.collections, p ∉ P.state.collections ∧ p.2 = x) →
      (P.state.work.dbs ≠ P.state.dbs → onChanged r = some none) →
      P.Step (.work o₁ o₂ o₃ c env) (.worked r) { P with state := P.state.work, has := h }
  | workRefused {o₁ o₂ o₃ c env e} : P.running = true → c.fail = some e →
      P.Step (.work o₁ o₂ o₃ c env) (.worked (.err e)) P
  | workNot {o₁ o₂ o₃ c env} : P.running = false → P.Step (.work o₁ o₂ o₃ c env) .none P
  | draw {x c v} : P.has x = true → P.last x < v.toInt →
      P.Step (.draw x c) (.id (.ok v)) { P with last := fun y => if y = x then v.toInt else P.last y }
  | drawRefused {x c e} : P.has x = true → c.fail = some e → P.Step (.draw x c) (.id (.err e)) P
  | drawNot {x c} : P.has x = false → P.Step (.draw x c) .none P
  | crash : P.Step .crash .none { state := P.state, last := P.last }
  | init {o env fail h} : (∀ p ∈ P.state.collections, P.has p.2 = false) →
      (∀ x, h x = true ↔ P.has x = true ∨ ∃ p ∈ P.state.collections, p.2 = x) →
      P.Step (.init o env fail) (.inited (.ok ())) { P with running := true, has := h }
  | initAgain {o env fail h} : (∃ p ∈ P.state.collections, P.has p.2 = true) →
      (∀ x, P.has x = true → h x = true) → (∀ x, h x = true → P.has x = true ∨ ∃ p ∈ P.state.collections, p.2 = x) →
      P.Step (.init o env fail) (.inited (.err errSequenceAlreadyExists)) { P with has := h }
  | initRefused {o env fail h e} : (∃ p ∈ P.state.collections, fail p.2 = some e) →
      (∀ x, P.has x = true → h x = true) → (∀ x, h x = true → P.has x = true ∨ ∃ p ∈ P.state.collections, p.2 = x) →
      P.Step (.init o env fail) (.inited (.err e)) { P with has := h }

/-- A history. -/
inductive Proc.Steps : Proc → List Ev → List Answer → Proc → Prop where
  | nil {P} : Steps P [] [] P
  | cons {P e a Q es as R} : P.Step e a Q → Steps Q es as R → Steps P (e :: es) (a :: as) R

/-- The jobs the callers were given. -/
def accepted (as : List Answer) : List Job := as.filterMap (fun
  | .job (.ok j) => some j
  | _ => none)

/-- All ids in a job: its own, and those of what it creates. -/
def idsIn (j : Job) : List Int64 := j.id :: (match j.arg with
  | .db d => DState.idsOf d
  | .idx i => [i.id]
  | _ => [])

/-- The database a job is to create. -/
def dbOf (j : Job) : Option DBInfo := match j.arg with
  | .db d => some d
  | _ => none

/-- The document ids handed out for a collection, in order. -/
def drawn (x : Int64) (es : List Ev) (as : List Ddl.Answer) : List Int64 := (es.zip as).filterMap (fun
  | (.draw y _, .id (.ok v)) => if y = x then some v else none
  | _ => none)

/-- The worker turns `ws`, none of them refused. -/
def Turns (ws : List Ev) : Prop := ∀ e ∈ ws, ∃ o₁ o₂ o₃ c env, e = .work o₁ o₂ o₃ c env ∧ c.fail = none

/-- The names in the input are text. -/
def TextInput (i : CreateSchemaInput) : Prop := IsText i.db ∧ ∀ c ∈ i.collections, IsText c

/-- The names in the input are text. -/
def TextIndex (i : AddIndexInput) : Prop :=
  IsText i.db ∧ IsText i.collection ∧ IsText i.index.name ∧ ∀ c ∈ i.index.columns, IsText c

/-- The engine accepts any number of writes in a transaction. -/
def Roomy (env : Env) : Prop := ∀ n, env.tooBig n = false

/-- All names are text, at most `K` collections and index lists are requested at once, and no transaction is too big. -/
def EvFits (K : Nat) : Ev → Prop
  | .createSchema _ i c => TextInput i ∧ i.collections.length + i.indices.ents.length ≤ K ∧ Roomy c.env
  | .addIndex i c => TextIndex i ∧ Roomy c.env
  | .getJob _ c => Roomy c.env
  | .work _ _ _ c env => Roomy c.env ∧ Roomy env
  | .draw _ c => Roomy c.env
  | .crash => True
  | .init _ env _ => Roomy env

/-- The history is short enough for no counter to overflow. -/
def Brief (K : Nat) (es : List Ev) : Prop :=
  (∀ e ∈ es, EvFits K e) ∧ es.length * (4 * (es.length + 1) * (K + 300)) < 2 ^ 62

/-- The same index, public. -/
def openIndex (i : IndexInfo) : IndexInfo := ⟨i.id, i.name, i.jobRedundant, i.columns, i.unique, .public⟩

/-- The same collection, it and its indexes public. -/
def openColl (c : CollectionInfo) : CollectionInfo :=
  ⟨c.id, c.name, c.indices.map (mapVals openIndex), c.indexOrder, .public⟩

/-- The same database, it and all in it public. -/
def openDB (d : DBInfo) : DBInfo := ⟨d.id, d.name, mapVals openColl d.collections, d.collectionOrder, .public⟩

/-- The metadata holds exactly what the state says. -/
structure DState.Holds (A : DState) (M : MState) : Prop where
  lastID : M.globalID.getD 0 = Int64.ofNat A.lastID
  version : M.version.getD 0 = Int64.ofNat A.dbs.length
  diff : ∀ i d, A.dbs[i]? = some d → ∃ ids, ids.Perm (d.collections.ents.map (fun e => e.2.id)) ∧
    M.diffs (Int64.ofNat (i + 1)) = some ⟨Int64.ofNat (i + 1), .createSchema, ids, .db d⟩
  noDiff : ∀ v, (∀ i, i < A.dbs.length → v ≠ Int64.ofNat (i + 1)) → M.diffs v = none
  dbs : ∀ k p, M.dbs.get k = some p ↔ ∃ d ∈ A.dbs, k = textOf d.id ∧ p = openDB d
  colls : ∀ db k c, (M.colls db).get k = some c ↔
    ∃ d ∈ A.dbs, d.id = db ∧ ∃ n c', d.collections.get n = some c' ∧ k = textOf c'.id ∧ c = openColl c'
  queue : M.queue .default = A.queue.map jobOf
  history : ∀ k j, M.history.get k = some j ↔ ∃ f ∈ A.finished, k = MState.job.jobKey f.1 ∧ j = syncedJob f.1 f.2

end Mondis.Spec
