import Verif.Model.Meta
/-!
# Specification of the metadata store

`MState` is what package meta keeps, in terms of ids and records; `MetaCall` lists its functions and
`MetaCall.sem` says what each means.  Nothing here mentions how the records are stored.  (The imported model
is used for the names of errors and of the two job lists only.)
-/
namespace Mondis.Spec
open Mondis Schema Meta

/-- The metadata. -/
structure MState where
  globalID : Option Int64 := none
  version : Option Int64 := none
  bootstrap : Option Int64 := none
  diffs : Int64 → Option StoredDiff := fun _ => none
  /-- databases, ordered by the decimal text of their id -/
  dbs : OMap DBInfo := OMap.empty
  /-- collections of each database, ordered by the decimal text of their id -/
  colls : Int64 → OMap CollectionInfo := fun _ => OMap.empty
  /-- counters of document ids -/
  dids : Int64 → OMap Int64 := fun _ => OMap.empty
  queue : ListKey → List Job := fun _ => []
  /-- finished jobs, ordered by their id as an unsigned number -/
  history : OMap Job := OMap.empty
  reorgStart : Int64 → Option Int64 := fun _ => none
  reorgEnd : Int64 → Option Int64 := fun _ => none

namespace MState

/-- The database with an id. -/
def db (M : MState) (id : Int64) : Option DBInfo := M.dbs.get (textOf id)
/-- The collection with an id. -/
def coll (M : MState) (db id : Int64) : Option CollectionInfo := (M.colls db).get (textOf id)
/-- The finished job with an id. -/
def job (M : MState) (id : Int64) : Option Job := M.history.get (jobKey id)
where
  /-- jobs are ordered by the big-endian form of their id -/
  jobKey (id : Int64) : Bytes := Memcomparable.putUint64 id.toUInt64

end MState

/-- Replace one value of a function. -/
def put {β : Type} (f : Int64 → β) (k : Int64) (v : β) : Int64 → β := fun j => if j = k then v else f j

/-- A job as the store keeps it: its argument in raw form. -/
def stored (j : Job) : Job := { j with raw := some (j.raw.getD j.arg), arg := .null }

/-- Reading a job back: jobs that carry an error cannot be read. -/
def readBack (j : Job) : Res Job := if j.error = none then .ok j else .err .parse

/-- Reading jobs back. -/
def readAll (l : List Job) : Res (List Job) :=
  if ∀ j ∈ l, j.error = none then .ok l else .err .parse

/-- Positions count from 0; negative ones from the end. -/
def index (n : Nat) (i : Int64) : Int := if 0 ≤ i.toInt then i.toInt else n + i.toInt

/-- The functions of package meta (and the step of a document id counter). -/
inductive MetaCall : Type → Type where
  | getGlobalID : MetaCall Int64
  | genGlobalID : MetaCall Int64
  | genGlobalIDs (n : Int64) : MetaCall (Int64 × Int64)
  | getSchemaVersion : MetaCall Int64
  | genSchemaVersion : MetaCall Int64
  | createDatabase (d : DBInfo) : MetaCall Unit
  | updateDatabase (d : DBInfo) : MetaCall Unit
  | createCollection (db : Int64) (c : CollectionInfo) : MetaCall Unit
  | dropDatabase (db : Int64) : MetaCall Unit
  | dropCollection (db c : Int64) (delAutoID : Bool) : MetaCall Unit
  | updateCollection (db : Int64) (c : CollectionInfo) : MetaCall Unit
  | listCollections (db : Int64) : MetaCall (List CollectionInfo)
  | listDatabases : MetaCall (List DBInfo)
  | getDatabase (db : Int64) : MetaCall DBInfo
  | getCollection (db c : Int64) : MetaCall CollectionInfo
  | getBootstrapVersion : MetaCall Int64
  | finishBootstrap (v : Int64) : MetaCall Unit
  | getSchemaDiff (v : Int64) : MetaCall (Option StoredDiff)
  | setSchemaDiff (d : StoredDiff) : MetaCall Unit
  | enQueueDDLJob (l : ListKey) (j : Job) : MetaCall Unit
  | deQueueDDLJob (l : ListKey) : MetaCall (Option Job)
  | getDDLJobByIdx (l : ListKey) (i : Int64) : MetaCall (Option Job)
  | updateDDLJob (l : ListKey) (i : Int64) (j : Job) : MetaCall Unit
  | ddlJobQueueLen (l : ListKey) : MetaCall Int64
  | getAllDDLJobsInQueue (l : ListKey) : MetaCall (List Job)
  | addHistoryDDLJob (j : Job) : MetaCall Unit
  | getHistoryDDLJob (id : Int64) : MetaCall (Option Job)
  | getAllHistoryDDLJobs : MetaCall (List Job)
  | getLastNHistoryDDLJobs (n : Int) : MetaCall (List Job)
  | updateDDLReorgStartHandle (id start : Int64) : MetaCall Unit
  | updateDDLReorgHandle (id start end' : Int64) : MetaCall Unit
  | removeDDLReorgHandle (id : Int64) : MetaCall Unit
  | getDDLReorgHandle (id : Int64) : MetaCall (Int64 × Int64)
  | incDidSequence (db c step : Int64) : MetaCall Int64

/-- `r` if the database exists, ErrDBNotExists otherwise. -/
def ifDB {β : Type} (M : MState) (db : Int64) (r : Res β × MState) : Res β × MState :=
  if M.db db = none then (.err errDBNotExists, M) else r

/-- `r` if the collection exists, ErrCollectionNotExists otherwise. -/
def ifColl {β : Type} (M : MState) (db c : Int64) (r : Res β × MState) : Res β × MState :=
  if M.coll db c = none then (.err errCollectionNotExists, M) else r

/-- What the functions mean. -/
def MetaCall.sem (M : MState) : {β : Type} → MetaCall β → Res β × MState
  | _, .getGlobalID => match M.globalID with
    | some n => (.ok n, M)
    | none => (.err .keyNotFound, M)
  | _, .genGlobalID => (.ok (M.globalID.getD 0 + 1), { M with globalID := some (M.globalID.getD 0 + 1) })
  | _, .genGlobalIDs n =>
    (.ok (M.globalID.getD 0, M.globalID.getD 0 + n), { M with globalID := some (M.globalID.getD 0 + n) })
  | _, .getSchemaVersion => (.ok (M.version.getD 0), M)
  | _, .genSchemaVersion => (.ok (M.version.getD 0 + 1), { M with version := some (M.version.getD 0 + 1) })
  | _, .createDatabase d =>
    if M.db d.id ≠ none then (.err errDBExists, M)
    else (.ok (), { M with dbs := M.dbs.set (textOf d.id) d })
  | _, .updateDatabase d => ifDB M d.id (.ok (), { M with dbs := M.dbs.set (textOf d.id) d })
  | _, .createCollection db c => ifDB M db
    (if M.coll db c.id ≠ none then (.err errCollectionExists, M)
     else (.ok (), { M with colls := put M.colls db ((M.colls db).set (textOf c.id) c) }))
  | _, .dropDatabase db => ifDB M db
    (.ok (), { M with dbs := M.dbs.del (textOf db), colls := put M.colls db OMap.empty,
                      dids := put M.dids db OMap.empty })
  | _, .dropCollection db c delAutoID => ifDB M db (ifColl M db c
    (.ok (), { M with colls := put M.colls db ((M.colls db).del (textOf c)),
                      dids := if delAutoID then put M.dids db ((M.dids db).del (textOf c)) else M.dids }))
  | _, .updateCollection db c => ifDB M db (ifColl M db c.id
    (.ok (), { M with colls := put M.colls db ((M.colls db).set (textOf c.id) c) }))
  | _, .listCollections db => ifDB M db (.ok ((M.colls db).ents.map Prod.snd), M)
  | _, .listDatabases => (.ok (M.dbs.ents.map Prod.snd), M)
  | _, .getDatabase db => match M.db db with
    | some d => (.ok d, M)
    | none => (.err errDBNotExists, M)
  | _, .getCollection db c => ifDB M db (match M.coll db c with
    | some c => (.ok c, M)
    | none => (.err errCollectionNotExists, M))
  | _, .getBootstrapVersion => (.ok (M.bootstrap.getD 0), M)
  | _, .finishBootstrap v => (.ok (), { M with bootstrap := some v })
  | _, .getSchemaDiff v => (.ok (M.diffs v), M)
  | _, .setSchemaDiff d => (.ok (), { M with diffs := put M.diffs d.version (some d) })
  | _, .enQueueDDLJob l j =>
    (.ok (), { M with queue := fun l' => if l' = l then M.queue l ++ [stored j] else M.queue l' })
  | _, .deQueueDDLJob l => match M.queue l with
    | [] => (.ok none, M)
    | j :: rest => ((readBack j).map' some, { M with queue := fun l' => if l' = l then rest else M.queue l' })
  | _, .getDDLJobByIdx l i =>
    if M.queue l = [] then (.ok none, M)
    else if 0 ≤ index (M.queue l).length i then
      match (M.queue l)[(index (M.queue l).length i).toNat]? with
      | some j => ((readBack j).map' some, M)
      | none => (.err .parse, M)
    else (.err .parse, M)
  | _, .updateDDLJob l i j =>
    if 0 ≤ index (M.queue l).length i ∧ index (M.queue l).length i < (M.queue l).length then
      (.ok (), { M with queue := fun l' =>
        if l' = l then (M.queue l).set (index (M.queue l).length i).toNat (stored j) else M.queue l' })
    else (.err errJobNotExists, M)
  | _, .ddlJobQueueLen l => (.ok (Int64.ofInt (M.queue l).length), M)
  | _, .getAllDDLJobsInQueue l => (readAll (M.queue l).reverse, M)
  | _, .addHistoryDDLJob j =>
    (.ok (), { M with history := M.history.set (MState.job.jobKey j.id) (stored j) })
  | _, .getHistoryDDLJob id => match M.job id with
    | some j => ((readBack j).map' some, M)
    | none => (.ok none, M)
  | _, .getAllHistoryDDLJobs => (readAll (M.history.ents.map Prod.snd), M)
  | _, .getLastNHistoryDDLJobs n => (readAll ((M.history.ents.map Prod.snd).reverse.take n.toNat), M)
  | _, .updateDDLReorgStartHandle id s => (.ok (), { M with reorgStart := put M.reorgStart id (some s) })
  | _, .updateDDLReorgHandle id s e =>
    (.ok (), { M with reorgStart := put M.reorgStart id (some s), reorgEnd := put M.reorgEnd id (some e) })
  | _, .removeDDLReorgHandle id =>
    (.ok (), { M with reorgStart := put M.reorgStart id none, reorgEnd := put M.reorgEnd id none })
  | _, .getDDLReorgHandle id => match M.reorgStart id, M.reorgEnd id with
    | some s, some e => (.ok (s, e), M)
    | _, _ => (.err .keyNotFound, M)
  | _, .incDidSequence db c step =>
    (.ok (((M.dids db).get (textOf c)).getD 0 + step),
      { M with dids := put M.dids db ((M.dids db).set (textOf c) (((M.dids db).get (textOf c)).getD 0 + step)) })

/-- The strings in the arguments are text. -/
def MetaCall.Text : {β : Type} → MetaCall β → Prop
  | _, .createDatabase d | _, .updateDatabase d => d.Text
  | _, .createCollection _ c | _, .updateCollection _ c => c.Text
  | _, .setSchemaDiff d => d.Text
  | _, .enQueueDDLJob _ j | _, .updateDDLJob _ _ j | _, .addHistoryDDLJob j => j.Text
  | _, _ => True

/-- Calls that list the entries of a hash. -/
def MetaCall.scans : {β : Type} → MetaCall β → Bool
  | _, .dropDatabase _ | _, .listCollections _ | _, .listDatabases | _, .getAllHistoryDDLJobs
  | _, .getLastNHistoryDDLJobs _ => true
  | _, _ => false

/-- Calls that may change something. -/
def MetaCall.writes : {β : Type} → MetaCall β → Bool
  | _, .getGlobalID | _, .getSchemaVersion | _, .listCollections _ | _, .listDatabases | _, .getDatabase _
  | _, .getCollection _ _ | _, .getBootstrapVersion | _, .getSchemaDiff _ | _, .getDDLJobByIdx _ _
  | _, .ddlJobQueueLen _ | _, .getAllDDLJobsInQueue _ | _, .getHistoryDDLJob _ | _, .getAllHistoryDDLJobs
  | _, .getLastNHistoryDDLJobs _ | _, .getDDLReorgHandle _ => false
  | _, _ => true

/-- A program over the functions of package meta: each call depends on the answers so far. -/
inductive Client (α : Type) : Type 1 where
  | done (r : Res α)
  | call {β : Type} (c : MetaCall β) (cont : Res β → Client α)

namespace Client

/-- What a program means. -/
def sem {α : Type} : Client α → MState → Res α × MState
  | done r, M => (r, M)
  | call c k, M => (k (c.sem M).1).sem (c.sem M).2

/-- All strings passed along the run are text. -/
def Text {α : Type} : Client α → MState → Prop
  | done _, _ => True
  | call c k, M => c.Text ∧ (k (c.sem M).1).Text (c.sem M).2

/-- How many calls are made. -/
def calls {α : Type} : Client α → MState → Nat
  | done _, _ => 0
  | call c k, M => 1 + (k (c.sem M).1).calls (c.sem M).2

/-- Every call the program can make is of the given kind. -/
def Only (P : ∀ β : Type, MetaCall β → Prop) {α : Type} : Client α → Prop
  | done _ => True
  | call c k => P _ c ∧ ∀ r, (k r).Only P

/-- The program gives up, with the same error, when its transaction turns out to be read-only or full
(`if err != nil { return }`). -/
def Strict {α : Type} : Client α → Prop
  | done _ => True
  | call _ k => k (.err .readOnlyTxn) = done (.err .readOnlyTxn) ∧ k (.err .txnTooBig) = done (.err .txnTooBig) ∧
      ∀ r, (k r).Strict

/-- `if err != nil { return }` sequencing. -/
def bind {α β : Type} : Client α → (α → Client β) → Client β
  | done (.ok a), f => f a
  | done (.err e), _ => done (.err e)
  | done .panic, _ => done .panic
  | call c k, f => call c (fun r => (k r).bind f)

instance : Monad Client where
  pure a := done (.ok a)
  bind := bind

/-- One call. -/
def one {β : Type} (c : MetaCall β) : Client β := call c done

end Client

/-- A transaction of a history: run by RunInNewUpdateTxn or (`update = false`) RunInNewTxn under the given
circumstances. -/
structure MetaTxn (α : Type) where
  update : Bool := true
  env : Env
  fail : Option Err := none
  prog : Client α

namespace MetaTxn

/-- Errors that do not come from the program but from the storage engine: the transaction is read-only, or
full, or its commit is refused. -/
def Refuses {α : Type} (T : MetaTxn α) (e : Err) : Prop :=
  (T.update = false ∧ e = .readOnlyTxn) ∨ (e = .txnTooBig ∧ ∃ n, T.env.tooBig n = true) ∨
  (T.update = true ∧ T.fail = some e)

/-- `T` answers `r` on metadata `M` and leaves `M'`: it commits, or fails and changes nothing, or only reads,
or is refused and changes nothing. -/
def Effect {α : Type} (T : MetaTxn α) (M : MState) (r : Res α) (M' : MState) : Prop :=
  (T.update = true ∧ ∃ a, r = .ok a ∧ T.prog.sem M = (.ok a, M')) ∨
  (M' = M ∧ r = (T.prog.sem M).1 ∧ (T.update = false ∨ ∀ a, r ≠ .ok a)) ∨
  (M' = M ∧ ∃ e, r = .err e ∧ T.Refuses e)

/-- Nothing is refused. -/
def Calm {α : Type} (T : MetaTxn α) : Prop :=
  (T.update = true ∧ T.fail = none ∧ ∀ n, T.env.tooBig n = false) ∨
  (T.update = false ∧ T.prog.Only (fun _ c => c.writes = false))

end MetaTxn

/-- A committed transaction of a concurrent history: `snap` commits preceded its start. -/
structure MetaCommit (α : Type) where
  env : Env
  prog : Client α
  snap : Nat

/-- The metadata after these commits (newest first), one after the other. -/
def metaAfter {α : Type} : List (MetaCommit α) → MState
  | [] => {}
  | T :: rest => (T.prog.sem (metaAfter rest)).2

/-- All strings passed are text and at most `n / 2` calls are made by these commits, one after the other. -/
def FitsCommits {α : Type} (n : Nat) : List (MetaCommit α) → Prop
  | [] => True
  | T :: rest => T.prog.Text (metaAfter rest) ∧ ∃ m, 2 * T.prog.calls (metaAfter rest) + m ≤ n ∧ FitsCommits m rest

/-- The ranges `(start, end]` of ids handed out by a call. -/
def MetaCall.ids : {β : Type} → MetaCall β → Res β → List (Int64 × Int64)
  | _, .genGlobalID, .ok n => [(n - 1, n)]
  | _, .genGlobalIDs _, .ok r => [r]
  | _, _, _ => []

/-- The program, answering also the ranges of ids it obtained, in order. -/
def Client.withIDs {α : Type} (got : List (Int64 × Int64)) : Client α → Client (α × List (Int64 × Int64))
  | .done r => .done (r.map' (fun a => (a, got)))
  | .call c k => .call c (fun r => (k r).withIDs (got ++ c.ids r))

/-- The ranges follow one another without gap or overlap, from `a` to `b`. -/
inductive Consecutive : Int64 → List (Int64 × Int64) → Int64 → Prop where
  | nil {a : Int64} : Consecutive a [] a
  | cons {a b c : Int64} {rs : List (Int64 × Int64)} : Consecutive b rs c → Consecutive a ((a, b) :: rs) c

/-- The metadata a transaction leaves when nothing is refused. -/
def MetaTxn.next {α : Type} (T : MetaTxn α) (M : MState) : MState :=
  match T.update, T.prog.sem M with
  | true, (.ok _, M') => M'
  | _, _ => M

/-- The answers of a history in which nothing is refused. -/
def answers {α : Type} : MState → List (MetaTxn α) → List (Res α)
  | _, [] => []
  | M, T :: Ts => (T.prog.sem M).1 :: answers (T.next M) Ts

/-- In whatever way the history goes, all strings passed are text and there are at most `n / 2` calls. -/
def Fits {α : Type} : Nat → MState → List (MetaTxn α) → Prop
  | _, _, [] => True
  | n, M, T :: Ts => T.prog.Text M ∧ 2 * T.prog.calls M ≤ n ∧
      ∀ r M', T.Effect M r M' → Fits (n - 2 * T.prog.calls M) M' Ts

/-- A history with its answers, explained by the specification. -/
inductive Explained {α : Type} : MState → List (MetaTxn α) → List (Res α) → MState → Prop where
  | nil {M : MState} : Explained M [] [] M
  | cons {M M' M'' : MState} {T : MetaTxn α} {Ts : List (MetaTxn α)} {r : Res α} {rs : List (Res α)} :
      T.Effect M r M' → Explained M' Ts rs M'' → Explained M (T :: Ts) (r :: rs) M''

end Mondis.Spec
