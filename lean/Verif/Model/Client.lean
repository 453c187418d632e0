import Verif.Spec.Meta
/-!
# Running programs over package meta

`MetaCode` names the function of document/meta/meta.go each call is; `Client.code` is the program over a
transaction that results.
-/
namespace Mondis
open Spec Meta Schema

/-- Which function of package meta a call is. -/
def MetaCode (J : Json) : {β : Type} → MetaCall β → SProg β
  | _, .getGlobalID => getGlobalID
  | _, .genGlobalID => genGlobalID
  | _, .genGlobalIDs n => genGlobalIDs n
  | _, .getSchemaVersion => getSchemaVersion
  | _, .genSchemaVersion => genSchemaVersion
  | _, .createDatabase d => createDatabase J d
  | _, .updateDatabase d => updateDatabase J d
  | _, .createCollection db c => createCollection J db c
  | _, .dropDatabase db => dropDatabase db
  | _, .dropCollection db c del => dropCollection db c del
  | _, .updateCollection db c => updateCollection J db c
  | _, .listCollections db => listCollections J db
  | _, .listDatabases => listDatabases J
  | _, .getDatabase db => getDatabase J db
  | _, .getCollection db c => getCollection J db c
  | _, .getBootstrapVersion => getBootstrapVersion
  | _, .finishBootstrap v => finishBootstrap v
  | _, .getSchemaDiff v => getSchemaDiff J v
  | _, .setSchemaDiff d => setSchemaDiff J d
  | _, .enQueueDDLJob l j => enQueueDDLJob J l j
  | _, .deQueueDDLJob l => deQueueDDLJob J l
  | _, .getDDLJobByIdx l i => getDDLJobByIdx J l i
  | _, .updateDDLJob l i j => updateDDLJob J l i j
  | _, .ddlJobQueueLen l => ddlJobQueueLen l
  | _, .getAllDDLJobsInQueue l => getAllDDLJobsInQueue J l
  | _, .addHistoryDDLJob j => addHistoryDDLJob J j
  | _, .getHistoryDDLJob id => getHistoryDDLJob J id
  | _, .getAllHistoryDDLJobs => getAllHistoryDDLJobs J
  | _, .getLastNHistoryDDLJobs n => getLastNHistoryDDLJobs J n
  | _, .updateDDLReorgStartHandle id s => updateDDLReorgStartHandle id s
  | _, .updateDDLReorgHandle id s e => updateDDLReorgHandle id s e
  | _, .removeDDLReorgHandle id => removeDDLReorgHandle id
  | _, .getDDLReorgHandle id => getDDLReorgHandle id
  | _, .incDidSequence db c s => incDidSequence db c s

/-- A program over package meta as a sequence of structure operations. -/
def Spec.Client.structure (J : Json) {α : Type} : Client α → SProg α
  | .done r => .done r
  | .call c k => (MetaCode J c).andThen (fun r => (k r).structure J)

/-- meta.go:71-81 NewMeta: the operations work under the prefix "_md_m" (document/keyspace). -/
def Spec.Client.code (J : Json) {α : Type} (p : Client α) : Prog α := (p.structure J).prog Sequence.metaPrefix

/-- One transaction (util/util.go:70-91) on the database. -/
def Spec.MetaTxn.run (J : Json) {α : Type} (T : MetaTxn α) (db : DB) : Res α × DB :=
  if T.update then Util.runInNewUpdateTxn T.env T.fail (T.prog.code J) db db
  else Util.runInNewTxn T.env (T.prog.code J) db db

/-- The transaction as the engine sees it (Model/Util). -/
def Spec.MetaCommit.committed (J : Json) {α : Type} (T : MetaCommit α) : Util.Committed α :=
  ⟨T.env, T.prog.code J, T.snap⟩

/-- What a committed transaction answered, on the snapshot it saw; `before` committed earlier (newest first). -/
def Spec.MetaCommit.answer (J : Json) {α : Type} (db₀ : DB) (before : List (MetaCommit α)) (T : MetaCommit α) : Res α :=
  ((T.committed J).outcome (Util.snapshotOf db₀ (before.map (·.committed J)) (T.committed J))).1

/-- One transaction after the other. -/
def runAll (J : Json) {α : Type} : List (MetaTxn α) → DB → List (Res α) × DB
  | [], db => ([], db)
  | T :: Ts, db => ((T.run J db).1 :: (runAll J Ts (T.run J db).2).1, (runAll J Ts (T.run J db).2).2)

end Mondis
