import Verif.Spec.Ddl
import Verif.Spec.Document
import Verif.Model.Domain
/-!
# Specification of a process serving documents

The schema a process knows is the number of databases it has heard of: databases are only ever added, so what
it knows is the first so many of them.  A transaction works on a copy of all documents, made when it takes its
snapshot; committing copies back the documents it wrote.  (The imported model is used for the types of events
and answers and the names of errors.)
-/
namespace Mondis.Spec
open Mondis Schema Ddl Domain

variable {D : Type}

/-- A transaction on documents. -/
structure Visit (D : Type) where
  /-- how many databases it knows, `none` if the schema was never loaded -/
  schema : Option Nat
  update : Bool
  phase : Phase := .fresh
  /-- its copy of the documents -/
  docs : Docs D
  /-- the documents written: collection and document ids -/
  touched : List (Int64 × Int64) := []
  /-- the ids drawn in it, to be given back if it fails -/
  drawn : List (Int64 × Int64) := []

/-- A process, and what is stored. -/
structure Site (D : Type) where
  proc : Proc := {}
  /-- how many databases the published schema has -/
  schema : Option Nat := none
  /-- the same for a schema read and not yet published -/
  loaded : Option Nat := none
  /-- the committed documents -/
  docs : Docs D := Docs.init
  /-- the transactions begun; `none` once the process they lived in died -/
  visits : List (Option (Visit D)) := []
  /-- ids given back; the last one is handed out first -/
  pool : Int64 → List Int64 := fun _ => []

/-- The id of a collection in the first `n` databases. -/
def collectionIn (dbs : List DBInfo) (n : Option Nat) (db coll : Bytes) : Option Int64 :=
  n.bind (fun n => ((dbs.take n).find? (fun d => decide (d.name = db))).bind (fun d =>
    (d.collections.get coll).map (·.id)))

/-- An index without its state. -/
def blankIndex (i : IndexInfo) : IndexInfo := { i with state := .absent }

/-- A collection without the states in it; no indexes and an empty map of indexes are the same. -/
def blankColl (c : CollectionInfo) : CollectionInfo :=
  { c with state := .absent, indices := some (mapVals blankIndex (c.indices.getD OMap.empty)) }

/-- A database without the states in it. -/
def blankDB (d : DBInfo) : DBInfo := { d with state := .absent, collections := mapVals blankColl d.collections }

/-- The documents an operation writes or deletes, in a collection with this contents. -/
def DocOp.touches (norm : D → Res D) (s : IMap D) : DocOp D → List Int64
  | .insert _ did d => match norm d with
    | .ok _ => [did]
    | _ => []
  | .insertManaged _ did d => match norm d, s.get did with
    | .ok _, none => [did]
    | _, _ => []
  | .update _ did d => match norm d, s.get did with
    | .ok _, some _ => [did]
    | _, _ => []
  | .upsert _ did d => match norm d with
    | .ok _ => [did]
    | _ => []
  | .delete _ did => [did]
  | .deleteAll _ => s.ents.map Prod.fst
  | _ => []

/-- Whether the document an operation is given can be stored. -/
def docStorable (norm : D → Res D) : Op D → Res Unit
  | .insertManaged _ d | .update _ d | .upsert _ d => (norm d).map' (fun _ => ())
  | _ => .ok ()

/-- The documents `l` taken from `V`, all others from `A`. -/
def Merged (l : List (Int64 × Int64)) (V A A' : Docs D) : Prop :=
  ∀ c i, (A' c).get i = if (c, i) ∈ l then (V c).get i else (A c).get i

/-- A transaction that knew `m` databases may commit when `n` are known: not more than 100 were added. -/
def recent : Option Nat → Option Nat → Bool
  | none, none => true
  | some m, some n => decide (n ≤ m + 100)
  | _, _ => false

namespace Site

/-- The transaction with this number. -/
def visit (S : Site D) (k : Nat) : Option (Visit D) := (S.visits[k]?).join

/-- Replace a transaction. -/
def put (S : Site D) (k : Nat) (v : Visit D) : Site D := { S with visits := S.visits.set k (some v) }

/-- Ids are given back. -/
def giveBack (S : Site D) (l : List (Int64 × Int64)) : Site D :=
  { S with pool := fun c => S.pool c ++ (l.filter (fun p => decide (p.1 = c))).map Prod.snd }

/-- An id for collection `x`: one given back, or one above all handed out. -/
inductive Draws (S : Site D) (x v : Int64) : Site D → Prop where
  | back (p : List Int64) : S.pool x = p ++ [v] →
      Draws S x v { S with pool := fun c => if c = x then p else S.pool c }
  | fresh : S.pool x = [] → S.proc.last x < v.toInt →
      Draws S x v { S with proc := { S.proc with last := fun c => if c = x then v.toInt else S.proc.last c } }

/-- InsertOne in the transaction with number `k`, which is `v`. -/
inductive Inserts (norm : D → Res D) (S : Site D) (k : Nat) (v : Visit D) (db coll : Bytes) (doc : D) (c : Ddl.Circ) :
    Res Int64 → Site D → Prop where
  | invalid (e : Err) : norm doc = .err e → Inserts norm S k v db coll doc c (.err e) S
  | crash : norm doc = .panic → Inserts norm S k v db coll doc c .panic S
  /-- there is no such collection: no error, and nothing is inserted -/
  | nowhere (d : D) : norm doc = .ok d → collectionIn S.proc.state.dbs v.schema db coll = none →
      Inserts norm S k v db coll doc c (.ok 0) S
  | noSequence (d : D) (x : Int64) : norm doc = .ok d → collectionIn S.proc.state.dbs v.schema db coll = some x →
      S.proc.has x = false → Inserts norm S k v db coll doc c (.err Dml.errSequenceNotExists) S
  | refused (d : D) (x : Int64) (e : Err) : norm doc = .ok d → collectionIn S.proc.state.dbs v.schema db coll = some x →
      S.proc.has x = true → S.pool x = [] → c.fail = some e → Inserts norm S k v db coll doc c (.err e) S
  | ok (d : D) (x did : Int64) (S' : Site D) : norm doc = .ok d →
      collectionIn S.proc.state.dbs v.schema db coll = some x → S.proc.has x = true → S.Draws x did S' →
      v.update = true →
      Inserts norm S k v db coll doc c (.ok did)
        (S'.put k { v with docs := v.docs.upd x ((v.docs x).set did d), touched := v.touched ++ [(x, did)],
                           drawn := v.drawn ++ [(x, did)] })
  /-- in a read-only transaction it panics, and the id is lost -/
  | readOnly (d : D) (x did : Int64) (S' : Site D) : norm doc = .ok d →
      collectionIn S.proc.state.dbs v.schema db coll = some x → S.proc.has x = true → S.Draws x did S' →
      v.update = false → Inserts norm S k v db coll doc c .panic S'

/-- Another operation in a transaction: the answer, and the transaction afterwards. -/
def operate (norm : D → Res D) (S : Site D) (v : Visit D) (db coll : Bytes) (o : Op D) : Res (DocOut D) × Visit D :=
  match docStorable norm o with
  | .err e => (.err e, v)
  | .panic => (.panic, v)
  | .ok _ => match collectionIn S.proc.state.dbs v.schema db coll with
    | none => (.err Dml.errCollectionNotExists, v)
    | some x =>
      let ts := (o.at x).touches norm (v.docs x)
      if v.update = true ∨ ts = [] then
        (((o.at x).step norm v.docs).1,
         { v with docs := ((o.at x).step norm v.docs).2, touched := v.touched ++ ts.map (fun i => (x, i)) })
      else (.err .readOnlyTxn, v)

/-- Commit up to the engine's, in the transaction with number `k`, which is `v`: answer and state. -/
def commits (S : Site D) (k : Nat) (v : Visit D) : Answer D × Site D :=
  if v.update = false then (.committed (.ok ()), S)
  else if recent v.schema S.schema = false then
    (.committed (.err Dml.errDDLConflict), (S.giveBack v.drawn).put k { v with drawn := [] })
  else if v.phase = .over then (.committed .panic, S)
  else (.none, S.put k { v with phase := .checked })

/-- The engine's commit inside Commit. -/
inductive Finishes (S : Site D) (k : Nat) (v : Visit D) (fail : Option Err) : Res Unit → Site D → Prop where
  | nothing : v.touched = [] → Finishes S k v fail (.ok ()) (S.put k { v with phase := .over })
  | refused (e : Err) : v.touched ≠ [] → fail = some e →
      Finishes S k v fail (.err e) ((S.giveBack v.drawn).put k { v with drawn := [], phase := .over })
  | ok (A : Docs D) : v.touched ≠ [] → fail = none → Merged v.touched v.docs S.docs A →
      Finishes S k v fail (.ok ()) ({ S with docs := A }.put k { v with phase := .over })

/-- One event, and the answer to the caller, where `ddl` says what the calls and the worker of package ddl do (what they may do
to a process, answering what). -/
inductive StepBy (ddl : Proc → Ddl.Ev → Ddl.Answer → Proc → Prop) (norm : D → Res D) (S : Site D) : Domain.Ev D → Domain.Answer D → Site D → Prop where
  | crash {a Q} : S.proc.Step .crash a Q →
      StepBy ddl norm S (.ddl .crash) .none { proc := Q, docs := S.docs, visits := S.visits.map (fun _ => none) }
  | ddl {e a Q} : (∀ x c, e ≠ .draw x c) → e ≠ .crash → ddl S.proc e a Q → StepBy ddl norm S (.ddl e) (.ddl a) { S with proc := Q }
  /-- before Init has succeeded -/
  | ddlNot {e} : (∃ o i c, e = .createSchema o i c) ∨ (∃ i c, e = .addIndex i c) → S.proc.running = false →
      StepBy ddl norm S (.ddl e) (.ddl (.job .panic)) S
  | drawNot {x c} : S.proc.has x = false → StepBy ddl norm S (.ddl (.draw x c)) (.ddl .none) S
  | drawRefused {x c e} : S.proc.has x = true → S.pool x = [] → c.fail = some e →
      StepBy ddl norm S (.ddl (.draw x c)) (.ddl (.id (.err e))) S
  | draw {x c v S'} : S.proc.has x = true → S.Draws x v S' → StepBy ddl norm S (.ddl (.draw x c)) (.ddl (.id (.ok v))) S'
  | reloadBusy {env} : S.loaded ≠ none → StepBy ddl norm S (.reload env) .none S
  | reloadSame {env} : S.loaded = none → S.schema.getD 0 = S.proc.state.dbs.length →
      StepBy ddl norm S (.reload env) (.reloaded (.ok false)) S
  | reload {env} : S.loaded = none → S.schema.getD 0 ≠ S.proc.state.dbs.length →
      StepBy ddl norm S (.reload env) (.reloaded (.ok true)) { S with loaded := some S.proc.state.dbs.length }
  | publishNot : S.loaded = none → StepBy ddl norm S .publish .none S
  | publish {n} : S.loaded = some n → StepBy ddl norm S .publish .published { S with schema := some n, loaded := none }
  | begin {u env} : StepBy ddl norm S (.begin u env) .none
      { S with visits := S.visits ++ [some { schema := S.schema, update := u, docs := S.docs }] }
  | snapshot {k v} : S.visit k = some v → v.phase = .fresh →
      StepBy ddl norm S (.snapshot k) .none (S.put k { v with docs := S.docs, phase := .ready })
  | snapshotNot {k} : (∀ v, S.visit k = some v → v.phase ≠ .fresh) → StepBy ddl norm S (.snapshot k) .none S
  | insert {k v db coll doc mark c r S'} : S.visit k = some v → v.phase = .ready →
      S.Inserts norm k v db coll doc c r S' → StepBy ddl norm S (.insert k db coll doc mark c) (.inserted r) S'
  | insertNot {k db coll doc mark c} : (∀ v, S.visit k = some v → v.phase ≠ .ready) →
      StepBy ddl norm S (.insert k db coll doc mark c) .none S
  | op {k v db coll o mark} : S.visit k = some v → v.phase = .ready →
      StepBy ddl norm S (.op k db coll o mark) (.out (S.operate norm v db coll o).1) (S.put k (S.operate norm v db coll o).2)
  | opNot {k db coll o mark} : (∀ v, S.visit k = some v → v.phase ≠ .ready) → StepBy ddl norm S (.op k db coll o mark) .none S
  | discard {k v} : S.visit k = some v → v.phase = .ready →
      StepBy ddl norm S (.discard k) .none (S.put k { v with phase := .over })
  | discardNot {k} : (∀ v, S.visit k = some v → v.phase ≠ .ready) → StepBy ddl norm S (.discard k) .none S
  | commit {k v} : S.visit k = some v → v.phase = .ready ∨ v.phase = .over →
      StepBy ddl norm S (.commit k) (S.commits k v).1 (S.commits k v).2
  | commitNot {k} : (∀ v, S.visit k = some v → v.phase ≠ .ready ∧ v.phase ≠ .over) → StepBy ddl norm S (.commit k) .none S
  | finish {k v fail r S'} : S.visit k = some v → v.phase = .checked → S.Finishes k v fail r S' →
      StepBy ddl norm S (.finish k fail) (.committed r) S'
  | finishNot {k fail} : (∀ v, S.visit k = some v → v.phase ≠ .checked) → StepBy ddl norm S (.finish k fail) .none S

/-- A history. -/
inductive StepsBy (ddl : Proc → Ddl.Ev → Ddl.Answer → Proc → Prop) (norm : D → Res D) :
    Site D → List (Domain.Ev D) → List (Domain.Answer D) → Site D → Prop where
  | nil {S} : StepsBy ddl norm S [] [] S
  | cons {S e a S' es as S''} : StepBy ddl norm S e a S' → StepsBy ddl norm S' es as S'' → StepsBy ddl norm S (e :: es) (a :: as) S''

/-- One event, where the calls of package ddl are not under way at the same time. -/
abbrev Step (norm : D → Res D) (S : Site D) := S.StepBy (fun P => P.Step) norm

/-- A history of such events. -/
abbrev Steps (norm : D → Res D) (S : Site D) := S.StepsBy (fun P => P.Step) norm

end Site

/-- As `EvFits`: and no transaction on documents is too big. -/
def DomainFits (K : Nat) : Domain.Ev D → Prop
  | .ddl e => EvFits K e
  | .begin _ env => Roomy env
  | .insert _ _ _ _ _ c => Roomy c.env
  | _ => True

/-- The history is short enough for no counter to overflow. -/
def DomainBrief (K : Nat) (es : List (Domain.Ev D)) : Prop :=
  (∀ e ∈ es, DomainFits K e) ∧ es.length * (4 * (es.length + 1) * (K + 300)) < 2 ^ 62

/-! ### What the callers were told -/

/-- InsertOne gave this id. -/
structure Insertion where
  txn : Nat
  db : Bytes
  coll : Bytes
  did : Int64
  deriving DecidableEq

/-- The insertion an event and its answer are; the id 0 means that nothing was inserted. -/
def insertionOf : Domain.Ev D × Domain.Answer D → Option Insertion
  | (.insert k db coll _ _ _, .inserted (.ok did)) => if did = 0 then none else some ⟨k, db, coll, did⟩
  | _ => none

/-- The insertions of a history. -/
def insertions (es : List (Domain.Ev D)) (as : List (Domain.Answer D)) : List Insertion := (es.zip as).filterMap insertionOf

/-- The transactions whose Commit succeeded. -/
def committedIn (es : List (Domain.Ev D)) (as : List (Domain.Answer D)) : List Nat := (es.zip as).filterMap (fun
  | (.finish k _, .committed (.ok _)) => some k
  | _ => none)

/-- The transactions whose Commit failed. -/
def failedIn (es : List (Domain.Ev D)) (as : List (Domain.Answer D)) : List Nat := (es.zip as).filterMap (fun
  | (.finish k _, .committed (.err _)) => some k
  | (.commit k, .committed (.err _)) => some k
  | _ => none)

/-- No transaction is committed a second time after the engine has finished it. -/
def NoRecommit (es : List (Domain.Ev D)) : Prop := ∀ l k f r, es = l ++ .finish k f :: r → .commit k ∉ r

end Mondis.Spec
