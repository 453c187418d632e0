import Verif.Model.Ddl
/-!
# Model of document/domain/, and the whole of a process serving documents

A process is the package ddl of Model/Ddl, the published schema, and any number of transactions on documents.
Everything is interleaved at the grain of what the code does atomically: a transaction on the metadata, a
publication of the schema, one operation in a transaction, the check before a commit, the commit itself.
When the reloads happen (domain.go:37-96: before the worker starts, after every job, and periodically) is up to the history;
`Duty` below tells which histories package domain allows.
-/
namespace Mondis.Domain
open Mondis Schema Spec Meta Ddl

/-! ## domain.go -/

/-- domain.go:154-156 maxNumberOfDiffsToLoad -/
def maxNumberOfDiffsToLoad : Int64 := 100

/-- domain.go:167-177: the loop over the versions after `v`, `n` of them; `none` if one has no diff -/
def loadDiffs : Nat → Int64 → Client (Option (List StoredDiff))
  | 0, _ => pure (some [])
  | n + 1, v => do
    match (← Client.one (.getSchemaDiff (v + 1))) with
    | none => pure none
    | some d =>
      match (← loadDiffs n (v + 1)) with
      | none => pure none
      | some ds => pure (some (d :: ds))

/-- domain.go:158-180 tryLoadSchemaDiff; `none` is `ok = false`.  A negative capacity makes `make` panic. -/
def tryLoadSchemaDiff (cache kv : Int64) : Client (Option (List StoredDiff)) :=
  if cache = 0 ∨ kv - cache > maxNumberOfDiffsToLoad then pure none
  else if kv - cache < 0 then .done .panic
  else loadDiffs (kv.toInt - cache.toInt).toNat cache

/-- domain.go:107-152 reloadSchema up to the publication: the cache to publish, `none` if there is nothing new.
(SchemaDiff.DecodeArg, which ApplyDiffs calls, cannot fail on what was stored, Model/Job.) -/
def reloadSchema (cache : Option MetaCache) : Client (Option MetaCache) := do
  let have' : Int64 := match cache with
    | some c => Int64.ofInt c.version
    | none => 0
  let kv ← Client.one .getSchemaVersion
  if have' = kv then pure none
  else
    match (← tryLoadSchemaDiff have' kv) with
    | some diffs => match (MetaCache.clone cache).applyDiffs (diffs.map StoredDiff.toDiff) with
      | .ok c => pure (some c)
      | .err e => .done (.err e)
      | .panic => .done .panic
    | none => do
      let l ← Client.one .listDatabases
      pure (some (MetaCache.new kv.toInt l))

/-- dml/db.go:21 ErrDBNotExists -/
def errDBNotExists : Err := .other 130

/-- dml/db.go:25-37 NewDB, called by domain.go:189-193 DB -/
def newDB (h : Handle) (name : Bytes) : Res Unit :=
  if MetaCache.checkDBExists h.cache name then .ok () else .err errDBNotExists

/-- dml/db.go:40-51 Collection -/
def collection (h : Handle) (db name : Bytes) : Res Unit :=
  if MetaCache.checkCollectionExists h.cache db name then .ok () else .err Dml.errCollectionNotExists

/-! ## Transactions on documents -/

/-- How far a transaction is. -/
inductive Phase where
  /-- NewTxn has taken the schema (txn.go:25), not yet the snapshot (:26) -/
  | fresh
  | ready
  /-- Commit has passed the check (txn.go:56), the engine has not committed yet (:66) -/
  | checked
  /-- the engine's transaction is finished: committed, refused or discarded -/
  | over
  deriving DecidableEq

/-- A transaction of package txn. -/
structure Session where
  txn : Dml.DTxn Dml.Seqs
  phase : Phase := .fresh

/-- The operations of dml.Collection besides InsertOne (and GetDidRange). -/
inductive Op (D : Type) where
  | insertManaged (did : Int64) (d : D)
  | update (did : Int64) (d : D)
  | upsert (did : Int64) (d : D)
  | delete (did : Int64)
  | getOne (did : Int64)
  | getMany (dids : List Int64)
  | getAll
  | count
  | deleteAll

variable {D : Type}

/-- The operation on the collection with this id (Model/Document). -/
def Op.at : Op D → Int64 → DocOp D
  | .insertManaged did d, c => .insertManaged c did d
  | .update did d, c => .update c did d
  | .upsert did d, c => .upsert c did d
  | .delete did, c => .delete c did
  | .getOne did, c => .getOne c did
  | .getMany dids, c => .getMany c dids
  | .getAll, c => .getAll c
  | .count, c => .count c
  | .deleteAll, c => .deleteAll c

/-- dml/collection.go:154-157: updateOne marshals the document before anything else. -/
def Op.marshal (C : Doc.Codec D) : Op D → Res Unit
  | .insertManaged _ d | .update _ d | .upsert _ d => (C.marshal d).map' (fun _ => ())
  | _ => .ok ()

/-- dml/collection.go:98-145, 153-230, 245-265, 340-359, 385-436: an operation in a transaction.  Whether the
caller gave the transaction (`mark`) decides if the collection is noted as referred to. -/
def runOp (C : Doc.Codec D) (db coll : Bytes) (o : Op D) (mark : Bool) (t : Dml.DTxn Dml.Seqs) :
    Res (DocOut D) × Dml.DTxn Dml.Seqs :=
  match o.marshal C with
  | .err e => (.err e, t)
  | .panic => (.panic, t)
  | .ok _ =>
    let x := Dml.withCollection db coll (fun cid => Doc.exec C (o.at cid)) t
    (x.1, if mark then x.2 else { x.2 with referred := t.referred })

/-! ## The process -/

/-- A process: package ddl, the handle, what a reload has read and not yet published (reloadMu is then held,
domain.go:98-105), and the transactions ever begun (`none` once the process they lived in died). -/
structure World where
  ddl : Ddl.World
  handle : Handle := {}
  loaded : Option MetaCache := none
  sessions : List (Option Session) := []

/-- What can happen. -/
inductive Ev (D : Type) where
  /-- something in package ddl; an id drawn is then not used -/
  | ddl (e : Ddl.Ev)
  /-- reload, up to the publication -/
  | reload (env : Env)
  /-- the publication -/
  | publish
  /-- NewTxn takes the schema; the transaction gets the next number -/
  | begin (update : Bool) (env : Env)
  /-- NewTxn takes the snapshot -/
  | snapshot (k : Nat)
  | insert (k : Nat) (db coll : Bytes) (doc : D) (mark : Bool) (c : Ddl.Circ)
  | op (k : Nat) (db coll : Bytes) (o : Op D) (mark : Bool)
  | discard (k : Nat)
  /-- Commit up to the engine's -/
  | commit (k : Nat)
  /-- the engine's commit inside Commit -/
  | finish (k : Nat) (fail : Option Err)

/-- What an event answers its caller; `none` also where nothing can happen. -/
inductive Answer (D : Type) where
  | none
  | ddl (a : Ddl.Answer)
  /-- is there something new? -/
  | reloaded (r : Res Bool)
  | published
  | inserted (r : Res Int64)
  | out (r : Res (DocOut D))
  | committed (r : Res Unit)

/-- The transaction with this number. -/
def World.session (w : World) (k : Nat) : Option Session := (w.sessions[k]?).join

/-- Replace a transaction. -/
def World.put (w : World) (k : Nat) (s : Session) : World := { w with sessions := w.sessions.set k (some s) }

/-- domain.go:98-105 reload -/
def World.reload (J : Json) (w : World) (env : Env) : Answer D × World :=
  match w.loaded with
  | some _ => (.none, w)
  | none =>
    match ((⟨false, env, none, reloadSchema w.handle.cache⟩ : MetaTxn (Option MetaCache)).run J w.ddl.db).1 with
    | .ok c => (.reloaded (.ok c.isSome), { w with loaded := c })
    | .err e => (.reloaded (.err e), w)
    | .panic => (.reloaded .panic, w)

/-- txn.go:41-61: Commit up to the engine's commit.  *contract* badger: Commit of a finished transaction panics
(and while a panic unwinds the deferred function finds err nil). -/
def World.commit (w : World) (k : Nat) (s : Session) : Answer D × World :=
  if s.txn.update = false then (.committed (.ok ()), w)
  else match w.handle.check s.txn.start (fun cid => s.txn.referred.contains cid) with
    | (.panic, h) => (.committed .panic, { w with handle := h })
    | (.err e, h) =>
      let x := s.txn.cancelAll w.ddl.seqs
      (.committed (.err e), { w with handle := h, ddl := { w.ddl with seqs := x.2 } }.put k { s with txn := x.1 })
    | (.ok false, h) =>
      let x := s.txn.cancelAll w.ddl.seqs
      (.committed (.err Dml.errDDLConflict),
        { w with handle := h, ddl := { w.ddl with seqs := x.2 } }.put k { s with txn := x.1 })
    | (.ok true, h) =>
      if s.phase = .over then (.committed .panic, { w with handle := h })
      else (.none, { w with handle := h }.put k { s with phase := .checked })

/-- txn.go:47-54, 66: the engine's commit and the deferred function -/
def World.finish (w : World) (k : Nat) (s : Session) (fail : Option Err) : Answer D × World :=
  match s.txn.kv.commit fail w.ddl.db with
  | (.ok _, db) => (.committed (.ok ()), { w with ddl := { w.ddl with db := db } }.put k { s with phase := .over })
  | (.panic, db) => (.committed .panic, { w with ddl := { w.ddl with db := db } }.put k { s with phase := .over })
  | (.err e, db) =>
    let x := s.txn.cancelAll w.ddl.seqs
    (.committed (.err e), { w with ddl := { w.ddl with db := db, seqs := x.2 } }.put k { txn := x.1, phase := .over })

/-- domain.go:35-55, 195-197: before Init has succeeded DDL hands out a nil *ddl.DDL, on which AddIndex (ddl_api.go:96-97),
and CreateSchema once its input is found valid (:13-20), panic when they look for the database. -/
def needsDDL : Ddl.Ev → Bool
  | .createSchema o i _ => match i.validate o with
    | .ok _ => true
    | _ => false
  | .addIndex _ _ => true
  | _ => false

/-- One event.  What a transaction does after its Commit or Discard, other than another Commit, is not modelled;
a transaction is used by one goroutine at a time. -/
def World.step (J : Json) (C : Doc.Codec D) (w : World) : Ev D → Answer D × World
  | .ddl .crash => (.none, { ddl := (w.ddl.step J .crash).2, sessions := w.sessions.map (fun _ => none) })
  | .ddl e => if w.ddl.up = false ∧ needsDDL e then (.ddl (.job .panic), w) else (.ddl (w.ddl.step J e).1, { w with ddl := (w.ddl.step J e).2 })
  | .reload env => w.reload J env
  | .publish => match w.loaded with
    | none => (.none, w)
    | some c => match w.handle.update c with
      | none => (.none, w)
      | some h => (.published, { w with handle := h, loaded := none })
  | .begin update env =>
    (.none, { w with sessions := w.sessions ++ [some { txn := Dml.DTxn.new w.handle update env w.ddl.db }] })
  | .snapshot k => match w.session k with
    | some s => if s.phase = .fresh then
        (.none, w.put k { txn := { s.txn with kv := Txn.start s.txn.kv.env w.ddl.db }, phase := .ready })
      else (.none, w)
    | none => (.none, w)
  | .insert k db coll doc mark c => match w.session k with
    | some s => if s.phase = .ready then
        match C.marshal doc with
        | .err e => (.inserted (.err e), w)
        | .panic => (.inserted .panic, w)
        | .ok data =>
          let x := Dml.insertFunc db coll data mark ⟨c.env, w.ddl.db, c.fail⟩ s.txn w.ddl.seqs w.ddl.db
          (.inserted x.1, { w with ddl := { w.ddl with seqs := x.2.2.1, db := x.2.2.2 } }.put k { s with txn := x.2.1 })
      else (.none, w)
    | none => (.none, w)
  | .op k db coll o mark => match w.session k with
    | some s => if s.phase = .ready then
        let x := runOp C db coll o mark s.txn
        (.out x.1, w.put k { s with txn := x.2 })
      else (.none, w)
    | none => (.none, w)
  | .discard k => match w.session k with
    | some s => if s.phase = .ready then (.none, w.put k { s with phase := .over }) else (.none, w)
    | none => (.none, w)
  | .commit k => match w.session k with
    | some s => if s.phase = .ready ∨ s.phase = .over then w.commit k s else (.none, w)
    | none => (.none, w)
  | .finish k fail => match w.session k with
    | some s => if s.phase = .checked then w.finish k s fail else (.none, w)
    | none => (.none, w)

/-- A history. -/
def run (J : Json) (C : Doc.Codec D) : List (Ev D) → World → List (Answer D) × World
  | [], w => ([], w)
  | e :: es, w => ((w.step J C e).1 :: (run J C es (w.step J C e).2).1, (run J C es (w.step J C e).2).2)

/-! ## What the engine refuses -/

/-- In a history that starts in `w`, transaction `j` was committed, in state `sj`, after transaction `k` took its snapshot and
before `k` was committed, in state `sk`. -/
def Overlap (J : Json) (C : Doc.Codec D) (es : List (Ev D)) (w : World) (j k : Nat) (sj sk : Session) : Prop :=
  ∃ l₁ l₂ f l₃ g l₄ s₀,
    es = l₁ ++ .snapshot k :: (l₂ ++ .finish j f :: (l₃ ++ .finish k g :: l₄)) ∧
    (run J C l₁ w).2.session k = some s₀ ∧ s₀.phase = .fresh ∧
    (run J C (l₁ ++ .snapshot k :: l₂) w).2.session j = some sj ∧
    ((run J C (l₁ ++ .snapshot k :: l₂) w).2.step J C (.finish j f)).1 = .committed (.ok ()) ∧
    (run J C (l₁ ++ .snapshot k :: (l₂ ++ .finish j f :: l₃)) w).2.session k = some sk ∧
    ((run J C (l₁ ++ .snapshot k :: (l₂ ++ .finish j f :: l₃)) w).2.step J C (.finish k g)).1 = .committed (.ok ())

/-- *contract* badger (opened with the default options, provider/badger.go:19-27, which detect conflicts): the commit of a
transaction that has written something succeeds only if none of the keys it read was written by a transaction that
was committed after its snapshot. -/
def Detects (J : Json) (C : Doc.Codec D) (es : List (Ev D)) (w : World) : Prop :=
  ∀ j k sj sk, Overlap J C es w j k sj sk → sk.txn.kv.writes ≠ [] →
    ∀ key ∈ sk.txn.kv.reads, key ∉ sj.txn.kv.writes.map Prod.fst

/-! ## When the schema is reloaded -/

/-- Where Domain stands: the schema is up to date, a reload is due, or one has read and not yet published. -/
inductive Duty where
  | clean | due | loading
  deriving DecidableEq

/-- domain.go:37-55 Init reloads before it starts the worker; :57-75 the worker's goroutine, told of a change
without an error (ddl_worker.go:127-133), reloads until that succeeds, before the next iteration.  Reloads in
addition (:77-96) can happen at any time.  `none`: that is not what package domain does. -/
def Duty.next (s : Duty) : Ev D × Answer D → Option Duty
  | (.ddl .crash, _) => some .due
  | (.ddl (.init _ _ _), _) => if s = .clean then some .clean else none
  | (.ddl (.work _ _ _ _ _), a) =>
    if s = .clean then
      match a with
      | .ddl (.worked r) => if onChanged r = some none then some .due else some .clean
      | _ => some .clean
    else none
  | (.reload _, .reloaded (.ok true)) => some .loading
  | (.reload _, .reloaded (.ok false)) => some .clean
  | (.publish, .published) => some .clean
  | _ => some s

/-- In a history (events and answers) the reloads happen as package domain makes them happen. -/
def Duty.follows (s : Duty) : List (Ev D × Answer D) → Bool
  | [] => true
  | x :: l => match s.next x with
    | some s => s.follows l
    | none => false

end Mondis.Domain
