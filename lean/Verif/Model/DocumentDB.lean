import Verif.Model.Index
import Verif.Model.Domain
/-!
# Model of document/db.go, and the whole of package document

Any number of document.DB objects (in one process or several) on one store, their Collection objects, and any number of
transactions, interleaved at the grain of what the engine does atomically.  A Sequence is shared by reference, so all of them
live in one list and an object holds the number of its own.  The store is used through this package only.
-/
namespace Mondis.DocDB
open Mondis Prog Doc Sequence Spec
open Mondis.Domain (Op)

/-! ## The engine -/

/-- *contract* badger: the contents after every commit, and the keys it wrote.  Commit 0 is the state at the beginning. -/
structure Store where
  now : Nat := 0
  data : Nat → DB
  wrote : Nat → List Bytes := fun _ => []

/-- The contents now. -/
def Store.db (S : Store) : DB := S.data S.now

/-- One more commit. -/
def Store.push (S : Store) (db : DB) (keys : List Bytes) : Store where
  now := S.now + 1
  data n := if n = S.now + 1 then db else S.data n
  wrote n := if n = S.now + 1 then keys else S.wrote n

/-- Was one of these keys written by a commit after the `v`-th? -/
def Store.clash (S : Store) (keys : List Bytes) (v : Nat) : Bool :=
  (List.range S.now).any (fun n => decide (v ≤ n) && (S.wrote (n + 1)).any (fun k => keys.contains k))

/-- *contract* badger (provider/badger_txn.go:83-86, opened with the default options, which detect conflicts): the commit of a
transaction whose snapshot is commit `v`.  It is refused if a key that it read was written since; the engine may also refuse
it for reasons of its own (`fail`). -/
def Store.commit (S : Store) (t : Txn) (v : Nat) (fail : Option Err) : Res Unit × Store :=
  match t.commit (if S.clash t.reads v then some .conflict else fail) S.db with
  | (.ok _, db) => (.ok (), if t.writes = [] then S else S.push db (t.writes.map Prod.fst))
  | (.err e, _) => (.err e, S)
  | (.panic, _) => (.panic, S)

/-- The circumstances of a transaction that runs inside a call: its snapshot is commit `v`; what else the code does not
control. -/
structure Turn where
  v : Nat
  env : Env
  fail : Option Err := none

/-! ## Sequences -/

/-- A Sequence (document/sequence.go), and when its last call ended: the mutex makes its calls follow one another, so a
later renewal has a later snapshot. -/
structure Gen where
  seq : Old.Seq
  since : Nat

/-- What a renewal (sequence.go:39-72) sees of the store. -/
def Store.circ (S : Store) (key : Bytes) (c : Turn) : Circ :=
  ⟨c.env, S.data c.v, if S.clash [key] c.v then some .conflict else c.fail⟩

/-! ## Objects -/

/-- collection.go:17-26 Collection -/
structure Coll where
  cid : Int64
  seq : Nat
  indexMap : OMap IndexDef

/-- How far newCollection (collection.go:28-57) is; db.mu is then held (db.go:81-93). -/
inductive Making where
  /-- the name was not found by transaction `t` with snapshot `v`, and a number was drawn (db.go:174-178) -/
  | drawn (name : Bytes) (t : Txn) (v : Nat) (u : UInt64)
  /-- getCollectionID has returned -/
  | known (name : Bytes) (cid : Int64)
  /-- NewSequence has returned -/
  | counted (name : Bytes) (cid : Int64) (seq : Nat)
  /-- a panic has left db.mu locked -/
  | stuck

/-- db.go:18-27 DB -/
structure Obj where
  st : DBState := .open
  cseq : Nat
  /-- `none` while NewDB is not finished -/
  iseq : Option Nat := none
  colls : OMap Coll := OMap.empty
  making : Option Making := none

/-- How far a CreateIndex or a DropIndex is. -/
inductive Stage where
  /-- CreateIndex between its writes and its commit (collection.go:454-459); its transaction has the snapshot `v` -/
  | writing (iid : Int64) (idef : IndexDef) (t : Txn) (v : Nat)
  /-- CreateIndex between its commit and the lock that indexMap is changed under (collection.go:459-464) -/
  | storing (iid : Int64) (idef : IndexDef)
  /-- DropIndex at the same place (collection.go:593-598) -/
  | erasing (iname : Bytes)

/-- A CreateIndex or DropIndex under way on the collection of this name in object `obj`. -/
structure Pending where
  obj : Nat
  name : Bytes
  stage : Stage

/-- How far a transaction is. -/
inductive Phase where
  | live
  /-- committed, as this commit -/
  | committed (n : Nat)
  /-- discarded, refused, or committed without having written anything -/
  | over
  deriving DecidableEq

/-- A transaction begun with NewTransaction; its snapshot is commit `v`. -/
structure Session where
  txn : Txn
  v : Nat
  phase : Phase := .live

/-- Everything. -/
structure World where
  store : Store
  gens : List Gen := []
  objs : List (Option Obj) := []
  sessions : List Session := []
  pending : List (Option Pending) := []

/-- Nothing has been done yet with a store of these contents. -/
def World.start (db : DB) : World := { store := { data := fun _ => db } }

/-- The object with this number, if NewDB has finished and the process lives. -/
def World.obj (w : World) (i : Nat) : Option Obj := (w.objs[i]?).join

def World.putObj (w : World) (i : Nat) (o : Obj) : World := { w with objs := w.objs.set i (some o) }

def World.putSession (w : World) (k : Nat) (s : Session) : World := { w with sessions := w.sessions.set k s }

/-- sequence.go:98-112 Next; `none` if the renewal cannot have this snapshot. -/
def World.draw (w : World) (p : Nat) (c : Turn) : Option (Res UInt64 × World) :=
  match w.gens[p]? with
  | none => none
  | some g =>
    if g.since ≤ c.v ∧ c.v ≤ w.store.now then
      let x := g.seq.nextId (w.store.circ g.seq.key c) w.store.db
      let S := match x.1 with
        | .ok _ => if g.seq.next ≥ g.seq.leased then w.store.push x.2.2 [g.seq.key] else w.store
        | _ => w.store
      some (x.1, { w with store := S, gens := w.gens.set p ⟨x.2.1, S.now⟩ })
    else none

/-- sequence.go:22-37 NewSequence, with a keyword that is not empty; the new one is the last of the list. -/
def World.newSequence (w : World) (key : Bytes) (bandwidth : UInt64) (c : Turn) : Option (Res Unit × World) :=
  if c.v ≤ w.store.now then
    let x := Old.Seq.new key bandwidth (w.store.circ key c) w.store.db
    let S := match x.1 with
      | .ok _ => w.store.push x.2.2 [key]
      | _ => w.store
    some (x.1, { w with store := S, gens := w.gens ++ x.2.1.toList.map (fun s => ⟨s, S.now⟩) })
  else none

/-! ## What can happen -/

/-- How a call meets Close (collection.go:67-76 and the same lines in the other calls, db.go:65-82). -/
inductive How where
  /-- checkState, then closer.Add -/
  | usual
  /-- it passed checkState before Close began, and closer.Add refuses it -/
  | late
  /-- it passed both before Close began -/
  | early
  deriving DecidableEq

/-- *contract* util/closer: Strict.Add after the signal -/
def errCloser : Err := .other 140

/-- The prologue of a call; `none` if that is not possible. -/
def enter (st : DBState) : How → Option (Res Unit)
  | .usual => some (checkState st)
  | .late => if st = .open then none else some (.err errCloser)
  | .early => if st = .closed then none else some (.ok ())

/-- db.go:47 ErrEmptyCollectionName -/
def errEmptyCollectionName : Err := .other 141
/-- db.go:51 ErrCollectionNameForbiden -/
def errCollectionNameForbidden : Err := .other 142

/-- keys.go:31-32 -/
def reserved (name : Bytes) : Bool :=
  decide (name = [99, 111, 108, 108, 101, 99, 116, 105, 111, 110] ∨ name = [105, 110, 100, 101, 120])

inductive Ev (D : Type) where
  /-- NewDB, the first sequence; the object gets the next number -/
  | newDB (c : Turn)
  /-- NewDB, the second sequence -/
  | newDB2 (i : Nat) (c : Turn)
  /-- Collection, up to the number drawn for a new name; `v` and `env` are of its own transaction -/
  | lookup (i : Nat) (name : Bytes) (how : How) (v : Nat) (env : Env) (c : Turn)
  /-- the commit of the new name -/
  | register (i : Nat) (fail : Option Err)
  /-- the collection's sequence -/
  | sequence (i : Nat) (c : Turn)
  /-- the rest of Collection -/
  | indexes (i : Nat) (env : Env)
  /-- NewTransaction; the transaction gets the next number -/
  | begin (env : Env)
  | insert (k i : Nat) (name : Bytes) (doc : D) (how : How) (c : Turn)
  | op (k i : Nat) (name : Bytes) (o : Op D) (how : How)
  | commit (k : Nat) (fail : Option Err)
  | discard (k : Nat)
  /-- CreateIndex, up to its writes; the call gets the next number -/
  | createIndex (i : Nat) (name : Bytes) (d : IndexDef) (how : How) (v : Nat) (env : Env) (c : Turn)
  /-- the commit of CreateIndex -/
  | writeIndex (p : Nat) (fail : Option Err)
  /-- the rest of CreateIndex, or of DropIndex -/
  | finish (p : Nat)
  | getIndexes (i : Nat) (name : Bytes)
  /-- DropIndex, up to its commit; if it has erased an index the call gets the next number -/
  | dropIndex (i : Nat) (name iname : Bytes) (how : How) (c : Turn)
  /-- Close begins -/
  | close (i : Nat)
  /-- all calls have ended, and so does Close -/
  | closed (i : Nat) (env : Env)
  /-- the object's process dies; its transactions are then discarded -/
  | crash (i : Nat)

/-- What an event answers its caller; `none` also where nothing can happen. -/
inductive Answer (D : Type) where
  | none
  | ready
  /-- the call was refused by its prologue -/
  | refused (e : Err)
  /-- Collection -/
  | handle (r : Res Unit)
  | inserted (r : Res Int64)
  | out (r : Res (DocOut D))
  | committed (r : Res Unit)
  | created (r : Res Int64)
  /-- not told to anybody yet: CreateIndex has drawn this number for its index -/
  | drawn (iid : Int64)
  /-- not told to anybody yet: the commit of CreateIndex on this collection went through -/
  | stored (coll : Bytes) (iid : Int64) (d : IndexDef)
  /-- not told to anybody yet: the commit of DropIndex on this collection went through -/
  | erased (coll : Bytes) (iname : Bytes)
  | listed (l : List IndexDef)
  | dropped (r : Res Bool)
  | closed

variable {D : Type}

/-- The object and its collection object of this name; also the prologue of a call. -/
def World.call (w : World) (i : Nat) (name : Bytes) (how : How) : Option (Obj × Coll × Res Unit) :=
  match w.obj i with
  | none => none
  | some o => match o.colls.get name with
    | none => none
    | some cl => match enter o.st how with
      | none => none
      | some r => some (o, cl, r)

/-- db.go:55-93 Collection up to the commit in getCollectionID (db.go:164-183).  A call waits while another one makes a
collection object (db.mu). -/
def World.lookup (w : World) (i : Nat) (o : Obj) (name : Bytes) (how : How) (v : Nat) (env : Env) (c : Turn) :
    Answer D × World :=
  if name = [] then (.handle (.err errEmptyCollectionName), w)
  else if reserved name then (.handle (.err errCollectionNameForbidden), w)
  else match (if how = .usual then checkState o.st else .ok ()) with
    | .err e => (.refused e, w)
    | .panic => (.none, w)
    | .ok _ =>
      if o.making.isSome then (.none, w)
      else if (o.colls.get name).isSome then (.handle (.ok ()), w)
      else match enter o.st how with
        | none => (.none, w)
        | some (.err e) => (.refused e, w)
        | some .panic => (.none, w)
        | some (.ok _) =>
          if w.store.now < v then (.none, w)
          else match (getK (metaCollectionName2IDKey name)).run (Txn.start { env with update := true } (w.store.data v)) with
            | (.ok x, _) => match Numeric.decodeFromBinary x.value with
              | .ok u => (.none, w.putObj i { o with making := some (.known name u.toInt64) })
              | .err e => (.handle (.err e), w)
              | .panic => (.handle .panic, w.putObj i { o with making := some .stuck })
            | (.panic, _) => (.handle .panic, w.putObj i { o with making := some .stuck })
            | (.err .keyNotFound, t) => match w.draw o.cseq c with
              | none => (.none, w)
              | some (.ok u, w) => (.none, w.putObj i { o with making := some (.drawn name t v u) })
              | some (.err e, w) => (.handle (.err e), w)
              | some (.panic, w) => (.handle .panic, w.putObj i { o with making := some .stuck })
            | (.err e, _) => (.handle (.err e), w)

/-- db.go:180-191: the number is stored under the name. -/
def World.register (w : World) (i : Nat) (o : Obj) (name : Bytes) (t : Txn) (v : Nat) (u : UInt64) (fail : Option Err) :
    Answer D × World :=
  match (setK (metaCollectionName2IDKey name) (Numeric.encode2Binary u [])).run t with
  | (.err e, _) => (.handle (.err e), w.putObj i { o with making := none })
  | (.panic, _) => (.handle .panic, w.putObj i { o with making := some .stuck })
  | (.ok _, t) => match w.store.commit t v fail with
    | (.ok _, S) => (.none, { w with store := S }.putObj i { o with making := some (.known name u.toInt64) })
    | (.err e, S) => (.handle (.err e), { w with store := S }.putObj i { o with making := none })
    | (.panic, S) => (.handle .panic, { w with store := S }.putObj i { o with making := some .stuck })

/-- collection.go:36-40 -/
def World.sequence (w : World) (i : Nat) (o : Obj) (name : Bytes) (cid : Int64) (c : Turn) : Answer D × World :=
  match w.newSequence (metaSequenceKey name) documentIDBandWidth c with
  | none => (.none, w)
  | some (.ok _, w') => (.none, w'.putObj i { o with making := some (.counted name cid w.gens.length) })
  | some (.err e, w') => (.handle (.err e), w'.putObj i { o with making := none })
  | some (.panic, w') => (.handle .panic, w'.putObj i { o with making := some .stuck })

/-- collection.go:41-57, db.go:94-95 -/
def World.indexes (IC : IndexCodec) (w : World) (i : Nat) (o : Obj) (name : Bytes) (cid : Int64) (p : Nat) (env : Env) :
    Answer D × World :=
  match (Util.body env false (getIndexes IC cid) w.store.db).1 with
  | .ok l => (.handle (.ok ()), w.putObj i { o with making := none, colls := o.colls.set name ⟨cid, p, memOf l⟩ })
  | .err e => (.handle (.err e), w.putObj i { o with making := none })
  | .panic => (.handle .panic, w.putObj i { o with making := some .stuck })

/-- collection.go:60-98 InsertOne in a transaction: the id is drawn and the document written there. -/
def World.insert (C : Codec D) (w : World) (k : Nat) (s : Session) (cl : Coll) (doc : D) (c : Turn) : Answer D × World :=
  match w.draw cl.seq c with
  | none => (.none, w)
  | some (.err e, w) => (.inserted (.err e), w)
  | some (.panic, w) => (.inserted .panic, w)
  | some (.ok u, w) =>
    let x := (insertOne C cl.cid u.toInt64 doc).run s.txn
    (.inserted (x.1.map' (fun _ => u.toInt64)), w.putSession k { s with txn := x.2 })

/-- collection.go:423-457: CreateIndex up to its commit.  (The checks before are collection.go:400-411.) -/
def World.createIndex (IC : IndexCodec) (w : World) (i : Nat) (o : Obj) (name : Bytes) (cl : Coll) (d : IndexDef) (v : Nat)
    (env : Env) (c : Turn) : Answer D × World :=
  if w.store.now < v then (.none, w)
  else match columnsIndexedKey cl.cid d.fields with
    | .err e => (.created (.err e), w)
    | .panic => (.created .panic, w)
    | .ok ciKey =>
      match (checkColumns ciKey).run (Txn.start { env with update := true } (w.store.data v)) with
      | (.err e, _) => (.created (.err e), w)
      | (.panic, _) => (.created .panic, w)
      | (.ok _, t) => match o.iseq with
        | none => (.none, w)
        | some q => match w.draw q c with
          | none => (.none, w)
          | some (.err e, w) => (.created (.err e), w)
          | some (.panic, w) => (.created .panic, w)
          | some (.ok u, w) => match (writeIndex IC cl.cid u.toInt64 ciKey d).run t with
            | (.err e, _) => (.created (.err e), w)
            | (.panic, _) => (.created .panic, w)
            | (.ok _, t) => (.drawn u.toInt64, { w with pending := w.pending ++ [some ⟨i, name, .writing u.toInt64 d t v⟩] })

/-- The collection object's indexMap becomes another (collection.go:464-466, 598-600). -/
def World.remember (w : World) (i : Nat) (name : Bytes) (f : OMap IndexDef → OMap IndexDef) : World :=
  match w.obj i with
  | none => w
  | some o => match o.colls.get name with
    | none => w
    | some cl => w.putObj i { o with colls := o.colls.set name { cl with indexMap := f cl.indexMap } }

/-- collection.go:459-462: the commit of CreateIndex -/
def World.writeIndex (w : World) (p i : Nat) (name : Bytes) (iid : Int64) (d : IndexDef) (t : Txn) (v : Nat) (fail : Option Err) :
    Answer D × World :=
  match w.store.commit t v fail with
  | (.ok _, S) => (.stored name iid d, { w with store := S, pending := w.pending.set p (some ⟨i, name, .storing iid d⟩) })
  | (.err e, S) => (.created (.err e), { w with store := S, pending := w.pending.set p none })
  | (.panic, S) => (.created .panic, { w with store := S, pending := w.pending.set p none })

/-- collection.go:551-596: DropIndex up to its commit -/
def World.dropIndex (IC : IndexCodec) (w : World) (i : Nat) (name : Bytes) (cl : Coll) (iname : Bytes) (c : Turn) :
    Answer D × World :=
  if w.store.now < c.v then (.none, w)
  else match (dropIndexTxn IC cl.cid iname).run (Txn.start { c.env with update := true } (w.store.data c.v)) with
    | (.err e, _) => (.dropped (.err e), w)
    | (.panic, _) => (.dropped .panic, w)
    | (.ok none, _) => (.dropped (.ok false), w)
    | (.ok (some d), t) => match w.store.commit t c.v c.fail with
      | (.ok _, S) => (.erased name iname, { w with store := S, pending := w.pending ++ [some ⟨i, name, .erasing d.name⟩] })
      | (.err e, S) => (.dropped (.err e), { w with store := S })
      | (.panic, S) => (.dropped .panic, { w with store := S })

/-- collection.go:464-467 and 598-601: what follows the commits -/
def World.finish (w : World) (p : Nat) (q : Pending) : Answer D × World :=
  match q.stage with
  | .writing .. => (.none, w)
  | .storing iid d => (.created (.ok iid), { w with pending := w.pending.set p none }.remember q.obj q.name
      (fun m => m.set d.name { d with fields := normFields d.fields }))
  | .erasing n => (.dropped (.ok true), { w with pending := w.pending.set p none }.remember q.obj q.name (fun m => m.del n))

/-- sequence.go:75-94 ReleaseRemaining -/
def World.release (w : World) (env : Env) (p : Nat) : World :=
  match w.gens[p]? with
  | none => w
  | some g => { w with gens := w.gens.set p ⟨(g.seq.releaseRemaining ⟨env, w.store.db, none⟩ w.store.db).2.1, w.store.now⟩ }

/-- db.go:134-150: the end of Close -/
def World.releaseAll (w : World) (env : Env) (o : Obj) : World :=
  (o.cseq :: o.iseq.toList ++ o.colls.ents.map (fun e => e.2.seq)).foldl (fun w p => w.release env p) w

/-- Is a call of this object under way?  (closer.Done is deferred, so it runs also in a panic.) -/
def World.busy (w : World) (i : Nat) (o : Obj) : Bool :=
  (match o.making with
    | none | some .stuck => false
    | some _ => true) || w.pending.any (fun q => match q with
    | some q => decide (q.obj = i)
    | none => false)

/-- Package document has no GetAll. -/
def listsAll : Op D → Bool
  | .getAll => true
  | _ => false

/-- One event.  What a transaction does after its Commit or Discard is not modelled; a transaction is used by one goroutine
at a time.  A call without a transaction is NewTransaction, the call, and Commit or Discard (util.go:70-91), on a
transaction of its own; in InsertOne the id is drawn before that transaction is begun, but as the transaction then reads
nothing its snapshot is of no importance. -/
def World.step (C : Codec D) (IC : IndexCodec) (w : World) : Ev D → Answer D × World
  | .newDB c => match w.newSequence collectionSequenceKey collectionIDBandWidth c with
    | none => (.none, w)
    | some (_, w') => (.none, { w' with objs := w'.objs ++ [some { cseq := w.gens.length }] })
  | .newDB2 i c => match w.obj i with
    | none => (.none, w)
    | some o => if o.iseq.isSome then (.none, w) else
      match w.newSequence indexSequenceKey indexIDBandWidth c with
      | none => (.none, w)
      | some (_, w') => (.ready, w'.putObj i { o with iseq := some w.gens.length })
  | .lookup i name how v env c => match w.obj i with
    | none => (.none, w)
    | some o => if o.iseq.isSome then w.lookup i o name how v env c else (.none, w)
  | .register i fail => match w.obj i with
    | some o => match o.making with
      | some (.drawn name t v u) => w.register i o name t v u fail
      | _ => (.none, w)
    | none => (.none, w)
  | .sequence i c => match w.obj i with
    | some o => match o.making with
      | some (.known name cid) => w.sequence i o name cid c
      | _ => (.none, w)
    | none => (.none, w)
  | .indexes i env => match w.obj i with
    | some o => match o.making with
      | some (.counted name cid p) => w.indexes IC i o name cid p env
      | _ => (.none, w)
    | none => (.none, w)
  | .begin env => (.none, { w with sessions := w.sessions ++ [⟨Txn.start env w.store.db, w.store.now, .live⟩] })
  | .insert k i name doc how c => match w.sessions[k]?, w.call i name how with
    | some s, some (_, cl, r) => if s.phase = .live then
        match C.marshal doc, r with
        | .err e, _ => (.inserted (.err e), w)
        | .panic, _ => (.inserted .panic, w)
        | .ok _, .err e => (.refused e, w)
        | .ok _, .panic => (.none, w)
        | .ok _, .ok _ => w.insert C k s cl doc c
      else (.none, w)
    | _, _ => (.none, w)
  | .op k i name o how => match w.sessions[k]?, w.call i name how with
    | some s, some (_, cl, r) => if s.phase = .live ∧ listsAll o = false then
        match o.marshal C, r with
        | .err e, _ => (.out (.err e), w)
        | .panic, _ => (.out .panic, w)
        | .ok _, .err e => (.refused e, w)
        | .ok _, .panic => (.none, w)
        | .ok _, .ok _ =>
          let x := (exec C (o.at cl.cid)).run s.txn
          (.out x.1, w.putSession k { s with txn := x.2 })
      else (.none, w)
    | _, _ => (.none, w)
  | .commit k fail => match w.sessions[k]? with
    | some s => if s.phase = .live then
        match w.store.commit s.txn s.v fail with
        | (r, S) => (.committed r, { w with store := S }.putSession k
            { s with phase := if S.now = w.store.now then .over else .committed S.now })
      else (.none, w)
    | none => (.none, w)
  | .discard k => match w.sessions[k]? with
    | some s => if s.phase = .live then (.none, w.putSession k { s with phase := .over }) else (.none, w)
    | none => (.none, w)
  | .createIndex i name d how v env c => match w.call i name how with
    | some (o, cl, r) =>
      if d.name = [] then (.created (.err errIndexNameEmpty), w)
      else if d.fields = [] then (.created (.err errIndexFieldsEmpty), w)
      else match r with
        | .err e => (.refused e, w)
        | .panic => (.none, w)
        | .ok _ => w.createIndex IC i o name cl d v env c
    | none => (.none, w)
  | .writeIndex p fail => match (w.pending[p]?).join with
    | some ⟨i, name, .writing iid d t v⟩ => w.writeIndex p i name iid d t v fail
    | _ => (.none, w)
  | .finish p => match (w.pending[p]?).join with
    | some q => w.finish p q
    | none => (.none, w)
  | .getIndexes i name => match w.obj i with
    | some o => match o.colls.get name with
      | some cl => (.listed (cl.indexMap.ents.map Prod.snd), w)
      | none => (.none, w)
    | none => (.none, w)
  | .dropIndex i name iname how c => match w.call i name how with
    | some (_, cl, r) =>
      if iname = [] then (.dropped (.err errIndexNameEmpty), w)
      else match r with
        | .err e => (.refused e, w)
        | .panic => (.none, w)
        | .ok _ => w.dropIndex IC i name cl iname c
    | none => (.none, w)
  | .close i => match w.obj i with
    | some o => if o.st = .open ∧ o.iseq.isSome then (.none, w.putObj i { o with st := .closing }) else (.none, w)
    | none => (.none, w)
  | .closed i env => match w.obj i with
    | some o => if o.st = .closing ∧ w.busy i o = false then
        (.closed, (w.releaseAll env o).putObj i { o with st := .closed })
      else (.none, w)
    | none => (.none, w)
  | .crash i =>
    (.none, { w with objs := w.objs.set i none, pending := w.pending.map (fun q => match q with
      | some q => if q.obj = i then none else some q
      | none => none) })

/-- A history. -/
def run (C : Codec D) (IC : IndexCodec) : List (Ev D) → World → List (Answer D) × World
  | [], w => ([], w)
  | e :: es, w => ((w.step C IC e).1 :: (run C IC es (w.step C IC e).2).1, (run C IC es (w.step C IC e).2).2)

end Mondis.DocDB
