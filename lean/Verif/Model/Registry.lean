import Verif.Model.Ddl
/-!
# Model of document/dml/sequence.go: the sequences of document ids in the processes of one database

A process keeps a map from collection ids to sequence objects.  `CreateSequence`, `DropSequence` and `DropSequenceIfExists` are not
to be called at the same time (their comments say so), so each is one step; `GetSequence` and the methods of an object may be
called at any time.
-/
namespace Mondis.Registry
open Mondis Sequence Ddl

/-- A sequence object, the process it is in and the collection it was made for. -/
structure Obj where
  proc : Nat
  cid : Int64
  seq : Seq

/-- The database; all objects ever made, by pointer, `none` if the process is gone; each process' sequenceMap (dml/sequence.go:14);
and, with their collections, the ids that Next handed out and those given to PutBack, newest first. -/
structure World where
  db : DB
  objs : List (Option Obj) := []
  tables : Nat → Int64 → Option Nat := fun _ _ => none
  out : List (Int64 × Int64) := []
  back : List (Int64 × Int64) := []

/-- What can happen; `p` is the process and `x` an object. -/
inductive Ev where
  | create (p : Nat) (dbID cid bandwidth : Int64) (c : Sequence.Circ)
  | get (p : Nat) (cid : Int64)
  /-- `lease0` is config.Load().Lease == 0 -/
  | drop (p : Nat) (cid : Int64) (lease0 : Bool) (c : Sequence.Circ)
  | dropIfExists (p : Nat) (cid : Int64) (lease0 : Bool) (c : Sequence.Circ)
  | next (x : Nat) (c : Sequence.Circ)
  | putBack (x : Nat) (vals : List Int64)
  /-- the process dies -/
  | crash (p : Nat)
  /-- other transactions commit -/
  | other (db : DB)

/-- Answers; a nil pointer is `got none`. -/
inductive Answer where
  | none
  | made (r : Res Unit)
  | got (x : Option Nat)
  | dropped (r : Res Unit)
  | id (r : Res Int64)
  deriving DecidableEq

def World.obj (w : World) (x : Nat) : Option Obj := (w.objs[x]?).join

/-- sequenceMap.LoadOrStore and Delete (dml/sequence.go:42, 58, 71) -/
def World.enter (w : World) (p : Nat) (cid : Int64) (x : Option Nat) : World :=
  { w with tables := fun q c => if q = p ∧ c = cid then x else w.tables q c }

/-- An object after one of its methods ran. -/
def World.put {α : Type} (w : World) (x : Nat) (o : Obj) (r : Res α × Seq × DB) : World :=
  { w with db := r.2.2, objs := w.objs.set x (some { o with seq := r.2.1 }) }

/-- meta/did_sequence.go:12-14 -/
def bandwidthOf (b : Int64) : Int64 := if b ≤ 0 then defaultDIDBandWidth else b

/-- dml/sequence.go:30-48 CreateSequence (NewDocIDSequence is did_sequence.go:11-20).  If NewHash fails its object is dropped. -/
def World.create (w : World) (p : Nat) (dbID cid b : Int64) (c : Sequence.Circ) : Res Unit × World :=
  if (w.tables p cid).isSome then (.err errSequenceAlreadyExists, w)
  else match Seq.new (didCell dbID cid) (bandwidthOf b) c w.db with
    | (.ok _, some s, db) => (.ok (), { w with db := db, objs := w.objs ++ [some (⟨p, cid, s⟩ : Obj)] }.enter p cid (some w.objs.length))
    | (.ok _, none, db) => (.panic, { w with db := db })
    | (.err e, _, db) => (.err e, { w with db := db })
    | (.panic, _, db) => (.panic, { w with db := db })

/-- dml/sequence.go:58-60, 71-73: Delete and Close -/
def World.discard (w : World) (p : Nat) (cid : Int64) (x : Nat) (lease0 : Bool) (c : Sequence.Circ) : Res Unit × World :=
  match (w.enter p cid none).obj x with
  | none => (.panic, w.enter p cid none)
  | some o => ((o.seq.close lease0 c w.db).1, (w.enter p cid none).put x o (o.seq.close lease0 c w.db))

/-- One event. -/
def World.step (w : World) : Ev → Answer × World
  | .create p dbID cid b c => (.made (w.create p dbID cid b c).1, (w.create p dbID cid b c).2)
  -- dml/sequence.go:22-27 GetSequence
  | .get p cid => (.got (w.tables p cid), w)
  -- dml/sequence.go:51-62 DropSequence
  | .drop p cid lease0 c => match w.tables p cid with
    | none => (.dropped (.err Dml.errSequenceNotExists), w)
    | some x => (.dropped (w.discard p cid x lease0 c).1, (w.discard p cid x lease0 c).2)
  -- dml/sequence.go:65-75 DropSequenceIfExists
  | .dropIfExists p cid lease0 c => match w.tables p cid with
    | none => (.dropped (.ok ()), w)
    | some x => (.dropped (w.discard p cid x lease0 c).1, (w.discard p cid x lease0 c).2)
  -- meta/sequence/sequence.go:123-148 Next
  | .next x c => match w.obj x with
    | none => (.none, w)
    | some o => match o.seq.nextId c w.db with
      | (.ok v, r) => (.id (.ok v), { w.put x o ((.ok v : Res Int64), r) with out := (o.cid, v) :: w.out })
      | (.err e, r) => (.id (.err e), w.put x o ((.err e : Res Int64), r))
      | (.panic, r) => (.id .panic, w.put x o ((.panic : Res Int64), r))
  -- meta/sequence/sequence.go:114-119 PutBack
  | .putBack x vals => match w.obj x with
    | none => (.none, w)
    | some o => (.none, { w with objs := w.objs.set x (some { o with seq := o.seq.putBack vals }), back := vals.map (fun v => (o.cid, v)) ++ w.back })
  | .crash p => (.none, { w with
      objs := w.objs.map (fun o => o.bind (fun o => if o.proc = p then none else some o)),
      tables := fun q c => if q = p then none else w.tables q c })
  | .other db => (.none, { w with db := db })

/-- A history. -/
def run : List Ev → World → List Answer × World
  | [], w => ([], w)
  | e :: es, w => ((w.step e).1 :: (run es (w.step e).2).1, (run es (w.step e).2).2)

end Mondis.Registry
