import Verif.Spec.IMap
import Verif.Model.Base
/-!
# Specification of collections

A database holds, under each collection id, a finite map from document ids to documents.  Nothing here
mentions how they are stored.  `norm d` is what a document reads back as after it has been stored, or the
error with which the document format refuses it.
-/
namespace Mondis.Spec

/-- All collections. -/
abbrev Docs (D : Type) := Int64 → IMap D

/-- No document anywhere. -/
def Docs.init {D : Type} : Docs D := fun _ => IMap.empty

/-- Replace the contents of one collection. -/
def Docs.upd {D : Type} (A : Docs D) (cid : Int64) (s : IMap D) : Docs D :=
  fun c => if c = cid then s else A c

/-- ErrDocNotFound -/
def errDocNotFound : Err := .other 61
/-- ErrDocIDExists, dml.ErrDocExists -/
def errDocExists : Err := .other 62

/-- The operations on documents; `insert` is InsertOne after its sequence gave the id. -/
inductive DocOp (D : Type) where
  | insert (cid did : Int64) (d : D)
  | insertManaged (cid did : Int64) (d : D)
  | update (cid did : Int64) (d : D)
  | upsert (cid did : Int64) (d : D)
  | delete (cid did : Int64)
  | getOne (cid did : Int64)
  | getMany (cid : Int64) (dids : List Int64)
  | getAll (cid : Int64)
  | count (cid : Int64)
  | deleteAll (cid : Int64)

/-- The collection an operation is about. -/
def DocOp.cid {D : Type} : DocOp D → Int64
  | .insert c _ _ | .insertManaged c _ _ | .update c _ _ | .upsert c _ _ | .delete c _ | .getOne c _
  | .getMany c _ | .getAll c | .count c | .deleteAll c => c

/-- Operations that may change the collection. -/
def DocOp.mutates {D : Type} : DocOp D → Bool
  | .getOne .. | .getMany .. | .getAll .. | .count .. => false
  | _ => true

/-- Answers. -/
inductive DocOut (D : Type) where
  | unit | flag (b : Bool) | doc (d : D) | docs (l : List D) | num (n : Nat)
  deriving DecidableEq, Repr

/-- All the documents with the given ids, in that order. -/
def fetch {D : Type} (s : IMap D) : List Int64 → Res (List D)
  | [] => .ok []
  | i :: is => match s.get i with
    | none => .err errDocNotFound
    | some d => match fetch s is with
      | .ok ds => .ok (d :: ds)
      | .err e => .err e
      | .panic => .panic

/-- A write of document `d`: refused if the format refuses it, otherwise `f` of what it reads back as. -/
def storing {D : Type} (norm : D → Res D) (s : IMap D) (d : D) (f : D → Res (DocOut D) × IMap D) :
    Res (DocOut D) × IMap D :=
  match norm d with
  | .ok d' => f d'
  | .err e => (.err e, s)
  | .panic => (.panic, s)

/-- The meaning of the operations on the contents of their collection. -/
def DocOp.sem {D : Type} (norm : D → Res D) (s : IMap D) : DocOp D → Res (DocOut D) × IMap D
  | .insert _ did d => storing norm s d (fun d => (.ok .unit, s.set did d))
  | .insertManaged _ did d => storing norm s d (fun d => match s.get did with
    | some _ => (.err errDocExists, s)
    | none => (.ok .unit, s.set did d))
  | .update _ did d => storing norm s d (fun d => match s.get did with
    | some _ => (.ok (.flag true), s.set did d)
    | none => (.ok (.flag false), s))
  | .upsert _ did d => storing norm s d (fun d => (.ok (.flag (s.get did).isNone), s.set did d))
  | .delete _ did => (.ok .unit, s.del did)
  | .getOne _ did => match s.get did with
    | some d => (.ok (.doc d), s)
    | none => (.err errDocNotFound, s)
  | .getMany _ dids => ((fetch s dids).map' .docs, s)
  | .getAll _ => (.ok (.docs (s.ents.map Prod.snd)), s)
  | .count _ => (.ok (.num s.ents.length), s)
  | .deleteAll _ => (.ok (.num s.ents.length), IMap.empty)

/-- One operation on all collections. -/
def DocOp.step {D : Type} (norm : D → Res D) (A : Docs D) (op : DocOp D) : Res (DocOut D) × Docs D :=
  ((op.sem norm (A op.cid)).1, A.upd op.cid (op.sem norm (A op.cid)).2)

/-- A sequence of operations: all answers and the final contents. -/
def runDocs {D : Type} (norm : D → Res D) (A : Docs D) : List (DocOp D) → List (Res (DocOut D)) × Docs D
  | [] => ([], A)
  | op :: ops =>
    let (r, A') := op.step norm A
    let (rs, A'') := runDocs norm A' ops
    (r :: rs, A'')

/-- One transaction: its operations and whether it is committed or thrown away. -/
structure DocScript (D : Type) where
  ops : List (DocOp D)
  commits : Bool

/-- Transactions one after the other: the answers given in each. -/
def runDocScripts {D : Type} (norm : D → Res D) (A : Docs D) : List (DocScript D) → List (List (Res (DocOut D)))
  | [] => []
  | s :: rest =>
    (runDocs norm A s.ops).1 :: runDocScripts norm (if s.commits then (runDocs norm A s.ops).2 else A) rest

end Mondis.Spec
