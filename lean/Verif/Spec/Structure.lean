import Verif.Spec.OMap
import Verif.Model.Base
import Verif.Model.Compact
/-!
# Specification of the data structures

Under each user key live, independently of each other, an optional string, a map from fields to
values and a sequence of values.  Nothing here mentions how they are stored.
-/
namespace Mondis.Spec

/-- What lives under one user key. -/
structure Obj where
  str : Option Bytes := none
  hash : OMap Bytes := OMap.empty
  list : List Bytes := []

/-- All user keys. -/
abbrev SState := Bytes → Obj

/-- Nothing stored anywhere. -/
def SState.init : SState := fun _ => {}

/-- Replace what lives under `k`. -/
def SState.upd (A : SState) (k : Bytes) (o : Obj) : SState := fun j => if j = k then o else A j

/-- The operations of package structure. -/
inductive SOp where
  | set (k v : Bytes) | get (k : Bytes) | clear (k : Bytes)
  | getInt (k : Bytes) | setInt (k : Bytes) (v : Int64) | inc (k : Bytes) (step : Int64)
  | hset (k f v : Bytes) | hget (k f : Bytes) | hinc (k f : Bytes) (step : Int64)
  | hgetInt (k f : Bytes) | hsetInt (k f : Bytes) (v : Int64)
  | hlen (k : Bytes) | hdel (k : Bytes) (fs : List Bytes) | hkeys (k : Bytes)
  | hgetN (k : Bytes) (n : Int) | hgetAll (k : Bytes) | hgetNDesc (k : Bytes) (n : Int)
  | hclear (k : Bytes)
  | lpush (k : Bytes) (vs : List Bytes) | rpush (k : Bytes) (vs : List Bytes)
  | lpop (k : Bytes) | rpop (k : Bytes) | llen (k : Bytes) | lgetAll (k : Bytes)
  | lindex (k : Bytes) (i : Int64) | lset (k : Bytes) (i : Int64) (v : Bytes) | lclear (k : Bytes)

/-- The user key an operation is about. -/
def SOp.key : SOp → Bytes
  | .set k _ | .get k | .clear k | .getInt k | .setInt k _ | .inc k _ | .hset k _ _ | .hget k _
  | .hinc k _ _ | .hgetInt k _ | .hsetInt k _ _ | .hlen k | .hdel k _ | .hkeys k | .hgetN k _
  | .hgetAll k | .hgetNDesc k _ | .hclear k | .lpush k _ | .rpush k _ | .lpop k | .rpop k
  | .llen k | .lgetAll k | .lindex k _ | .lset k _ _ | .lclear k => k

/-- Answers. -/
inductive Out where
  | unit | bytes (b : Bytes) | int (i : Int) | list (l : List Bytes)
  | pairs (l : List (Bytes × Bytes))
  deriving DecidableEq, Repr

/-- The integer a stored text stands for: decimal text, empty text is not a number. -/
def intOf (b : Bytes) : Res Int64 :=
  if b = [] then .err .valueIsNil else Numeric.parseInt b

/-- The decimal text of an integer. -/
def textOf (i : Int64) : Bytes := Numeric.formatInt i

/-- Positions count from 0; negative ones from the end. -/
def position (l : List Bytes) (i : Int64) : Int :=
  if 0 ≤ i.toInt then i.toInt else l.length + i.toInt

/-- The integer an operand counts as: an absent or empty field counts as 0. -/
def fieldInt (h : OMap Bytes) (f : Bytes) : Res Int64 :=
  match h.get f with
  | none => .ok 0
  | some b => if b = [] then .ok 0 else Numeric.parseInt b

/-- The meaning of the operations on what lives under the key. -/
def SOp.sem (o : Obj) : SOp → Res Out × Obj
  | .set _ v => (.ok .unit, { o with str := some v })
  | .get _ => match o.str with
    | some v => (.ok (.bytes v), o)
    | none => (.err .keyNotFound, o)
  | .clear _ => (.ok .unit, { o with str := none })
  | .getInt _ => match o.str with
    | some v => ((intOf v).map' (fun i => .int i.toInt), o)
    | none => (.err .keyNotFound, o)
  | .setInt _ v => (.ok .unit, { o with str := some (textOf v) })
  | .inc _ step => match o.str with
    | none => (.ok (.int step.toInt), { o with str := some (textOf step) })
    | some v => match intOf v with
      | .ok n => (.ok (.int (n + step).toInt), { o with str := some (textOf (n + step)) })
      | .err e => (.err e, o)
      | .panic => (.panic, o)
  | .hset _ f v => (.ok .unit, { o with hash := o.hash.set f v })
  | .hget _ f => match o.hash.get f with
    | some v => (.ok (.bytes v), o)
    | none => (.err .keyNotFound, o)
  | .hinc _ f step => match fieldInt o.hash f with
    | .ok n => (.ok (.int (n + step).toInt), { o with hash := o.hash.set f (textOf (n + step)) })
    | .err e => (.err e, o)
    | .panic => (.panic, o)
  | .hgetInt _ f => match o.hash.get f with
    | some v => ((intOf v).map' (fun i => .int i.toInt), o)
    | none => (.err .keyNotFound, o)
  | .hsetInt _ f v => (.ok .unit, { o with hash := o.hash.set f (textOf v) })
  | .hlen _ => (.ok (.int o.hash.ents.length), o)
  | .hdel _ fs => (.ok .unit, { o with hash := fs.foldl OMap.del o.hash })
  | .hkeys _ => (.ok (.list (o.hash.ents.map Prod.fst)), o)
  | .hgetN _ n => (.ok (.pairs (o.hash.ents.take n.toNat)), o)
  | .hgetAll _ => (.ok (.pairs o.hash.ents), o)
  | .hgetNDesc _ n => (.ok (.pairs (o.hash.ents.reverse.take n.toNat)), o)
  | .hclear _ => (.ok .unit, { o with hash := OMap.empty })
  | .lpush _ vs => (.ok .unit, { o with list := vs.reverse ++ o.list })
  | .rpush _ vs => (.ok .unit, { o with list := o.list ++ vs })
  | .lpop _ => match o.list with
    | [] => (.err .keyNotFound, o)
    | v :: l => (.ok (.bytes v), { o with list := l })
  | .rpop _ => match o.list.getLast? with
    | none => (.err .keyNotFound, o)
    | some v => (.ok (.bytes v), { o with list := o.list.dropLast })
  | .llen _ => (.ok (.int o.list.length), o)
  | .lgetAll _ => (.ok (.list o.list.reverse), o)
  | .lindex _ i =>
    if o.list = [] then (.err .keyNotFound, o)
    else if 0 ≤ position o.list i ∧ position o.list i < o.list.length then
      (.ok (.bytes (o.list[(position o.list i).toNat]?.getD [])), o)
    else (.ok (.bytes []), o)
  | .lset _ i v =>
    if 0 ≤ position o.list i ∧ position o.list i < o.list.length then
      (.ok .unit, { o with list := o.list.set (position o.list i).toNat v })
    else (.err .keyNotFound, o)
  | .lclear _ => (.ok .unit, { o with list := [] })

/-- One operation on the whole state. -/
def SOp.step (A : SState) (op : SOp) : Res Out × SState :=
  ((op.sem (A op.key)).1, A.upd op.key (op.sem (A op.key)).2)

/-- A sequence of operations: all answers and the final state. -/
def runSpec (A : SState) : List SOp → List (Res Out) × SState
  | [] => ([], A)
  | op :: ops =>
    let (r, A') := op.step A
    let (rs, A'') := runSpec A' ops
    (r :: rs, A'')

/-- One transaction of a client: its operations and whether it is committed or thrown away. -/
structure Script where
  ops : List SOp
  commits : Bool

/-- A history of transactions, one after the other: the answers given in each. -/
def runScripts (A : SState) : List Script → List (List (Res Out))
  | [] => []
  | s :: rest =>
    (runSpec A s.ops).1 :: runScripts (if s.commits then (runSpec A s.ops).2 else A) rest

end Mondis.Spec
