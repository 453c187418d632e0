import Verif.Spec.Serial
import Verif.Model.DocumentDB
import Verif.Props.Document
/-!
# What the callers of package document see

The calls in a transaction with their answers, the transactions that wrote in the order of their commits, and the documents in a
database under the names of their collections.  `Said`, `play` and `Serial` are those of Spec/Serial; there is one database,
whose name is empty.
-/
namespace Mondis.DocDB
open Mondis Doc Spec

variable {D : Type}

/-- The call that an event is, with its answer, in transaction `k`. -/
def saidOf (k : Nat) : Ev D × Answer D → Option (Said D)
  | (.insert j _ name doc _ _, .inserted (.ok did)) => if j = k then some ⟨[], name, .insert did doc, .ok .unit⟩ else none
  | (.op j _ name o _, .out r) => if j = k then some ⟨[], name, .op o, r⟩ else none
  | _ => none

/-- All calls in transaction `k` that were not refused because of Close. -/
def saidIn (k : Nat) (es : List (Ev D)) (as : List (Answer D)) : List (Said D) := (es.zip as).filterMap (saidOf k)

/-- The transaction whose Commit succeeded. -/
def committedOf : Ev D × Answer D → Option Nat
  | (.commit k _, .committed (.ok _)) => some k
  | _ => none

/-- The transactions that wrote something and whose Commit succeeded, in the order of their commits. -/
def writersIn (es : List (Ev D)) (as : List (Answer D)) : List Nat :=
  ((es.zip as).filterMap committedOf).filter (fun k => (saidIn k es as).any Said.wrote)

/-- The ids that InsertOne gave, for the collections of this name. -/
def idOf (name : Bytes) : Ev D × Answer D → Option Int64
  | (.insert _ _ n _ _ _, .inserted (.ok did)) => if n = name then some did else none
  | _ => none

def idsIn (name : Bytes) (es : List (Ev D)) (as : List (Answer D)) : List Int64 := (es.zip as).filterMap (idOf name)

/-- The number that CreateIndex drew for its index. -/
def iidOf : Ev D × Answer D → Option Int64
  | (.createIndex .., .drawn iid) => some iid
  | _ => none

def iidsIn (es : List (Ev D)) (as : List (Answer D)) : List Int64 := (es.zip as).filterMap iidOf

/-- The number stored for a collection name. -/
def numberOf (db : DB) (name : Bytes) : Option Int64 :=
  match db.get (metaCollectionName2IDKey name) with
  | some v => match Numeric.decodeFromBinary v.value with
    | .ok u => some u.toInt64
    | _ => none
  | none => none

/-- `N` are the documents in this database. -/
def Holdings (C : Codec D) (db : DB) (N : Library D) : Prop :=
  ∃ A : Docs D, Props.HoldsDocs C A db ∧ ∀ name, N [] name = match numberOf db name with
    | some x => A x
    | none => IMap.empty

/-- Nothing of this package is stored. -/
def Blank (db : DB) : Prop := ∀ k, db.get k ≠ none → ¬ IsPrefixOf collectionPrefix k ∧ ¬ IsPrefixOf metaPrefix k

/-- In a history that ends in `w`, transaction `j` was committed after `k` took its snapshot and before `k` was committed. -/
def Overlap (w : World) (j k : Nat) : Prop :=
  ∃ sj sk m n, w.sessions[j]? = some sj ∧ w.sessions[k]? = some sk ∧ sj.phase = .committed m ∧ sk.phase = .committed n ∧
    sk.v < m ∧ m < n

/-- No transaction that wrote something has counted or emptied a collection that another transaction, committed between its
snapshot and its commit, has written to. -/
def Undisturbed (C : Codec D) (IC : IndexCodec) (es : List (Ev D)) (w : World) : Prop :=
  ∀ j k, Overlap (run C IC es w).2 j k →
    ∀ q ∈ saidIn k es (run C IC es w).1, q.call.point = false →
    ∀ r ∈ saidIn j es (run C IC es w).1, r.wrote = true → r.coll ≠ q.coll

/-- No transaction is too big, and the history is not astronomically long. -/
def Brief (es : List (Ev D)) : Prop := 1000 * es.length < 2 ^ 64 ∧ ∀ env, .begin env ∈ es → Roomy env

/-- The call did nothing. -/
def Answer.failed : Answer D → Bool
  | .none | .refused _ | .handle (.err _) | .inserted (.err _) | .out (.err _) | .created (.err _) | .dropped (.err _) => true
  | .inserted .panic | .out .panic | .created .panic | .dropped .panic => true
  | _ => false

/-- A call of object `i`, or a part of one, or its Close. -/
def callOf (w : World) (i : Nat) : Ev D → Prop
  | .lookup j _ _ _ _ _ | .register j _ | .sequence j _ | .indexes j _ | .insert _ j _ _ _ _ | .op _ j _ _ _
  | .createIndex j _ _ _ _ _ _ | .dropIndex j _ _ _ _ | .close j | .closed j _ => j = i
  | .writeIndex p _ | .finish p => ∀ q, (w.pending[p]?).join = some q → q.obj = i
  | _ => False

end Mondis.DocDB
