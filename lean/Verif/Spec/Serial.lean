import Verif.Spec.Domain
/-!
# Transactions one after the other

What the callers of a process did and were told, transaction by transaction, and what it means that the
transactions could have run one at a time.  Collections are identified by name.
-/
namespace Mondis.Spec
open Mondis Domain

variable {D : Type}

/-- The documents of every collection of every database, by name. -/
abbrev Library (D : Type) := Bytes → Bytes → IMap D

/-- No documents. -/
def Library.empty : Library D := fun _ _ => IMap.empty

/-- Replace the contents of one collection. -/
def Library.upd (N : Library D) (db coll : Bytes) (s : IMap D) : Library D :=
  fun b c => if b = db ∧ c = coll then s else N b c

/-- A call on a collection. -/
inductive DocCall (D : Type) where
  /-- InsertOne, which gave this id -/
  | insert (did : Int64) (d : D)
  | op (o : Op D)

/-- What a call means for the contents of its collection (Spec/Document, where the number of the collection is of no
importance). -/
def DocCall.sem (norm : D → Res D) (s : IMap D) : DocCall D → Res (DocOut D) × IMap D
  | .insert did d => (DocOp.insert 0 did d).sem norm s
  | .op o => (o.at 0).sem norm s

/-- The call is about the documents it names. -/
def DocCall.point : DocCall D → Bool
  | .op .getAll | .op .count | .op .deleteAll => false
  | _ => true

/-- The call only reads. -/
def DocCall.reads : DocCall D → Bool
  | .op (.getOne _) | .op (.getMany _) | .op .getAll | .op .count => true
  | _ => false

/-- A call in a transaction, and what it answered. -/
structure Said (D : Type) where
  db : Bytes
  coll : Bytes
  call : DocCall D
  answer : Res (DocOut D)

/-- The call has written or deleted something. -/
def Said.wrote (q : Said D) : Bool :=
  match q.call, q.answer with
  | .insert _ _, _ => true
  | .op (.insertManaged _ _), .ok _ | .op (.upsert _ _), .ok _ | .op (.delete _), .ok _ => true
  | .op (.update _ _), .ok (.flag b) => b
  | .op .deleteAll, .ok (.num n) => decide (0 < n)
  | _, _ => false

/-- The answer says that there is no such collection. -/
def noCollection {α : Type} : Res α → Bool
  | .err e => decide (e = Dml.errCollectionNotExists)
  | _ => false

/-- The call that an event is, with its answer, in transaction `k`.  InsertOne answers 0 when there is no such
collection. -/
def saidOf (k : Nat) : Domain.Ev D × Domain.Answer D → Option (Said D)
  | (.insert j db coll doc _ _, .inserted (.ok did)) =>
    if j = k ∧ did ≠ 0 then some ⟨db, coll, .insert did doc, .ok .unit⟩ else none
  | (.op j db coll o _, .out r) => if j = k ∧ noCollection r = false then some ⟨db, coll, .op o, r⟩ else none
  | _ => none

/-- All calls in transaction `k`. -/
def saidIn (k : Nat) (es : List (Domain.Ev D)) (as : List (Domain.Answer D)) : List (Said D) := (es.zip as).filterMap (saidOf k)

/-- The transactions that wrote something and whose Commit succeeded, in the order of their commits. -/
def writersIn (es : List (Domain.Ev D)) (as : List (Domain.Answer D)) : List Nat :=
  (committedIn es as).filter (fun k => (saidIn k es as).any Said.wrote)

/-- Calls one after the other: what they have to answer, and the documents afterwards. -/
def play (norm : D → Res D) (N : Library D) : List (Said D) → List (Res (DocOut D)) × Library D
  | [] => ([], N)
  | q :: l =>
    let x := q.call.sem norm (N q.db q.coll)
    let y := play norm (N.upd q.db q.coll x.2) l
    (x.1 :: y.1, y.2)

/-- Transactions one after the other, from `N` to `N'`, give the answers they gave. -/
def Serial (norm : D → Res D) : Library D → List (List (Said D)) → Library D → Prop
  | N, [], N' => N' = N
  | N, t :: ts, N' => (play norm N t).1 = t.map (·.answer) ∧ Serial norm (play norm N t).2 ts N'

/-- No transaction that wrote something has listed, counted or emptied a collection that another transaction, committed between
its snapshot and its commit, has written to. -/
def Undisturbed (J : Schema.Json) (C : Doc.Codec D) (es : List (Domain.Ev D)) (w : World) : Prop :=
  ∀ j k sj sk, Overlap J C es w j k sj sk → (saidIn k es (run J C es w).1).any Said.wrote = true →
    ∀ q ∈ saidIn k es (run J C es w).1, q.call.point = false →
    ∀ r ∈ saidIn j es (run J C es w).1, r.wrote = true → ¬ (r.db = q.db ∧ r.coll = q.coll)

end Mondis.Spec
