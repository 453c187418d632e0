import Verif.Spec.DocumentDB
import Verif.Props.DocKeys
/-!
# The catalogue of indexes in package document

What the successful commits of CreateIndex and DropIndex amount to.
-/
namespace Mondis.DocDB
open Mondis Doc Spec

variable {D : Type}

/-- The indexes of the collection of each name, by their own names, with their numbers. -/
abbrev Catalogue := Bytes → OMap (Int64 × IndexDef)

/-- Nothing is indexed. -/
def Catalogue.empty : Catalogue := fun _ => OMap.empty

/-- CreateIndex adds an index, DropIndex takes one away. -/
def Catalogue.next (K : Catalogue) : Answer D → Catalogue
  | .stored coll iid d => fun n => if n = coll then (K n).set d.name (iid, d) else K n
  | .erased coll iname => fun n => if n = coll then (K n).del iname else K n
  | _ => K

/-- The catalogue after these answers. -/
def catalogue (as : List (Answer D)) : Catalogue := as.foldl Catalogue.next .empty

/-- There is an index on the same columns. -/
def Catalogue.Taken (K : Catalogue) (coll : Bytes) (fs : List IndexField) : Prop :=
  ∃ n iid d, (K coll).get n = some (iid, d) ∧ Props.SameColumns d.fields fs

/-- A definition that CreateIndex can store: the name fits into a key, the columns are distinct (and not astronomically many), and a
transaction that refused one write for its size refuses the next. -/
structure Sane (d : IndexDef) (env : Env) : Prop where
  short : ∀ cid, keyErr (indexName2IDKey cid d.name) = none
  nodup : (d.fields.map IndexField.name).Nodup
  len : ∀ cid b, columnsIndexedKey cid d.fields = .ok b → b.length < 2 ^ 63
  big : env.tooBig 1 = true → env.tooBig 2 = true

/-- Only such definitions are given to CreateIndex. -/
def Modest (es : List (Ev D)) : Prop := ∀ i name d how v env c, .createIndex i name d how v env c ∈ es → Sane d env

/-- No index is stored under a name that another one has (CreateIndex does not look). -/
def NoReuse (as : List (Answer D)) : Prop :=
  ∀ (k : Nat) coll iid d, as[k]? = some (.stored coll iid d) → (catalogue (as.take k) coll).get d.name = none

/-- The histories that C76 is about: the store is empty at first and used through package document only. -/
structure Fair (C : Codec D) (IC : IndexCodec) (db : DB) (es : List (Ev D)) : Prop where
  blank : Blank db
  brief : Brief es
  modest : Modest es
  noReuse : NoReuse (run C IC es (World.start db)).1

/-! ## What the objects remember -/

/-- A CreateIndex or DropIndex of object `i` on this collection has committed, and has still to note it in the object. -/
def Unsettled (w : World) (i : Nat) (coll : Bytes) : Prop :=
  ∃ (p : Nat) (q : Pending), w.pending[p]? = some (some q) ∧ q.obj = i ∧ q.name = coll ∧ ∀ iid d t v, q.stage ≠ .writing iid d t v

/-- The object whose call this event is a part of, for the events that can commit to the catalogue. -/
def actor (w : World) : Ev D → Option Nat
  | .dropIndex i _ _ _ _ => some i
  | .writeIndex p _ => (w.pending[p]?).join.map (·.obj)
  | _ => none

/-- In the history `l` the indexes of the collection are changed through object `i` only, and by one call after the other. -/
def OneByOne (C : Codec D) (IC : IndexCodec) (i : Nat) (coll : Bytes) (l : List (Ev D)) (w : World) : Prop :=
  ∀ l₁ e l₂, l = l₁ ++ e :: l₂ →
    ((∃ iid d, ((run C IC l₁ w).2.step C IC e).1 = .stored coll iid d) ∨ ∃ n, ((run C IC l₁ w).2.step C IC e).1 = .erased coll n) →
    actor (run C IC l₁ w).2 e = some i ∧ ¬ Unsettled (run C IC l₁ w).2 i coll

/-- These definitions are those of the collection's indexes, each once, with the same columns and options. -/
def Lists (ds : List IndexDef) (K : Catalogue) (coll : Bytes) : Prop :=
  (ds.map IndexDef.name).Nodup ∧ (∀ n, n ∈ ds.map IndexDef.name ↔ (K coll).get n ≠ none) ∧
    ∀ d ∈ ds, ∃ iid d', (K coll).get d.name = some (iid, d') ∧ d.unique = d'.unique ∧ Props.SameColumns d'.fields d.fields

end Mondis.DocDB
