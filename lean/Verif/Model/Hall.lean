import Verif.Model.Ddl
/-!
# Model of several databases served by one process

The sequences of document ids are kept in one variable of the whole process (document/dml/sequence.go:14 sequenceMap), by the
id of the collection only, while everything else package ddl has belongs to a DDL object (ddl.go:34-49), which serves
one store.  Here are any number of DDL objects, each with its own store, in one process.
-/
namespace Mondis.Hall
open Mondis Schema Meta Spec Ddl

/-- One process: what each of its databases has by itself (ddl.go:34-38; `seqs` of it is not used), and sequenceMap
(dml/sequence.go:14).  A sequence remembers the store it was made with (meta/sequence/hash.go:31-51: kvdb), here the number of
its database. -/
structure Hall where
  dbs : Nat → World
  table : Int64 → Option (Nat × Sequence.Seq) := fun _ => none

/-- What the code of package ddl finds when it runs for database `i`: its store, and the sequences of the process
(dml/sequence.go:21-27 GetSequence, :31 the look-up of CreateSequence). -/
def Hall.at (h : Hall) (i : Nat) : World := { h.dbs i with seqs := fun c => (h.table c).map Prod.snd }

/-- What it leaves: a sequence that was not there before was made with the store of `i` (dml/sequence.go:36-42). -/
def Hall.back (h : Hall) (i : Nat) (w : World) : Hall where
  dbs j := if j = i then { w with seqs := fun _ => none } else h.dbs j
  table c := (w.seqs c).map (fun s => (((h.table c).map Prod.fst).getD i, s))

/-- One event, at database `i`.  An id is drawn (dml/collection.go:65-71) from the sequence that the process has for the id of
the collection, and that one uses its own store.  When the process dies, it does so for all its databases. -/
def Hall.step (J : Json) (h : Hall) (i : Nat) : Ev → Answer × Hall
  | .draw c circ => match h.table c with
    | none => (.none, h)
    | some (o, _) =>
      let x := (h.at o).step J (.draw c circ)
      (x.1, h.back o x.2)
  | .crash => (.none, { dbs := fun j => { db := (h.dbs j).db } })
  | e =>
    let x := (h.at i).step J e
    (x.1, h.back i x.2)

/-- A history: which database, and what happens there. -/
def run (J : Json) : List (Nat × Ev) → Hall → List Answer × Hall
  | [], h => ([], h)
  | (i, e) :: es, h => ((h.step J i e).1 :: (run J es (h.step J i e).2).1, (run J es (h.step J i e).2).2)

/-- A process that has done nothing yet, with these stores. -/
def opened (dbs : Nat → DB) : Hall := { dbs := fun i => { db := dbs i } }

end Mondis.Hall
