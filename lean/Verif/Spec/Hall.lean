import Verif.Model.Hall
import Verif.Props.Ddl
/-!
# Specification: several databases served by one process

(Of the imported model the types of events and answers are used, and the model of one database in a process of its own, to say
what a database would do alone; of `Props/Ddl.lean` only `asks`, a single request to package meta.)
-/
namespace Mondis.Hall
open Mondis Ddl

/-- Does this happen to database `i`?  The death of the process does, whatever database it is reported for. -/
def concerns (i : Nat) : Nat × Ev → Bool
  | (_, .crash) => true
  | (j, _) => decide (j = i)

/-- What happens to database `i`. -/
def only (i : Nat) (es : List (Nat × Ev)) : List Ev := (es.filter (concerns i)).map Prod.snd

/-- The answers the users of database `i` get. -/
def told (i : Nat) (es : List (Nat × Ev)) (as : List Answer) : List Answer :=
  ((es.zip as).filter (fun p => concerns i p.1)).map Prod.snd

/-- The document ids the users of database `i` are given for collection `x`, in order. -/
def drawnBy (i : Nat) (x : Int64) (es : List (Nat × Ev)) (as : List Answer) : List Int64 := (es.zip as).filterMap (fun
  | ((j, .draw y _), .id (.ok v)) => if j = i ∧ y = x then some v else none
  | _ => none)

/-- The ids of the collections in a listing of the databases. -/
def idsListed (l : List Schema.DBInfo) : List Int64 := l.flatMap (fun d => d.collections.ents.map (fun e => e.2.id))

/-- ListDatabases on this store shows a collection of this id. -/
def Lists (J : Schema.Json) (db : DB) (c : Int64) : Prop := ∃ env l, Props.asks J db env .listDatabases = .ok l ∧ c ∈ idsListed l

/-- Database `i` after all that happened to it, if it had a process of its own. -/
def alone (J : Schema.Json) (dbs : Nat → DB) (es : List (Nat × Ev)) (i : Nat) : World := (Ddl.run J (only i es) { db := dbs i }).2

/-- The databases start empty, do not live too long, in the end no id is that of a collection of two of them, and ids are drawn
for collections of one's own database. -/
structure Strangers (J : Schema.Json) (K : Nat) (dbs : Nat → DB) (es : List (Nat × Ev)) : Prop where
  fresh : ∀ i, Props.Fresh Sequence.metaPrefix (dbs i)
  brief : ∀ i, Spec.Brief K (only i es)
  differ : ∀ i j c, Lists J (alone J dbs es i).db c → Lists J (alone J dbs es j).db c → i = j
  draws : ∀ i c r, (i, Ev.draw c r) ∈ es → Lists J (alone J dbs es i).db c

end Mondis.Hall
