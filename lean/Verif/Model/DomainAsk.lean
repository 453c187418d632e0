import Verif.Model.Domain
/-!
# Model of the remaining calls on a dml.Collection: Index, GetIndices and GetDidRange

They change nothing but, if the transaction was given, what it referred to.
-/
namespace Mondis.Domain
open Mondis Schema Spec Meta Ddl

/-- dml/db.go:21-22 ErrIndexNotExists -/
def errIndexNotExists : Err := .other 131

/-- dml/collection.go:33-45 Index -/
def findIndex (h : Handle) (db coll name : Bytes) : Res Unit :=
  if MetaCache.checkIndexExists h.cache db coll name then .ok () else .err errIndexNotExists

/-- dml/collection.go:455-480 GetIndices in a transaction.  The code ranges over a map: the order of the answer here, by
name, is one of those it can have. -/
def getIndices (db coll : Bytes) (mark : Bool) (t : Dml.DTxn Dml.Seqs) : Res (List IndexInfo) × Dml.DTxn Dml.Seqs :=
  match MetaCache.collectionInfo t.start db coll with
  | none => (.err Dml.errCollectionNotExists, t)
  | some ci =>
    (.ok ((ci.indices.getD OMap.empty).ents.map Prod.snd), if mark then t.referredCollections [ci.id] else t)

/-- dml/collection.go:292-340 GetDidRange in a transaction -/
def getDidRange (db coll : Bytes) (mark : Bool) (t : Dml.DTxn Dml.Seqs) : Res (Int64 × Int64) × Dml.DTxn Dml.Seqs :=
  let x := Dml.withCollection db coll Doc.getDidRange t
  (x.1, if mark then x.2 else { x.2 with referred := t.referred })

/-- These calls; `k` is the transaction, `mark` says whether the caller gave it. -/
inductive Ask where
  | index (db coll name : Bytes)
  | indices (k : Nat) (db coll : Bytes) (mark : Bool)
  | range (k : Nat) (db coll : Bytes) (mark : Bool)

/-- Their answers; `none` if there is no such transaction. -/
inductive Told where
  | none
  | found (r : Res Unit)
  | indices (r : Res (List IndexInfo))
  | range (r : Res (Int64 × Int64))

/-- One such call. -/
def World.ask (w : World) : Ask → Told × World
  | .index db coll name => (.found (findIndex w.handle db coll name), w)
  | .indices k db coll mark => match w.session k with
    | some s => if s.phase = .ready then
        let x := getIndices db coll mark s.txn
        (.indices x.1, w.put k { s with txn := x.2 })
      else (.none, w)
    | none => (.none, w)
  | .range k db coll mark => match w.session k with
    | some s => if s.phase = .ready then
        let x := getDidRange db coll mark s.txn
        (.range x.1, w.put k { s with txn := x.2 })
      else (.none, w)
    | none => (.none, w)

variable {D : Type}

/-- An event of Model/Domain or one of these calls. -/
inductive Act (D : Type) where
  | ev (e : Ev D)
  | ask (q : Ask)

/-- The answer. -/
inductive Reply (D : Type) where
  | ev (a : Answer D)
  | ask (a : Told)

/-- One of them. -/
def World.act (J : Json) (C : Doc.Codec D) (w : World) : Act D → Reply D × World
  | .ev e => (.ev (w.step J C e).1, (w.step J C e).2)
  | .ask q => (.ask (w.ask q).1, (w.ask q).2)

/-- A history with these calls in it. -/
def runActs (J : Json) (C : Doc.Codec D) : List (Act D) → World → List (Reply D) × World
  | [], w => ([], w)
  | a :: l, w => ((w.act J C a).1 :: (runActs J C l (w.act J C a).2).1, (runActs J C l (w.act J C a).2).2)

end Mondis.Domain
