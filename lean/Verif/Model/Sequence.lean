import Verif.Model.Structure
import Verif.Model.Util
/-!
# Model of document/meta/sequence/ and document/sequence.go

A sequence object holds a lease `(next, leased]` of ids in memory; the stored counter is where the next
lease starts.  Each method of a `Sequence` object runs under its mutex, so it is one step here.  The
transaction inside a step may have taken its snapshot before other objects' steps: the snapshot is a
parameter (`Circ.snap`), and what the storage guarantees about it is `NoConflict`.
-/
namespace Mondis.Sequence
open Mondis Util

/-- document/keyspace: MetaPrefixBytes = "_md_m" -/
def metaPrefix : Bytes := [95, 109, 100, 95, 109]

/-- Where the counter is stored: NewString(keyword) (string.go:15) or NewHash(key, field) (hash.go:15). -/
inductive Cell where
  | str (keyword : Bytes)
  | hash (key field : Bytes)

namespace Cell

/-- string.go:35, hash.go:39: Inc / HInc -/
def inc : Cell → Int64 → Prog Int64
  | .str k, step => Structure.strInc metaPrefix k step
  | .hash k f, step => Structure.hinc metaPrefix k f step

/-- string.go:71, hash.go:75: SetInt64 / HSetInt64 -/
def put : Cell → Int64 → Prog Unit
  | .str k, v => Structure.strSetInt64 metaPrefix k v
  | .hash k f, v => Structure.hsetInt64 metaPrefix k f v

/-- string.go:54, hash.go:58: Clear / HClear(key) -/
def clear : Cell → Prog Unit
  | .str k => Structure.strClear metaPrefix k
  | .hash k _ => Structure.hclear metaPrefix k

/-- string.go:16-20, hash.go:16-23: the checks of the constructors -/
def valid : Cell → Bool
  | .str k => decide (k ≠ [])
  | .hash k f => decide (k ≠ []) && decide (f ≠ [])

end Cell

/-- Circumstances of a transaction: clock and engine limits, the snapshot it reads, and whether the
engine refuses the commit. -/
structure Circ where
  env : Env
  snap : DB
  fail : Option Err

/-- sequence.go:22-32 Sequence -/
structure Seq where
  cell : Cell
  closed : Bool := false
  next : Int64 := 0
  leased : Int64 := 0
  bandwidth : Int64
  /-- oldest first -/
  putbacks : List Int64 := []

def errEmptyKey : Err := .other 40
def errZeroBandwidth : Err := .other 41
def errClosed : Err := .other 42

namespace Seq

/-- string.go:27-48, hash.go:31-52 renewLeaseFunc -/
def renewLease (s : Seq) (c : Circ) (step : Int64) (db : DB) : Res Unit × Seq × DB :=
  let step := if step = 0 then s.bandwidth else step
  match runInNewUpdateTxn c.env c.fail (s.cell.inc step) c.snap db with
  | (.ok leased, db') => (.ok (), { s with leased := leased, next := leased - step }, db')
  | (.err e, db') => (.err e, s, db')
  | (.panic, db') => (.panic, s, db')

/-- string.go:66-83, hash.go:70-87 updateLeasedFunc -/
def updateLeased (s : Seq) (c : Circ) (db : DB) : Res Unit × Seq × DB :=
  match runInNewUpdateTxn c.env c.fail (s.cell.put s.next) c.snap db with
  | (.ok _, db') => (.ok (), { s with leased := s.next }, db')
  | (.err e, db') => (.err e, s, db')
  | (.panic, db') => (.panic, s, db')

/-- string.go:49-65, hash.go:53-69 clearFunc -/
def clearStored (s : Seq) (c : Circ) (db : DB) : Res Unit × Seq × DB :=
  match runInNewUpdateTxn c.env c.fail s.cell.clear c.snap db with
  | (.ok _, db') => (.ok (), { s with next := 0, leased := 0 }, db')
  | (.err e, db') => (.err e, s, db')
  | (.panic, db') => (.panic, s, db')

/-- string.go:15-88 NewString, hash.go:15-92 NewHash; the object is returned also when the first renewal
fails. -/
def new (cell : Cell) (bandwidth : Int64) (c : Circ) (db : DB) : Res Unit × Option Seq × DB :=
  if cell.valid = false then (.err errEmptyKey, none, db)
  else if bandwidth = 0 then (.err errZeroBandwidth, none, db)
  else
    let (r, s, db') := renewLease { cell := cell, bandwidth := bandwidth } c 0 db
    (r, some s, db')

/-- sequence.go:35-50 ReNew -/
def reNew (s : Seq) (c : Circ) (db : DB) : Res Unit × Seq × DB :=
  if s.closed then (.err errClosed, s, db) else s.renewLease c 0 db

/-- sequence.go:90-97 releaseRemainingLocked -/
def releaseRemainingLocked (s : Seq) (c : Circ) (db : DB) : Res Unit × Seq × DB :=
  if s.leased = s.next then (.ok (), s, db) else s.updateLeased c db

/-- sequence.go:60-75 Close -/
def close (s : Seq) (releaseRemaining : Bool) (c : Circ) (db : DB) : Res Unit × Seq × DB :=
  if s.closed then (.err errClosed, s, db)
  else if releaseRemaining then ({ s with closed := true } : Seq).releaseRemainingLocked c db
  else (.ok (), { s with closed := true }, db)

/-- sequence.go:78-90 ReleaseRemaining -/
def releaseRemaining (s : Seq) (c : Circ) (db : DB) : Res Unit × Seq × DB :=
  if s.closed then (.err errClosed, s, db) else s.releaseRemainingLocked c db

/-- sequence.go:100-111 Clear -/
def clear (s : Seq) (c : Circ) (db : DB) : Res Unit × Seq × DB :=
  if s.closed then (.err errClosed, s, db) else s.clearStored c db

/-- sequence.go:114-119 PutBack -/
def putBack (s : Seq) (vals : List Int64) : Seq := { s with putbacks := s.putbacks ++ vals }

/-- sequence.go:123-148 Next -/
def nextId (s : Seq) (c : Circ) (db : DB) : Res Int64 × Seq × DB :=
  if s.closed then (.err errClosed, s, db)
  else match s.putbacks.getLast? with
    | some v => (.ok v, { s with putbacks := s.putbacks.dropLast }, db)
    | none =>
      let (r, s, db) := if s.next ≥ s.leased then s.renewLease c 0 db else (.ok (), s, db)
      match r with
      | .ok _ => (.ok (s.next + 1), { s with next := s.next + 1 }, db)
      | .err e => (.err e, s, db)
      | .panic => (.panic, s, db)

/-- sequence.go:158-198 NextN; a range `(start, end]` is a pair. -/
def nextN (s : Seq) (n : Int64) (c : Circ) (db : DB) : Res (List (Int64 × Int64)) × Seq × DB :=
  if n = 0 then (.ok [], s, db)
  else if s.closed then (.err errClosed, s, db)
  else if s.next + n ≤ s.leased then
    (.ok [(s.next, s.next + n)], { s with next := s.next + n }, db)
  else
    let nextCopy := s.next
    let remain := s.leased - nextCopy
    let step := n + s.bandwidth - remain
    match s.renewLease c step db with
    | (.ok _, s, db) =>
      (.ok ((if remain > 0 then [(nextCopy, nextCopy + remain)] else []) ++
        [(s.next, s.next + n - remain)]), s, db)
    | (.err e, s, db) => (.err e, s, db)
    | (.panic, s, db) => (.panic, s, db)

end Seq

/-! ## Several holders of one counter -/

/-- The ids in a range `(start, end]`. -/
def idsIn (r : Int64 × Int64) : List Int64 :=
  (List.range (r.2.toInt - r.1.toInt).toNat).map (fun (i : Nat) => Int64.ofInt (r.1.toInt + 1 + (i : Int)))

/-- Sequence objects of any number of processes over one database, all on the same counter; all ids
handed out and all ids put back so far, newest first. -/
structure World where
  db : DB
  holders : List Seq := []
  out : List Int64 := []
  back : List Int64 := []

inductive Event where
  | new (bandwidth : Int64) (c : Circ)
  | next (i : Nat) (c : Circ)
  | nextN (i : Nat) (n : Int64) (c : Circ)
  | reNew (i : Nat) (c : Circ)
  | release (i : Nat) (c : Circ)
  | close (i : Nat) (rel : Bool) (c : Circ)
  | putBack (i : Nat) (vals : List Int64)
  /-- the process dies, or drops the object -/
  | crash (i : Nat)
  /-- other transactions commit -/
  | other (db : DB)

/-- Replace the holder after one of its methods ran. -/
def World.put {α : Type} (w : World) (i : Nat) (x : Res α × Seq × DB) : World :=
  { w with db := x.2.2, holders := w.holders.set i x.2.1 }

/-- What an event does; an index without a holder does nothing. -/
def World.step (cell : Cell) (w : World) : Event → World
  | .new bw c =>
    let x := Seq.new cell bw c w.db
    { w with db := x.2.2, holders := w.holders ++ x.2.1.toList }
  | .next i c => match w.holders[i]? with
    | none => w
    | some s =>
      let x := s.nextId c w.db
      match x.1 with
      | .ok v => { w.put i x with out := v :: w.out }
      | _ => w.put i x
  | .nextN i n c => match w.holders[i]? with
    | none => w
    | some s =>
      let x := s.nextN n c w.db
      match x.1 with
      | .ok rs => { w.put i x with out := (rs.flatMap idsIn).reverse ++ w.out }
      | _ => w.put i x
  | .reNew i c => match w.holders[i]? with
    | none => w
    | some s => w.put i (s.reNew c w.db)
  | .release i c => match w.holders[i]? with
    | none => w
    | some s => w.put i (s.releaseRemaining c w.db)
  | .close i rel c => match w.holders[i]? with
    | none => w
    | some s => w.put i (s.close rel c w.db)
  | .putBack i vals => match w.holders[i]? with
    | none => w
    | some s => { w with holders := w.holders.set i (s.putBack vals), back := vals ++ w.back }
  | .crash i => { w with holders := w.holders.eraseIdx i }
  | .other db => { w with db := db }

/-! ## document/sequence.go -/

namespace Old

/-- document/sequence.go:12-19 Sequence -/
structure Seq where
  key : Bytes
  bandwidth : UInt64
  next : UInt64 := 0
  leased : UInt64 := 0

/-- What updateLease does in its transaction: the counter it found (s.next is set to it even if the rest
fails), and the outcome of Get, DecodeFromBinary and Set. -/
def lease (key : Bytes) (bandwidth old : UInt64) : Prog (UInt64 × Res Unit) :=
  .get key (fun r => match r with
    | .err .keyNotFound => .set key (Numeric.encode2Binary (0 + bandwidth) []) none
        (fun r => .done (.ok (0, r)))
    | .err e => .done (.ok (old, .err e))
    | .panic => .done .panic
    | .ok v => match Numeric.decodeFromBinary v.value with
      | .err e => .done (.ok (old, .err e))
      | .panic => .done .panic
      | .ok n => .set key (Numeric.encode2Binary (n + bandwidth) []) none (fun r => .done (.ok (n, r))))

/-- document/sequence.go:39-72 updateLease -/
def Seq.updateLease (s : Seq) (c : Circ) (db : DB) : Res Unit × Seq × DB :=
  match body c.env true (lease s.key s.bandwidth s.next) c.snap with
  | (.ok (n, .ok _), t) => match t.commit c.fail db with
    | (.ok _, db') => (.ok (), { s with next := n, leased := n + s.bandwidth }, db')
    | (.err e, db') => (.err e, { s with next := n }, db')
    | (.panic, db') => (.panic, s, db')
  | (.ok (n, .err e), _) => (.err e, { s with next := n }, db)
  | (_, _) => (.panic, s, db)

/-- document/sequence.go:22-37 NewSequence; `key` is EncodeMetaSequenceKey(nil, keyword).  The object is
returned also when the first renewal fails (document/db.go:32-33 ignores the error). -/
def Seq.new (key : Bytes) (bandwidth : UInt64) (c : Circ) (db : DB) : Res Unit × Option Seq × DB :=
  if bandwidth = 0 then (.err errZeroBandwidth, none, db)
  else
    let (r, s, db') := Seq.updateLease { key := key, bandwidth := bandwidth } c db
    (r, some s, db')

/-- document/sequence.go:75-94 ReleaseRemaining: the transaction is never committed. -/
def Seq.releaseRemaining (s : Seq) (c : Circ) (db : DB) : Res Unit × Seq × DB :=
  if s.leased = s.next then (.ok (), s, db)
  else match (body c.env true (Prog.setK s.key (Numeric.encode2Binary s.next [])) c.snap).1 with
    | .ok _ => (.ok (), { s with leased := s.next }, db)
    | .err e => (.err e, s, db)
    | .panic => (.panic, s, db)

/-- document/sequence.go:98-112 Next -/
def Seq.nextId (s : Seq) (c : Circ) (db : DB) : Res UInt64 × Seq × DB :=
  let (r, s, db) := if s.next ≥ s.leased then s.updateLease c db else (.ok (), s, db)
  match r with
  | .ok _ => (.ok (s.next + 1), { s with next := s.next + 1 }, db)
  | .err e => (.err e, s, db)
  | .panic => (.panic, s, db)

structure World where
  db : DB
  holders : List Seq := []
  out : List UInt64 := []

inductive Event where
  | new (bandwidth : UInt64) (c : Circ)
  | next (i : Nat) (c : Circ)
  | release (i : Nat) (c : Circ)
  | crash (i : Nat)
  | other (db : DB)

/-- All holders use the same key. -/
def World.step (key : Bytes) (w : World) : Event → World
  | .new bw c =>
    let x := Seq.new key bw c w.db
    { w with db := x.2.2, holders := w.holders ++ x.2.1.toList }
  | .next i c => match w.holders[i]? with
    | none => w
    | some s =>
      let x := s.nextId c w.db
      let w' : World := { w with db := x.2.2, holders := w.holders.set i x.2.1 }
      match x.1 with
      | .ok v => { w' with out := v :: w.out }
      | _ => w'
  | .release i c => match w.holders[i]? with
    | none => w
    | some s =>
      let x := s.releaseRemaining c w.db
      { w with db := x.2.2, holders := w.holders.set i x.2.1 }
  | .crash i => { w with holders := w.holders.eraseIdx i }
  | .other db => { w with db := db }

end Old
end Mondis.Sequence
