import Verif.Spec.OMap
import Verif.Model.Key
/-!
# Model of provider/ (badger and leveldb) and of the programs that run inside a transaction

The storage engines are external; their contracts (badger v1.6.0, goleveldb v1.0.0) are the
definitions marked *contract* below.  What mondis itself adds (provider/*.go) is modelled on top.
-/
namespace Mondis

/-- A stored value with its metadata; provider.go:71-74 VMetaResp. `expiresAt = 0` is "never". -/
structure Val where
  value : Bytes
  tag : UInt8 := 0
  expiresAt : UInt64 := 0
  deriving DecidableEq, Repr

/-- provider.go:65-68 VMetaReq; TTL in nanoseconds. -/
structure VMetaReq where
  ttl : Int64
  tag : UInt8
  deriving DecidableEq, Repr

/-- provider.go:53-62 ProviderScanOption.  nil and empty prefix / offset behave alike in both
engines (badger tests `len(Prefix) > 0` and treats an empty seek key as absent; leveldb's range for
an empty prefix is unbounded and seeking to an empty key is seeking to the start), so both are
`[]`. -/
structure ScanOption where
  reverse : Bool := false
  pfx : Bytes := []
  offset : Bytes := []
  deriving DecidableEq, Repr

/-- Committed contents of the database. -/
abbrev DB := OMap Val

/-- *contract* badger isDeletedOrExpired: an entry with `expiresAt ≠ 0` is invisible once
`expiresAt <= now` (seconds). `now` is the clock in nanoseconds. -/
def Val.live (now : Int) (v : Val) : Bool :=
  v.expiresAt == 0 || decide (UInt64.ofInt (now / 1000000000) < v.expiresAt)

/-- provider/badger_txn.go:20-26: `badger.NewEntry(k, v)` when meta is nil, otherwise
`.WithTTL(meta.TTL).WithMeta(meta.Tag)`.  *contract* `WithTTL(d)` sets
`ExpiresAt = uint64(time.Now().Add(d).Unix())` whatever `d` is, also for `d = 0`. -/
def mkVal (now : Int) (v : Bytes) : Option VMetaReq → Val
  | none => { value := v }
  | some m => { value := v, tag := m.tag,
                expiresAt := UInt64.ofInt ((now + m.ttl.toInt) / 1000000000) }

/-- "!badger!" -/
def badgerPrefix : Bytes := [33, 98, 97, 100, 103, 101, 114, 33]

/-- *contract* badger Txn.modify: keys that may not be written. -/
def keyErr (k : Bytes) : Option Err :=
  if k.length = 0 then some .emptyKey
  else if Key.hasPrefix k badgerPrefix then some .invalidKey
  else if k.length > 65000 then some .keyTooLong
  else none

/-- Circumstances of a transaction that the code does not control. -/
structure Env where
  /-- NewTransaction(update) -/
  update : Bool
  /-- clock, nanoseconds -/
  now : Int
  /-- is the n-th write refused with ErrTxnTooBig? (badger bounds count and size of a transaction) -/
  tooBig : Nat → Bool
  /-- badger's iterator skips tables that hold no key with the requested prefix; keys without the
  prefix may therefore be invisible to a prefix iterator.  `prune k` says whether `k` is. -/
  prune : Bytes → Bool

/-- A badger transaction: snapshot overlaid with its own pending writes. -/
structure Txn where
  env : Env
  /-- what reads see: the snapshot with the pending writes applied -/
  view : DB
  /-- pending writes, oldest first; `none` is a delete -/
  writes : List (Bytes × Option Val) := []
  /-- number of write attempts so far -/
  attempts : Nat := 0
  /-- keys read (badger's conflict detection), newest first -/
  reads : List Bytes := []

/-- Apply one write to a map. -/
def applyWrite (m : DB) (w : Bytes × Option Val) : DB :=
  match w.2 with
  | some v => m.set w.1 v
  | none => m.del w.1

/-- Apply pending writes in order. -/
def applyWrites (m : DB) (ws : List (Bytes × Option Val)) : DB := ws.foldl applyWrite m

namespace Txn

/-- provider/badger.go:39-41 NewTransaction: a snapshot of the committed contents. -/
def start (env : Env) (db : DB) : Txn := { env := env, view := db }

/-- *contract* badger Txn.modify: read-only check, key checks, size check, then record. -/
def modify (t : Txn) (k : Bytes) (w : Option Val) : Res Unit × Txn :=
  if !t.env.update then (.err .readOnlyTxn, t)
  else match keyErr k with
    | some e => (.err e, t)
    | none =>
      if t.env.tooBig t.attempts then (.err .txnTooBig, { t with attempts := t.attempts + 1 })
      else (.ok (), { t with view := applyWrite t.view (k, w), writes := t.writes ++ [(k, w)],
                             attempts := t.attempts + 1 })

/-- provider/badger_txn.go:13-26 Set (badger.ErrTxnTooBig is mapped to kv.ErrTxnTooBig). -/
def set (t : Txn) (k v : Bytes) (vm : Option VMetaReq) : Res Unit × Txn :=
  t.modify k (some (mkVal t.env.now v vm))

/-- provider/badger_txn.go:66-75 Delete -/
def delete (t : Txn) (k : Bytes) : Res Unit × Txn := t.modify k none

/-- provider/badger_txn.go:45-63 Get.  *contract* badger Txn.Get: empty key is an error, missing,
deleted or expired is ErrKeyNotFound (mapped to kv.ErrKeyNotFound); the key is recorded for conflict
detection unless one of the transaction's own pending writes answered. -/
def get (t : Txn) (k : Bytes) : Res Val × Txn :=
  if k = [] then (.err .emptyKey, t)
  else
    let t' := if k ∈ t.writes.map Prod.fst then t else { t with reads := k :: t.reads }
    match t.view.get k with
    | some v => if v.live t.env.now then (.ok v, t') else (.err .keyNotFound, t')
    | none => (.err .keyNotFound, t')

/-- provider/badger_txn.go:29-42 Exists -/
def exists' (t : Txn) (k : Bytes) : Res Bool × Txn :=
  match t.get k with
  | (.ok _, t') => (.ok true, t')
  | (.err .keyNotFound, t') => (.ok false, t')
  | (.err e, t') => (.err e, t')
  | (.panic, t') => (.panic, t')

/-- The live entries in key order. -/
def liveEnts (now : Int) (m : DB) : List (Bytes × Val) := m.ents.filter (fun e => e.2.live now)

/-- provider/badger.go:103-133 scanByBadgerTxn: the entries handed to the callback if it never
stops.  *contract* badger iterator: `Rewind` is `Seek(nil)`, an empty seek key stands for the
prefix, forward seek goes to the first key ≥ seek, reverse seek to the last key ≤ seek, and the
iteration ends at the first key without the prefix. -/
def iterate (prune : Bytes → Bool) (l : List (Bytes × Val)) (o : ScanOption) :
    List (Bytes × Val) :=
  let vis := l.filter (fun e => Key.hasPrefix e.1 o.pfx || !prune e.1)
  let seek := if o.offset = [] then o.pfx else o.offset
  let src :=
    if o.reverse then
      if seek = [] then vis.reverse else vis.reverse.dropWhile (fun e => decide (seek < e.1))
    else
      if seek = [] then vis else vis.dropWhile (fun e => decide (e.1 < seek))
  src.takeWhile (fun e => Key.hasPrefix e.1 o.pfx)

/-- provider/badger_txn.go:94-98 Scan; the iterator works on the view at its creation, so writes
made by the callback do not affect it. -/
def scan (t : Txn) (o : ScanOption) : List (Bytes × Val) :=
  iterate t.env.prune (liveEnts t.env.now t.view) o

/-- provider/badger_txn.go:83-86 Commit.  `fail` is the reason the engine gives for refusing
(conflict, i/o), `none` for success; a transaction without writes always succeeds.
*contract*: a commit is atomic, also under crashes. -/
def commit (t : Txn) (fail : Option Err) (db : DB) : Res Unit × DB :=
  if t.writes = [] then (.ok (), db)
  else match fail with
    | some e => (.err e, db)
    | none => (.ok (), applyWrites db t.writes)

end Txn

/-! ## Programs over a transaction

A body `func(txn ProviderTxn) error` is a program that interacts with the transaction through the
ProviderKVOP interface only. -/

inductive Prog (α : Type) where
  | done (r : Res α)
  | get (k : Bytes) (cont : Res Val → Prog α)
  | set (k v : Bytes) (vm : Option VMetaReq) (cont : Res Unit → Prog α)
  | del (k : Bytes) (cont : Res Unit → Prog α)
  | scan (o : ScanOption) (cont : List (Bytes × Val) → Prog α)

namespace Prog

/-- Execute a program in a transaction. -/
def run {α : Type} : Prog α → Txn → Res α × Txn
  | done r, t => (r, t)
  | get k c, t => let (r, t) := t.get k; (c r).run t
  | set k v m c, t => let (r, t) := t.set k v m; (c r).run t
  | del k c, t => let (r, t) := t.delete k; (c r).run t
  | scan o c, t => (c (t.scan o)).run t

/-- Sequencing with error inspection: `f` sees the result, whatever it is. -/
def andThen {α β : Type} : Prog α → (Res α → Prog β) → Prog β
  | done r, f => f r
  | get k c, f => .get k (fun r => (c r).andThen f)
  | set k v m c, f => .set k v m (fun r => (c r).andThen f)
  | del k c, f => .del k (fun r => (c r).andThen f)
  | scan o c, f => .scan o (fun r => (c r).andThen f)

/-- `if err != nil { return }` sequencing. -/
def bind {α β : Type} (p : Prog α) (f : α → Prog β) : Prog β :=
  p.andThen (fun r => match r with
    | .ok a => f a
    | .err e => .done (.err e)
    | .panic => .done .panic)

instance : Monad Prog where
  pure a := .done (.ok a)
  bind := bind

/-- Fail with an error. -/
def fail {α : Type} (e : Err) : Prog α := .done (.err e)
/-- Lift a pure result. -/
def ofRes {α : Type} (r : Res α) : Prog α := .done r
/-- txn.Get -/
def getK (k : Bytes) : Prog Val := .get k .done
/-- txn.Get with the not-found error turned into `none` -/
def getOpt (k : Bytes) : Prog (Option Val) := .get k (fun r => match r with
  | .ok v => .done (.ok (some v))
  | .err .keyNotFound => .done (.ok none)
  | .err e => .done (.err e)
  | .panic => .done .panic)
/-- txn.Set(k, v, nil) -/
def setK (k v : Bytes) : Prog Unit := .set k v none .done
/-- txn.Delete -/
def delK (k : Bytes) : Prog Unit := .del k .done
/-- txn.Scan -/
def scanK (o : ScanOption) : Prog (List (Bytes × Val)) := .scan o (fun l => .done (.ok l))

end Prog
end Mondis
