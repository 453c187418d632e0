import Verif.Spec.OMap
import Verif.Model.Base
/-!
# Model of document/model/model.go (types) and document/schema/

Names are Go strings, i.e. byte strings.  A Go map whose nil-ness is never observed is an `OMap`;
`CollectionInfo.Indices`, whose nil-ness is (writing to a nil map panics), is an optional one.  Maps hold
non-nil pointers only, and a cloned value shares nothing with the original, so pointers are values.
-/
namespace Mondis.Schema
open Mondis

/-- osc.SchemaState (package github.com/zhiqiangxu/util/osc): StateAbsent is the zero value. -/
inductive SchemaState where
  | absent | deleteOnly | writeOnly | writeReorganization | other | «public»
  deriving DecidableEq, Repr

/-- model.go:37-41 IndexInfoRedundant -/
structure IndexInfoRedundant where
  collection : Bytes := []
  db : Bytes := []
  cid : Int64 := 0
  deriving DecidableEq, Repr

/-- model.go:27-35 IndexInfo -/
structure IndexInfo where
  id : Int64 := 0
  name : Bytes := []
  jobRedundant : Option IndexInfoRedundant := none
  columns : List Bytes := []
  unique : Bool := false
  state : SchemaState := .absent
  deriving DecidableEq, Repr

/-- model.go:19-25 CollectionInfo; `indices = none` is the nil map. -/
structure CollectionInfo where
  id : Int64 := 0
  name : Bytes := []
  indices : Option (OMap IndexInfo) := none
  indexOrder : List Bytes := []
  state : SchemaState := .absent

/-- model.go:11-17 DBInfo -/
structure DBInfo where
  id : Int64 := 0
  name : Bytes := []
  collections : OMap CollectionInfo := OMap.empty
  collectionOrder : List Bytes := []
  state : SchemaState := .absent

/-- model.go:67-80 ActionType -/
inductive ActionType where
  | none | createSchema | dropSchema | createCollection | dropCollection | addIndex | dropIndex
  | truncateCollection | renameCollection | other (n : UInt8)
  deriving DecidableEq, Repr

/-- model.go:57-63 SchemaDiff.  `arg` is what RawArg decodes to as a DBInfo (DecodeArg, :336-340), `none`
if it does not decode.  Versions are unbounded integers here, int64 in the code. -/
structure SchemaDiff where
  version : Int
  type : ActionType
  collectionIDs : List Int64
  arg : Option DBInfo

/-- model.go:178-190 CollectionInfo.Clone: the clone's index map is never nil. -/
def CollectionInfo.clone (c : CollectionInfo) : CollectionInfo :=
  { c with indices := some (c.indices.getD OMap.empty) }

/-- model.go:165-176 DBInfo.Clone -/
def DBInfo.clone (d : DBInfo) : DBInfo :=
  { d with collections := ⟨d.collections.ents.map (fun e => (e.1, e.2.clone)), by
      rw [List.pairwise_map]; exact d.collections.sorted⟩ }

/-- metacache.go:9-11 maxDiffs -/
def maxDiffs : Nat := 100

/-- metacache.go:14-19 MetaCache; `dbs = none` is the nil map. -/
structure MetaCache where
  version : Int
  dbs : Option (OMap DBInfo)
  schemaDiffs : List (List Int64) := []
  diffStartVersion : Int

namespace MetaCache

/-- metacache.go:22-29 NewMetaCache -/
def new (version : Int) (dbInfos : List DBInfo) : MetaCache :=
  { version := version, diffStartVersion := version + 1,
    dbs := some (dbInfos.foldl (fun m d => m.set d.name d.clone) OMap.empty) }

/-- c.dbs[name] -/
def db (c : MetaCache) (name : Bytes) : Option DBInfo := c.dbs.bind (fun m => m.get name)

/-- metacache.go:37-39 CheckDBExists; a nil cache has no databases. -/
def checkDBExists (c : Option MetaCache) (name : Bytes) : Bool := (c.bind (fun c => c.db name)).isSome

/-- metacache.go:42-54 CollectionInfo -/
def collectionInfo (c : Option MetaCache) (dbName name : Bytes) : Option CollectionInfo :=
  c.bind (fun c => (c.db dbName).bind (fun d => d.collections.get name))

/-- metacache.go:57-63 CheckCollectionExists -/
def checkCollectionExists (c : Option MetaCache) (dbName name : Bytes) : Bool :=
  (collectionInfo c dbName name).isSome

/-- metacache.go:66-82 CheckIndexExists -/
def checkIndexExists (c : Option MetaCache) (dbName name index : Bytes) : Bool :=
  ((collectionInfo c dbName name).bind (fun ci => ci.indices.bind (fun m => m.get index))).isSome

/-- metacache.go:85-100 Clone; cloning a nil cache leaves the map nil. -/
def clone : Option MetaCache → MetaCache
  | none => { version := 0, dbs := none, diffStartVersion := 1 }
  | some c => { c with dbs := some ⟨(c.dbs.getD OMap.empty).ents.map (fun e => (e.1, e.2.clone)), by
      rw [List.pairwise_map]; exact (c.dbs.getD OMap.empty).sorted⟩ }

def errNotConsecutive : Err := .other 80
def errDiff0NotConsecutive : Err := .other 81
def errDBInCache : Err := .other 82
def errCannotApply : Err := .other 83

/-- metacache.go:138-143: the loop of validateDiffs -/
def consecutive : List SchemaDiff → Bool
  | a :: b :: l => decide (a.version + 1 = b.version) && consecutive (b :: l)
  | _ => true

/-- metacache.go:136-151 validateDiffs; `diffs[0]` of an empty slice panics. -/
def validateDiffs (c : MetaCache) (diffs : List SchemaDiff) : Res Unit :=
  if consecutive diffs = false then .err errNotConsecutive
  else match diffs with
    | [] => .panic
    | d :: _ => if d.version ≠ c.diffStartVersion + c.schemaDiffs.length then .err errDiff0NotConsecutive
      else .ok ()

/-- metacache.go:153-170 onCreateSchema; storing into a nil map panics. -/
def onCreateSchema (c : MetaCache) (diff : SchemaDiff) : Res MetaCache :=
  match diff.arg with
  | none => .err .parse
  | some info =>
    if (c.db info.name).isSome then .err errDBInCache
    else match c.dbs with
      | none => .panic
      | some m => .ok { c with version := diff.version, dbs := some (m.set info.name info) }

/-- metacache.go:110-126: the loop of ApplyDiffs -/
def applyLoop : MetaCache → List SchemaDiff → Res MetaCache
  | c, [] => .ok c
  | c, d :: ds =>
    let c := { c with schemaDiffs := c.schemaDiffs ++ [d.collectionIDs] }
    match d.type with
    | .createSchema => do
      let c ← onCreateSchema c d
      applyLoop c ds
    | _ => .err errCannotApply

/-- metacache.go:128-132: the window is cut to maxDiffs. -/
def trim (c : MetaCache) : MetaCache :=
  if c.schemaDiffs.length > maxDiffs then
    { c with schemaDiffs := c.schemaDiffs.drop (c.schemaDiffs.length - maxDiffs),
             diffStartVersion := c.diffStartVersion + (c.schemaDiffs.length - maxDiffs : Nat) }
  else c

/-- metacache.go:103-135 ApplyDiffs.  On an error the code leaves a half-updated cache behind; its only
caller (domain.go:133-137) then drops it. -/
def applyDiffs (c : MetaCache) (diffs : List SchemaDiff) : Res MetaCache := do
  validateDiffs c diffs
  let c ← applyLoop c diffs
  pure (trim c)

end MetaCache

/-- handle.go:11-14 Handle: the published cache and the number of read locks held. -/
structure Handle where
  cache : Option MetaCache := none
  readers : Nat := 0

namespace Handle

/-- How the loop of Check ends. -/
inductive Verdict where
  | ok | stale | conflict | crash
  deriving DecidableEq, Repr

/-- handle.go:44-60: the loop of Check, over the `n` versions from `i` on -/
def checkLoop (c : MetaCache) (referred : Int64 → Bool) : Nat → Int → Verdict
  | 0, _ => .ok
  | n + 1, i =>
    let d := i - c.diffStartVersion
    if d < 0 then .stale
    else match c.schemaDiffs[d.toNat]? with
      | none => .crash
      | some ids => if ids.any referred then .conflict else checkLoop c referred n (i + 1)

/-- handle.go:32-68 Check with a context that is never cancelled and the read lock available; answer and
number of read locks still held by this call.  The code compares pointers first: equal pointers have equal
versions, for which the loop below runs zero times, so only the nil cases are left of the comparison.
`cache.version` of a nil cache panics with the lock held. -/
def check (h : Handle) (start : Option MetaCache) (referred : Int64 → Bool) : Res Bool × Handle :=
  match h.cache, start with
  | none, none => (.ok true, h)
  | some _, none => (.ok false, h)
  | none, some _ => (.panic, { h with readers := h.readers + 1 })
  | some c, some s =>
    match checkLoop c referred (c.version - s.version).toNat (s.version + 1) with
    | .ok => (.ok true, h)
    | .stale => (.ok false, h)
    | .crash => (.panic, h)
    | .conflict => (.ok false, { h with readers := h.readers + 1 })

/-- handle.go:71-81 Update with a context that is never cancelled: it waits until no read lock is held
(`none`: still waiting). -/
def update (h : Handle) (c : MetaCache) : Option Handle :=
  if h.readers = 0 then some { h with cache := some c } else none

end Handle
end Mondis.Schema
