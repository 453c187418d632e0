import Verif.Model.Provider
import Verif.Model.Memcomparable
import Verif.Model.Compact
/-!
# Model of kv/util.go and structure/

Operations are programs (`Prog`) over the transaction they are given; `pfx` is `TxStructure.prefix`
(structure/structure.go:19-27).
-/
namespace Mondis

/-- What Go sees of a stored value: `ValueCopy(nil)` (provider/badger_txn.go:55) returns nil for an
empty value. -/
def nilIfEmpty (b : Bytes) : Option Bytes := if b = [] then none else some b

namespace KV
open Prog

/-- kv/util.go:9-33 IncInt64 -/
def incInt64 (k : Bytes) (step : Int64) : Prog Int64 := do
  match ← getOpt k with
  | none =>
    setK k (Numeric.encode2Human step)
    pure step
  | some v =>
    let n ← ofRes (Numeric.decodeFromHuman (nilIfEmpty v.value))
    let n := n + step
    setK k (Numeric.encode2Human n)
    pure n

/-- kv/util.go:35-44 GetInt64 -/
def getInt64 (k : Bytes) : Prog Int64 := do
  let v ← getK k
  ofRes (Numeric.decodeFromHuman (nilIfEmpty v.value))

/-- kv/util.go:46-50 SetInt64 -/
def setInt64 (k : Bytes) (v : Int64) : Prog Unit := setK k (Numeric.encode2Human v)

end KV

namespace Structure
open Prog Memcomparable

/-! ## keys.go -/

/-- structure/keys.go:10-22 TypeFlag values -/
def StringData : UInt8 := 115
def HashMeta : UInt8 := 72
def HashData : UInt8 := 104
def ListMeta : UInt8 := 76
def ListData : UInt8 := 108

/-- structure/keys.go:24-29 encodeStringDataKey -/
def stringDataKey (pfx key : Bytes) : Bytes := encodeUint8 (encodeBytes pfx key) StringData
/-- structure/keys.go:31-36 encodeHashMetaKey -/
def hashMetaKey (pfx key : Bytes) : Bytes := encodeUint8 (encodeBytes pfx key) HashMeta
/-- structure/keys.go:38-43 hashDataKeyPrefix -/
def hashDataKeyPrefix (pfx key : Bytes) : Bytes := encodeUint8 (encodeBytes pfx key) HashData
/-- structure/keys.go:45-51 encodeHashDataKey -/
def hashDataKey (pfx key field : Bytes) : Bytes :=
  encodeBytes (encodeUint8 (encodeBytes pfx key) HashData) field
/-- structure/keys.go:79-84 encodeListMetaKey -/
def listMetaKey (pfx key : Bytes) : Bytes := encodeUint8 (encodeBytes pfx key) ListMeta
/-- structure/keys.go:86-92 encodeListDataKey -/
def listDataKey (pfx key : Bytes) (index : Int64) : Bytes :=
  encodeInt64 (encodeUint8 (encodeBytes pfx key) ListData) index

/-- structure/structure.go:15 ErrInvalidListMetaData -/
def errInvalidListMetaData : Err := .other 1
/-- structure/structure.go:13 ErrKeyHasNoPrefix -/
def errKeyHasNoPrefix : Err := .other 2
/-- structure/structure.go:11 ErrInvalidHashDataKey -/
def errInvalidHashDataKey : Err := .other 3

/-- structure/keys.go:53-77 decodeHashDataKey -/
def decodeHashDataKey (pfx ek : Bytes) : Res (Bytes × Bytes) := do
  if !Key.hasPrefix ek pfx then .err errKeyHasNoPrefix
  else
    let ek := ek.drop pfx.length
    let (ek, key) ← decodeBytes ek
    let (ek, tp) ← decodeUint8 ek
    if tp ≠ HashData then .err errInvalidHashDataKey
    else
      let (_, field) ← decodeBytes ek
      pure (key, field)

/-! ## string.go -/

/-- structure/string.go:6-9 Set -/
def strSet (pfx key value : Bytes) : Prog Unit := setK (stringDataKey pfx key) value
/-- structure/string.go:12-16 Get -/
def strGet (pfx key : Bytes) : Prog Bytes := do
  let v ← getK (stringDataKey pfx key)
  pure v.value
/-- structure/string.go:19-23 Clear -/
def strClear (pfx key : Bytes) : Prog Unit := delK (stringDataKey pfx key)
/-- structure/string.go:26-31 GetInt64 -/
def strGetInt64 (pfx key : Bytes) : Prog Int64 := KV.getInt64 (stringDataKey pfx key)
/-- structure/string.go:34-39 SetInt64 -/
def strSetInt64 (pfx key : Bytes) (v : Int64) : Prog Unit := KV.setInt64 (stringDataKey pfx key) v
/-- structure/string.go:43-48 Inc -/
def strInc (pfx key : Bytes) (step : Int64) : Prog Int64 := KV.incInt64 (stringDataKey pfx key) step

/-! ## hash.go -/

/-- structure/hash.go:21-23 hashMeta.Value -/
def hashMetaValue (count : Int64) : Bytes := Numeric.encode2Binary count.toUInt64 []

/-- structure/hash.go:25-27 hashMeta.IsEmpty -/
def hashMetaIsEmpty (count : Int64) : Bool := decide (count ≤ 0)

/-- structure/hash.go:321-333 loadHashMeta; `none` is ErrKeyNotFound, which callers single out. -/
def loadHashMeta (metaKey : Bytes) : Prog (Option Int64) := do
  match ← getOpt metaKey with
  | none => pure none
  | some v =>
    let u ← ofRes (Numeric.decodeFromBinary v.value)
    pure (some u.toInt64)

/-- structure/hash.go:273-319 updateHash.  `fn` also returns what the closure leaves in captured
variables (`HInc`'s n). -/
def updateHash {β : Type} (pfx key field : Bytes) (fn : Option Bytes → Res (Bytes × β)) :
    Prog β := do
  let dataKey := hashDataKey pfx key field
  let old ← getOpt dataKey
  let isNew := old.isNone
  let oldValue := old.bind (fun v => nilIfEmpty v.value)
  let (newValue, b) ← ofRes (fn oldValue)
  if oldValue.getD [] = newValue then pure b
  else do
    setK dataKey newValue
    if !isNew then pure b
    else do
      let metaKey := hashMetaKey pfx key
      let m ← loadHashMeta metaKey
      let count := m.getD 0 + 1
      setK metaKey (hashMetaValue count)
      pure b

/-- structure/hash.go:30-34 HSet -/
def hset (pfx key field value : Bytes) : Prog Unit :=
  updateHash pfx key field (fun _ => .ok (value, ()))

/-- structure/hash.go:37-41 HGet -/
def hget (pfx key field : Bytes) : Prog Bytes := do
  let v ← getK (hashDataKey pfx key field)
  pure v.value

/-- structure/hash.go:49-63 HInc -/
def hinc (pfx key field : Bytes) (step : Int64) : Prog Int64 :=
  updateHash pfx key field (fun old => do
    let n ← match old with
      | some b => Numeric.decodeFromHuman (some b)
      | none => .ok 0
    let n := n + step
    .ok (Numeric.encode2Human n, n))

/-- structure/hash.go:66-74 HGetInt64 -/
def hgetInt64 (pfx key field : Bytes) : Prog Int64 := do
  let v ← hget pfx key field
  ofRes (Numeric.decodeFromHuman (nilIfEmpty v))

/-- structure/hash.go:77-81 HSetInt64 -/
def hsetInt64 (pfx key field : Bytes) (v : Int64) : Prog Unit :=
  hset pfx key field (Numeric.encode2Human v)

/-- structure/hash.go:84-96 HLen -/
def hlen (pfx key : Bytes) : Prog Int64 := do
  let m ← loadHashMeta (hashMetaKey pfx key)
  pure (m.getD 0)

/-- structure/hash.go:110-127, the loop of HDel -/
def hdelLoop (pfx key : Bytes) : List Bytes → Int64 → Prog Int64
  | [], count => pure count
  | f :: fs, count => do
    let dataKey := hashDataKey pfx key f
    match ← getOpt dataKey with
    | none => hdelLoop pfx key fs count
    | some _ => do
      delK dataKey
      hdelLoop pfx key fs (count - 1)

/-- structure/hash.go:99-136 HDel -/
def hdel (pfx key : Bytes) (fields : List Bytes) : Prog Unit := do
  let metaKey := hashMetaKey pfx key
  match ← loadHashMeta metaKey with
  | none => pure ()
  | some count => do
    let count ← hdelLoop pfx key fields count
    if hashMetaIsEmpty count then delK metaKey
    else setK metaKey (hashMetaValue count)

/-- structure/hash.go:221-245 iterateReverseHash and 247-271 iterateHash: the pairs handed to `fn`
in order, when `fn` stops after `limit` pairs (`none`: never), or the decode error met before. -/
def collectHash (pfx dataPrefix : Bytes) : List (Bytes × Val) → (limit : Option Nat) →
    Res (List (Bytes × Bytes))
  | [], _ => .ok []
  | (k, v) :: rest, limit =>
    if !Key.hasPrefix k dataPrefix then .ok []
    else match decodeHashDataKey pfx k with
      | .err e => .err e
      | .panic => .panic
      | .ok (_, field) =>
        match limit with
        | some 0 => .ok [(field, v.value)]       -- not reached: limits are positive
        | some 1 => .ok [(field, v.value)]
        | some (n + 2) =>
          (collectHash pfx dataPrefix rest (some (n + 1))).map' ((field, v.value) :: ·)
        | none => (collectHash pfx dataPrefix rest none).map' ((field, v.value) :: ·)

/-- structure/hash.go:247-271 iterateHash -/
def iterateHash (pfx key : Bytes) (limit : Option Nat) : Prog (List (Bytes × Bytes)) := do
  let dataPrefix := hashDataKeyPrefix pfx key
  let l ← scanK { pfx := dataPrefix }
  ofRes (collectHash pfx dataPrefix l limit)

/-- structure/hash.go:221-245 iterateReverseHash -/
def iterateReverseHash (pfx key : Bytes) (limit : Option Nat) : Prog (List (Bytes × Bytes)) := do
  let dataPrefix := hashDataKeyPrefix pfx key
  let l ← scanK { reverse := true, offset := Key.prefixNext dataPrefix }
  ofRes (collectHash pfx dataPrefix l limit)

/-- structure/hash.go:139-145 HKeys -/
def hkeys (pfx key : Bytes) : Prog (List Bytes) := do
  let l ← iterateHash pfx key none
  pure (l.map Prod.fst)

/-- structure/hash.go:148-162 HGetN -/
def hgetN (pfx key : Bytes) (n : Int) : Prog (List (Bytes × Bytes)) :=
  if n ≤ 0 then pure [] else iterateHash pfx key (some n.toNat)

/-- structure/hash.go:165-176 HGetAll -/
def hgetAll (pfx key : Bytes) : Prog (List (Bytes × Bytes)) := iterateHash pfx key none

/-- structure/hash.go:179-193 HGetNDesc -/
def hgetNDesc (pfx key : Bytes) (n : Int) : Prog (List (Bytes × Bytes)) :=
  if n ≤ 0 then pure [] else iterateReverseHash pfx key (some n.toNat)

/-- structure/hash.go:204-216, the callback of HClear over the scanned entries: stop at a decode
error (`itErr`) or at the first failing delete.  `stale` is what the variable `err` still holds from
loadHashMeta (:198): the first delete overwrites it, and if there is none it is returned. -/
def hclearLoop (pfx key dataPrefix : Bytes) (stale : Option Err) : List (Bytes × Val) → Prog Unit
  | [] => match stale with
    | some e => fail e
    | none => pure ()
  | (k, _) :: rest =>
    if !Key.hasPrefix k dataPrefix then match stale with
      | some e => fail e
      | none => pure ()
    else match decodeHashDataKey pfx k with
      | .panic => .done .panic
      | .err e => fail (stale.getD e)
      | .ok (_, field) => do
        delK (hashDataKey pfx key field)
        hclearLoop pfx key dataPrefix none rest

/-- structure/hash.go:203-219, HClear once the meta is there or is not readable -/
def hclearRest (pfx key : Bytes) (stale : Option Err) : Prog Unit := do
  let dataPrefix := hashDataKeyPrefix pfx key
  let l ← scanK { pfx := dataPrefix }
  hclearLoop pfx key dataPrefix stale l
  delK (hashMetaKey pfx key)

/-- structure/hash.go:196-219 HClear -/
def hclear (pfx key : Bytes) : Prog Unit :=
  (loadHashMeta (hashMetaKey pfx key)).andThen (fun r => match r with
    | .ok none => pure ()
    | .ok (some _) => hclearRest pfx key none
    | .err e => hclearRest pfx key (some e)
    | .panic => .done .panic)

/-! ## list.go -/

/-- structure/list.go:8-11 listMeta -/
structure ListMetaData where
  l : Int64 := 0
  r : Int64 := 0
  deriving DecidableEq, Repr

/-- structure/list.go:13-18 Value -/
def ListMetaData.value (m : ListMetaData) : Bytes :=
  Numeric.encode2Binary m.r.toUInt64 (Numeric.encode2Binary m.l.toUInt64 [])

/-- structure/list.go:20-22 IsEmpty -/
def ListMetaData.isEmpty (m : ListMetaData) : Bool := decide (m.l ≥ m.r)

/-- structure/list.go:211-234 loadListMeta; `none` is ErrKeyNotFound. -/
def loadListMeta (metaKey : Bytes) : Prog (Option ListMetaData) := do
  match ← getOpt metaKey with
  | none => pure none
  | some v =>
    if v.value.length ≠ 16 then fail errInvalidListMetaData
    else do
      let l ← ofRes (Numeric.decodeFromBinary (v.value.take 8))
      let r ← ofRes (Numeric.decodeFromBinary (v.value.drop 8))
      pure (some ⟨l.toInt64, r.toInt64⟩)

/-- structure/list.go:50-64, the loop of listPush -/
def listPushLoop (pfx key : Bytes) (left : Bool) : List Bytes → ListMetaData → Prog ListMetaData
  | [], m => pure m
  | v :: vs, m =>
    let m' : ListMetaData := if left then { m with l := m.l - 1 } else { m with r := m.r + 1 }
    let index := if left then m'.l else m.r
    do
      setK (listDataKey pfx key index) v
      listPushLoop pfx key left vs m'

/-- structure/list.go:36-68 listPush -/
def listPush (pfx key : Bytes) (left : Bool) (values : List Bytes) : Prog Unit :=
  if values = [] then pure ()
  else do
    let metaKey := listMetaKey pfx key
    let m ← loadListMeta metaKey
    let m ← listPushLoop pfx key left values (m.getD {})
    setK metaKey m.value

/-- structure/list.go:27-29 LPush -/
def lpush (pfx key : Bytes) (values : List Bytes) : Prog Unit := listPush pfx key true values
/-- structure/list.go:32-34 RPush -/
def rpush (pfx key : Bytes) (values : List Bytes) : Prog Unit := listPush pfx key false values

/-- structure/list.go:80-114 listPop -/
def listPop (pfx key : Bytes) (left : Bool) : Prog Bytes := do
  let metaKey := listMetaKey pfx key
  match ← loadListMeta metaKey with
  | none => fail .keyNotFound
  | some m =>
    let m' : ListMetaData := if left then { m with l := m.l + 1 } else { m with r := m.r - 1 }
    let index := if left then m.l else m'.r
    let dataKey := listDataKey pfx key index
    let v ← getK dataKey
    delK dataKey
    if !m'.isEmpty then setK metaKey m'.value else delK metaKey
    pure v.value

/-- structure/list.go:71-73 LPop -/
def lpop (pfx key : Bytes) : Prog Bytes := listPop pfx key true
/-- structure/list.go:76-78 RPop -/
def rpop (pfx key : Bytes) : Prog Bytes := listPop pfx key false

/-- structure/list.go:117-126 LLen -/
def llen (pfx key : Bytes) : Prog Int64 := do
  match ← loadListMeta (listMetaKey pfx key) with
  | none => pure 0
  | some m => pure (m.r - m.l)

/-- structure/list.go:143-150, the loop of LGetAll: `n` elements from `index` downwards. -/
def lgetAllLoop (pfx key : Bytes) : Nat → Int64 → Prog (List Bytes)
  | 0, _ => pure []
  | n + 1, index => do
    let v ← getK (listDataKey pfx key index)
    let rest ← lgetAllLoop pfx key n (index - 1)
    pure (v.value :: rest)

/-- structure/list.go:129-151 LGetAll.  A negative capacity makes `make` (:142) panic.  The loop
`for index := R-1; index >= L; index--` is unrolled to `R - L` rounds, which is exact unless
`L = -2^63`. -/
def lgetAll (pfx key : Bytes) : Prog (List Bytes) := do
  match ← loadListMeta (listMetaKey pfx key) with
  | none => pure []
  | some m =>
    if m.r - m.l < 0 then .done .panic
    else lgetAllLoop pfx key (m.r.toInt - m.l.toInt).toNat (m.r - 1)

/-- structure/list.go:236-242 adjustIndex -/
def adjustIndex (index min max : Int64) : Int64 := if index ≥ 0 then index + min else index + max

/-- structure/list.go:154-167 LIndex; an index outside the list gives nil without an error. -/
def lindex (pfx key : Bytes) (index : Int64) : Prog Bytes := do
  match ← loadListMeta (listMetaKey pfx key) with
  | none => fail .keyNotFound
  | some m =>
    let i := adjustIndex index m.l m.r
    if m.l ≤ i ∧ i < m.r then do
      let v ← getK (listDataKey pfx key i)
      pure v.value
    else pure []

/-- structure/list.go:170-186 LSet -/
def lset (pfx key : Bytes) (index : Int64) (value : Bytes) : Prog Unit := do
  match ← loadListMeta (listMetaKey pfx key) with
  | none => fail .keyNotFound
  | some m =>
    let i := adjustIndex index m.l m.r
    if m.l ≤ i ∧ i < m.r then setK (listDataKey pfx key i) value
    else fail .keyNotFound

/-- structure/list.go:200-205, the loop of LClear -/
def lclearLoop (pfx key : Bytes) : Nat → Int64 → Prog Unit
  | 0, _ => pure ()
  | n + 1, index => do
    delK (listDataKey pfx key index)
    lclearLoop pfx key n (index + 1)

/-- structure/list.go:189-209 LClear -/
def lclear (pfx key : Bytes) : Prog Unit := do
  let metaKey := listMetaKey pfx key
  match ← loadListMeta metaKey with
  | none => pure ()
  | some m => do
    lclearLoop pfx key (m.r.toInt - m.l.toInt).toNat m.l
    delK metaKey

end Structure
end Mondis
