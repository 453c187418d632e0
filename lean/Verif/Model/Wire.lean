import Verif.Model.Base
/-!
# Model of pb/mondis.pb.go: protobuf messages and their wire format

`[]byte` fields: nil and empty are not distinguished (the marshaller skips both, and no caller
tells them apart).  Every error of the unmarshaller is `Err.wire`.  Slices are shorter than 2^63, as
in Go; where an index computation can wrap around, the model wraps and panics as Go does.
-/
namespace Mondis.Wire

/-! ## Writing -/

/-- pb/mondis.pb.go:1435-1443 encodeVarintMondis (the bytes written for the uint64 `v`) -/
def encVarint (v : Nat) : Bytes :=
  if v < 128 then [UInt8.ofNat v] else UInt8.ofNat (v % 128 + 128) :: encVarint (v / 128)
termination_by v

/-- pb/mondis.pb.go:1705-1714 sovMondis -/
def sov (v : Nat) : Nat := if v < 128 then 1 else 1 + sov (v / 128)
termination_by v

/-- a `bytes` or `string` field, e.g. lines 912-917: skipped when empty -/
def fBytes (tag : UInt8) (b : Bytes) : Bytes :=
  if b.length > 0 then tag :: (encVarint b.length ++ b) else []

/-- a varint field, e.g. lines 955-959: skipped when zero -/
def fVar (tag : UInt8) (v : UInt64) : Bytes := if v ≠ 0 then tag :: encVarint v.toNat else []

/-- a bool field, e.g. lines 1099-1108: skipped when false -/
def fBool (tag : UInt8) (b : Bool) : Bytes := if b then [tag, 1] else []

/-- an embedded message, e.g. lines 924-933: written when not nil -/
def fMsg (tag : UInt8) : Option Bytes → Bytes
  | some b => tag :: (encVarint b.length ++ b)
  | none => []

/-- size of a `bytes` field, e.g. lines 1447-1450 -/
def sBytes (b : Bytes) : Nat := if b.length > 0 then 1 + b.length + sov b.length else 0
/-- size of a varint field, e.g. lines 1468-1470 -/
def sVar (v : UInt64) : Nat := if v ≠ 0 then 1 + sov v.toNat else 0
/-- size of a bool field, e.g. lines 1541-1543 -/
def sBool (b : Bool) : Nat := if b then 2 else 0
/-- size of an embedded message of size `n`, e.g. lines 1455-1458 -/
def sMsg : Option Nat → Nat
  | some n => 1 + n + sov n
  | none => 0

/-! ## Reading -/

/-- The varint loop, e.g. pb/mondis.pb.go:1723-1737: at most ten bytes (`shift >= 64` is an error),
bits above the 64th are lost.  Returns the value and the rest of the input. -/
def uvar (shift acc : Nat) : Bytes → Res (Nat × Bytes)
  | [] => .err .wire
  | b :: r =>
    if shift ≥ 64 then .err .wire
    else
      let acc := (acc + b.toNat % 128 * 2 ^ shift) % 2 ^ 64
      if b.toNat < 128 then .ok (acc, r) else uvar (shift + 7) acc r

/-- int arithmetic wraps at 64 bits. -/
def wrap (i : Int) : Int := Int.bmod i (2 ^ 64)

mutual
/-- pb/mondis.pb.go:3378-3477 skipMondis: how many bytes the field at the front takes; negative if
the index wrapped around.  `fuel` bounds the recursion (twice the length suffices). -/
def skip : (fuel : Nat) → Bytes → Res Int
  | 0, _ => .panic
  | fuel + 1, d => do
    let (w, r) ← uvar 0 0 d
    let i : Nat := d.length - r.length
    match w % 8 with
    | 0 => do
      let (_, r') ← uvar 0 0 r
      .ok (d.length - r'.length : Nat)
    | 1 => .ok (i + 8 : Nat)
    | 2 => do
      let (len, r') ← uvar 0 0 r
      if len ≥ 2 ^ 63 then .err .wire
      else .ok (wrap ((d.length - r'.length : Nat) + (len : Int)))
    | 3 => group fuel d i
    | 4 => .ok i
    | 5 => .ok (i + 4 : Nat)
    | _ => .err .wire

/-- pb/mondis.pb.go:3438-3465, the loop over the fields of a group, from index `idx`. -/
def group : (fuel : Nat) → Bytes → Int → Res Int
  | 0, _, _ => .panic
  | fuel + 1, d, idx =>
    if idx < 0 then .panic            -- dAtA[iNdEx] with a negative index
    else do
      let start := idx.toNat
      let (w, r) ← uvar 0 0 (d.drop start)
      if w % 8 = 4 then .ok (d.length - r.length : Nat)
      else do
        let next ← skip fuel (d.drop start)
        group fuel d (wrap (start + next))
end

/-- How the unmarshaller of a message treats one of its fields. -/
inductive Field (M : Type) where
  /-- a varint field and its assignment -/
  | var (f : M → UInt64 → M)
  /-- a length-delimited field and its assignment -/
  | bytes (f : M → Bytes → Res M)

/-- The Unmarshal loop shared by all messages, e.g. pb/mondis.pb.go:1717-1862.  `fld` gives the known
fields, `unk` what happens to unknown ones, `pos` is iNdEx. -/
def loop {M : Type} (fld : Nat → Option (Field M)) (unk : M → Bytes → M) :
    (fuel pos : Nat) → Bytes → M → Res M
  | 0, _, d, m => if d = [] then .ok m else .panic
  | fuel + 1, pos, d, m =>
    if d = [] then .ok m
    else do
      let (wire, r) ← uvar 0 0 d
      let num := wire / 8 % 2 ^ 32
      if wire % 8 = 4 then .err .wire
      else if num = 0 ∨ num ≥ 2 ^ 31 then .err .wire
      else match fld num with
        | some (.var f) =>
          if wire % 8 ≠ 0 then .err .wire
          else do
            let (v, r') ← uvar 0 0 r
            loop fld unk fuel (pos + (d.length - r'.length)) r' (f m (UInt64.ofNat v))
        | some (.bytes f) =>
          if wire % 8 ≠ 2 then .err .wire
          else do
            let (len, r') ← uvar 0 0 r
            if len ≥ 2 ^ 63 then .err .wire                                   -- byteLen < 0
            else
              let pos' := pos + (d.length - r'.length)
              if pos' + len ≥ 2 ^ 63 then .panic                              -- postIndex wraps
              else if len > r'.length then .err .wire
              else do
                let m' ← f m (r'.take len)
                loop fld unk fuel (pos' + len) (r'.drop len) m'
        | none => do
          let n ← skip (2 * d.length + 1) d
          if n < 0 then .err .wire
          else if (pos : Int) + n ≥ 2 ^ 63 then .panic                        -- iNdEx+skippy wraps
          else if n > d.length then .err .wire
          else loop fld unk fuel (pos + n.toNat) (d.drop n.toNat) (unk m (d.take n.toNat))

/-- Unmarshal `d` into the existing message `m` (fields not present keep their value). -/
def unmarshal {M : Type} (fld : Nat → Option (Field M)) (unk : M → Bytes → M) (d : Bytes) (m : M) :
    Res M :=
  loop fld unk d.length 0 d m

/-- Unknown fields are collected in XXX_unrecognized; where the message is never marshalled again
nothing depends on that. -/
def ignore {M : Type} (m : M) (_ : Bytes) : M := m

/-! ## Messages -/

/-- VMetaReq -/
structure VMetaReq where
  ttl : Int64 := 0
  tag : UInt32 := 0
  deriving DecidableEq, Repr
/-- pb/mondis.pb.go:1185-1205 -/
def VMetaReq.marshal (m : VMetaReq) : Bytes := fVar 0x08 m.ttl.toUInt64 ++ fVar 0x10 m.tag.toUInt64
/-- pb/mondis.pb.go:1579-1592 -/
def VMetaReq.size (m : VMetaReq) : Nat := sVar m.ttl.toUInt64 + sVar m.tag.toUInt64
/-- pb/mondis.pb.go:2619-2656 -/
def VMetaReq.fld : Nat → Option (Field VMetaReq)
  | 1 => some (.var (fun m v => { m with ttl := v.toInt64 }))
  | 2 => some (.var (fun m v => { m with tag := v.toUInt32 }))
  | _ => none
/-- pb/mondis.pb.go:2589-2677 -/
def VMetaReq.unmarshal (d : Bytes) (m : VMetaReq) : Res VMetaReq := Wire.unmarshal fld ignore d m

/-- VMetaResp -/
structure VMetaResp where
  expiresAt : UInt64 := 0
  tag : UInt32 := 0
  deriving DecidableEq, Repr
/-- pb/mondis.pb.go:1216-1236 -/
def VMetaResp.marshal (m : VMetaResp) : Bytes := fVar 0x08 m.expiresAt ++ fVar 0x10 m.tag.toUInt64
/-- pb/mondis.pb.go:1594-1607 -/
def VMetaResp.size (m : VMetaResp) : Nat := sVar m.expiresAt + sVar m.tag.toUInt64
/-- pb/mondis.pb.go:2708-2745 -/
def VMetaResp.fld : Nat → Option (Field VMetaResp)
  | 1 => some (.var (fun m v => { m with expiresAt := v }))
  | 2 => some (.var (fun m v => { m with tag := v.toUInt32 }))
  | _ => none
/-- pb/mondis.pb.go:2678-2766 -/
def VMetaResp.unmarshal (d : Bytes) (m : VMetaResp) : Res VMetaResp := Wire.unmarshal fld ignore d m

/-- SetRequest -/
structure SetRequest where
  key : Bytes := []
  value : Bytes := []
  vmeta : Option VMetaReq := none
  deriving DecidableEq, Repr
/-- pb/mondis.pb.go:907-938 -/
def SetRequest.marshal (m : SetRequest) : Bytes :=
  fBytes 0x0a m.key ++ fBytes 0x12 m.value ++ fMsg 0x1a (m.vmeta.map VMetaReq.marshal)
/-- pb/mondis.pb.go:1444-1463 -/
def SetRequest.size (m : SetRequest) : Nat :=
  sBytes m.key + sBytes m.value + sMsg (m.vmeta.map VMetaReq.size)
/-- pb/mondis.pb.go:1746-1838 -/
def SetRequest.fld : Nat → Option (Field SetRequest)
  | 1 => some (.bytes (fun m b => .ok { m with key := b }))
  | 2 => some (.bytes (fun m b => .ok { m with value := b }))
  | 3 => some (.bytes (fun m b => do
      let v ← VMetaReq.unmarshal b (m.vmeta.getD {})
      .ok { m with vmeta := some v }))
  | _ => none
/-- pb/mondis.pb.go:1717-1862 -/
def SetRequest.unmarshal (d : Bytes) (m : SetRequest) : Res SetRequest := Wire.unmarshal fld ignore d m

/-- int32 as written: `uint64(m.Code)` sign-extends. -/
def code64 (c : Int32) : UInt64 := c.toInt64.toUInt64
/-- int32 as read: `(int32(b) & 0x7F) << shift` or-ed together is the low half of the uint64. -/
def codeOf (v : UInt64) : Int32 := v.toUInt32.toInt32

/-- SetResponse, DeleteResponse and CommitResponse, which have the same fields and code.  `unk` is
XXX_unrecognized: a SetResponse is unmarshalled from a request and marshalled again
(server/common.go:46,56). -/
structure Status where
  code : Int32 := 0
  msg : Bytes := []
  unk : Bytes := []
  deriving DecidableEq, Repr
/-- pb/mondis.pb.go:950-971, 1153-1174, 1247-1268 -/
def Status.marshal (m : Status) : Bytes := fVar 0x08 (code64 m.code) ++ fBytes 0x12 m.msg ++ m.unk
/-- pb/mondis.pb.go:1465-1479, 1563-1577, 1609-1623 -/
def Status.size (m : Status) : Nat := sVar (code64 m.code) + sBytes m.msg + m.unk.length
/-- pb/mondis.pb.go:1892-1941, 2519-2568, 2796-2845 -/
def Status.fld : Nat → Option (Field Status)
  | 1 => some (.var (fun m v => { m with code := codeOf v }))
  | 2 => some (.bytes (fun m b => .ok { m with msg := b }))
  | _ => none
/-- pb/mondis.pb.go:1863-1961, 2490-2588, 2767-2865 -/
def Status.unmarshal (d : Bytes) (m : Status) : Res Status :=
  Wire.unmarshal fld (fun m b => { m with unk := m.unk ++ b }) d m

/-- GetRequest, ExistsRequest and DeleteRequest, which have the same field and code. -/
structure KeyRequest where
  key : Bytes := []
  deriving DecidableEq, Repr
/-- pb/mondis.pb.go:982-998, 1057-1073, 1126-1142 -/
def KeyRequest.marshal (m : KeyRequest) : Bytes := fBytes 0x0a m.key
/-- pb/mondis.pb.go:1481-1492, 1518-1529, 1550-1561 -/
def KeyRequest.size (m : KeyRequest) : Nat := sBytes m.key
/-- pb/mondis.pb.go:1991-2020 -/
def KeyRequest.fld : Nat → Option (Field KeyRequest)
  | 1 => some (.bytes (fun m b => .ok { m with key := b }))
  | _ => none
/-- pb/mondis.pb.go:1962-2043, 2207-2288, 2408-2489 -/
def KeyRequest.unmarshal (d : Bytes) (m : KeyRequest) : Res KeyRequest := Wire.unmarshal fld ignore d m

/-- GetResponse -/
structure GetResponse where
  code : Int32 := 0
  msg : Bytes := []
  value : Bytes := []
  vmeta : Option VMetaResp := none
  deriving DecidableEq, Repr
/-- pb/mondis.pb.go:1009-1046 -/
def GetResponse.marshal (m : GetResponse) : Bytes :=
  fVar 0x08 (code64 m.code) ++ fBytes 0x12 m.msg ++ fBytes 0x1a m.value ++
    fMsg 0x22 (m.vmeta.map VMetaResp.marshal)
/-- pb/mondis.pb.go:1494-1516 -/
def GetResponse.size (m : GetResponse) : Nat :=
  sVar (code64 m.code) + sBytes m.msg + sBytes m.value + sMsg (m.vmeta.map VMetaResp.size)
/-- pb/mondis.pb.go:2073-2185 -/
def GetResponse.fld : Nat → Option (Field GetResponse)
  | 1 => some (.var (fun m v => { m with code := codeOf v }))
  | 2 => some (.bytes (fun m b => .ok { m with msg := b }))
  | 3 => some (.bytes (fun m b => .ok { m with value := b }))
  | 4 => some (.bytes (fun m b => do
      let v ← VMetaResp.unmarshal b (m.vmeta.getD {})
      .ok { m with vmeta := some v }))
  | _ => none
/-- pb/mondis.pb.go:2044-2206 -/
def GetResponse.unmarshal (d : Bytes) (m : GetResponse) : Res GetResponse := Wire.unmarshal fld ignore d m

/-- ExistsResponse -/
structure ExistsResponse where
  code : Int32 := 0
  msg : Bytes := []
  found : Bool := false
  deriving DecidableEq, Repr
/-- pb/mondis.pb.go:1084-1115 -/
def ExistsResponse.marshal (m : ExistsResponse) : Bytes :=
  fVar 0x08 (code64 m.code) ++ fBytes 0x12 m.msg ++ fBool 0x18 m.found
/-- pb/mondis.pb.go:1531-1548 -/
def ExistsResponse.size (m : ExistsResponse) : Nat :=
  sVar (code64 m.code) + sBytes m.msg + sBool m.found
/-- pb/mondis.pb.go:2318-2386 -/
def ExistsResponse.fld : Nat → Option (Field ExistsResponse)
  | 1 => some (.var (fun m v => { m with code := codeOf v }))
  | 2 => some (.bytes (fun m b => .ok { m with msg := b }))
  | 3 => some (.var (fun m v => { m with found := v != 0 }))
  | _ => none
/-- pb/mondis.pb.go:2289-2407 -/
def ExistsResponse.unmarshal (d : Bytes) (m : ExistsResponse) : Res ExistsResponse :=
  Wire.unmarshal fld ignore d m

/-- ProviderScanOption -/
structure PSO where
  reverse : Bool := false
  pfx : Bytes := []
  offset : Bytes := []
  deriving DecidableEq, Repr
/-- pb/mondis.pb.go:1315-1347 -/
def PSO.marshal (m : PSO) : Bytes := fBool 0x08 m.reverse ++ fBytes 0x12 m.pfx ++ fBytes 0x1a m.offset
/-- pb/mondis.pb.go:1641-1659 -/
def PSO.size (m : PSO) : Nat := sBool m.reverse + sBytes m.pfx + sBytes m.offset
/-- pb/mondis.pb.go:2998-3080 -/
def PSO.fld : Nat → Option (Field PSO)
  | 1 => some (.var (fun m v => { m with reverse := v != 0 }))
  | 2 => some (.bytes (fun m b => .ok { m with pfx := b }))
  | 3 => some (.bytes (fun m b => .ok { m with offset := b }))
  | _ => none
/-- pb/mondis.pb.go:2969-3101 -/
def PSO.unmarshal (d : Bytes) (m : PSO) : Res PSO := Wire.unmarshal fld ignore d m

/-- ScanRequest -/
structure ScanRequest where
  pso : Option PSO := none
  limit : Int32 := 0
  deriving DecidableEq, Repr
/-- pb/mondis.pb.go:1279-1304 -/
def ScanRequest.marshal (m : ScanRequest) : Bytes :=
  fMsg 0x0a (m.pso.map PSO.marshal) ++ fVar 0x10 (code64 m.limit)
/-- pb/mondis.pb.go:1625-1639 -/
def ScanRequest.size (m : ScanRequest) : Nat := sMsg (m.pso.map PSO.size) + sVar (code64 m.limit)
/-- pb/mondis.pb.go:2895-2947 -/
def ScanRequest.fld : Nat → Option (Field ScanRequest)
  | 1 => some (.bytes (fun m b => do
      let v ← PSO.unmarshal b (m.pso.getD {})
      .ok { m with pso := some v }))
  | 2 => some (.var (fun m v => { m with limit := codeOf v }))
  | _ => none
/-- pb/mondis.pb.go:2866-2968 -/
def ScanRequest.unmarshal (d : Bytes) (m : ScanRequest) : Res ScanRequest := Wire.unmarshal fld ignore d m

/-- Entry -/
structure Entry where
  key : Bytes := []
  value : Bytes := []
  vmeta : Option VMetaResp := none
  deriving DecidableEq, Repr
/-- pb/mondis.pb.go:1358-1390 -/
def Entry.marshal (m : Entry) : Bytes :=
  fBytes 0x0a m.key ++ fBytes 0x12 m.value ++ fMsg 0x1a (m.vmeta.map VMetaResp.marshal)
/-- pb/mondis.pb.go:1661-1680 -/
def Entry.size (m : Entry) : Nat :=
  sBytes m.key + sBytes m.value + sMsg (m.vmeta.map VMetaResp.size)
/-- pb/mondis.pb.go:3131-3223 -/
def Entry.fld : Nat → Option (Field Entry)
  | 1 => some (.bytes (fun m b => .ok { m with key := b }))
  | 2 => some (.bytes (fun m b => .ok { m with value := b }))
  | 3 => some (.bytes (fun m b => do
      let v ← VMetaResp.unmarshal b (m.vmeta.getD {})
      .ok { m with vmeta := some v }))
  | _ => none
/-- pb/mondis.pb.go:3102-3247 -/
def Entry.unmarshal (d : Bytes) (m : Entry) : Res Entry := Wire.unmarshal fld ignore d m

/-- ScanResponse -/
structure ScanResponse where
  code : Int32 := 0
  msg : Bytes := []
  entries : List Entry := []
  deriving DecidableEq, Repr
/-- pb/mondis.pb.go:1401-1433 -/
def ScanResponse.marshal (m : ScanResponse) : Bytes :=
  fVar 0x08 (code64 m.code) ++ fBytes 0x12 m.msg ++
    (m.entries.map (fun e => fMsg 0x1a (some e.marshal))).flatten
/-- pb/mondis.pb.go:1682-1703 -/
def ScanResponse.size (m : ScanResponse) : Nat :=
  sVar (code64 m.code) + sBytes m.msg + (m.entries.map (fun e => sMsg (some e.size))).sum
/-- pb/mondis.pb.go:3277-3356 -/
def ScanResponse.fld : Nat → Option (Field ScanResponse)
  | 1 => some (.var (fun m v => { m with code := codeOf v }))
  | 2 => some (.bytes (fun m b => .ok { m with msg := b }))
  | 3 => some (.bytes (fun m b => do
      let e ← Entry.unmarshal b {}
      .ok { m with entries := m.entries ++ [e] }))
  | _ => none
/-- pb/mondis.pb.go:3248-3377 -/
def ScanResponse.unmarshal (d : Bytes) (m : ScanResponse) : Res ScanResponse :=
  Wire.unmarshal fld ignore d m

end Mondis.Wire
