import Verif.Model.Base
/-!
# Model of kv/memcomparable

Slices are byte lists, `append(b, …)` is `b ++ …`; capacity and aliasing are not modelled.
-/
namespace Mondis.Memcomparable

/-- kv/memcomparable/number.go:8 -/
def signMask : UInt64 := 0x8000000000000000

/-- encoding/binary.BigEndian.PutUint64: byte `i` is `byte(v >> (56-8i))`. -/
def putUint64 (v : UInt64) : Bytes :=
  [(v >>> 56).toUInt8, (v >>> 48).toUInt8, (v >>> 40).toUInt8, (v >>> 32).toUInt8,
   (v >>> 24).toUInt8, (v >>> 16).toUInt8, (v >>> 8).toUInt8, v.toUInt8]

/-- encoding/binary.BigEndian.Uint64 on 8 bytes. -/
def getUint64 (b0 b1 b2 b3 b4 b5 b6 b7 : UInt8) : UInt64 :=
  b7.toUInt64 ||| (b6.toUInt64 <<< 8) ||| (b5.toUInt64 <<< 16) ||| (b4.toUInt64 <<< 24) |||
  (b3.toUInt64 <<< 32) ||| (b2.toUInt64 <<< 40) ||| (b1.toUInt64 <<< 48) ||| (b0.toUInt64 <<< 56)

/-- number.go:11-13 EncodeInt64ToUint64 -/
def encodeInt64ToUint64 (v : Int64) : UInt64 := v.toUInt64 ^^^ signMask

/-- number.go:16-18 DecodeUint64ToInt64 -/
def decodeUint64ToInt64 (u : UInt64) : Int64 := (u ^^^ signMask).toInt64

/-- number.go:52-56 EncodeUint64 -/
def encodeUint64 (b : Bytes) (v : UInt64) : Bytes := b ++ putUint64 v

/-- number.go:100-109 DecodeUint64 -/
def decodeUint64 : Bytes → Res (Bytes × UInt64)
  | b0 :: b1 :: b2 :: b3 :: b4 :: b5 :: b6 :: b7 :: rest =>
      .ok (rest, getUint64 b0 b1 b2 b3 b4 b5 b6 b7)
  | _ => .err .insufficientBytes

/-- number.go:21-24 EncodeInt64 -/
def encodeInt64 (b : Bytes) (v : Int64) : Bytes := encodeUint64 b (encodeInt64ToUint64 v)

/-- number.go:27-34 DecodeInt64 -/
def decodeInt64 (b : Bytes) : Res (Bytes × Int64) := do
  let (leftover, u) ← decodeUint64 b
  pure (leftover, decodeUint64ToInt64 u)

/-- number.go:37-40 EncodeInt64Desc -/
def encodeInt64Desc (b : Bytes) (v : Int64) : Bytes := encodeUint64 b (~~~ encodeInt64ToUint64 v)

/-- number.go:43-49 DecodeInt64Desc -/
def decodeInt64Desc (b : Bytes) : Res (Bytes × Int64) := do
  let (leftover, u) ← decodeUint64 b
  pure (leftover, decodeUint64ToInt64 (~~~ u))

/-- number.go:59-61 EncodeUint64Desc -/
def encodeUint64Desc (b : Bytes) (v : UInt64) : Bytes := encodeUint64 b (~~~ v)

/-- number.go:112-118 DecodeUint64Desc -/
def decodeUint64Desc (b : Bytes) : Res (Bytes × UInt64) := do
  let (leftover, v) ← decodeUint64 b
  pure (leftover, ~~~ v)

/-- number.go:64-66 EncodeUint8 -/
def encodeUint8 (b : Bytes) (v : UInt8) : Bytes := b ++ [v]

/-- number.go:69-71 EncodeUint8Desc -/
def encodeUint8Desc (b : Bytes) (v : UInt8) : Bytes := encodeUint8 b (~~~ v)

/-- number.go:74-83 DecodeUint8 -/
def decodeUint8 : Bytes → Res (Bytes × UInt8)
  | v :: rest => .ok (rest, v)
  | [] => .err .insufficientBytes

/-- number.go:86-92 DecodeUint8Desc -/
def decodeUint8Desc (b : Bytes) : Res (Bytes × UInt8) := do
  let (leftover, v) ← decodeUint8 b
  pure (leftover, ~~~ v)

/-! ## bytes.go -/

/-- bytes.go:12 encGroupSize -/
def encGroupSize : Nat := 8
/-- bytes.go:13 encMarker -/
def encMarker : UInt8 := 0xFF
/-- bytes.go:14 encPad -/
def encPad : UInt8 := 0x0

/-- bytes.go:35-48, the loop of EncodeBytes.  One iteration per group: while at least
8 bytes remain a full group with `padCount = 0` is emitted; the last iteration
(`remain < 8`, possibly 0) pads with zeros. -/
def encodeGroups : Bytes → Bytes
  | a0 :: a1 :: a2 :: a3 :: a4 :: a5 :: a6 :: a7 :: rest =>
      [a0, a1, a2, a3, a4, a5, a6, a7] ++ [encMarker - UInt8.ofNat 0] ++ encodeGroups rest
  | data =>
      let padCount := encGroupSize - data.length
      data ++ List.replicate padCount encPad ++ [encMarker - UInt8.ofNat padCount]

/-- bytes.go:31-51 EncodeBytes -/
def encodeBytes (b data : Bytes) : Bytes := b ++ encodeGroups data

/-- bytes.go:54-58 EncodedBytesLength -/
def encodedBytesLength (dataLen : Nat) : Nat :=
  let mod := dataLen % encGroupSize
  let padCount := encGroupSize - mod
  dataLen + padCount + 1 + dataLen / encGroupSize

/-- bytes.go:154-158 safeReverseBytes: complement every byte. -/
def safeReverseBytes (b : Bytes) : Bytes := b.map (~~~ ·)

/-- Little-endian word load, as the amd64 `uintptr` view of 8 bytes in fastReverseBytes. -/
def loadWord (b0 b1 b2 b3 b4 b5 b6 b7 : UInt8) : UInt64 := getUint64 b7 b6 b5 b4 b3 b2 b1 b0

/-- Little-endian word store. -/
def storeWord (w : UInt64) : Bytes := (putUint64 w).reverse

/-- bytes.go:139-151 fastReverseBytes with wordSize = 8 (amd64): whole words are complemented
through the `[]uintptr` view, the remaining `n % 8` bytes one by one. -/
def fastReverseBytes : Bytes → Bytes
  | b0 :: b1 :: b2 :: b3 :: b4 :: b5 :: b6 :: b7 :: rest =>
      storeWord (~~~ loadWord b0 b1 b2 b3 b4 b5 b6 b7) ++ fastReverseBytes rest
  | b => b.map (~~~ ·)

/-- bytes.go:160-167 reverseBytes -/
def reverseBytes (supportsUnaligned : Bool) (b : Bytes) : Bytes :=
  if supportsUnaligned then fastReverseBytes b else safeReverseBytes b

/-- bytes.go:60-113, the loop of decodeBytes; `buf` accumulates the decoded bytes and the
final complement of `buf` (107-109) is applied at the `break`. -/
def decodeLoop (reverse : Bool) : Bytes → Bytes → Res (Bytes × Bytes)
  | a0 :: a1 :: a2 :: a3 :: a4 :: a5 :: a6 :: a7 :: marker :: rest, buf =>
      let group := [a0, a1, a2, a3, a4, a5, a6, a7]
      let padCount : UInt8 := if reverse then marker else encMarker - marker
      if padCount.toNat > encGroupSize then .err .invalidMarker
      else
        let realGroupSize := encGroupSize - padCount.toNat
        let buf := buf ++ group.take realGroupSize
        if padCount ≠ 0 then
          let padByte := if reverse then encMarker else encPad
          if (group.drop realGroupSize).all (· == padByte) then
            .ok (rest, if reverse then reverseBytes true buf else buf)
          else .err .invalidPadding
        else decodeLoop reverse rest buf
  | _, _ => .err .insufficientBytes

/-- bytes.go:117-119 DecodeBytes; returns (leftover, data). -/
def decodeBytes (b : Bytes) : Res (Bytes × Bytes) := decodeLoop false b []

/-- bytes.go:122-127 EncodeBytesDesc -/
def encodeBytesDesc (b data : Bytes) : Bytes :=
  let n := b.length
  let b := encodeBytes b data
  b.take n ++ reverseBytes true (b.drop n)

/-- bytes.go:131-133 DecodeBytesDesc -/
def decodeBytesDesc (b : Bytes) : Res (Bytes × Bytes) := decodeLoop true b []

/-! ## float.go, on IEEE-754 bit patterns -/

/-- `f >= 0` for the float64 with bit pattern `u` (IEEE-754, not NaN and (sign clear or zero)).
The mantissa/exponent part is `u` without the sign bit; NaN iff it exceeds 0x7FF0000000000000. -/
def floatGeZero (u : UInt64) : Bool :=
  let mag := u &&& ~~~ signMask
  decide (mag ≤ 0x7FF0000000000000) && (u &&& signMask == 0 || mag == 0)

/-- float.go:5-17 encodeFloat64ToUint64; the argument is math.Float64bits(f). -/
def encodeFloat64ToUint64 (u : UInt64) : UInt64 :=
  if floatGeZero u then u ||| signMask else ~~~ u

/-- float.go:19-26 decodeUint64ToFloat64, up to math.Float64frombits. -/
def decodeUint64ToFloat64 (u : UInt64) : UInt64 :=
  if u &&& signMask > 0 then u &&& ~~~ signMask else ~~~ u

/-- float.go:29-32 EncodeFloat64 -/
def encodeFloat64 (b : Bytes) (f : UInt64) : Bytes := encodeUint64 b (encodeFloat64ToUint64 f)

/-- float.go:35-38 DecodeFloat64 -/
def decodeFloat64 (b : Bytes) : Res (Bytes × UInt64) := do
  let (b, u) ← decodeUint64 b
  pure (b, decodeUint64ToFloat64 u)

/-- float.go:41-44 EncodeFloat64Desc -/
def encodeFloat64Desc (b : Bytes) (f : UInt64) : Bytes :=
  encodeUint64Desc b (encodeFloat64ToUint64 f)

/-- float.go:47-50 DecodeFloat64Desc -/
def decodeFloat64Desc (b : Bytes) : Res (Bytes × UInt64) := do
  let (b, u) ← decodeUint64Desc b
  pure (b, decodeUint64ToFloat64 u)

end Mondis.Memcomparable
