import Verif.Model.Base
import Verif.Model.Memcomparable
/-!
# Model of kv/compact and kv/numeric
-/
namespace Mondis.Compact

/-- encoding/binary.MaxVarintLen64, the size of the scratch array in compact/number.go:10,30. -/
def maxVarintLen64 : Nat := 10

/-- encoding/binary.PutUvarint: `for x >= 0x80 { buf[i] = byte(x) | 0x80; x >>= 7 }; buf[i] = byte(x)`.
`room` is the number of bytes left in the scratch array; writing past it would be an index panic,
represented by `none` (proved unreachable for room = 10). -/
def putUvarint : (room : Nat) → UInt64 → Option Bytes
  | 0, _ => none
  | room + 1, x =>
    if x ≥ 0x80 then (putUvarint room (x >>> 7)).map (fun t => (x.toUInt8 ||| 0x80) :: t)
    else some [x.toUInt8]

/-- encoding/binary.Uvarint (Go 1.14): loop state `i` (bytes consumed), `s` (shift), `x`.
Returns the value and the remaining bytes for `n > 0`, overflow for `n < 0`, insufficient for `n = 0`.
A shift count ≥ 64 gives 0 in Go. -/
def uvarintLoop : Bytes → (i : Nat) → (x : UInt64) → Res (Bytes × UInt64)
  | [], _, _ => .err .insufficientBytes
  | b :: rest, i, x =>
    let shifted (v : UInt64) : UInt64 := if 7 * i < 64 then v <<< UInt64.ofNat (7 * i) else 0
    if b < 0x80 then
      if i > 9 ∨ (i = 9 ∧ b > 1) then .err .varintOverflow
      else .ok (rest, x ||| shifted b.toUInt64)
    else uvarintLoop rest (i + 1) (x ||| shifted (b &&& 0x7f).toUInt64)

/-- compact/number.go:29-33 EncodeUvarint -/
def encodeUvarint (b : Bytes) (v : UInt64) : Res Bytes :=
  match putUvarint maxVarintLen64 v with
  | some d => .ok (b ++ d)
  | none => .panic

/-- compact/number.go:37-46 DecodeUvarint -/
def decodeUvarint (b : Bytes) : Res (Bytes × UInt64) := uvarintLoop b 0 0

/-- encoding/binary.PutVarint, the zig-zag step: `ux := uint64(x) << 1; if x < 0 { ux = ^ux }`. -/
def zigzag (x : Int64) : UInt64 :=
  let ux := x.toUInt64 <<< 1
  if x < 0 then ~~~ ux else ux

/-- encoding/binary.Varint, the inverse: `x := int64(ux >> 1); if ux&1 != 0 { x = ^x }`. -/
def unzigzag (ux : UInt64) : Int64 :=
  let x := (ux >>> 1).toInt64
  if ux &&& 1 ≠ 0 then ~~~ x else x

/-- compact/number.go:9-13 EncodeVarint -/
def encodeVarint (b : Bytes) (v : Int64) : Res Bytes := encodeUvarint b (zigzag v)

/-- compact/number.go:17-26 DecodeVarint -/
def decodeVarint (b : Bytes) : Res (Bytes × Int64) := do
  let (rest, ux) ← decodeUvarint b
  pure (rest, unzigzag ux)

/-- compact/bytes.go:11-15 EncodeBytes; `int64(len(data))`. -/
def encodeBytes (b data : Bytes) : Res Bytes := do
  let b ← encodeVarint b (Int64.ofNat data.length)
  pure (b ++ data)

/-- compact/bytes.go:18-27 DecodeBytes.  For a negative `n` the length test passes and
`b[n:]` is a slice with a negative bound: a run-time panic. -/
def decodeBytes (b : Bytes) : Res (Bytes × Bytes) := do
  let (b, n) ← decodeVarint b
  if Int64.ofNat b.length < n then .err .insufficientBytes
  else if n < 0 then .panic
  else .ok (b.drop n.toInt.toNat, b.take n.toInt.toNat)

end Mondis.Compact

namespace Mondis.Numeric
open Mondis.Memcomparable

/-- kv/numeric/binary.go:13-17 Encode2Binary -/
def encode2Binary (v : UInt64) (buf : Bytes) : Bytes := buf ++ putUint64 v

/-- kv/numeric/binary.go:20-29 DecodeFromBinary -/
def decodeFromBinary : Bytes → Res UInt64
  | [b0, b1, b2, b3, b4, b5, b6, b7] => .ok (getUint64 b0 b1 b2 b3 b4 b5 b6 b7)
  | _ => .err .wrongLength

/-- strconv.formatBits, base 10: digits are produced from the least significant one; `fuel` is the
size of its buffer (proved sufficient). -/
def formatUint : (fuel : Nat) → Nat → Bytes → Bytes
  | 0, _, acc => acc
  | fuel + 1, n, acc =>
    if n < 10 then UInt8.ofNat (48 + n) :: acc
    else formatUint fuel (n / 10) (UInt8.ofNat (48 + n % 10) :: acc)

/-- strconv.FormatInt(v, 10): '-' and the digits of the magnitude. -/
def formatInt (v : Int64) : Bytes :=
  if v < 0 then 45 :: formatUint 20 (- v.toInt).toNat [] else formatUint 20 v.toInt.toNat []

/-- strconv.ParseUint(s, 10, 64), digit loop; any value above 2^64-1 is a range error. -/
def parseDigits : Bytes → Nat → Res Nat
  | [], n => .ok n
  | c :: rest, n =>
    if 48 ≤ c ∧ c ≤ 57 then
      let n' := n * 10 + (c.toNat - 48)
      if n' ≥ 2 ^ 64 then .err .parse else parseDigits rest n'
    else .err .parse

/-- strconv.ParseInt(s, 10, 64): optional sign, then at least one digit, then the range check.
Syntax and range errors are not distinguished (no caller does). -/
def parseInt (s : Bytes) : Res Int64 :=
  match s with
  | [] => .err .parse
  | c :: rest =>
    let neg := c == 45
    let digits := if c == 43 || c == 45 then rest else c :: rest
    if digits = [] then .err .parse
    else match parseDigits digits 0 with
      | .ok un =>
        if !neg && un ≥ 2 ^ 63 then .err .parse
        else if neg && un > 2 ^ 63 then .err .parse
        else .ok (Int64.ofInt (if neg then - (un : Int) else un))
      | .err e => .err e
      | .panic => .panic

/-- kv/numeric/human.go:15-19 Encode2Human -/
def encode2Human (v : Int64) : Bytes := formatInt v

/-- kv/numeric/human.go:22-29 DecodeFromHuman; `none` is a nil slice. -/
def decodeFromHuman : Option Bytes → Res Int64
  | none => .err .valueIsNil
  | some b => parseInt b

end Mondis.Numeric
