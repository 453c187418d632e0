import Verif.Model.Base
/-!
# Model of kv/key.go
-/
namespace Mondis.Key

/-- kv/key.go:12-17 Next -/
def next (k : Bytes) : Bytes := k ++ [0]

/-- kv/key.go:34-39, the loop of PrefixNext, from the last byte backwards (the argument is the
reversed key): increment, stop if the byte did not wrap to 0.  `none` is `i == -1`. -/
def incRev : Bytes → Option Bytes
  | [] => none
  | x :: xs => if x + 1 ≠ 0 then some ((x + 1) :: xs) else (incRev xs).map (0 :: ·)

/-- kv/key.go:30-45 PrefixNext -/
def prefixNext (k : Bytes) : Bytes :=
  match incRev k.reverse with
  | some r => r.reverse
  | none => k ++ [0]

/-- bytes.Compare: -1, 0, 1 -/
def compare : Bytes → Bytes → Int
  | [], [] => 0
  | [], _ :: _ => -1
  | _ :: _, [] => 1
  | a :: as, b :: bs => if a < b then -1 else if b < a then 1 else compare as bs

/-- kv/key.go:48-50 Cmp -/
def cmp (k another : Bytes) : Int := compare k another

/-- kv/key.go:53-55 HasPrefix (bytes.HasPrefix) -/
def hasPrefix (k p : Bytes) : Bool := p.length ≤ k.length && k.take p.length == p

/-- kv/key.go:58-62 Clone -/
def clone (k : Bytes) : Bytes := k

/-- kv/key.go:90-106, the equal-length branch of IsPoint, on reversed keys. -/
def isPointRev : Bytes → Bytes → Bool
  | s :: ss, e :: es =>
    if s ≠ 255 then s + 1 == e && ss == es
    else if e ≠ 0 then false
    else isPointRev ss es
  | _, _ => false

/-- kv/key.go:76-107 IsPoint -/
def isPoint (startKey endKey : Bytes) : Bool :=
  if startKey.length ≠ endKey.length then
    startKey.length + 1 == endKey.length && endKey[startKey.length]? == some 0 &&
      startKey == endKey.take startKey.length
  else isPointRev startKey.reverse endKey.reverse

end Mondis.Key
