import Verif.Model.Provider
import Verif.Spec.Scan
/-!
# Specification of what a client of the server observes
-/
namespace Mondis.Spec

/-- How the provider's outcomes look to a client: missing keys and (for Set in a transaction) oversized
transactions keep their identity, everything else becomes an error code with the server's text. -/
def seenWrite (txt : Err → Bytes) : Res Unit → Res Unit
  | .ok _ => .ok ()
  | .err e => .err (.rpc 2 (txt e))
  | .panic => .ok ()

def seenTxnSet (txt : Err → Bytes) : Res Unit → Res Unit
  | .err .txnTooBig => .err .txnTooBig
  | r => seenWrite txt r

def seenTxnDelete (txt : Err → Bytes) : Res Unit → Res Unit
  | .err .txnTooBig => .err (.rpc 3 (txt .txnTooBig))
  | r => seenWrite txt r

def seenGet (txt : Err → Bytes) : Res Val → Res Val
  | .ok v => .ok v
  | .err .keyNotFound => .err .keyNotFound
  | .err e => .err (.rpc 2 (txt e))
  | .panic => .panic

def seenExists (txt : Err → Bytes) : Res Bool → Res Bool
  | .ok v => .ok v
  | .err e => .err (.rpc 2 (txt e))
  | .panic => .panic

/-- Keys and values of a store are shorter than 4 GiB (Badger cannot hold longer ones). -/
def Small (m : DB) : Prop := ∀ e ∈ m.ents, e.1.length < 2 ^ 32 ∧ e.2.value.length < 2 ^ 32

end Mondis.Spec

namespace Mondis.Spec

/-- An operation a client issues outside transactions. -/
inductive Call where
  | set (k v : Bytes) (vm : Option VMetaReq)
  | delete (k : Bytes)
  | get (k : Bytes)
  | exists (k : Bytes)
  | scan (o : ScanOption) (limit : Int)

/-- What it is told. -/
inductive Answer where
  | done
  | failed
  | value (v : Val)
  | missing
  | found (b : Bool)
  | entries (l : List (Bytes × Val))
  deriving DecidableEq

/-- Keys Badger stores: not empty, not in its reserved range, at most 65000 bytes. -/
def storable (k : Bytes) : Bool :=
  decide (k ≠ []) && (!badgerPrefix.isPrefixOf k && decide (k.length ≤ 65000))

/-- Scans whose meaning is plain: forward from an offset not below the prefix, or from the beginning;
in reverse from an offset that has the prefix, or over everything. -/
def PlainScan (o : ScanOption) : Prop :=
  if o.reverse then (o.offset ≠ [] ∧ o.pfx <+: o.offset) ∨ (o.offset = [] ∧ o.pfx = [])
  else o.offset = [] ∨ o.pfx ≤ o.offset

/-- All entries such a scan covers, in order. -/
def covered (now : Int) (m : DB) (o : ScanOption) : List (Bytes × Val) :=
  if o.reverse then
    if o.offset = [] then (m.ents.filter (fun e => e.2.live now)).reverse
    else downFrom (·.live now) m o.pfx o.offset
  else fromOffset (·.live now) m o.pfx o.offset

/-- One shared ordered map.  `accepted`: does the storage accept a write now? -/
def serve (now : Int) (accepted : Bool) (m : DB) : Call → Answer × DB
  | .set k v vm =>
    if accepted && storable k then (.done, m.set k (mkVal now v vm)) else (.failed, m)
  | .delete k => if accepted && storable k then (.done, m.del k) else (.failed, m)
  | .get k =>
    if k = [] then (.failed, m)
    else match m.get k with
      | some v => (if v.live now then .value v else .missing, m)
      | none => (.missing, m)
  | .exists k =>
    if k = [] then (.failed, m)
    else match m.get k with
      | some v => (.found (v.live now), m)
      | none => (.found false, m)
  | .scan o limit => (.entries ((covered now m o).take (min limit 1000).toNat), m)

/-- Sizes of a call's arguments: below 4 GiB. -/
def Call.Small : Call → Prop
  | .set k v _ => k.length < 2 ^ 32 ∧ v.length < 2 ^ 32
  | .delete k | .get k | .exists k => k.length < 2 ^ 32
  | .scan o _ => o.pfx.length < 2 ^ 32 ∧ o.offset.length < 2 ^ 32 ∧ PlainScan o

end Mondis.Spec
