import Verif.Spec.Client
import Verif.Model.Store
import Verif.Model.Server
/-!
# Specification of a server on LevelDB
-/
namespace Mondis.Spec.Level
open Mondis.LevelDB (LDB)

/-- One shared ordered map of plain values, under any key: an expiry or a tag, and a scan in reverse, are refused. -/
def serve (accepted : Bool) (m : LDB) : Call → Answer × LDB
  | .set k v vm => if accepted && vm.isNone then (.done, m.set k v) else (.failed, m)
  | .delete k => if accepted then (.done, m.del k) else (.failed, m)
  | .get k => match m.get k with
    | some v => (.value ⟨v, 0, 0⟩, m)
    | none => (.missing, m)
  | .exists k => (.found (m.get k).isSome, m)
  | .scan o limit =>
    if limit ≤ 0 then (.entries [], m)
    else if o.reverse then (.failed, m)
    else (.entries (((fromOffset (fun _ => true) m o.pfx o.offset).take (min limit 1000).toNat).map
      (fun e => (e.1, ⟨e.2, 0, 0⟩))), m)

/-- Sizes of a call's arguments: below 4 GiB. -/
def Fits : Call → Prop
  | .set k v _ => k.length < 2 ^ 32 ∧ v.length < 2 ^ 32
  | .delete k | .get k | .exists k => k.length < 2 ^ 32
  | .scan o _ => o.pfx.length < 2 ^ 32 ∧ o.offset.length < 2 ^ 32

/-- Keys and values of a store are shorter than 4 GiB. -/
def SmallL (m : LDB) : Prop := ∀ e ∈ m.ents, e.1.length < 2 ^ 32 ∧ e.2.length < 2 ^ 32

/-- A call that means the same on Badger: no expiry or tag, a key Badger stores, a plain scan forward. -/
def Common : Call → Prop
  | .set k _ vm => vm = none ∧ storable k = true
  | .delete k | .get k | .exists k => storable k = true
  | .scan o _ => o.reverse = false ∧ (o.offset = [] ∨ o.pfx ≤ o.offset)

open Client (CProg)

/-- A body every request of which fails; and how many it makes.  (Writes in a View and scans with no room for a
result make none.) -/
def deaf {α : Type} (update : Bool) : CProg α → Res α × Nat
  | .done r => (r, 0)
  | .get _ c => ((deaf update (c (.err .net))).1, (deaf update (c (.err .net))).2 + 1)
  | .exists _ c => ((deaf update (c (.err .net))).1, (deaf update (c (.err .net))).2 + 1)
  | .set _ _ _ c =>
    if update then ((deaf update (c (.err .net))).1, (deaf update (c (.err .net))).2 + 1)
    else deaf update (c (.err .mutateReadOnly))
  | .del _ c =>
    if update then ((deaf update (c (.err .net))).1, (deaf update (c (.err .net))).2 + 1)
    else deaf update (c (.err .mutateReadOnly))
  | .scan _ limit c =>
    if limit ≤ 0 then deaf update (c (.ok []))
    else ((deaf update (c (.err .net))).1, (deaf update (c (.err .net))).2 + 1)

/-- The arguments of every request of a body are below 4 GiB. -/
def Sized {α : Type} : CProg α → Prop
  | .done _ => True
  | .get k c => k.length < 2 ^ 32 ∧ ∀ r, Sized (c r)
  | .exists k c => k.length < 2 ^ 32 ∧ ∀ r, Sized (c r)
  | .set k v _ c => k.length < 2 ^ 32 ∧ v.length < 2 ^ 32 ∧ ∀ r, Sized (c r)
  | .del k c => k.length < 2 ^ 32 ∧ ∀ r, Sized (c r)
  | .scan o _ c => o.pfx.length < 2 ^ 32 ∧ o.offset.length < 2 ^ 32 ∧ ∀ r, Sized (c r)

end Mondis.Spec.Level
