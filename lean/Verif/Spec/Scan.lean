import Verif.Spec.OMap
/-!
# Specification of scans
-/
namespace Mondis.Spec

/-- The stored entries that are alive, start with `p` and are not below `o`, in key order. -/
def fromOffset {V : Type} (alive : V → Bool) (m : OMap V) (p o : Bytes) : List (Bytes × V) :=
  m.ents.filter (fun e => alive e.2 && (p.isPrefixOf e.1 && decide (o ≤ e.1)))

/-- The stored entries that are alive, start with `p` and are not above `o`, in descending order. -/
def downFrom {V : Type} (alive : V → Bool) (m : OMap V) (p o : Bytes) : List (Bytes × V) :=
  (m.ents.filter (fun e => alive e.2 && (p.isPrefixOf e.1 && decide (e.1 ≤ o)))).reverse

/-- Paging: ask for a page of at most `n` entries from `o`; while full pages come back go on from the
successor of the last key.  At most `fuel` requests. -/
def paging {V : Type} (page : Bytes → List (Bytes × V)) (next : Bytes → Bytes) (n : Nat) :
    Nat → Bytes → List (Bytes × V)
  | 0, _ => []
  | fuel + 1, o =>
    if (page o).length < n then page o
    else match (page o).getLast? with
      | none => page o
      | some e => page o ++ paging page next n fuel (next e.1)

end Mondis.Spec
