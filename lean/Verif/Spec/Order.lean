/-!
# Specification: byte strings and their order

Byte strings are lists of bytes.  The order is Lean core's lexicographic order on lists
(`List.lt`): `[] < b :: l`, and `a :: l < b :: m ↔ a < b ∨ (a = b ∧ l < m)`.
This is the order of Go's `bytes.Compare`, and of the badger / leveldb default comparators.
Nothing here depends on the model of the code.
-/
namespace Mondis

/-- A Go `[]byte` value, contents only. -/
abbrev Bytes := List UInt8

namespace Spec

/-- `p` is a (not necessarily proper) initial segment of `k`. -/
def IsPrefixOf (p k : Bytes) : Prop := ∃ t, k = p ++ t

/-- `f` is strictly monotone from its domain order into byte strings. -/
def StrictMono {α : Type} [LT α] (f : α → Bytes) : Prop := ∀ a b, a < b ↔ f a < f b

/-- `f` strictly reverses the order. -/
def StrictAnti {α : Type} [LT α] (f : α → Bytes) : Prop := ∀ a b, a < b ↔ f b < f a

/-- `f` stays strictly monotone when arbitrary suffixes are appended: the order of composite
keys `f a ++ x` is decided by `a` first and by the suffix only when the first components agree. -/
def CompositeMono {α : Type} [LT α] (f : α → Bytes) : Prop :=
  (∀ a b x y, a < b → f a ++ x < f b ++ y) ∧ (∀ a x y, f a ++ x < f a ++ y ↔ x < y)

/-- Like `CompositeMono`, with the order of the first component reversed. -/
def CompositeAnti {α : Type} [LT α] (f : α → Bytes) : Prop :=
  (∀ a b x y, a < b → f b ++ y < f a ++ x) ∧ (∀ a x y, f a ++ x < f a ++ y ↔ x < y)

end Spec
end Mondis
