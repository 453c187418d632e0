import Verif.Spec.Order
/-!
# Results of Go functions
-/
namespace Mondis

/-- The errors the modelled code returns, one constructor per distinguishable error value. -/
inductive Err where
  | insufficientBytes      -- kv/memcomparable/number.go:96  ErrInsufficientBytesToDecode
  | invalidMarker          -- kv/memcomparable/bytes.go:86
  | invalidPadding         -- kv/memcomparable/bytes.go:102
  | varintOverflow         -- kv/compact/number.go "value larger than 64 bits"
  | keyNotFound            -- kv/error.go ErrKeyNotFound
  | txnTooBig              -- kv/error.go ErrTxnTooBig
  | valueIsNil             -- kv/numeric/human.go errValueIsNil
  | parse                  -- strconv / json / bson parse failures
  | wrongLength            -- kv/numeric/binary.go, structure meta lengths
  | readOnlyTxn            -- badger.ErrReadOnlyTxn
  | emptyKey               -- badger.ErrEmptyKey
  | invalidKey             -- badger.ErrInvalidKey (key starts with "!badger!")
  | keyTooLong             -- badger: key longer than 65000 bytes
  | io                     -- storage failure reported by badger / leveldb
  | conflict               -- badger.ErrConflict
  | wire                   -- any protobuf unmarshal error
  | unsupported            -- leveldb features not supported
  | rpc (code : Int32) (msg : Bytes)  -- client/pberror.go: an error code sent by the server
  | mutateReadOnly         -- client/client_txn.go:138 ErrMutateForROTxn
  | net                    -- the connection to the server is gone
  | other (tag : Nat)      -- a named error of a package; the tag is documented where it is used
  deriving DecidableEq, Repr

/-- The outcome of a Go call: a value, a non-nil error, or a run-time panic. -/
inductive Res (α : Type) where
  | ok (a : α)
  | err (e : Err)
  | panic
  deriving DecidableEq, Repr

namespace Res

/-- Sequencing: the usual `if err != nil { return }`; a panic unwinds. -/
def bind {α β : Type} : Res α → (α → Res β) → Res β
  | ok a, f => f a
  | err e, _ => err e
  | panic, _ => panic

instance : Monad Res where
  pure := ok
  bind := bind

@[simp] theorem pure_eq {α} (a : α) : (pure a : Res α) = ok a := rfl
@[simp] theorem ok_bind {α β} (a : α) (f : α → Res β) : (ok a >>= f) = f a := rfl
@[simp] theorem err_bind {α β} (e : Err) (f : α → Res β) : (err e >>= f) = err e := rfl
@[simp] theorem panic_bind {α β} (f : α → Res β) : ((panic : Res α) >>= f) = panic := rfl

def map' {α β : Type} (f : α → β) : Res α → Res β
  | ok a => ok (f a)
  | err e => err e
  | panic => panic

end Res
end Mondis
