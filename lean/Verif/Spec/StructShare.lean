import Verif.Lemmas.SProg
import Verif.Lemmas.MetaClient
import Verif.Model.Util
/-!
# Specification: structures shared by concurrent transactions

Clients run transactions at the same time.  A transaction of theirs is a program over the structures under
one prefix, or anything else that writes elsewhere.
-/
namespace Mondis.Share
open Mondis.Spec Mondis.Structure Mondis.Props

/-- What a transaction does: operations on the structures, each choosing on the answers so far, or anything
else. -/
inductive Body (α : Type) where
  | structs (p : SProg α)
  | other (p : Prog α)

/-- A transaction that was committed: its circumstances, what it did, and how many commits it saw. -/
structure Client (α : Type) where
  env : Env
  body : Body α
  snap : Nat

/-- The transaction as the engine sees it. -/
def Client.committed {α : Type} (pfx : Bytes) (T : Client α) : Util.Committed α :=
  { env := T.env
    prog := match T.body with
      | .structs p => p.prog pfx
      | .other p => p
    snap := T.snap }

/-- The structures after the transactions were run one after the other (newest first), starting with none. -/
def state {α : Type} : List (Client α) → SState
  | [] => SState.init
  | T :: rest => match T.body with
    | .structs p => (p.sem (state rest)).2
    | .other _ => state rest

/-- Elements and fields they add. -/
def added {α : Type} : List (Client α) → Nat
  | [] => 0
  | T :: rest => added rest + match T.body with
    | .structs p => p.spent (state rest)
    | .other _ => 0

/-- A condition on the operations a program makes when run on `A`. -/
def Along {α : Type} (C : SState → SOp → Prop) : SProg α → SState → Prop
  | .done _, _ => True
  | .op o c, A => C A o ∧ Along C (c (o.step A).1) (o.step A).2

/-- Operations that do not enumerate the fields of a hash. -/
def NoEnum : SOp → Prop
  | .hkeys _ | .hgetN _ _ | .hgetAll _ | .hgetNDesc _ _ => False
  | _ => True

/-- Keys the engine accepts, and no empty value put into an absent field (C32). -/
def Fits (pfx : Bytes) (A : SState) (o : SOp) : Prop := KeysFit pfx A o ∧ Lossless A o

/-- Transactions running at the same time: what is asked of each of those that were committed.  The engine
refuses none of its writes, or it gives up when one is refused and was committed because none was; its
operations fit and do not enumerate; a transaction that does something else writes outside the prefix. -/
def Fair {α : Type} (pfx : Bytes) (db₀ : DB) : List (Client α) → Prop
  | [] => True
  | T :: rest => Fair pfx db₀ rest ∧ match T.body with
    | .structs p => Along (fun A o => Fits pfx A o ∧ NoEnum o) p (state rest) ∧
        ((T.env.update = true ∧ ∀ n, T.env.tooBig n = false) ∨
          (p.HandsOn ∧ ∃ a, ((T.committed pfx).outcome
            (Util.snapshotOf db₀ (rest.map (Client.committed pfx)) (T.committed pfx))).1 = .ok a))
    | .other _ => ∀ k ∈ Util.writtenKeys db₀ (rest.map (Client.committed pfx)) (T.committed pfx),
        ¬ IsPrefixOf pfx k

/-- What a transaction answered. -/
def answered {α : Type} (pfx : Bytes) (db₀ : DB) (before : List (Client α)) (T : Client α) : Res α :=
  ((T.committed pfx).outcome (Util.snapshotOf db₀ (before.map (Client.committed pfx)) (T.committed pfx))).1

/-- The contents after the transactions committed. -/
def contents {α : Type} (pfx : Bytes) (db₀ : DB) (h : List (Client α)) : DB :=
  (Util.versions db₀ (h.map (Client.committed pfx))).headD db₀

end Mondis.Share
