import Verif.Model.ClientShare
import Verif.Props.Client
/-!
# Specification: clients that use the server at the same time
-/
namespace Mondis.Crowd
open Mondis.Spec Mondis.Client Mondis.Props
open Mondis.Server (Ctx)

/-- What a client asks for: an Update or a View with its body, or a single operation. -/
inductive Act (α : Type) where
  | update (f : CProg α)
  | view (f : CProg α)
  | call (c : Call)

/-- What it is told. -/
inductive Told (α : Type) where
  | returned (r : Res α)
  | answered (a : Answer)
  deriving DecidableEq

/-- One of them: the circumstances, the fate of its frames, whether the storage refuses its write, what it
does, and how many of the others had finished when its first request reached the server. -/
structure Turn (α : Type) where
  cx : Ctx
  net : Nat → Wireless
  fail : Option Err
  act : Act α
  since : Nat

/-- It is carried out: what the client is told and the contents afterwards, if the contents were `snap` at its
first request and are `db` at its last. -/
def Turn.exec {α : Type} (T : Turn α) (snap db : DB) : Told α × DB :=
  match T.act with
  | .update f => (.returned (update T.cx T.net T.fail f snap db).1, (update T.cx T.net T.fail f snap db).2)
  | .view f => (.returned (view T.cx T.net f snap db).1, (view T.cx T.net f snap db).2)
  | .call c => (.answered (perform T.cx T.fail db c).1, (perform T.cx T.fail db c).2)

/-- Alone: nobody else does anything between its first request and its last. -/
def Turn.alone {α : Type} (T : Turn α) (db : DB) : Told α × DB := T.exec db db

/-- All contents there have been, newest first, when these clients finished one after the other (newest
first). -/
def versions {α : Type} (db₀ : DB) : List (Turn α) → List DB
  | [] => [db₀]
  | T :: rest =>
    (T.exec ((versions db₀ rest).getD (rest.length - T.since) db₀) ((versions db₀ rest).headD db₀)).2 ::
      versions db₀ rest

/-- The contents after they finished. -/
def contents {α : Type} (db₀ : DB) (h : List (Turn α)) : DB := (versions db₀ h).headD db₀

/-- The contents at the first request of the next one. -/
def seen {α : Type} (db₀ : DB) (before : List (Turn α)) (T : Turn α) : DB :=
  (versions db₀ before).getD (before.length - T.since) db₀

/-- What a client is told, after the ones `before` have finished. -/
def told {α : Type} (db₀ : DB) (before : List (Turn α)) (T : Turn α) : Told α :=
  (T.exec (seen db₀ before T) (contents db₀ before)).1

/-- The keys the storage records as written when it carries the turn out; none unless something is
written. -/
def Turn.noted {α : Type} (T : Turn α) (snap : DB) : List Bytes :=
  match T.act with
  | .update f => match run T.cx T.net true snap f 0 .fresh with
    | (.ok _, n, .live s) =>
      if T.fail = none ∧ (T.net n = .good ∨ T.net n = .lostAnswer) then s.txn.noted else []
    | _ => []
  | .view _ => []
  | .call (.set k _ _) => if accepts T.cx T.fail && storable k then [k] else []
  | .call (.delete k) => if accepts T.cx T.fail && storable k then [k] else []
  | .call _ => []

/-- The keys it records as read. -/
def Turn.looked {α : Type} (T : Turn α) (snap : DB) : List Bytes :=
  match T.act with
  | .update f => Client.looked T.cx T.net snap f 0 .fresh
  | _ => []

/-- *contract* of badger: it lets a transaction that writes through only if no key it recorded as read was
recorded as written by one that was committed since its first request. -/
def Accepted {α : Type} (db₀ : DB) : List (Turn α) → Prop
  | [] => True
  | T :: rest => Accepted db₀ rest ∧ T.since ≤ rest.length ∧
      (T.noted (seen db₀ rest T) ≠ [] → ∀ after U before, rest = after ++ U :: before → T.since ≤ before.length →
        ∀ k ∈ T.looked (seen db₀ rest T), k ∉ U.noted (seen db₀ before U))

/-- One at a time: the ones that write, in the order in which they finished, each alone on what the earlier
ones left. -/
def serial {α : Type} (db₀ : DB) : List (Turn α) → DB
  | [] => db₀
  | T :: rest => if T.noted (seen db₀ rest T) ≠ [] then (T.alone (serial db₀ rest)).2 else serial db₀ rest

/-- The body of an Update does not scan and deletes at most once. -/
def Plain {α : Type} (mayDelete : Bool) : CProg α → Prop
  | .done _ => True
  | .get _ c => ∀ r, Plain mayDelete (c r)
  | .exists _ c => ∀ r, Plain mayDelete (c r)
  | .set _ _ _ c => ∀ r, Plain mayDelete (c r)
  | .del _ c => mayDelete = true ∧ ∀ r, Plain false (c r)
  | .scan _ _ _ => False

/-- What is asked of a turn: an Update is plain (a View may do anything), and the arguments of a single
operation are shorter than 4 GiB. -/
def Turn.Fits {α : Type} (T : Turn α) : Prop :=
  match T.act with
  | .update f => Plain true f
  | .view _ => True
  | .call (.set k v _) => k.length < 2 ^ 32 ∧ v.length < 2 ^ 32
  | .call (.delete k) => k.length < 2 ^ 32
  | .call _ => True

end Mondis.Crowd
