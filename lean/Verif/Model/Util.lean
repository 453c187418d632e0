import Verif.Model.Provider
/-!
# Model of util/util.go and of concurrent transactions
-/
namespace Mondis.Util
open Mondis

/-- The transaction after its body ran on a snapshot `db`. -/
def body {α : Type} (env : Env) (update : Bool) (f : Prog α) (db : DB) : Res α × Txn :=
  f.run (Txn.start { env with update := update } db)

/-- util/util.go:70-81 RunInNewUpdateTxn.  `snap` is the committed contents when the transaction
starts, `db` when it commits, `fail` the engine's reason for refusing the commit.  A panic of the
body unwinds through the deferred Discard. -/
def runInNewUpdateTxn {α : Type} (env : Env) (fail : Option Err) (f : Prog α) (snap db : DB) :
    Res α × DB :=
  match body env true f snap with
  | (.ok a, t) =>
    match t.commit fail db with
    | (.ok _, db') => (.ok a, db')
    | (.err e, db') => (.err e, db')
    | (.panic, db') => (.panic, db')
  | (.err e, _) => (.err e, db)
  | (.panic, _) => (.panic, db)

/-- util/util.go:36-50 RunInNewUpdateTxnWithCancel; the last component says whether cancelFunc
was called. -/
def runInNewUpdateTxnWithCancel {α : Type} (env : Env) (fail : Option Err) (f : Prog α)
    (snap db : DB) : Res α × DB × Bool :=
  match body env true f snap with
  | (.ok a, t) =>
    match t.commit fail db with
    | (.ok _, db') => (.ok a, db', false)
    | (.err e, db') => (.err e, db', true)
    | (.panic, db') => (.panic, db', false)
  | (.err e, _) => (.err e, db, false)
  | (.panic, _) => (.panic, db, false)

/-- util/util.go:53-67 RunInNewUpdateTxnWithCallback with a non-nil callback; the last component
says whether it was called. -/
def runInNewUpdateTxnWithCallback {α : Type} (env : Env) (fail : Option Err) (f : Prog α)
    (snap db : DB) : Res α × DB × Bool :=
  match body env true f snap with
  | (.ok a, t) =>
    match t.commit fail db with
    | (.ok _, db') => (.ok a, db', true)
    | (.err e, db') => (.err e, db', false)
    | (.panic, db') => (.panic, db', false)
  | (.err e, _) => (.err e, db, false)
  | (.panic, _) => (.panic, db, false)

/-- util/util.go:84-91 RunInNewTxn -/
def runInNewTxn {α : Type} (env : Env) (f : Prog α) (snap db : DB) : Res α × DB :=
  ((body env false f snap).1, db)

/-- util/util.go:94-99 ChooseTime (nanoseconds) -/
def chooseTime (base max : Int64) : Int64 := if base = 0 ∨ base > max then max else base

/-- util/util.go:11 maxTry -/
def maxTry : Nat := 100

/-- util/util.go:15-33 TryCommitWhenTxnTooBig.  The body `f` may keep progress in captured
variables, of type `σ`, also when it fails: it returns its error and the new captured state.
`envs n` are the circumstances of the n-th transaction and `fails n` the engine's answer to the n-th
commit.  No other transaction commits in between.  `n` counts the remaining tries.
Returns the captured state, the transaction handed back, the error and the database. -/
def tryCommit {σ : Type} (f : σ → Prog (Res Unit × σ)) (envs : Nat → Env) (fails : Nat → Option Err) :
    (n i : Nat) → σ → Txn → DB → Res Unit × σ × Txn × DB
  | 0, _, s, t, db => (.err .txnTooBig, s, t, db)      -- not reached from maxTry ≥ 1
  | n + 1, i, s, t, db =>
    match (f s).run t with
    | (.ok (r, s'), t') =>
      if r ≠ .err .txnTooBig then (r, s', t', db)
      else if n = 0 then (r, s', t', db)
      else
        match t'.commit (fails i) db with
        | (.ok _, db') => tryCommit f envs fails n (i + 1) s' (Txn.start (envs (i + 1)) db') db'
        | (.err e, db') => (.err e, s', t', db')
        | (.panic, db') => (.panic, s', t', db')
    | (.err e, t') => (.err e, s, t', db)
    | (.panic, t') => (.panic, s, t', db)

/-! ## Concurrent transactions

*contract* badger (serializable snapshot isolation): a transaction reads the snapshot taken when it
started; its commit is refused (ErrConflict) if a key it read was written by a transaction that
committed in between; commits are totally ordered.  -/

/-- A transaction that committed: its body, its circumstances and the number of commits that
preceded its start. -/
structure Committed (α : Type) where
  env : Env
  prog : Prog α
  snap : Nat

/-- What the transaction did on the snapshot it saw. -/
def Committed.outcome {α : Type} (T : Committed α) (db : DB) : Res α × Txn :=
  T.prog.run (Txn.start T.env db)

/-- All versions of the database, newest first, produced by committed transactions (newest first):
each runs on its snapshot, and its writes are applied to the newest version. -/
def versions {α : Type} (db₀ : DB) : List (Committed α) → List DB
  | [] => [db₀]
  | T :: rest =>
    let vs := versions db₀ rest
    applyWrites (vs.headD db₀) (T.outcome (vs.getD (vs.length - 1 - T.snap) db₀)).2.writes :: vs

/-- The snapshot a transaction saw. -/
def snapshotOf {α : Type} (db₀ : DB) (rest : List (Committed α)) (T : Committed α) : DB :=
  let vs := versions db₀ rest
  vs.getD (vs.length - 1 - T.snap) db₀

/-- Keys written by a transaction on its snapshot. -/
def writtenKeys {α : Type} (db₀ : DB) (rest : List (Committed α)) (T : Committed α) : List Bytes :=
  (T.outcome (snapshotOf db₀ rest T)).2.writes.map Prod.fst

/-- The engine accepted all the commits: no key read by a transaction was written by one that
committed after its start. -/
def Accepted {α : Type} (db₀ : DB) : List (Committed α) → Prop
  | [] => True
  | T :: rest => Accepted db₀ rest ∧ T.snap ≤ rest.length ∧
      ∀ before after : List (Committed α), ∀ U, rest = after ++ U :: before →
        T.snap ≤ before.length →
        ∀ k ∈ (T.outcome (snapshotOf db₀ rest T)).2.reads, k ∉ writtenKeys db₀ before U

end Mondis.Util
