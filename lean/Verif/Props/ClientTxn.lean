import Verif.Lemmas.ClientSim
/-!
# C19, C20, C21, C22, C58, C61: transactions of a client

`Client.update` and `Client.view` run a body (`CProg`) against the server, frame by frame, over the wire
format.  `net` says what happens to each frame, `fail` whether the storage refuses the commit.
-/
namespace Mondis.Spec
open Client (CProg)

/-- The same body with every Set and Delete answered "cannot write in a read-only transaction" on the
spot. -/
def refuseWrites {α : Type} : CProg α → CProg α
  | .done r => .done r
  | .get k c => .get k (fun r => refuseWrites (c r))
  | .exists k c => .exists k (fun r => refuseWrites (c r))
  | .set _ _ _ c => refuseWrites (c (.err .mutateReadOnly))
  | .del _ c => refuseWrites (c (.err .mutateReadOnly))
  | .scan o l c => .scan o l (fun r => refuseWrites (c r))

/-- Scan options that keep the previous request's values where the new one has the default. -/
def sticky (o1 o2 : ScanOption) : ScanOption where
  reverse := o1.reverse || o2.reverse
  pfx := if o2.pfx = [] then o1.pfx else o2.pfx
  offset := if o2.offset = [] then o1.offset else o2.offset

/-- A key whose first bytes were overwritten by another key. -/
def overlaid (new old : Bytes) : Bytes := (new ++ old.drop new.length).take old.length

end Mondis.Spec

namespace Mondis.Props
open Mondis Wire Server Client Spec Util

/-! ### C21: View -/

/-- Whatever a View body does, its Sets and Deletes are answered with an error without reaching the
server, and whatever the server was sent holds nothing that a commit could write. -/
theorem C21_client_view {α : Type} (cx : Ctx) (net : Nat → Wireless) (snap db : DB) (f : CProg α) :
    view cx net f snap db = view cx net (refuseWrites f) snap db ∧ (view cx net f snap db).2 = db ∧
    ∀ w fail, (commit cx w fail (run cx net false snap f 0 .fresh).2.2 db).2 = db := by
  refine ⟨?_, rfl, ?_⟩
  · have key : ∀ n l, run cx net false snap f n l = run cx net false snap (refuseWrites f) n l := by
      induction f with
      | done r => intro n l; rfl
      | get k c ih => intro n l; simp only [refuseWrites, run, ih]
      | «exists» k c ih => intro n l; simp only [refuseWrites, run, ih]
      | set k v vm c ih => intro n l; simp only [refuseWrites, run]; exact ih _ _ _
      | del k c ih => intro n l; simp only [refuseWrites, run]; exact ih _ _ _
      | scan o lim c ih => intro n l; simp only [refuseWrites, run, ih]
    unfold view
    rw [key]
  · intro w fail
    have h := run_readOnly cx net snap f 0 .fresh trivial
    cases hl : (run cx net false snap f 0 .fresh).2.2 with
    | fresh => rfl
    | dead b => rfl
    | live s =>
      rw [hl] at h
      have : (contCommit cx s fail db).2 = db := by simp [contCommit, STxn.commit, h.2]
      cases w <;> simp only [commit, this]

/-! ### C19: Update is all-or-nothing -/

/-- For every body, every network behaviour and every answer of the storage: the database is either
untouched or has all the writes the server recorded, at once; a successful return means the latter (or
that nothing was ever sent), and otherwise the writes can only be there if the connection broke while the
answer to the commit was under way; the caller is then not told by an error but by a panic. -/
theorem C19_all_or_nothing {α : Type} (cx : Ctx) (net : Nat → Wireless) (fail : Option Err) (f : CProg α)
    (snap db : DB) :
    let ran := run cx net true snap f 0 .fresh
    let out := update cx net fail f snap db
    (∃ a, out.1 = .ok a ∧ ran.1 = .ok a ∧
      ((ran.2.2 = .fresh ∧ out.2 = db) ∨ ∃ s, ran.2.2 = .live s ∧ out.2 = applyWrites db (s.txn.writes cx))) ∨
    ((∀ a, out.1 ≠ .ok a) ∧
      (out.2 = db ∨ (net ran.2.1 = .lostAnswer ∧ out.1 = .panic ∧
        ∃ s, ran.2.2 = .live s ∧ out.2 = applyWrites db (s.txn.writes cx)))) := by
  intro ran out
  have ho : out = update cx net fail f snap db := rfl
  unfold update at ho
  have hr : run cx net true snap f 0 .fresh = ran := rfl
  rw [hr] at ho
  clear_value ran out
  obtain ⟨r, n, l⟩ := ran
  cases r with
  | err e => right; subst ho; exact ⟨by simp, .inl rfl⟩
  | panic => right; subst ho; exact ⟨by simp, .inl rfl⟩
  | ok a =>
    simp only at ho
    cases l with
    | fresh => left; subst ho; exact ⟨a, rfl, rfl, .inl ⟨rfl, rfl⟩⟩
    | dead b =>
      right; subst ho
      by_cases hb : net n = .refused ∨ b = false
      · simp [commit, hb]
      · simp [commit, hb]
    | live s =>
      have hc : (contCommit cx s fail db).2 = db ∧ (∃ e, contCommit cx s fail db = ((respWrite cx {} (.err e)).marshal, db)) ∨
          (contCommit cx s fail db = ((respWrite cx {} (.ok ())).marshal, applyWrites db (s.txn.writes cx))) := by
        unfold contCommit STxn.commit
        by_cases hp : s.txn.pending = []
        · right
          have : s.txn.writes cx = [] := by
            unfold STxn.writes
            have h0 : cx.order (effective s.txn.pending) = [] := by
              rw [hp]; exact List.Perm.eq_nil (cx.order_perm [])
            rw [h0]; rfl
          simp [hp, this, applyWrites]
        · cases fail with
          | some e => left; exact ⟨by simp [hp], e, by simp [hp]⟩
          | none => right; simp [hp]
      cases hw : net n with
      | refused =>
        right
        rw [hw] at ho
        subst ho
        exact ⟨by simp [commit], .inl rfl⟩
      | lostRequest =>
        right
        rw [hw] at ho
        subst ho
        exact ⟨by simp [commit], .inl rfl⟩
      | lostAnswer =>
        right
        rw [hw] at ho
        subst ho
        refine ⟨by simp [commit], ?_⟩
        rcases hc with ⟨h, _⟩ | h
        · exact .inl h
        · exact .inr ⟨rfl, rfl, s, rfl, by show (contCommit cx s fail db).2 = _; rw [h]⟩
      | good =>
        rw [hw] at ho
        simp only [commit] at ho
        rcases hc with ⟨_, e, h⟩ | h
        · right
          rw [h] at ho
          simp only at ho
          rw [parseStatus_write cx {} rfl _ (by simp)] at ho
          subst ho
          exact ⟨by simp [seenWrite], .inl rfl⟩
        · left
          rw [h] at ho
          simp only at ho
          rw [parseStatus_write cx {} rfl _ (by simp)] at ho
          subst ho
          exact ⟨a, rfl, rfl, .inr ⟨s, rfl, rfl⟩⟩

/-- A broken connection stays broken: nothing is committed. -/
theorem dead_stays {α : Type} (cx : Ctx) (net : Nat → Wireless) (snap : DB) (f : CProg α) (b : Bool) (n : Nat) :
    (run cx net true snap f n (.dead b)).2.2 = .dead b := by
  induction f generalizing n with
  | done r => rfl
  | get k c ih => exact resume_ind (P := fun x => x.2.2 = .dead b) rfl (fun x => ih _ _)
  | «exists» k c ih => exact resume_ind (P := fun x => x.2.2 = .dead b) rfl (fun x => ih _ _)
  | set k v vm c ih => exact resume_ind (P := fun x => x.2.2 = .dead b) rfl (fun x => ih _ _)
  | del k c ih => exact resume_ind (P := fun x => x.2.2 = .dead b) rfl (fun x => ih _ _)
  | scan o lim c ih =>
    simp only [run]
    split
    · exact ih _ _
    · exact resume_ind (P := fun x => x.2.2 = .dead b) rfl (fun x => ih _ _)

/-- What is left of a body after a call was answered `r`: if the call panicked, nothing. -/
def goOn {α β : Type} (c : Res β → CProg α) : Res β → CProg α
  | .ok b => c (.ok b)
  | .err e => c (.err e)
  | .panic => .done .panic

/-- One call of a body: the rest of the body, the number of frames sent, and the connection. -/
def stepCall {α : Type} (cx : Ctx) (net : Nat → Wireless) (upd : Bool) (snap : DB) :
    CProg α × Nat × Link → CProg α × Nat × Link
  | (.done r, n, l) => (.done r, n, l)
  | (.get k c, n, l) =>
    let (r, l) := request cx (net n) upd snap l .get (KeyRequest.mk k).marshal
    (goOn c (r >>= parseGet), n + 1, l)
  | (.exists k c, n, l) =>
    let (r, l) := request cx (net n) upd snap l .exists (KeyRequest.mk k).marshal
    (goOn c (r >>= parseExists), n + 1, l)
  | (.set k v vm c, n, l) =>
    if !upd then (c (.err .mutateReadOnly), n, l)
    else
      let (r, l) := request cx (net n) upd snap l .set (setBytes k v vm)
      (goOn c (r >>= parseSet), n + 1, l)
  | (.del k c, n, l) =>
    if !upd then (c (.err .mutateReadOnly), n, l)
    else
      let (r, l) := request cx (net n) upd snap l .delete (KeyRequest.mk k).marshal
      (goOn c (r >>= parseStatus), n + 1, l)
  | (.scan o limit c, n, l) =>
    if limit ≤ 0 then (c (.ok []), n, l)
    else
      let (r, l) := request cx (net n) upd snap l .scan (scanBytes o (if limit > 1000 then 1000 else limit))
      (goOn c (r >>= parseScan), n + 1, l)

/-- What is left of a body after its first `m` calls. -/
def afterCalls {α : Type} (cx : Ctx) (net : Nat → Wireless) (upd : Bool) (snap : DB) (f : CProg α) :
    Nat → CProg α × Nat × Link
  | 0 => (f, 0, .fresh)
  | m + 1 => stepCall cx net upd snap (afterCalls cx net upd snap f m)

theorem resume_goOn {α β : Type} (cx : Ctx) (net : Nat → Wireless) (upd : Bool) (snap : DB) (c : Res β → CProg α)
    (r : Res β) (n : Nat) (l : Link) :
    resume r n l (fun x => run cx net upd snap (c x) n l) = run cx net upd snap (goOn c r) n l := by
  cases r <;> rfl

theorem run_step {α : Type} (cx : Ctx) (net : Nat → Wireless) (upd : Bool) (snap : DB) (f : CProg α) (n : Nat)
    (l : Link) :
    run cx net upd snap f n l =
      run cx net upd snap (stepCall cx net upd snap (f, n, l)).1 (stepCall cx net upd snap (f, n, l)).2.1
        (stepCall cx net upd snap (f, n, l)).2.2 := by
  cases f with
  | done r => rfl
  | get k c => exact resume_goOn ..
  | «exists» k c => exact resume_goOn ..
  | set k v vm c =>
    by_cases h : (!upd) = true
    · simp only [run, stepCall, if_pos h]
    · simp only [run, stepCall, if_neg h, resume_goOn]
  | del k c =>
    by_cases h : (!upd) = true
    · simp only [run, stepCall, if_pos h]
    · simp only [run, stepCall, if_neg h, resume_goOn]
  | scan o lim c =>
    by_cases h : lim ≤ 0
    · simp only [run, stepCall, if_pos h]
    · simp only [run, stepCall, if_neg h, resume_goOn]

theorem run_afterCalls {α : Type} (cx : Ctx) (net : Nat → Wireless) (upd : Bool) (snap : DB) (f : CProg α)
    (m : Nat) :
    run cx net upd snap f 0 .fresh =
      run cx net upd snap (afterCalls cx net upd snap f m).1 (afterCalls cx net upd snap f m).2.1
        (afterCalls cx net upd snap f m).2.2 := by
  induction m with
  | zero => rfl
  | succ m ih => rw [ih, run_step]; rfl

/-- All keys a body sets are non-empty. -/
def SetKeys {α : Type} : CProg α → Prop
  | .done _ => True
  | .get _ c => ∀ r, SetKeys (c r)
  | .exists _ c => ∀ r, SetKeys (c r)
  | .set k _ _ c => k ≠ [] ∧ ∀ r, SetKeys (c r)
  | .del _ c => ∀ r, SetKeys (c r)
  | .scan _ _ c => ∀ r, SetKeys (c r)

/-- No SetResponse was left behind. -/
def NoSetResp : Link → Prop
  | .live s => s.setResp = {}
  | _ => True

theorem setKeys_goOn {α β : Type} {c : Res β → CProg α} (h : ∀ r, SetKeys (c r)) (r : Res β) :
    SetKeys (goOn c r) := by
  cases r with
  | ok b => exact h _
  | err e => exact h _
  | panic => trivial

theorem request_noSetResp {cx : Ctx} {net : Wireless} {snap : DB} {l : Link} {cmd : Cmd} {p : Bytes}
    (hl : NoSetResp l) (hp : cmd = .set → ∃ k v vm, k ≠ [] ∧ p = setBytes k v vm) :
    NoSetResp (request cx net true snap l cmd p).2 := by
  unfold request
  cases l with
  | dead => trivial
  | fresh =>
    cases net with
    | refused => trivial
    | lostRequest => trivial
    | lostAnswer => trivial
    | good =>
      simp only
      cases h : opening cx true snap cmd p with
      | ok x =>
        obtain ⟨d, o⟩ := x
        cases o with
        | none => trivial
        | some s =>
          obtain ⟨t, rfl⟩ := opening_sane h
          rfl
      | err e => trivial
      | panic => trivial
  | live s =>
    cases net with
    | refused => trivial
    | lostRequest => trivial
    | lostAnswer => trivial
    | good =>
      simp only
      cases h : continued cx s cmd p with
      | err e => trivial
      | panic => trivial
      | ok x =>
        obtain ⟨d, o⟩ := x
        cases o with
        | none => trivial
        | some s' =>
          show s'.setResp = {}
          replace hl : s.setResp = {} := hl
          cases cmd with
          | set =>
            obtain ⟨k, v, vm, hk, rfl⟩ := hp rfl
            simp only [continued, contSet, setBytes_not_status k v vm hk] at h
            simp at h
          | «exists» =>
            simp only [continued, contExists] at h
            split at h <;> simp at h
            rw [← h.2]; exact hl
          | get =>
            simp only [continued, contGet] at h
            split at h <;> simp at h
            rw [← h.2]; exact hl
          | delete =>
            simp only [continued, contDelete] at h
            split at h <;> simp at h
            rw [← h.2]
            obtain ⟨_, h2, _⟩ := readDeleteKey_keeps cx s p ‹_›
            simp only [h2]; exact hl
          | scan =>
            simp only [continued, contScan] at h
            split at h
            · simp at h
            · simp at h
            · rename_i req _
              cases hr : respScan (STxn.scan cx s.txn) req s.scanResp with
              | ok r => rw [hr] at h; simp at h; rw [← h.2]; exact hl
              | err e => rw [hr] at h; simp at h
              | panic => rw [hr] at h; simp at h

theorem afterCalls_inv {α : Type} (cx : Ctx) (net : Nat → Wireless) (snap : DB) (f : CProg α) (hf : SetKeys f)
    (m : Nat) : SetKeys (afterCalls cx net true snap f m).1 ∧ NoSetResp (afterCalls cx net true snap f m).2.2 := by
  induction m with
  | zero => exact ⟨hf, trivial⟩
  | succ m ih =>
    unfold afterCalls
    generalize afterCalls cx net true snap f m = x at ih
    obtain ⟨g, n, l⟩ := x
    obtain ⟨h1, h2⟩ := ih
    cases g with
    | done r => exact ⟨h1, h2⟩
    | get k c => exact ⟨setKeys_goOn h1 _, request_noSetResp h2 (by intro h; cases h)⟩
    | «exists» k c => exact ⟨setKeys_goOn h1 _, request_noSetResp h2 (by intro h; cases h)⟩
    | set k v vm c => exact ⟨setKeys_goOn h1.2 _, request_noSetResp h2 (fun _ => ⟨k, v, vm, h1.1, rfl⟩)⟩
    | del k c => exact ⟨setKeys_goOn h1 _, request_noSetResp h2 (by intro h; cases h)⟩
    | scan o lim c =>
      simp only [stepCall]
      split
      · exact ⟨h1 _, h2⟩
      · exact ⟨setKeys_goOn h1 _, request_noSetResp h2 (by intro h; cases h)⟩

theorem invalid_answer (cx : Ctx) (e : Err) :
    parseSet (Status.mk codeInvalidRequest (cx.txt e) []).marshal = .err (.rpc 1 (cx.txt e)) := by
  unfold parseSet
  rw [status_back (cx.txt_short _) rfl]
  rfl

/-- The end of a connection that is broken for good: no success, nothing written. -/
theorem update_dead {α : Type} {cx : Ctx} {net : Nat → Wireless} {fail : Option Err} {snap db : DB} {f : CProg α}
    {b : Bool} (hd : (run cx net true snap f 0 .fresh).2.2 = .dead b) :
    (∀ a, (update cx net fail f snap db).1 ≠ .ok a) ∧ (update cx net fail f snap db).2 = db := by
  unfold update
  generalize run cx net true snap f 0 .fresh = x at hd
  obtain ⟨r, n', l⟩ := x
  simp only at hd
  subst hd
  cases r with
  | err e => simp
  | panic => simp
  | ok a =>
    by_cases hb : net n' = .refused ∨ b = false
    · simp [commit, hb]
    · simp [commit, hb]

/-- Over the wire a transaction can Set only once, and only as its first call: whatever body, network and
storage, a Set (of a non-empty key) that is reached with the stream already open fails (or panics, if
the connection breaks), and afterwards the whole Update fails and writes nothing, whatever the rest of
the body does. -/
theorem C19_later_set_fails {α : Type} (cx : Ctx) (net : Nat → Wireless) (fail : Option Err) (snap db : DB)
    (f : CProg α) (hf : SetKeys f) (m : Nat) (k v : Bytes) (vm : Option VMetaReq) (c : Res Unit → CProg α)
    (n : Nat) (s : Server.Stream) (hm : afterCalls cx net true snap f m = (.set k v vm c, n, .live s)) :
    ((∃ e, afterCalls cx net true snap f (m + 1) = (c (.err e), n + 1, .dead true)) ∨
      ((net n = .lostRequest ∨ net n = .lostAnswer) ∧
        afterCalls cx net true snap f (m + 1) = (.done .panic, n + 1, .dead true))) ∧
    (∀ a, (update cx net fail f snap db).1 ≠ .ok a) ∧ (update cx net fail f snap db).2 = db := by
  have hinv := afterCalls_inv cx net snap f hf m
  rw [hm] at hinv
  have hk : k ≠ [] := hinv.1.1
  have hs : s.setResp = {} := hinv.2
  have h1 : (∃ e, afterCalls cx net true snap f (m + 1) = (c (.err e), n + 1, .dead true)) ∨
      ((net n = .lostRequest ∨ net n = .lostAnswer) ∧
        afterCalls cx net true snap f (m + 1) = (.done .panic, n + 1, .dead true)) := by
    unfold afterCalls
    rw [hm]
    simp only [stepCall, request, continued, contSet, setBytes_not_status k v vm hk]
    cases net n with
    | refused => exact .inl ⟨.net, rfl⟩
    | lostRequest => exact .inr ⟨.inl rfl, rfl⟩
    | lostAnswer => exact .inr ⟨.inr rfl, rfl⟩
    | good =>
      simp only [Bool.not_true, Bool.false_eq_true, if_false, Res.ok_bind, hs]
      exact .inl ⟨_, by rw [invalid_answer]; rfl⟩
  refine ⟨h1, ?_⟩
  apply update_dead (b := true)
  rw [run_afterCalls cx net true snap f (m + 1)]
  rcases h1 with ⟨e, h1⟩ | ⟨_, h1⟩ <;> rw [h1] <;> exact dead_stays ..

/-- Setting two keys in one transaction never works, even if the body ignores the errors, unless the first
Set could not even be written to the connection and the body took no notice. -/
theorem C19_two_sets_fail (cx : Ctx) (net : Nat → Wireless) (fail : Option Err) (snap db : DB)
    (k₁ v₁ k₂ v₂ : Bytes) (h₁ : k₁ ≠ []) (h₂ : k₂ ≠ []) (hnet : net 0 ≠ .refused) :
    let out := update cx net fail (.set k₁ v₁ none (fun _ => .set k₂ v₂ none (fun _ => .done (.ok ())))) snap db
    out.1 ≠ .ok () ∧ out.2 = db := by
  intro out
  let f : CProg Unit := .set k₁ v₁ none (fun _ => .set k₂ v₂ none (fun _ => .done (.ok ())))
  have hf : SetKeys f := ⟨h₁, fun _ => ⟨h₂, fun _ => trivial⟩⟩
  cases h : afterCalls cx net true snap f 1 with
  | mk g x =>
    obtain ⟨n, l⟩ := x
    have hl : (request cx (net 0) true snap .fresh .set (setBytes k₁ v₁ none)).2 = l := congrArg (·.2.2) h
    have hg : goOn (fun _ => .set k₂ v₂ none (fun _ => .done (.ok ())))
        ((request cx (net 0) true snap .fresh .set (setBytes k₁ v₁ none)).1 >>= parseSet) = g := congrArg Prod.fst h
    cases l with
    | dead b =>
      obtain ⟨h2, h3⟩ := update_dead (fail := fail) (db := db) (f := f) (b := b) (cx := cx) (net := net)
        (snap := snap) (by rw [run_afterCalls cx net true snap f 1, h]; exact dead_stays ..)
      exact ⟨h2 (), h3⟩
    | fresh =>
      exfalso
      unfold request at hl
      cases hw : net 0 with
      | refused => exact hnet hw
      | lostRequest => rw [hw] at hl; cases hl
      | lostAnswer => rw [hw] at hl; cases hl
      | good =>
        rw [hw] at hl
        simp only at hl
        split at hl <;> cases hl
    | live s =>
      generalize ((request cx (net 0) true snap .fresh .set (setBytes k₁ v₁ none)).1 >>= parseSet) = r at hg
      have hcase : g = .set k₂ v₂ none (fun _ => .done (.ok ())) ∨ g = .done .panic := by
        subst hg; cases r
        · exact .inl rfl
        · exact .inl rfl
        · exact .inr rfl
      rcases hcase with rfl | rfl
      · obtain ⟨_, h2, h3⟩ := C19_later_set_fails cx net fail snap db f hf 1 _ _ _ _ _ _ h
        exact ⟨h2 (), h3⟩
      · show (update cx net fail f snap db).1 ≠ _ ∧ (update cx net fail f snap db).2 = _
        unfold update
        rw [run_afterCalls cx net true snap f 1, h]
        exact ⟨by simp [run], rfl⟩

/-- Without that hypothesis it fails: the first Set meets a connection that is being re-established. -/
example : update calmCtx (fun n => if n = 0 then .refused else .good) none
    (.set [1] [2] none (fun _ => .set [3] [4] none (fun _ => .done (.ok ())))) OMap.empty OMap.empty =
    (.ok (), OMap.empty.set [3] { value := [4] }) := by
  unfold update
  simp only [run, request, opening, setReq_back [3] [4] none (by decide) (by decide)]
  rfl

/-- The first Set goes through, the second finds an open stream. -/
example : ∃ n s c, afterCalls calmCtx allGood true OMap.empty
    (.set [1] [2] none (fun _ => .set [3] [4] none (fun _ => .done (.ok ())))) 1 =
      (.set [3] [4] none c, n, .live s) := by
  simp only [afterCalls, stepCall, request, allGood, opening, setReq_back [1] [2] none (by decide) (by decide)]
  exact ⟨_, _, _, rfl⟩

/-! ### C20: within its limits a client transaction is a provider transaction -/

/-- A body that stays clear of the server's reused variables (`Tame`), run over a working connection,
behaves exactly as the same body run in a provider transaction (`body`, whose reads see its own earlier
writes over the snapshot: C20_read_own_writes, C20_scan_own_writes): same answers, and all its writes
are committed, or, if the body fails or the storage refuses, none. -/
theorem C20_client_transaction {α : Type} (cx : Ctx) (fail : Option Err) (f : CProg α) (snap db : DB)
    (hf : Tame true false false f) (hm : Small snap) :
    let b := body cx.env true (asProg cx.txt f) snap
    update cx allGood fail f snap db =
      match b.1 with
      | .ok a => if b.2.writes = [] then (.ok a, db) else match fail with
        | none => (.ok a, applyWrites db b.2.writes)
        | some e => (.err (.rpc 2 (cx.txt e)), db)
      | .err e => (.err e, db)
      | .panic => (.panic, db) := by
  intro b
  obtain ⟨n', l, hr, hl⟩ := run_sim_fresh (cx := cx) (snap := snap) f 0 hf hm
  have hb : (asProg cx.txt f).run (Txn.start { cx.env with update := true } snap) = b := rfl
  simp only [hb] at hr hl
  unfold update
  rw [hr]
  clear_value b
  obtain ⟨r, t⟩ := b
  cases r with
  | err e => rfl
  | panic => rfl
  | ok a =>
    simp only
    rcases hl with ⟨h1, h2⟩ | ⟨s', h1, h2⟩
    · have h2 : t = Txn.start { cx.env with update := true } snap := h2
      subst h1 h2
      simp [commit, Txn.start]
    · subst h1
      have h2 : Sim cx snap s' t := h2
      simp only [allGood, commit, contCommit, h2.commit_eq]
      unfold Txn.commit
      by_cases hw : t.writes = []
      · simp only [if_pos hw]
        rw [parseStatus_write cx {} rfl _ (by simp)]
        rfl
      · simp only [if_neg hw]
        cases fail with
        | none => simp only; rw [parseStatus_write cx {} rfl _ (by simp)]; rfl
        | some e => simp only; rw [parseStatus_write cx {} rfl _ (by simp)]; rfl

/-- Read, modify, write, look at the result and delete another key: within the limits. -/
example : Tame true false false
    (.set [1] [2] none (fun _ => .get [1] (fun r => .exists [5] (fun _ => .scan { pfx := [1] } 10 (fun l =>
      .del [7] (fun _ => .done (.ok (r, l))))))) : CProg (Res Val × Res (List (Bytes × Val)))) := by
  simp [Tame]

/-! ### C22: scans in one transaction -/

/-- A Get that opens a transaction does not panic. -/
theorem first_get_calm (cx : Ctx) {snap : DB} (hm : Small snap) (k : Bytes) :
    parseGet (respGet cx {} (STxn.get cx ⟨true, snap, [], 0⟩ k)).marshal ≠ .panic := by
  have hg := (sim_start cx snap hm).get_eq k
  have hnp := get_no_panic (Txn.start { cx.env with update := true } snap) k
  have hsm := fun v hv => get_ok_small hm (t := Txn.start { cx.env with update := true } snap) (k := k) (v := v) hv
  have hg' : STxn.get cx ⟨true, snap, [], 0⟩ k = ((Txn.start { cx.env with update := true } snap).get k).1 := hg
  rw [hg', (parseGet_resp cx {} (Nat.zero_lt_of_lt (by decide : 0 < 2 ^ 32)) _ hnp hsm).1]
  exact seenGet_calm _ hnp

/-- A continued Scan: the answer starts with the entries of the previous ones. -/
theorem contScan_eq (cx : Ctx) (s : Server.Stream) (o : ScanOption) (limit : Int)
    (hp : o.pfx.length < 2 ^ 32) (hq : o.offset.length < 2 ^ 32) (h1 : 1 ≤ limit) (h2 : limit ≤ 1000)
    (old : List (Bytes × Val)) (hold : s.scanResp.entries = old.map pbEntry) (hol : old.length ≤ 1000000)
    (o' : ScanOption) (ho' : ((s.scanReq.pso.getD {}).merge ⟨o.reverse, o.pfx, o.offset⟩) = ⟨o'.reverse, o'.pfx, o'.offset⟩)
    (hm : ∀ e ∈ s.txn.scan cx o', e.1.length < 2 ^ 32 ∧ e.2.value.length < 2 ^ 32)
    (hmo : ∀ e ∈ old, e.1.length < 2 ^ 32 ∧ e.2.value.length < 2 ^ 32) :
    let got := old ++ (s.txn.scan cx o').take (max 1 (limit - old.length).toNat)
    ∃ d, contScan cx s (scanBytes o limit) = .ok (d, some { s with
      scanReq := ⟨some ⟨o'.reverse, o'.pfx, o'.offset⟩, Int32.ofInt limit⟩,
      scanResp := ⟨codeOK, [], got.map pbEntry⟩ }) ∧ parseScan d = .ok got := by
  intro got
  have hreq := scanReq_back o limit s.scanReq hp hq h1 h2
  rw [ho'] at hreq
  have hn' : (Int32.ofInt limit).toInt = limit := by
    rw [Int32.toInt_ofInt]
    exact Int.bmod_eq_of_le (by simp [Int32.size]; omega) (by simp [Int32.size]; omega)
  have hr : respScan (s.txn.scan cx) ⟨some ⟨o'.reverse, o'.pfx, o'.offset⟩, Int32.ofInt limit⟩ s.scanResp =
      .ok ⟨codeOK, [], got.map pbEntry⟩ := by
    simp only [respScan, hn']
    rw [if_neg (by omega), if_neg (by omega)]
    rw [hold, collect_eq, List.length_map]
    show _ = Res.ok (ScanResponse.mk _ _ (List.map pbEntry (old ++ _)))
    rw [List.map_append]
  refine ⟨(ScanResponse.mk codeOK [] (got.map pbEntry)).marshal, ?_, ?_⟩
  · unfold contScan
    rw [hreq]
    simp only [hr, Res.ok_bind]
  · apply parseScan_ok
    apply scan_small
    · simp
    · simp only [List.length_map, got, List.length_append, List.length_take]; omega
    · intro e he
      simp only [List.mem_map] at he
      obtain ⟨x, hx, rfl⟩ := he
      rcases List.mem_append.mp hx with hx | hx
      · exact hmo x hx
      · exact hm x (List.mem_of_mem_take hx)

/-- Two scans in one transaction (after it was opened by some other request): the second answer consists
of the whole first answer followed by at least one, and at most the missing number, of entries of a
scan whose options are those of the second request with the gaps filled from the first. -/
theorem C22_scans_accumulate (cx : Ctx) (snap db : DB) (hm : Small snap) (k₀ : Bytes) (o₁ o₂ : ScanOption)
    (l₁ l₂ : Int) (hk : k₀.length < 2 ^ 32)
    (ho : ∀ o ∈ [o₁, o₂], o.pfx.length < 2 ^ 32 ∧ o.offset.length < 2 ^ 32)
    (hl : ∀ l ∈ [l₁, l₂], 1 ≤ l ∧ l ≤ 1000) :
    let scan := fun o => (Txn.start cx.env snap).scan o
    let first := (scan o₁).take l₁.toNat
    let second := first ++ (scan (sticky o₁ o₂)).take (max 1 (l₂ - first.length).toNat)
    update cx allGood none
      (.get k₀ (fun _ => .scan o₁ l₁ (fun a => .scan o₂ l₂ (fun b => .done (.ok (a, b)))))) snap db =
      (.ok (.ok first, .ok second), db) := by
  intro scan first second
  have hsm : ∀ o, ∀ e ∈ scan o, e.1.length < 2 ^ 32 ∧ e.2.value.length < 2 ^ 32 := by
    intro o e he
    exact hm e (scan_mem_view _ o e he)
  have hsc : ∀ (s : Server.Stream), s.txn = ⟨true, snap, [], 0⟩ → ∀ o, s.txn.scan cx o = scan o := by
    intro s hs o
    rw [hs]
    exact (sim_start cx snap hm).scan_eq o
  obtain ⟨ho1, ho2⟩ := ho o₁ (by simp)
  obtain ⟨ho3, ho4⟩ := ho o₂ (by simp)
  obtain ⟨hl1, hl2⟩ := hl l₁ (by simp)
  obtain ⟨hl3, hl4⟩ := hl l₂ (by simp)
  let s₀ : Server.Stream := { txn := ⟨true, snap, [], 0⟩ }
  obtain ⟨d1, c1, p1⟩ := contScan_eq cx s₀ o₁ l₁ ho1 ho2 hl1 hl2 [] rfl (by decide) o₁
    (by simp [s₀, PSO.merge, keep_nil]) (by rw [hsc s₀ rfl]; exact hsm o₁) (by simp)
  have hf1 : ([] : List (Bytes × Val)) ++ (s₀.txn.scan cx o₁).take (max 1 (l₁ - ([] : List (Bytes × Val)).length).toNat) =
      first := by
    rw [hsc s₀ rfl, List.nil_append]
    have : max 1 (l₁ - ([] : List (Bytes × Val)).length).toNat = l₁.toNat := by simp; omega
    rw [this]
  rw [hf1] at c1 p1
  let s₁ : Server.Stream := { s₀ with
    scanReq := ⟨some ⟨o₁.reverse, o₁.pfx, o₁.offset⟩, Int32.ofInt l₁⟩,
    scanResp := ⟨codeOK, [], first.map pbEntry⟩ }
  obtain ⟨d2, c2, p2⟩ := contScan_eq cx s₁ o₂ l₂ ho3 ho4 hl3 hl4 first rfl
    (by simp only [first, List.length_take]; omega) (sticky o₁ o₂)
    (by simp [s₁, PSO.merge, keep, sticky]) (by rw [hsc s₁ rfl]; exact hsm _)
    (fun e he => hsm o₁ e (List.mem_of_mem_take he))
  rw [hsc s₁ rfl] at c2 p2
  have hc1 : (if l₁ > 1000 then 1000 else l₁) = l₁ := if_neg (by omega)
  have hc2 : (if l₂ > 1000 then 1000 else l₂) = l₂ := if_neg (by omega)
  have c1' : contScan cx { txn := ⟨true, snap, [], 0⟩ } (scanBytes o₁ l₁) = .ok (d1, some s₁) := c1
  unfold update
  simp only [run, request, allGood, opening, keyReq_back0 k₀ hk, continued, Res.ok_bind,
    resume_go (first_get_calm cx hm k₀), if_neg (by omega : ¬ l₁ ≤ 0), if_neg (by omega : ¬ l₂ ≤ 0), hc1, hc2, c1', c2, p1, p2, resume_ok, commit, contCommit]
  simp only [s₁, s₀, STxn.commit, if_true]
  rw [parseStatus_write cx {} rfl _ (by simp)]
  rfl

/-- So repeated scans are not independent: the claim that each Scan returns its own entries fails. -/
theorem C22_independent_false : ¬ ∀ (cx : Ctx) (snap db : DB) (k₀ : Bytes) (o₁ o₂ : ScanOption) (l₁ l₂ : Int),
    Small snap → k₀.length < 2 ^ 32 → (∀ o ∈ [o₁, o₂], o.pfx.length < 2 ^ 32 ∧ o.offset.length < 2 ^ 32) →
    (∀ l ∈ [l₁, l₂], 1 ≤ l ∧ l ≤ 1000) →
    (update cx allGood none
      (.get k₀ (fun _ => .scan o₁ l₁ (fun a => .scan o₂ l₂ (fun b => .done (.ok (a, b)))))) snap db).1 =
      .ok (.ok (((Txn.start cx.env snap).scan o₁).take l₁.toNat),
        .ok (((Txn.start cx.env snap).scan o₂).take l₂.toNat)) := by
  intro h
  let snap : DB := (OMap.empty.set [1] { value := [9] }).set [2] { value := [8] }
  have hs : Small snap := by
    apply small_set (small_set _ (by decide) (by decide)) (by decide) (by decide)
    intro e he; simp [OMap.empty] at he
  have h1 := h calmCtx snap snap [7] { pfx := [1] } { pfx := [2] } 10 10 hs (by decide) (by simp) (by simp)
  rw [C22_scans_accumulate calmCtx snap snap hs [7] _ _ 10 10 (by decide) (by simp) (by simp)] at h1
  revert h1
  decide

/-! ### C58: deletes in one transaction -/

theorem effective_two (a b : PEntry) (h : a.mapKey ≠ b.mapKey) : effective [a, b] = [a, b] := by
  simp [effective, Ne.symm h]

theorem del_comm (db : DB) (a b : Bytes) : (db.del a).del b = (db.del b).del a := by
  apply OMap.ext
  intro k
  simp only [OMap.get_del]
  by_cases h1 : a = k <;> by_cases h2 : b = k <;> simp [h1, h2]

theorem applyWrites_dels (cx : Ctx) (db : DB) (a b : PEntry) (ha : a.val = none) (hb : b.val = none)
    (h : a.mapKey ≠ b.mapKey) (t : STxn) (ht : t.pending = [a, b]) :
    applyWrites db (t.writes cx) = (db.del a.ekey).del b.ekey := by
  unfold STxn.writes
  rw [ht, effective_two a b h]
  have hp := cx.order_perm [a, b]
  rcases hx : cx.order [a, b] with _ | ⟨x, _ | ⟨y, _ | ⟨z, r⟩⟩⟩
  · rw [hx] at hp; exact absurd hp.length_eq (by simp)
  · rw [hx] at hp; exact absurd hp.length_eq (by simp)
  · rw [hx] at hp
    have hmx : x ∈ [a, b] := hp.mem_iff.mp (by simp)
    have hmy : y ∈ [a, b] := hp.mem_iff.mp (by simp)
    have hne : a ≠ b := fun hh => h (by rw [hh])
    have hnd : ([x, y] : List PEntry).Nodup := hp.nodup_iff.mpr (by simp [hne])
    have hxy : x ≠ y := by simpa using hnd
    simp only [List.mem_cons, List.not_mem_nil, or_false] at hmx hmy
    rcases hmx with rfl | rfl <;> rcases hmy with rfl | rfl
    · exact absurd rfl hxy
    · simp [applyWrites, applyWrite, ha, hb]
    · simp [applyWrites, applyWrite, ha, hb]; exact del_comm _ _ _
    · exact absurd rfl hxy
  · rw [hx] at hp; exact absurd hp.length_eq (by simp)

/-- Two Deletes of different keys in one transaction (after it was opened by another request): all calls
succeed and the commit succeeds, but if the second key fits the buffer of the first, the first key is
*not* deleted: what is deleted in its place is the first key with its first bytes overwritten by the
second.  Only if the second key is too long for that buffer are both deleted. -/
theorem C58_two_deletes (cx : Ctx) (snap db : DB) (hm : Small snap) (k₀ k₁ k₂ : Bytes) (hk₀ : k₀.length < 2 ^ 32)
    (h₁ : storable k₁ = true) (h₂ : storable k₂ = true) (hne : k₁ ≠ k₂)
    (hbig : ∀ n, cx.env.tooBig n = false) :
    update cx allGood none
      (.get k₀ (fun _ => .del k₁ (fun a => .del k₂ (fun b => .done (.ok (a, b)))))) snap db =
      (.ok (.ok (), .ok ()),
        if k₂.length ≤ cx.grow k₁.length then (db.del (overlaid k₂ k₁)).del k₂ else (db.del k₁).del k₂) := by
  have hs1 := (storable_iff k₁).mp h₁
  have hs2 := (storable_iff k₂).mp h₂
  have hn : ∀ k : Bytes, storable k = true → k ≠ [] ∧ k.length < 2 ^ 32 := by
    intro k hk
    simp only [storable, Bool.and_eq_true, decide_eq_true_eq] at hk
    exact ⟨hk.1, by omega⟩
  obtain ⟨n1, l1⟩ := hn k₁ h₁
  obtain ⟨n2, l2⟩ := hn k₂ h₂
  have hmk : ∀ k : Bytes, k ≠ [] → (KeyRequest.mk k).marshal ≠ [] := by
    intro k hk
    unfold KeyRequest.marshal fBytes
    rw [if_pos (by cases k <;> simp_all)]; simp
  have hreq : ∀ k k' : Bytes, k ≠ [] → k.length < 2 ^ 32 →
      KeyRequest.unmarshal (KeyRequest.mk k).marshal ⟨k'⟩ = .ok ⟨k⟩ := by
    intro k k' h0 hl
    have := keyReq_back k k' hl
    rwa [if_neg h0] at this
  -- the state after the first delete
  have c1 : contDelete cx { txn := ⟨true, snap, [], 0⟩ } (KeyRequest.mk k₁).marshal =
      .ok ((Status.mk codeOK [] []).marshal, some {
        txn := ⟨true, snap, [⟨k₁, k₁, 1, none⟩], 1⟩, deleteReq := ⟨k₁⟩, delGen := 1, delCap := cx.grow k₁.length,
        deleteResp := ⟨codeOK, [], []⟩ }) := by
    simp only [contDelete, hreq k₁ [] n1 l1, readDeleteKey, if_neg (hmk k₁ n1)]
    simp [STxn.modify, hs1, hbig, respTxnWrite]
  have c2 : contDelete cx {
        txn := ⟨true, snap, [⟨k₁, k₁, 1, none⟩], 1⟩, deleteReq := ⟨k₁⟩, delGen := 1, delCap := cx.grow k₁.length,
        deleteResp := ⟨codeOK, [], []⟩ } (KeyRequest.mk k₂).marshal =
      .ok ((Status.mk codeOK [] []).marshal, some {
        txn := ⟨true, snap, if k₂.length ≤ cx.grow k₁.length then [⟨k₁, overlaid k₂ k₁, 1, none⟩, ⟨k₂, k₂, 1, none⟩]
          else [⟨k₁, k₁, 1, none⟩, ⟨k₂, k₂, 2, none⟩], 2⟩,
        deleteReq := ⟨k₂⟩, delGen := if k₂.length ≤ cx.grow k₁.length then 1 else 2,
        delCap := if k₂.length ≤ cx.grow k₁.length then cx.grow k₁.length else cx.grow k₂.length,
        deleteResp := ⟨codeOK, [], []⟩ }) := by
    simp only [contDelete, hreq k₂ k₁ n2 l2, readDeleteKey, if_neg (hmk k₂ n2)]
    by_cases hc : k₂.length ≤ cx.grow k₁.length
    · simp [hc, STxn.modify, hs2, hbig, respTxnWrite, STxn.overwrite, overlaid]
    · simp [hc, STxn.modify, hs2, hbig, respTxnWrite]
  unfold update
  have hok : parseStatus (Status.mk codeOK [] []).marshal = .ok () := parseStatus_write cx {} rfl (.ok ()) (by simp)
  simp only [run, request, allGood, opening, keyReq_back0 k₀ hk₀, continued, Res.ok_bind, if_false,
    resume_go (first_get_calm cx hm k₀), Bool.not_true, Bool.false_eq_true, c1, c2, hok, resume_ok, commit, contCommit,
    STxn.commit]
  by_cases hc : k₂.length ≤ cx.grow k₁.length
  · simp only [if_pos hc]
    rw [if_neg (by simp), applyWrites_dels cx db _ _ rfl rfl (by simpa using hne) _ rfl]
    simp only
    rw [parseStatus_write cx {} rfl _ (by simp)]
    rfl
  · simp only [if_neg hc]
    rw [if_neg (by simp), applyWrites_dels cx db _ _ rfl rfl (by simpa using hne) _ rfl]
    simp only
    rw [parseStatus_write cx {} rfl _ (by simp)]
    rfl

/-- In particular, with keys of equal length the first Delete is lost although everything reports
success. -/
theorem C58_delete_lost (cx : Ctx) (snap db : DB) (hm : Small snap) (k₀ k₁ k₂ : Bytes) (hk₀ : k₀.length < 2 ^ 32)
    (h₁ : storable k₁ = true) (h₂ : storable k₂ = true) (hne : k₁ ≠ k₂) (hlen : k₁.length = k₂.length)
    (hbig : ∀ n, cx.env.tooBig n = false) :
    let out := update cx allGood none
      (.get k₀ (fun _ => .del k₁ (fun a => .del k₂ (fun b => .done (.ok (a, b)))))) snap db
    out.1 = .ok (.ok (), .ok ()) ∧ out.2.get k₁ = db.get k₁ ∧ out.2.get k₂ = none := by
  intro out
  have ho : out = _ := C58_two_deletes cx snap db hm k₀ k₁ k₂ hk₀ h₁ h₂ hne hbig
  have hov : overlaid k₂ k₁ = k₂ := by
    unfold overlaid
    rw [← hlen, List.drop_length, List.append_nil, hlen, List.take_length]
  rw [if_pos (by rw [← hlen]; exact cx.grow_le _), hov] at ho
  rw [ho]
  refine ⟨rfl, ?_, ?_⟩
  · simp [OMap.get_del, Ne.symm hne]
  · simp [OMap.get_del]

example : Small (OMap.empty : DB) ∧ storable [1] = true ∧ storable [2] = true ∧ ([1] : Bytes) ≠ [2] ∧ (∀ n, calmCtx.env.tooBig n = false) :=
  ⟨by intro e he; simp [OMap.empty] at he, by decide, by decide, by decide, fun _ => rfl⟩

/-! ### C61: empty keys in a transaction -/

/-- An empty key in a continued Get is not rejected: it reads the key of the previous Get. -/
theorem C61_empty_key_sticks (cx : Ctx) (snap db : DB) (hm : Small snap) (k₀ k : Bytes) (hk₀ : k₀.length < 2 ^ 32)
    (hk : k.length < 2 ^ 32) :
    ∃ r, update cx allGood none
      (.get k₀ (fun _ => .get k (fun a => .get [] (fun b => .done (.ok (a, b)))))) snap db = (.ok (r, r), db) ∧
      r = seenGet cx.txt ((Txn.start cx.env snap).get k).1 := by
  have hs := sim_start cx snap hm
  have hg : ∀ k, STxn.get cx ⟨true, snap, [], 0⟩ k = ((Txn.start { cx.env with update := true } snap).get k).1 :=
    fun k => hs.get_eq k
  have hg' : ((Txn.start { cx.env with update := true } snap).get k).1 = ((Txn.start cx.env snap).get k).1 := by
    unfold Txn.get Txn.start
    by_cases h : k = []
    · simp [h]
    · simp only [if_neg h]
      cases snap.get k with
      | none => rfl
      | some v => simp only; split <;> rfl
  have hb : ∀ k', KeyRequest.unmarshal (KeyRequest.mk []).marshal ⟨k'⟩ = .ok ⟨k'⟩ := by
    intro k'
    have := keyReq_back [] k' (by decide)
    rwa [if_pos rfl] at this
  have h1 := keyReq_back k [] hk
  have hkk : (if k = [] then [] else k) = k := by split <;> simp_all
  rw [hkk] at h1
  have hnp := get_no_panic (Txn.start { cx.env with update := true } snap) k
  have hsm := fun v hv => get_ok_small hm (t := Txn.start { cx.env with update := true } snap) (k := k) (v := v) hv
  have p1 := parseGet_resp cx {} (Nat.zero_lt_of_lt (by decide : 0 < 2 ^ 32)) _ hnp hsm
  have p2 := parseGet_resp cx (respGet cx {} ((Txn.start { cx.env with update := true } snap).get k).1) p1.2 _ hnp hsm
  refine ⟨_, ?_, rfl⟩
  unfold update
  have h0 := first_get_calm cx hm k₀
  rw [hg] at h0
  simp only [run, request, allGood, opening, keyReq_back0 k₀ hk₀, continued, contGet, Res.ok_bind, h1, hb, hg,
    resume_go h0, p1.1, p2.1, resume_go (seenGet_calm cx.txt hnp), commit, contCommit, STxn.commit, if_true]
  rw [parseStatus_write cx {} rfl _ (by simp), hg']
  rfl

/-- Outside a transaction, and as the first call of one, it is rejected. -/
example : ((Txn.start plainEnv OMap.empty).get []).1 = .err .emptyKey := rfl

end Mondis.Props
