import Verif.Spec.ClientShare
import Verif.Lemmas.ClientSim
import Verif.Lemmas.Util
/-!
# Clients at the same time: replaying a transaction on other contents
-/
namespace Mondis.Crowd
open Mondis Wire Server Client Spec Props

/-! ### Other contents underneath -/

/-- The same transaction over other contents. -/
def onto (S : DB) (t : STxn) : STxn := { t with snap := S }

theorem get_onto {cx : Ctx} {t : STxn} {S : DB} {k : Bytes} (h : ∀ k' ∈ t.looks k, t.snap.get k' = S.get k') :
    (onto S t).get cx k = t.get cx k := by
  unfold STxn.looks at h
  unfold STxn.get onto
  by_cases hk : k = []
  · simp only [if_pos hk]
  · simp only [if_neg hk] at h ⊢
    cases hf : t.pending.reverse.find? (fun e => e.mapKey == k) with
    | none =>
      rw [hf] at h
      have := h k (by simp)
      simp only [STxn.readSnap, this]
    | some e =>
      rw [hf] at h
      by_cases he : e.ekey = k
      · simp only [if_pos he]
      · simp only [if_neg he] at h ⊢
        have := h k (by simp)
        simp only [STxn.readSnap, this]

theorem exists_onto {cx : Ctx} {t : STxn} {S : DB} {k : Bytes} (h : ∀ k' ∈ t.looks k, t.snap.get k' = S.get k') :
    (onto S t).exists' cx k = t.exists' cx k := by
  unfold STxn.exists'
  rw [get_onto h]

theorem modify_onto (cx : Ctx) (S : DB) (t : STxn) (k : Bytes) (g : Nat) (w : Option Val) :
    (onto S t).modify cx k g w = ((t.modify cx k g w).1, onto S (t.modify cx k g w).2) := by
  unfold STxn.modify onto
  simp only
  split
  · rfl
  · split
    · rfl
    · split <;> rfl

theorem modify_snap (cx : Ctx) (t : STxn) (k : Bytes) (g : Nat) (w : Option Val) :
    (t.modify cx k g w).2.snap = t.snap := by
  unfold STxn.modify
  split
  · rfl
  · split
    · rfl
    · split <;> rfl

/-- A stream over other contents. -/
def ontoS (S : DB) (s : Server.Stream) : Server.Stream := { s with txn := onto S s.txn }

/-- A client's end over other contents. -/
def ontoL (S : DB) : Link → Link
  | .live s => .live (ontoS S s)
  | l => l

/-- A reply over other contents. -/
def ontoR (S : DB) : Reply → Reply
  | .ok (d, some s) => .ok (d, some (ontoS S s))
  | r => r

theorem readDeleteKey_onto (cx : Ctx) (S : DB) (s : Server.Stream) (p : Bytes) (req : KeyRequest) :
    readDeleteKey cx (ontoS S s) p req = ontoS S (readDeleteKey cx s p req) := by
  unfold readDeleteKey ontoS
  simp only
  split
  · rfl
  · split <;> rfl

theorem continued_onto {cx : Ctx} {S : DB} {s : Server.Stream} {cmd : Cmd} {p : Bytes} (hc : cmd ≠ .scan)
    (h : ∀ k ∈ s.looks cx cmd p, s.txn.snap.get k = S.get k) :
    continued cx (ontoS S s) cmd p = ontoR S (continued cx s cmd p) := by
  cases cmd with
  | scan => exact absurd rfl hc
  | set =>
    simp only [continued, contSet, ontoS, modify_onto]
    cases Status.unmarshal p s.setResp <;> rfl
  | get =>
    simp only [Stream.looks] at h
    simp only [continued, contGet]
    show (match KeyRequest.unmarshal p s.getReq with | .panic => _ | .err e => _ | .ok req => _) = _
    cases hu : KeyRequest.unmarshal p s.getReq with
    | panic => rfl
    | err e => rfl
    | ok req =>
      rw [hu] at h
      simp only [ontoS, get_onto h]
      rfl
  | «exists» =>
    simp only [Stream.looks] at h
    simp only [continued, contExists]
    show (match KeyRequest.unmarshal p s.existsReq with | .panic => _ | .err e => _ | .ok req => _) = _
    cases hu : KeyRequest.unmarshal p s.existsReq with
    | panic => rfl
    | err e => rfl
    | ok req =>
      rw [hu] at h
      simp only [ontoS, exists_onto h]
      rfl
  | delete =>
    simp only [continued, contDelete]
    show (match KeyRequest.unmarshal p s.deleteReq with | .panic => _ | .err e => _ | .ok req => _) = _
    cases hu : KeyRequest.unmarshal p s.deleteReq with
    | panic => rfl
    | err e => rfl
    | ok req =>
      simp only [readDeleteKey_onto]
      generalize readDeleteKey cx s p req = s'
      simp only [ontoS, modify_onto]
      rfl

theorem opening_onto {cx : Ctx} {snap S : DB} {cmd : Cmd} {p : Bytes} (hc : cmd ≠ .scan)
    (h : ∀ k ∈ Stream.looks cx { txn := ⟨true, snap, [], 0⟩ } cmd p, snap.get k = S.get k) :
    Server.opening cx true S cmd p = ontoR S (Server.opening cx true snap cmd p) := by
  have e : (⟨true, S, [], 0⟩ : STxn) = onto S ⟨true, snap, [], 0⟩ := rfl
  cases cmd with
  | scan => exact absurd rfl hc
  | set =>
    simp only [Server.opening, e, modify_onto]
    cases SetRequest.unmarshal p {} <;> rfl
  | delete =>
    simp only [Server.opening, e, modify_onto]
    cases KeyRequest.unmarshal p {} <;> rfl
  | get =>
    simp only [Stream.looks] at h
    simp only [Server.opening, e]
    cases hu : KeyRequest.unmarshal p {} with
    | panic => rfl
    | err e => rfl
    | ok req =>
      rw [hu] at h
      simp only [get_onto (t := ⟨true, snap, [], 0⟩) h]
      rfl
  | «exists» =>
    simp only [Stream.looks] at h
    simp only [Server.opening, e]
    cases hu : KeyRequest.unmarshal p {} with
    | panic => rfl
    | err e => rfl
    | ok req =>
      rw [hu] at h
      simp only [exists_onto (t := ⟨true, snap, [], 0⟩) h]
      rfl

/-! ### What a stream keeps -/

theorem readDeleteKey_snap (cx : Ctx) (s : Server.Stream) (p : Bytes) (req : KeyRequest) :
    (readDeleteKey cx s p req).txn.snap = s.txn.snap := by
  unfold readDeleteKey
  split
  · rfl
  · split <;> rfl

theorem continued_snap {cx : Ctx} {s s' : Server.Stream} {cmd : Cmd} {p d : Bytes}
    (h : continued cx s cmd p = .ok (d, some s')) : s'.txn.snap = s.txn.snap := by
  cases cmd with
  | set =>
    simp only [continued, contSet] at h
    split at h <;> simp at h
    rw [← h.2]
    exact modify_snap ..
  | «exists» =>
    simp only [continued, contExists] at h
    split at h <;> simp at h
    rw [← h.2]
  | get =>
    simp only [continued, contGet] at h
    split at h <;> simp at h
    rw [← h.2]
  | delete =>
    simp only [continued, contDelete] at h
    split at h <;> simp at h
    rw [← h.2]
    rw [modify_snap, readDeleteKey_snap]
  | scan =>
    simp only [continued, contScan] at h
    split at h
    · simp at h
    · simp at h
    · rename_i req _
      cases hr : respScan (STxn.scan cx s.txn) req s.scanResp with
      | ok r => rw [hr] at h; simp at h; rw [← h.2]
      | err e => rw [hr] at h; simp at h
      | panic => rw [hr] at h; simp at h

theorem opening_snap {cx : Ctx} {upd : Bool} {snap : DB} {cmd : Cmd} {p d : Bytes} {s : Server.Stream}
    (h : Server.opening cx upd snap cmd p = .ok (d, some s)) : s.txn.snap = snap := by
  cases cmd with
  | set =>
    simp only [Server.opening] at h
    split at h <;> simp at h
    rw [← h.2]
    exact modify_snap ..
  | «exists» =>
    simp only [Server.opening] at h
    split at h <;> simp at h
    rw [← h.2]
  | get =>
    simp only [Server.opening] at h
    split at h <;> simp at h
    rw [← h.2]
  | delete =>
    simp only [Server.opening] at h
    split at h <;> simp at h
    rw [← h.2]
    exact modify_snap ..
  | scan =>
    simp only [Server.opening] at h
    split at h
    · simp at h
    · simp at h
    · rename_i req _
      cases hr : respScan (STxn.scan cx ⟨upd, snap, [], 0⟩) req {} with
      | ok r => rw [hr] at h; simp at h; rw [← h.2]
      | err e => rw [hr] at h; simp at h
      | panic => rw [hr] at h; simp at h

/-- The stream reads the contents `snap`. -/
def Over (snap : DB) (l : Link) : Prop := ∀ s, l = .live s → s.txn.snap = snap

theorem request_over {cx : Ctx} {net : Wireless} {upd : Bool} {snap : DB} {l : Link} {cmd : Cmd} {p : Bytes}
    (hl : Over snap l) : Over snap (request cx net upd snap l cmd p).2 := by
  intro s' hs
  cases l with
  | dead b => simp [request] at hs
  | fresh =>
    cases net <;> simp only [request] at hs <;> try (cases hs; done)
    cases h : Server.opening cx upd snap cmd p with
    | err e => rw [h] at hs; cases hs
    | panic => rw [h] at hs; cases hs
    | ok x =>
      obtain ⟨d, o⟩ := x
      rw [h] at hs
      cases o with
      | none => cases hs
      | some s => cases hs; exact opening_snap h
  | live s =>
    cases net <;> simp only [request] at hs <;> try (cases hs; done)
    cases h : continued cx s cmd p with
    | err e => rw [h] at hs; cases hs
    | panic => rw [h] at hs; cases hs
    | ok x =>
      obtain ⟨d, o⟩ := x
      rw [h] at hs
      cases o with
      | none => cases hs
      | some s => cases hs; rw [continued_snap h]; exact hl _ rfl

theorem request_onto {cx : Ctx} {net : Wireless} {snap S : DB} {l : Link} {cmd : Cmd} {p : Bytes}
    (hc : cmd ≠ .scan) (hl : Over snap l) (h : ∀ k ∈ looks cx net snap l cmd p, snap.get k = S.get k) :
    request cx net true S (ontoL S l) cmd p =
      ((request cx net true snap l cmd p).1, ontoL S (request cx net true snap l cmd p).2) := by
  cases l with
  | dead b => rfl
  | fresh =>
    cases net <;> try rfl
    simp only [request, ontoL]
    rw [opening_onto hc h]
    cases ho : Server.opening cx true snap cmd p with
    | err e => rfl
    | panic => rfl
    | ok x => obtain ⟨d, o⟩ := x; cases o <;> rfl
  | live s =>
    cases net <;> try rfl
    simp only [request, ontoL]
    rw [continued_onto hc (by rw [hl s rfl]; exact h)]
    cases ho : continued cx s cmd p with
    | err e => rfl
    | panic => rfl
    | ok x => obtain ⟨d, o⟩ := x; cases o <;> rfl

/-- A body that does not scan runs on other contents as on its own, if they agree on what was recorded as
read. -/
theorem run_onto {α : Type} (cx : Ctx) (net : Nat → Wireless) (snap S : DB) (f : CProg α) (d : Bool)
    (hf : Plain d f) (n : Nat) (l : Link) (hl : Over snap l)
    (h : ∀ k ∈ looked cx net snap f n l, snap.get k = S.get k) :
    run cx net true S f n (ontoL S l) =
      ((run cx net true snap f n l).1, (run cx net true snap f n l).2.1,
        ontoL S (run cx net true snap f n l).2.2) := by
  induction f generalizing d n l with
  | done r => rfl
  | scan o lim c ih => exact hf.elim
  | get k c ih =>
    simp only [looked, List.mem_append] at h
    have hr := request_onto (cx := cx) (net := net n) (cmd := .get) (p := (KeyRequest.mk k).marshal) (by simp) hl
      (fun k hk => h k (.inl hk))
    have ho := request_over (cx := cx) (net := net n) (upd := true) (cmd := .get) (p := (KeyRequest.mk k).marshal) hl
    simp only [run, hr]
    generalize request cx (net n) true snap l .get (KeyRequest.mk k).marshal = q at *
    cases hx : q.1 >>= parseGet with
    | panic => rfl
    | ok v => exact ih _ d (hf _) _ _ ho (fun k hk => h k (.inr (by rw [hx]; exact hk)))
    | err e => exact ih _ d (hf _) _ _ ho (fun k hk => h k (.inr (by rw [hx]; exact hk)))
  | «exists» k c ih =>
    simp only [looked, List.mem_append] at h
    have hr := request_onto (cx := cx) (net := net n) (cmd := .exists) (p := (KeyRequest.mk k).marshal) (by simp) hl
      (fun k hk => h k (.inl hk))
    have ho := request_over (cx := cx) (net := net n) (upd := true) (cmd := .exists) (p := (KeyRequest.mk k).marshal) hl
    simp only [run, hr]
    generalize request cx (net n) true snap l .exists (KeyRequest.mk k).marshal = q at *
    cases hx : q.1 >>= parseExists with
    | panic => rfl
    | ok v => exact ih _ d (hf _) _ _ ho (fun k hk => h k (.inr (by rw [hx]; exact hk)))
    | err e => exact ih _ d (hf _) _ _ ho (fun k hk => h k (.inr (by rw [hx]; exact hk)))
  | set k v vm c ih =>
    simp only [looked] at h
    have hr := request_onto (cx := cx) (net := net n) (cmd := .set) (p := setBytes k v vm) (S := S) (by simp) hl
      (by intro k hk; unfold looks at hk; split at hk <;> simp [Stream.looks] at hk)
    have ho := request_over (cx := cx) (net := net n) (upd := true) (cmd := .set) (p := setBytes k v vm) hl
    simp only [run, hr, Bool.not_true, Bool.false_eq_true, if_false]
    generalize request cx (net n) true snap l .set (setBytes k v vm) = q at *
    cases hx : q.1 >>= parseSet with
    | panic => rfl
    | ok v => exact ih _ d (hf _) _ _ ho (fun k hk => h k (by rw [hx]; exact hk))
    | err e => exact ih _ d (hf _) _ _ ho (fun k hk => h k (by rw [hx]; exact hk))
  | del k c ih =>
    simp only [looked] at h
    have hr := request_onto (cx := cx) (net := net n) (cmd := .delete) (p := (KeyRequest.mk k).marshal) (S := S)
      (by simp) hl (by intro k hk; unfold looks at hk; split at hk <;> simp [Stream.looks] at hk)
    have ho := request_over (cx := cx) (net := net n) (upd := true) (cmd := .delete) (p := (KeyRequest.mk k).marshal) hl
    simp only [run, hr, Bool.not_true, Bool.false_eq_true, if_false]
    generalize request cx (net n) true snap l .delete (KeyRequest.mk k).marshal = q at *
    cases hx : q.1 >>= parseStatus with
    | panic => rfl
    | ok v => exact ih _ false (hf.2 _) _ _ ho (fun k hk => h k (by rw [hx]; exact hk))
    | err e => exact ih _ false (hf.2 _) _ _ ho (fun k hk => h k (by rw [hx]; exact hk))

/-! ### Keys written are keys recorded -/

/-- Every pending write reads as it was recorded, and no Delete has left its buffer behind, as long as one may
come. -/
def Neat (d : Bool) (s : Server.Stream) : Prop := Unaliased s.txn.pending ∧ (d = true → s.delGen = 0)

theorem modify_unaliased {cx : Ctx} {t : STxn} (h : Unaliased t.pending) (k : Bytes) (g : Nat) (w : Option Val) :
    Unaliased (t.modify cx k g w).2.pending := by
  unfold STxn.modify
  split
  · exact h
  · split
    · exact h
    · split
      · exact h
      · intro e he
        rcases List.mem_append.mp he with he | he
        · exact h e he
        · rw [List.mem_singleton.mp he]

theorem continued_neat {cx : Ctx} {s s' : Server.Stream} {cmd : Cmd} {p b : Bytes} {d : Bool} (hs : Neat d s)
    (h : continued cx s cmd p = .ok (b, some s')) :
    (cmd ≠ .delete → Neat d s') ∧ (cmd = .delete → d = true → Neat false s') := by
  cases cmd with
  | set =>
    simp only [continued, contSet] at h
    split at h <;> simp at h
    rw [← h.2]
    exact ⟨fun _ => ⟨modify_unaliased hs.1 _ _ _, hs.2⟩, fun h => by cases h⟩
  | «exists» =>
    simp only [continued, contExists] at h
    split at h <;> simp at h
    rw [← h.2]
    exact ⟨fun _ => hs, fun h => by cases h⟩
  | get =>
    simp only [continued, contGet] at h
    split at h <;> simp at h
    rw [← h.2]
    exact ⟨fun _ => hs, fun h => by cases h⟩
  | delete =>
    refine ⟨fun h => absurd rfl h, fun _ hd => ?_⟩
    simp only [continued, contDelete] at h
    split at h <;> simp at h
    rw [← h.2]
    refine ⟨modify_unaliased ?_ _ _ _, fun h => by cases h⟩
    unfold readDeleteKey
    split
    · exact hs.1
    · rw [if_neg (by rw [hs.2 hd]; simp)]
      exact hs.1
  | scan =>
    simp only [continued, contScan] at h
    split at h
    · simp at h
    · simp at h
    · rename_i req _
      cases hr : respScan (STxn.scan cx s.txn) req s.scanResp with
      | ok r => rw [hr] at h; simp at h; rw [← h.2]; exact ⟨fun _ => hs, fun h => by cases h⟩
      | err e => rw [hr] at h; simp at h
      | panic => rw [hr] at h; simp at h

theorem opening_neat {cx : Ctx} {upd : Bool} {snap : DB} {cmd : Cmd} {p b : Bytes} {s : Server.Stream}
    (h : Server.opening cx upd snap cmd p = .ok (b, some s)) : Neat true s := by
  have h0 : Unaliased (⟨upd, snap, [], 0⟩ : STxn).pending := by intro e he; cases he
  have h1 : Unaliased (⟨true, snap, [], 0⟩ : STxn).pending := by intro e he; cases he
  cases cmd with
  | set =>
    simp only [Server.opening] at h
    split at h <;> simp at h
    rw [← h.2]
    exact ⟨modify_unaliased h1 _ _ _, fun _ => rfl⟩
  | «exists» =>
    simp only [Server.opening] at h
    split at h <;> simp at h
    rw [← h.2]
    exact ⟨h0, fun _ => rfl⟩
  | get =>
    simp only [Server.opening] at h
    split at h <;> simp at h
    rw [← h.2]
    exact ⟨h0, fun _ => rfl⟩
  | delete =>
    simp only [Server.opening] at h
    split at h <;> simp at h
    rw [← h.2]
    exact ⟨modify_unaliased h1 _ _ _, fun _ => rfl⟩
  | scan =>
    simp only [Server.opening] at h
    split at h
    · simp at h
    · simp at h
    · rename_i req _
      cases hr : respScan (STxn.scan cx ⟨upd, snap, [], 0⟩) req {} with
      | ok r => rw [hr] at h; simp at h; rw [← h.2]; exact ⟨h0, fun _ => rfl⟩
      | err e => rw [hr] at h; simp at h
      | panic => rw [hr] at h; simp at h

/-- An open stream is neat. -/
def NeatL (d : Bool) (l : Link) : Prop := ∀ s, l = .live s → Neat d s

theorem request_neat {cx : Ctx} {net : Wireless} {upd : Bool} {snap : DB} {l : Link} {cmd : Cmd} {p : Bytes}
    {d : Bool} (hl : NeatL d l) :
    (cmd ≠ .delete → NeatL d (request cx net upd snap l cmd p).2) ∧
    (cmd = .delete → d = true → NeatL false (request cx net upd snap l cmd p).2) := by
  have key : ∀ s', (request cx net upd snap l cmd p).2 = .live s' →
      Neat true s' ∨ ∃ s b, l = .live s ∧ continued cx s cmd p = .ok (b, some s') := by
    intro s' hs
    cases l with
    | dead b => simp [request] at hs
    | fresh =>
      cases net <;> simp only [request] at hs <;> try (cases hs; done)
      cases h : Server.opening cx upd snap cmd p with
      | err e => rw [h] at hs; cases hs
      | panic => rw [h] at hs; cases hs
      | ok x =>
        obtain ⟨b, o⟩ := x
        rw [h] at hs
        cases o with
        | none => cases hs
        | some s => cases hs; exact .inl (opening_neat h)
    | live s =>
      cases net <;> simp only [request] at hs <;> try (cases hs; done)
      cases h : continued cx s cmd p with
      | err e => rw [h] at hs; cases hs
      | panic => rw [h] at hs; cases hs
      | ok x =>
        obtain ⟨b, o⟩ := x
        rw [h] at hs
        cases o with
        | none => cases hs
        | some s => cases hs; exact .inr ⟨_, _, rfl, h⟩
  refine ⟨fun hc s' hs => ?_, fun hc hd s' hs => ?_⟩
  · rcases key s' hs with h | ⟨s, b, h1, h2⟩
    · exact ⟨h.1, fun _ => h.2 rfl⟩
    · exact (continued_neat (hl s h1) h2).1 hc
  · rcases key s' hs with h | ⟨s, b, h1, h2⟩
    · exact ⟨h.1, fun h => by cases h⟩
    · exact (continued_neat (hl s h1) h2).2 hc hd

theorem run_neat {α : Type} (cx : Ctx) (net : Nat → Wireless) (snap : DB) (f : CProg α) (d : Bool)
    (hf : Plain d f) (n : Nat) (l : Link) (hl : NeatL d l) :
    ∀ s, (run cx net true snap f n l).2.2 = .live s → Unaliased s.txn.pending := by
  induction f generalizing d n l with
  | done r => exact fun s hs => (hl s hs).1
  | scan o lim c ih => exact hf.elim
  | get k c ih =>
    have h := (request_neat (cx := cx) (net := net n) (upd := true) (snap := snap) (cmd := .get)
      (p := (KeyRequest.mk k).marshal) hl).1 (by simp)
    exact resume_ind (P := fun x => ∀ s, x.2.2 = .live s → Unaliased s.txn.pending) (fun s hs => (h s hs).1)
      (fun x => ih _ _ (hf _) _ _ h)
  | «exists» k c ih =>
    have h := (request_neat (cx := cx) (net := net n) (upd := true) (snap := snap) (cmd := .exists)
      (p := (KeyRequest.mk k).marshal) hl).1 (by simp)
    exact resume_ind (P := fun x => ∀ s, x.2.2 = .live s → Unaliased s.txn.pending) (fun s hs => (h s hs).1)
      (fun x => ih _ _ (hf _) _ _ h)
  | set k v vm c ih =>
    have h := (request_neat (cx := cx) (net := net n) (upd := true) (snap := snap) (cmd := .set)
      (p := setBytes k v vm) hl).1 (by simp)
    exact resume_ind (P := fun x => ∀ s, x.2.2 = .live s → Unaliased s.txn.pending) (fun s hs => (h s hs).1)
      (fun x => ih _ _ (hf _) _ _ h)
  | del k c ih =>
    have h := (request_neat (cx := cx) (net := net n) (upd := true) (snap := snap) (cmd := .delete)
      (p := (KeyRequest.mk k).marshal) hl).2 rfl hf.1
    exact resume_ind (P := fun x => ∀ s, x.2.2 = .live s → Unaliased s.txn.pending) (fun s hs => (h s hs).1)
      (fun x => ih _ _ (hf.2 _) _ _ h)

theorem commit_frame (cx : Ctx) (t : STxn) (fail : Option Err) (db : DB) (hu : Unaliased t.pending) (k : Bytes)
    (hk : fail = none → k ∉ t.noted) : (t.commit cx fail db).2.get k = db.get k := by
  unfold STxn.commit
  split
  · rfl
  · cases fail with
    | some e => rfl
    | none =>
      simp only
      rw [applyWrites_writes cx t hu]
      apply Prog.get_applyWrites_of_not_mem
      intro hm
      apply hk rfl
      rw [List.map_map] at hm
      exact hm

/-! ### Turns -/

theorem perform_set (cx : Ctx) (fail : Option Err) (db : DB) (k v : Bytes) (vm : Option VMetaReq)
    (hk : k.length < 2 ^ 32) (hv : v.length < 2 ^ 32) :
    perform cx fail db (.set k v vm) =
      if (accepts cx fail && storable k) = true then (.done, db.set k (mkVal cx.env.now v vm)) else (.failed, db) := by
  simp only [perform, Client.set, Server.cmdSet]
  rw [Client.setReq_back k v vm hk hv]
  simp only [Client.metaOf_back]
  obtain ⟨h1, h2⟩ := badger_set_eq cx.env fail db k v vm
  by_cases h : (accepts cx fail && storable k) = true
  · rw [h1 h, if_pos h]
    simp only [Client.parseSet_write cx {} rfl (.ok ()) (by simp)]
    rfl
  · obtain ⟨e, he⟩ := h2 (by simpa [accepts] using h)
    rw [he, if_neg h]
    simp only [Client.parseSet_write cx {} rfl (.err e) (by simp)]
    rfl

theorem perform_delete (cx : Ctx) (fail : Option Err) (db : DB) (k : Bytes) (hk : k.length < 2 ^ 32) :
    perform cx fail db (.delete k) =
      if (accepts cx fail && storable k) = true then (.done, db.del k) else (.failed, db) := by
  simp only [perform, Client.delete, Server.cmdDelete]
  rw [Client.keyReq_back0 k hk]
  simp only
  obtain ⟨h1, h2⟩ := badger_delete_eq cx.env fail db k
  by_cases h : (accepts cx fail && storable k) = true
  · rw [h1 h, if_pos h]
    simp only [Client.parseStatus_write cx {} rfl (.ok ()) (by simp)]
    rfl
  · obtain ⟨e, he⟩ := h2 (by simpa [accepts] using h)
    rw [he, if_neg h]
    simp only [Client.parseStatus_write cx {} rfl (.err e) (by simp)]
    rfl

/-- A turn changes nothing but what is recorded as written. -/
theorem exec_frame {α : Type} (T : Turn α) (hT : T.Fits) (snap db : DB) (k : Bytes) (hk : k ∉ T.noted snap) :
    (T.exec snap db).2.get k = db.get k := by
  obtain ⟨cx, net, fail, act, since⟩ := T
  cases act with
  | view f => rfl
  | call c =>
    cases c with
    | set k' v vm =>
      simp only [Turn.exec, perform_set cx fail db k' v vm hT.1 hT.2]
      simp only [Turn.noted] at hk
      split
      · rename_i h
        rw [if_pos h] at hk
        exact (OMap.get_set ..).trans (if_neg (by simpa [eq_comm] using hk))
      · rfl
    | delete k' =>
      simp only [Turn.exec, perform_delete cx fail db k' hT]
      simp only [Turn.noted] at hk
      split
      · rename_i h
        rw [if_pos h] at hk
        exact (OMap.get_del ..).trans (if_neg (by simpa [eq_comm] using hk))
      · rfl
    | get k' => rfl
    | «exists» k' => rfl
    | scan o lim => rfl
  | update f =>
    have hu := run_neat cx net snap f true hT 0 .fresh (by intro s hs; cases hs)
    simp only [Turn.noted] at hk
    simp only [Turn.exec, Client.update]
    generalize run cx net true snap f 0 .fresh = x at *
    obtain ⟨r, n, l⟩ := x
    cases r with
    | err e => rfl
    | panic => rfl
    | ok a =>
      have hc : (commit cx (net n) fail l db).2.get k = db.get k := by
        cases l with
        | fresh => rfl
        | dead b => rfl
        | live s =>
          have hu := hu s rfl
          simp only at hk
          cases hw : net n with
          | refused => rfl
          | lostRequest => rfl
          | lostAnswer =>
            exact commit_frame cx s.txn fail db hu k (fun hf => by simpa [hf, hw] using hk)
          | good =>
            exact commit_frame cx s.txn fail db hu k (fun hf => by simpa [hf, hw] using hk)
      simp only
      cases hx : commit cx (net n) fail l db with
      | mk r' db' =>
        rw [hx] at hc
        cases r' <;> exact hc

theorem commit_answer (cx : Ctx) (net : Wireless) (fail : Option Err) (l : Link) (db db' : DB) :
    (commit cx net fail l db).1 = (commit cx net fail l db').1 := by
  cases l with
  | fresh => rfl
  | dead b => rfl
  | live s =>
    have h : (contCommit cx s fail db).1 = (contCommit cx s fail db').1 := by
      unfold contCommit STxn.commit
      by_cases hp : s.txn.pending = []
      · simp only [if_pos hp]
      · simp only [if_neg hp]
        cases fail <;> rfl
    cases net <;> simp only [commit, h]

theorem commit_onto (cx : Ctx) (net : Wireless) (fail : Option Err) (S : DB) (l : Link) (db : DB) :
    commit cx net fail (ontoL S l) db = commit cx net fail l db := by
  cases l with
  | fresh => rfl
  | dead b => rfl
  | live s => cases net <;> rfl

/-- What the caller of an Update is told depends on what it saw, not on the contents at the commit. -/
theorem update_answer {α : Type} (cx : Ctx) (net : Nat → Wireless) (fail : Option Err) (f : CProg α)
    (snap db db' : DB) : (Client.update cx net fail f snap db).1 = (Client.update cx net fail f snap db').1 := by
  unfold Client.update
  generalize run cx net true snap f 0 .fresh = x
  obtain ⟨r, n, l⟩ := x
  cases r with
  | err e => rfl
  | panic => rfl
  | ok a =>
    simp only
    have h := commit_answer cx (net n) fail l db db'
    cases hx : commit cx (net n) fail l db with
    | mk r1 d1 =>
      cases hy : commit cx (net n) fail l db' with
      | mk r2 d2 =>
        rw [hx, hy] at h
        cases h
        cases r1 <;> rfl

/-- An Update whose recorded reads are the same on other contents does the same there. -/
theorem update_onto {α : Type} (cx : Ctx) (net : Nat → Wireless) (fail : Option Err) (f : CProg α)
    (hf : Plain true f) (snap S db : DB) (h : ∀ k ∈ looked cx net snap f 0 .fresh, snap.get k = S.get k) :
    Client.update cx net fail f S db = Client.update cx net fail f snap db := by
  unfold Client.update
  have e := run_onto cx net snap S f true hf 0 .fresh (by intro s hs; cases hs) h
  rw [show ontoL S .fresh = .fresh from rfl] at e
  rw [e]
  generalize run cx net true snap f 0 .fresh = x
  obtain ⟨r, n, l⟩ := x
  cases r with
  | err e => rfl
  | panic => rfl
  | ok a => simp only [commit_onto]

/-! ### Histories -/

theorem versions_length {α : Type} (db₀ : DB) (h : List (Turn α)) : (versions db₀ h).length = h.length + 1 := by
  induction h with
  | nil => rfl
  | cons T rest ih => simp [versions, ih]

theorem versions_drop {α : Type} (db₀ : DB) (after before : List (Turn α)) :
    (versions db₀ (after ++ before)).drop after.length = versions db₀ before := by
  induction after with
  | nil => rfl
  | cons T rest ih => simpa [versions] using ih

/-- What a turn saw is what the ones finished before left. -/
theorem seen_eq {α : Type} (db₀ : DB) (after before : List (Turn α)) (T : Turn α) (h : T.since = before.length) :
    seen db₀ (after ++ before) T = contents db₀ before := by
  unfold seen contents
  have e : (after ++ before).length - T.since = after.length := by simp [h]
  rw [e, ← versions_drop db₀ after before]
  generalize versions db₀ (after ++ before) = vs
  rw [List.getD_eq_getElem?_getD, List.headD_eq_head?_getD, List.head?_drop]

theorem contents_cons {α : Type} (db₀ : DB) (T : Turn α) (rest : List (Turn α)) :
    contents db₀ (T :: rest) = (T.exec (seen db₀ rest T) (contents db₀ rest)).2 := rfl

theorem contents_unwritten {α : Type} (db₀ : DB) (after before : List (Turn α)) (hf : ∀ T ∈ after, T.Fits) (k : Bytes)
    (h : ∀ after' U before', after ++ before = after' ++ U :: before' → before.length ≤ before'.length →
      k ∉ U.noted (seen db₀ before' U)) :
    (contents db₀ (after ++ before)).get k = (contents db₀ before).get k := by
  induction after with
  | nil => rfl
  | cons T rest ih =>
    have ih := ih (fun T hT => hf T (by simp [hT]))
      (fun after' U before' e hl => h (T :: after') U before' (by simp [e]) hl)
    rw [← ih, List.cons_append, contents_cons]
    exact exec_frame T (hf T (by simp)) _ _ k (h [] T (rest ++ before) (by simp) (by simp))

/-- The contents a turn saw are those some of the earlier ones left. -/
theorem seen_drop {α : Type} (db₀ : DB) (rest : List (Turn α)) (T : Turn α) (h : T.since ≤ rest.length) :
    seen db₀ rest T = contents db₀ (rest.drop (rest.length - T.since)) := by
  have hsplit : rest = rest.take (rest.length - T.since) ++ rest.drop (rest.length - T.since) :=
    (List.take_append_drop _ _).symm
  have hlen : (rest.drop (rest.length - T.since)).length = T.since := by rw [List.length_drop]; omega
  have e := seen_eq db₀ (rest.take (rest.length - T.since)) (rest.drop (rest.length - T.since)) T hlen.symm
  rw [← hsplit] at e
  exact e

/-- What a turn that writes has read is still so when it is let through. -/
theorem unchanged {α : Type} (db₀ : DB) (T : Turn α) (rest : List (Turn α)) (hf : ∀ U ∈ rest, U.Fits)
    (h : Accepted db₀ (T :: rest)) (hw : T.noted (seen db₀ rest T) ≠ []) :
    ∀ k ∈ T.looked (seen db₀ rest T), (seen db₀ rest T).get k = (contents db₀ rest).get k := by
  obtain ⟨-, hs, hr⟩ := h
  intro k hk
  have hr := fun after U before e hl => hr hw after U before e hl k hk
  rw [seen_drop db₀ rest T hs]
  have hsplit : rest = rest.take (rest.length - T.since) ++ rest.drop (rest.length - T.since) :=
    (List.take_append_drop _ _).symm
  have hlen : (rest.drop (rest.length - T.since)).length = T.since := by rw [List.length_drop]; omega
  have := contents_unwritten db₀ (rest.take (rest.length - T.since)) (rest.drop (rest.length - T.since))
    (fun U hU => hf U (List.mem_of_mem_take hU)) k (by
      intro after' U before' he hl
      rw [← hsplit] at he
      exact hr after' U before' he (by omega))
  rw [← hsplit] at this
  exact this.symm

/-- A turn that writes does as it would have done alone at its end. -/
theorem replay {α : Type} (db₀ : DB) (T : Turn α) (rest : List (Turn α)) (hT : T.Fits) (hf : ∀ U ∈ rest, U.Fits)
    (h : Accepted db₀ (T :: rest)) (hw : T.noted (seen db₀ rest T) ≠ []) :
    T.exec (seen db₀ rest T) (contents db₀ rest) = T.alone (contents db₀ rest) := by
  have hu := unchanged db₀ T rest hf h hw
  generalize seen db₀ rest T = snap at *
  generalize contents db₀ rest = db at *
  obtain ⟨cx, net, fail, act, since⟩ := T
  cases act with
  | call c => rfl
  | view f => exact absurd rfl hw
  | update f =>
    simp only [Turn.alone, Turn.exec]
    rw [update_onto cx net fail f hT snap db db hu]

/-- A turn that writes nothing leaves everything as it is. -/
theorem exec_nothing {α : Type} (T : Turn α) (hT : T.Fits) (snap db : DB) (h : T.noted snap = []) :
    (T.exec snap db).2 = db :=
  OMap.ext (fun k => exec_frame T hT snap db k (by simp [h]))

theorem contents_serial {α : Type} (db₀ : DB) (h : List (Turn α)) (hf : ∀ T ∈ h, T.Fits) (ha : Accepted db₀ h) :
    contents db₀ h = serial db₀ h := by
  induction h with
  | nil => rfl
  | cons T rest ih =>
    have hr : ∀ U ∈ rest, U.Fits := fun U hU => hf U (by simp [hU])
    have hT := hf T (by simp)
    have ih := ih hr ha.1
    rw [contents_cons]
    unfold serial
    by_cases hw : T.noted (seen db₀ rest T) = []
    · rw [if_neg (by simp [hw]), exec_nothing T hT _ _ hw, ih]
    · rw [if_pos hw, replay db₀ T rest hT hr ha hw, ih]

theorem accepted_suffix {α : Type} (db₀ : DB) (after before : List (Turn α)) (h : Accepted db₀ (after ++ before)) :
    Accepted db₀ before := by
  induction after with
  | nil => exact h
  | cons T rest ih => exact ih h.1

end Mondis.Crowd
