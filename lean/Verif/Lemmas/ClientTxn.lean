import Verif.Lemmas.WireCalm
import Verif.Lemmas.Client
import Verif.Props.Client
import Verif.Props.Txn
/-!
# Streams: what the reused variables of handleTxnContinuedFrame do
-/
namespace Mondis.Client
open Mondis Wire Server Spec Props

/-! ### Sets after the first frame -/

/-- What Status does with fields it does not know. -/
abbrev keepUnk (m : Status) (b : Bytes) : Status := { m with unk := m.unk ++ b }

theorem eats_unknown (b : Bytes) (hb : b.length < 2 ^ 32) :
    Eats Status.fld keepUnk (0x1a :: (encVarint b.length ++ b))
      (fun m => { m with unk := m.unk ++ (0x1a :: (encVarint b.length ++ b)) }) := by
  intro fuel pos rest m hfuel hpos
  simp only [List.cons_append, List.length_cons, List.length_append] at hfuel hpos
  cases fuel with
  | zero => omega
  | succ fuel =>
    generalize hseg : (0x1a :: (encVarint b.length ++ b) : Bytes) = seg
    have hsl : seg.length = 1 + (encVarint b.length).length + b.length := by
      rw [← hseg]; simp only [List.length_cons, List.length_append]; omega
    have hdl : (seg ++ rest).length = seg.length + rest.length := List.length_append
    refine ⟨fuel, pos + seg.length, by omega, by omega, ?_⟩
    conv => lhs; unfold loop
    have hu : uvar 0 0 (seg ++ rest) = .ok (26, encVarint b.length ++ (b ++ rest)) := by
      rw [← hseg, List.cons_append, List.append_assoc, uvar_byte 0x1a _ (by decide)]; rfl
    rw [if_neg (by rw [← hseg]; simp), hu]
    simp only [Res.ok_bind]
    rw [if_neg (by decide), if_neg (by decide)]
    have h3 : Status.fld (26 / 8 % 2 ^ 32) = none := rfl
    rw [h3]
    simp only
    have hskip : skip (2 * (seg ++ rest).length + 1) (seg ++ rest) = .ok (seg.length : Int) := by
      unfold skip
      rw [hu]
      simp only [Res.ok_bind]
      rw [uvar_enc0 _ _ (by omega)]
      simp only [Res.ok_bind]
      rw [if_neg (by omega)]
      rw [wrap_small (by simp only [List.length_append]; omega) (by simp only [List.length_append]; omega)]
      congr 1
      simp only [List.length_append] at *
      omega
    rw [hskip]
    simp only [Res.ok_bind]
    rw [if_neg (by omega), if_neg (by omega), if_neg (by omega)]
    simp [keepUnk]

/-- The unknown fields collected so far are read back as unknown fields. -/
def UnkOK (u : Bytes) : Prop := Eats Status.fld keepUnk u (fun m => { m with unk := m.unk ++ u })

theorem UnkOK.nil : UnkOK [] := Eats.nil.congr (by intro m; simp)

theorem UnkOK.append {u v : Bytes} (hu : UnkOK u) (hv : UnkOK v) : UnkOK (u ++ v) :=
  (Eats.append hu hv).congr (by intro m; simp)

theorem unkOK_meta (o : Option Wire.VMetaReq) : UnkOK (fMsg 0x1a (o.map Wire.VMetaReq.marshal)) := by
  cases o with
  | none => exact UnkOK.nil
  | some m => exact eats_unknown _ (by have := vmetaReq_le m; omega)

theorem status_eats (s : Status) (hu : UnkOK s.unk) :
    Eats Status.fld keepUnk s.marshal
      (fun m => { code := if s.code = 0 then m.code else s.code, msg := keep m.msg s.msg, unk := m.unk ++ s.unk }) := by
  unfold Status.marshal
  refine Eats.congr (((eats_fVar (fld := Status.fld) (unk := keepUnk) 0x08 1 _ rfl rfl (by omega) (by omega)
    (code64 s.code)).append (eats_fBytes 0x12 2 _ rfl rfl (by omega) (by omega) s.msg)).append hu) ?_
  intro m
  have h1 : code64 s.code = 0 ↔ s.code = 0 := ⟨code64_zero, fun h => by rw [h]; rfl⟩
  simp only [Function.comp, codeOf_code64, h1, keep]
  by_cases a : s.code = 0 <;> by_cases b : s.msg = [] <;> simp [a, b]

theorem parseSet_fails (s : Status) (hu : UnkOK s.unk) (hl : s.unk.length < 2 ^ 32) (hm : s.msg.length < 2 ^ 32)
    (hc : s.code ≠ 0) : ∃ e, parseSet s.marshal = .err e := by
  have hsz : s.marshal.length < 2 ^ 63 := by
    have h1 := fVar_le 0x08 (code64 s.code)
    have h2 := fBytes_le 0x12 s.msg (by omega)
    simp only [Status.marshal, List.length_append]
    omega
  have := (status_eats s hu).unmarshal hsz {}
  unfold parseSet
  rw [show Status.unmarshal s.marshal {} = _ from this]
  simp only [Res.ok_bind, if_neg hc]
  rw [if_pos hc]
  by_cases h : s.code = codeTxnTooBig
  · rw [if_pos h]; exact ⟨_, rfl⟩
  · rw [if_neg h]; exact ⟨_, rfl⟩

/-- A SetRequest with a key is not a SetResponse. -/
theorem setBytes_not_status (k v : Bytes) (vm : Option VMetaReq) (hk : k ≠ []) (m : Status) :
    Status.unmarshal (setBytes k v vm) m = .err .wire := by
  unfold Status.unmarshal Wire.unmarshal setBytes SetRequest.marshal fBytes
  simp only
  rw [if_pos (by cases k <;> simp_all)]
  simp only [List.cons_append, List.length_cons]
  unfold loop
  rw [if_neg (by simp), uvar_byte 0x0a _ (by decide)]
  rfl

/-- Without a key it is read as a message text followed by an unknown field. -/
theorem setBytes_status (v : Bytes) (vm : Option VMetaReq) (hv : v.length < 2 ^ 32) (m : Status) :
    Status.unmarshal (setBytes [] v vm) m =
      .ok ⟨m.code, keep m.msg v, m.unk ++
        fMsg 0x1a ((vm.map (fun x => (⟨x.ttl, x.tag.toUInt32⟩ : Wire.VMetaReq))).map Wire.VMetaReq.marshal)⟩ := by
  unfold setBytes SetRequest.marshal
  have e := (eats_fBytes (fld := Status.fld) (unk := keepUnk) 0x12 2 _ rfl rfl (by omega) (by omega) v).append
    (unkOK_meta (vm.map (fun x => (⟨x.ttl, x.tag.toUInt32⟩ : Wire.VMetaReq))))
  have hsz := setBytes_small [] v vm (by decide) hv
  unfold setBytes SetRequest.marshal at hsz
  rw [show fBytes 0x0a ([] : Bytes) = [] from rfl] at hsz ⊢
  rw [List.nil_append] at hsz ⊢
  refine (e.unmarshal hsz m).trans ?_
  simp only [Function.comp, keep]
  by_cases b : v = [] <;> simp [b]

/-! ### Invariant of every stream -/

/-- What holds of the server's variables in every stream. -/
structure Sane (s : Stream) : Prop where
  setReq : s.setReq = {}
  unk : UnkOK s.setResp.unk
  delUnk : s.deleteResp.unk = []

theorem sane_fresh (t : STxn) : Sane { txn := t } := ⟨rfl, UnkOK.nil, rfl⟩

theorem opening_sane {cx : Ctx} {upd : Bool} {snap : DB} {cmd : Cmd} {p d : Bytes} {s : Stream}
    (h : opening cx upd snap cmd p = .ok (d, some s)) : ∃ t, s = { txn := t } := by
  unfold opening at h
  cases cmd with
  | set => simp only at h; split at h <;> simp at h; exact ⟨_, h.2.symm⟩
  | «exists» => simp only at h; split at h <;> simp at h; exact ⟨_, h.2.symm⟩
  | get => simp only at h; split at h <;> simp at h; exact ⟨_, h.2.symm⟩
  | delete => simp only at h; split at h <;> simp at h; exact ⟨_, h.2.symm⟩
  | scan =>
    simp only at h
    split at h
    · simp at h
    · simp at h
    · rename_i req _
      cases hr : respScan (STxn.scan cx ⟨upd, snap, [], 0⟩) req {} with
      | ok r => rw [hr] at h; simp at h; exact ⟨_, h.2.symm⟩
      | err e => rw [hr] at h; simp at h
      | panic => rw [hr] at h; simp at h

theorem readDeleteKey_keeps (cx : Ctx) (s : Stream) (p : Bytes) (req : KeyRequest) :
    (readDeleteKey cx s p req).setReq = s.setReq ∧ (readDeleteKey cx s p req).setResp = s.setResp ∧
    (readDeleteKey cx s p req).deleteResp = s.deleteResp := by
  unfold readDeleteKey; split
  · exact ⟨rfl, rfl, rfl⟩
  · split <;> exact ⟨rfl, rfl, rfl⟩

/-- Every frame a client of this package sends keeps the invariant. -/
theorem continued_sane {cx : Ctx} {s s' : Stream} {cmd : Cmd} {p d : Bytes} (hs : Sane s)
    (hp : cmd = .set → ∃ k v vm, v.length < 2 ^ 32 ∧ p = setBytes k v vm)
    (h : continued cx s cmd p = .ok (d, some s')) : Sane s' := by
  cases cmd with
  | set =>
    obtain ⟨k, v, vm, hv, rfl⟩ := hp rfl
    simp only [continued, contSet] at h
    by_cases hk : k = []
    · subst hk
      rw [setBytes_status v vm hv] at h
      simp only [Res.ok.injEq, Prod.mk.injEq, Option.some.injEq] at h
      rw [← h.2]
      exact ⟨hs.setReq, by simp only [respTxnWrite_unk]; exact hs.unk.append (unkOK_meta _), hs.delUnk⟩
    · rw [setBytes_not_status k v vm hk] at h
      simp at h
  | «exists» =>
    simp only [continued, contExists] at h
    split at h <;> simp at h
    rw [← h.2]; exact ⟨hs.setReq, hs.unk, hs.delUnk⟩
  | get =>
    simp only [continued, contGet] at h
    split at h <;> simp at h
    rw [← h.2]; exact ⟨hs.setReq, hs.unk, hs.delUnk⟩
  | delete =>
    simp only [continued, contDelete] at h
    split at h <;> simp at h
    rw [← h.2]
    obtain ⟨h1, h2, h3⟩ := readDeleteKey_keeps cx s p ‹_›
    exact ⟨by simp only [h1]; exact hs.setReq, by simp only [h2]; exact hs.unk,
      by simp only [respTxnWrite_unk, h3]; exact hs.delUnk⟩
  | scan =>
    simp only [continued, contScan] at h
    split at h
    · simp at h
    · simp at h
    · rename_i req _
      cases hr : respScan (STxn.scan cx s.txn) req s.scanResp with
      | ok r => rw [hr] at h; simp at h; rw [← h.2]; exact ⟨hs.setReq, hs.unk, hs.delUnk⟩
      | err e => rw [hr] at h; simp at h
      | panic => rw [hr] at h; simp at h

/-- The invariant of the client's link. -/
def SaneLink : Link → Prop
  | .live s => Sane s
  | _ => True

theorem request_sane {cx : Ctx} {net : Wireless} {upd : Bool} {snap : DB} {l : Link} {cmd : Cmd} {p : Bytes}
    (hl : SaneLink l) (hp : cmd = .set → ∃ k v vm, v.length < 2 ^ 32 ∧ p = setBytes k v vm) :
    SaneLink (request cx net upd snap l cmd p).2 := by
  unfold request
  cases l with
  | dead => trivial
  | fresh =>
    cases net with
    | refused => trivial
    | lostRequest => trivial
    | lostAnswer => trivial
    | good =>
      simp only
      cases h : opening cx upd snap cmd p with
      | ok x =>
        obtain ⟨d, o⟩ := x
        cases o with
        | none => trivial
        | some s =>
          obtain ⟨t, rfl⟩ := opening_sane h
          exact sane_fresh t
      | err e => trivial
      | panic => trivial
  | live s =>
    cases net with
    | refused => trivial
    | lostRequest => trivial
    | lostAnswer => trivial
    | good =>
      simp only
      cases h : continued cx s cmd p with
      | ok x =>
        obtain ⟨d, o⟩ := x
        cases o with
        | none => trivial
        | some s' => exact continued_sane hl hp h
      | err e => trivial
      | panic => trivial

/-- What holds after every answer, and after a panic, holds at the end of a call. -/
theorem resume_ind {α β : Type} {P : Res α × Nat × Link → Prop} {r : Res β} {n : Nat} {l : Link}
    {go : Res β → Res α × Nat × Link} (hp : P (.panic, n, l)) (hgo : ∀ x, P (go x)) : P (resume r n l go) := by
  cases r with
  | ok b => exact hgo _
  | err e => exact hgo _
  | panic => exact hp

theorem resume_ok {α β : Type} (b : β) (n : Nat) (l : Link) (go : Res β → Res α × Nat × Link) :
    resume (.ok b) n l go = go (.ok b) := rfl

theorem resume_go {α β : Type} {r : Res β} {n : Nat} {l : Link} {go : Res β → Res α × Nat × Link}
    (h : r ≠ .panic) : resume r n l go = go r := by
  cases r with
  | ok b => rfl
  | err e => rfl
  | panic => exact absurd rfl h

/-- Values a body sets are shorter than 4 GiB. -/
def SmallSets {α : Type} : CProg α → Prop
  | .done _ => True
  | .get _ c => ∀ r, SmallSets (c r)
  | .exists _ c => ∀ r, SmallSets (c r)
  | .set _ v _ c => v.length < 2 ^ 32 ∧ ∀ r, SmallSets (c r)
  | .del _ c => ∀ r, SmallSets (c r)
  | .scan _ _ c => ∀ r, SmallSets (c r)

theorem run_sane {α : Type} (cx : Ctx) (net : Nat → Wireless) (upd : Bool) (snap : DB) (f : CProg α)
    (hf : SmallSets f) (n : Nat) (l : Link) (hl : SaneLink l) :
    SaneLink (run cx net upd snap f n l).2.2 := by
  induction f generalizing n l with
  | done r => exact hl
  | get k c ih =>
    simp only [run]
    have hq := request_sane (upd := upd) (cx := cx) (net := net n) (snap := snap) (cmd := .get) (p := (KeyRequest.mk k).marshal) hl (by intro h; cases h)
    exact resume_ind (P := fun x => SaneLink x.2.2) hq (fun x => ih _ (hf _) _ _ hq)
  | «exists» k c ih =>
    simp only [run]
    have hq := request_sane (upd := upd) (cx := cx) (net := net n) (snap := snap) (cmd := .exists) (p := (KeyRequest.mk k).marshal) hl (by intro h; cases h)
    exact resume_ind (P := fun x => SaneLink x.2.2) hq (fun x => ih _ (hf _) _ _ hq)
  | set k v vm c ih =>
    simp only [run]
    split
    · exact ih _ (hf.2 _) _ _ hl
    · have hq := request_sane (upd := upd) (cx := cx) (net := net n) (snap := snap) (cmd := .set) (p := setBytes k v vm) hl (fun _ => ⟨k, v, vm, hf.1, rfl⟩)
      exact resume_ind (P := fun x => SaneLink x.2.2) hq (fun x => ih _ (hf.2 _) _ _ hq)
  | del k c ih =>
    simp only [run]
    split
    · exact ih _ (hf _) _ _ hl
    · have hq := request_sane (upd := upd) (cx := cx) (net := net n) (snap := snap) (cmd := .delete) (p := (KeyRequest.mk k).marshal) hl (by intro h; cases h)
      exact resume_ind (P := fun x => SaneLink x.2.2) hq (fun x => ih _ (hf _) _ _ hq)
  | scan o lim c ih =>
    simp only [run]
    split
    · exact ih _ (hf _) _ _ hl
    · have hq := request_sane (upd := upd) (cx := cx) (net := net n) (snap := snap) (cmd := .scan) (p := scanBytes o (if lim > 1000 then 1000 else lim)) hl (by intro h; cases h)
      exact resume_ind (P := fun x => SaneLink x.2.2) hq (fun x => ih _ (hf _) _ _ hq)

/-! ### Read-only streams -/

/-- A stream opened by View. -/
def ReadOnlyLink : Link → Prop
  | .live s => s.txn.update = false ∧ s.txn.pending = []
  | _ => True

theorem modify_readOnly (cx : Ctx) (t : STxn) (k : Bytes) (g : Nat) (w : Option Val) (h : t.update = false) :
    t.modify cx k g w = (.err .readOnlyTxn, t) := by
  unfold STxn.modify; simp [h]

theorem overwrite_update (t : STxn) (g : Nat) (b : Bytes) : (t.overwrite g b).update = t.update := rfl

theorem request_readOnly {cx : Ctx} {net : Wireless} {snap : DB} {l : Link} {cmd : Cmd} {p : Bytes}
    (hl : ReadOnlyLink l) (hc : cmd ≠ .set ∧ cmd ≠ .delete) :
    ReadOnlyLink (request cx net false snap l cmd p).2 := by
  unfold request
  cases l with
  | dead => trivial
  | fresh =>
    cases net with
    | refused => trivial
    | lostRequest => trivial
    | lostAnswer => trivial
    | good =>
      simp only
      cases h : opening cx false snap cmd p with
      | ok x =>
        obtain ⟨d, o⟩ := x
        cases o with
        | none => trivial
        | some s =>
          show s.txn.update = false ∧ s.txn.pending = []
          unfold opening at h
          cases cmd with
          | set => exact absurd rfl hc.1
          | delete => exact absurd rfl hc.2
          | «exists» => simp only at h; split at h <;> simp at h; rw [← h.2]; exact ⟨rfl, rfl⟩
          | get => simp only at h; split at h <;> simp at h; rw [← h.2]; exact ⟨rfl, rfl⟩
          | scan =>
            simp only at h
            split at h
            · simp at h
            · simp at h
            · rename_i req _
              cases hr : respScan (STxn.scan cx ⟨false, snap, [], 0⟩) req {} with
              | ok r => rw [hr] at h; simp at h; rw [← h.2]; exact ⟨rfl, rfl⟩
              | err e => rw [hr] at h; simp at h
              | panic => rw [hr] at h; simp at h
      | err e => trivial
      | panic => trivial
  | live s =>
    cases net with
    | refused => trivial
    | lostRequest => trivial
    | lostAnswer => trivial
    | good =>
      simp only
      cases h : continued cx s cmd p with
      | ok x =>
        obtain ⟨d, o⟩ := x
        cases o with
        | none => trivial
        | some s' =>
          show s'.txn.update = false ∧ s'.txn.pending = []
          cases cmd with
          | set => exact absurd rfl hc.1
          | delete => exact absurd rfl hc.2
          | «exists» =>
            simp only [continued, contExists] at h
            split at h <;> simp at h
            rw [← h.2]; exact hl
          | get =>
            simp only [continued, contGet] at h
            split at h <;> simp at h
            rw [← h.2]; exact hl
          | scan =>
            simp only [continued, contScan] at h
            split at h
            · simp at h
            · simp at h
            · rename_i req _
              cases hr : respScan (STxn.scan cx s.txn) req s.scanResp with
              | ok r => rw [hr] at h; simp at h; rw [← h.2]; exact hl
              | err e => rw [hr] at h; simp at h
              | panic => rw [hr] at h; simp at h
      | err e => trivial
      | panic => trivial

theorem run_readOnly {α : Type} (cx : Ctx) (net : Nat → Wireless) (snap : DB) (f : CProg α)
    (n : Nat) (l : Link) (hl : ReadOnlyLink l) : ReadOnlyLink (run cx net false snap f n l).2.2 := by
  induction f generalizing n l with
  | done r => exact hl
  | get k c ih =>
    simp only [run]
    have hq := request_readOnly (cx := cx) (net := net n) (snap := snap) (cmd := .get) (p := (KeyRequest.mk k).marshal) hl ⟨by simp, by simp⟩
    exact resume_ind (P := fun x => ReadOnlyLink x.2.2) hq (fun x => ih _ _ _ hq)
  | «exists» k c ih =>
    simp only [run]
    have hq := request_readOnly (cx := cx) (net := net n) (snap := snap) (cmd := .exists) (p := (KeyRequest.mk k).marshal) hl ⟨by simp, by simp⟩
    exact resume_ind (P := fun x => ReadOnlyLink x.2.2) hq (fun x => ih _ _ _ hq)
  | set k v vm c ih =>
    simp only [run]
    split
    · exact ih _ _ _ hl
    · simp at *
  | del k c ih =>
    simp only [run]
    split
    · exact ih _ _ _ hl
    · simp at *
  | scan o lim c ih =>
    simp only [run]
    split
    · exact ih _ _ _ hl
    · have hq := request_readOnly (cx := cx) (net := net n) (snap := snap) (cmd := .scan) (p := scanBytes o (if lim > 1000 then 1000 else lim)) hl ⟨by simp, by simp⟩
      exact resume_ind (P := fun x => ReadOnlyLink x.2.2) hq (fun x => ih _ _ _ hq)

end Mondis.Client
