import Verif.Lemmas.Wire
import Verif.Model.Server
import Verif.Spec.Client
/-!
# The server's answers as parsed by the client
-/
namespace Mondis.Client
open Mondis Wire Server Spec

/-! ### Sizes -/

theorem sov_le (n : Nat) : ∀ v, v < 128 ^ (n + 1) → sov v ≤ n + 1 := by
  induction n with
  | zero => intro v h; unfold sov; rw [if_pos (by simpa using h)]; omega
  | succ n ih =>
    intro v h
    unfold sov
    split
    · omega
    · have := ih (v / 128) (by rw [Nat.pow_succ] at h; exact Nat.div_lt_of_lt_mul (by rw [Nat.mul_comm]; exact h))
      omega

theorem sov10 {v : Nat} (h : v < 2 ^ 64) : sov v ≤ 10 :=
  sov_le 9 v (Nat.lt_of_lt_of_le h (by decide))

theorem fVar_le (t : UInt8) (v : UInt64) : (fVar t v).length ≤ 11 := by
  rw [sVar_eq, sVar]
  have := sov10 v.toNat_lt
  split <;> omega

theorem fBytes_le (t : UInt8) (b : Bytes) (h : b.length < 2 ^ 64) : (fBytes t b).length ≤ b.length + 11 := by
  rw [sBytes_eq, sBytes]
  have := sov10 h
  split <;> omega

theorem fBool_le (t : UInt8) (b : Bool) : (fBool t b).length ≤ 2 := by
  rw [sBool_eq, sBool]; split <;> omega

theorem fMsg_le' (t : UInt8) (o : Option Bytes) (n : Nat) (h : ∀ b, o = some b → b.length ≤ n) (hn : n < 2 ^ 64) :
    (fMsg t o).length ≤ n + 11 := by
  cases o with
  | none => simp [fMsg]
  | some b =>
    have h1 := h b rfl
    have := sov10 (v := b.length) (by omega)
    simp only [fMsg, List.length_cons, List.length_append, encVarint_length]
    omega

theorem vmetaResp_le (m : Wire.VMetaResp) : m.marshal.length ≤ 22 := by
  have h1 := fVar_le 0x08 m.expiresAt
  have h2 := fVar_le 0x10 m.tag.toUInt64
  simp only [Wire.VMetaResp.marshal, List.length_append]
  omega

theorem vmetaReq_le (m : Wire.VMetaReq) : m.marshal.length ≤ 22 := by
  have h1 := fVar_le 0x08 m.ttl.toUInt64
  have h2 := fVar_le 0x10 m.tag.toUInt64
  simp only [Wire.VMetaReq.marshal, List.length_append]
  omega

theorem status_small (s : Status) (hm : s.msg.length < 2 ^ 32) (hu : s.unk = []) : s.marshal.length < 2 ^ 63 := by
  have h1 := fVar_le 0x08 (code64 s.code)
  have h2 := fBytes_le 0x12 s.msg (by omega)
  simp only [Status.marshal, List.length_append, hu, List.length_nil]
  omega

theorem exists_small (s : ExistsResponse) (hm : s.msg.length < 2 ^ 32) : s.marshal.length < 2 ^ 63 := by
  have h1 := fVar_le 0x08 (code64 s.code)
  have h2 := fBytes_le 0x12 s.msg (by omega)
  have h3 := fBool_le 0x18 s.found
  simp only [ExistsResponse.marshal, List.length_append]
  omega

theorem get_small (s : GetResponse) (hm : s.msg.length < 2 ^ 32) (hv : s.value.length < 2 ^ 32) :
    s.marshal.length < 2 ^ 63 := by
  have h1 := fVar_le 0x08 (code64 s.code)
  have h2 := fBytes_le 0x12 s.msg (by omega)
  have h3 := fBytes_le 0x1a s.value (by omega)
  have h4 := fMsg_le' 0x22 (s.vmeta.map Wire.VMetaResp.marshal) 22 (by
    intro b hb
    cases h : s.vmeta with
    | none => rw [h] at hb; cases hb
    | some m => rw [h] at hb; cases hb; exact vmetaResp_le m) (by omega)
  simp only [GetResponse.marshal, List.length_append]
  omega

theorem key_small (k : Bytes) (h : k.length < 2 ^ 32) : (KeyRequest.mk k).marshal.length < 2 ^ 63 := by
  have h2 := fBytes_le 0x0a k (by omega)
  simp only [KeyRequest.marshal]
  omega

theorem setBytes_small (k v : Bytes) (vm : Option VMetaReq) (hk : k.length < 2 ^ 32) (hv : v.length < 2 ^ 32) :
    (setBytes k v vm).length < 2 ^ 63 := by
  have h2 := fBytes_le 0x0a k (by omega)
  have h3 := fBytes_le 0x12 v (by omega)
  have h4 := fMsg_le' 0x1a ((vm.map (fun m => (⟨m.ttl, m.tag.toUInt32⟩ : Wire.VMetaReq))).map Wire.VMetaReq.marshal) 22 (by
    intro b hb
    cases h : vm with
    | none => rw [h] at hb; cases hb
    | some m => rw [h] at hb; cases hb; exact vmetaReq_le _) (by omega)
  simp only [setBytes, SetRequest.marshal, List.length_append]
  omega

theorem scanBytes_small (o : ScanOption) (l : Int) (hp : o.pfx.length < 2 ^ 32) (ho : o.offset.length < 2 ^ 32) :
    (scanBytes o l).length < 2 ^ 63 := by
  have h1 := fVar_le 0x10 (code64 (Int32.ofInt l))
  have h2 := fBytes_le 0x12 o.pfx (by omega)
  have h3 := fBytes_le 0x1a o.offset (by omega)
  have h5 := fBool_le 0x08 o.reverse
  have h4 := fMsg_le' 0x0a (some (PSO.marshal ⟨o.reverse, o.pfx, o.offset⟩)) (2 ^ 34) (by
    intro b hb
    cases hb
    simp only [PSO.marshal, List.length_append]
    omega) (by omega)
  simp only [scanBytes, ScanRequest.marshal, Option.map, List.length_append]
  omega

theorem entry_le (e : Wire.Entry) (hk : e.key.length < 2 ^ 32) (hv : e.value.length < 2 ^ 32) :
    (fMsg 0x1a (some e.marshal)).length ≤ 2 ^ 34 := by
  have h1 := fBytes_le 0x0a e.key (by omega)
  have h2 := fBytes_le 0x12 e.value (by omega)
  have h3 := fMsg_le' 0x1a (e.vmeta.map Wire.VMetaResp.marshal) 22 (by
    intro b hb
    cases h : e.vmeta with
    | none => rw [h] at hb; cases hb
    | some m => rw [h] at hb; cases hb; exact vmetaResp_le _) (by omega)
  have h4 := fMsg_le' 0x1a (some e.marshal) (2 ^ 33 + 100) (by
    intro b hb
    cases hb
    simp only [Wire.Entry.marshal, List.length_append]
    omega) (by omega)
  omega

theorem scan_small (s : ScanResponse) (hm : s.msg.length < 2 ^ 32) (hn : s.entries.length ≤ 2 ^ 20)
    (he : ∀ e ∈ s.entries, e.key.length < 2 ^ 32 ∧ e.value.length < 2 ^ 32) : s.marshal.length < 2 ^ 63 := by
  have h1 := fVar_le 0x08 (code64 s.code)
  have h2 := fBytes_le 0x12 s.msg (by omega)
  have h3 : ∀ l : List Wire.Entry, (∀ e ∈ l, e.key.length < 2 ^ 32 ∧ e.value.length < 2 ^ 32) →
      ((l.map (fun e => fMsg 0x1a (some e.marshal))).flatten).length ≤ l.length * 2 ^ 34 := by
    intro l
    induction l with
    | nil => simp
    | cons e l ih =>
      intro h
      have a := entry_le e (h e (by simp)).1 (h e (by simp)).2
      have b := ih (fun e' h' => h e' (by simp [h']))
      simp only [List.map_cons, List.flatten_cons, List.length_append, List.length_cons, Nat.add_mul]
      omega
  have h4 := h3 _ he
  have h5 : s.entries.length * 2 ^ 34 ≤ 2 ^ 20 * 2 ^ 34 := Nat.mul_le_mul_right _ hn
  simp only [ScanResponse.marshal, List.length_append]
  omega

/-! ### Reading back -/

theorem keep_nil (b : Bytes) : keep [] b = b := by unfold keep; split <;> simp_all

theorem status_back {c : Int32} {m u : Bytes} (hm : m.length < 2 ^ 32) (hu : u = []) :
    Status.unmarshal (Status.mk c m u).marshal {} = .ok ⟨c, m, u⟩ := by
  rw [Status.unmarshal_marshal _ {} hu (status_small _ hm hu)]
  subst hu
  simp only [Status.merge, keep_nil]
  congr 2
  split <;> simp_all

theorem exists_back (s : ExistsResponse) (hm : s.msg.length < 2 ^ 32) :
    ExistsResponse.unmarshal s.marshal {} = .ok s := by
  rw [ExistsResponse.unmarshal_marshal s {} (exists_small s hm)]
  obtain ⟨a, b, u⟩ := s
  simp only [ExistsResponse.merge, keep_nil]
  congr 2
  split <;> simp_all

theorem vmetaResp_merge (v : Wire.VMetaResp) : Wire.VMetaResp.merge {} v = v := by
  obtain ⟨a, b⟩ := v; simp only [Wire.VMetaResp.merge]; congr 1 <;> split <;> simp_all

theorem get_back {c : Int32} {m v : Bytes} {o : Option Wire.VMetaResp} (hm : m.length < 2 ^ 32)
    (hv : v.length < 2 ^ 32) :
    GetResponse.unmarshal (GetResponse.mk c m v o).marshal {} = .ok ⟨c, m, v, o⟩ := by
  rw [GetResponse.unmarshal_marshal _ {} (get_small _ hm hv)]
  simp only [GetResponse.merge, keep_nil, Option.getD_none]
  congr 2
  · split <;> simp_all
  · cases o <;> simp [vmetaResp_merge]

theorem entry_merge (e : Wire.Entry) : Wire.Entry.merge {} e = e := by
  obtain ⟨a, b, o⟩ := e
  simp only [Wire.Entry.merge, keep_nil, Option.getD_none]
  cases o <;> simp [vmetaResp_merge]

theorem scan_back' (s : ScanResponse) (h : s.marshal.length < 2 ^ 63) :
    ScanResponse.unmarshal s.marshal {} = .ok s := by
  rw [ScanResponse.unmarshal_marshal s {} h]
  obtain ⟨a, b, l⟩ := s
  simp only [ScanResponse.merge, keep_nil, List.nil_append]
  congr 2
  · split <;> simp_all
  · rw [List.map_congr_left (fun e _ => entry_merge e), List.map_id']

theorem setReq_back (k v : Bytes) (vm : Option VMetaReq) (hk : k.length < 2 ^ 32) (hv : v.length < 2 ^ 32) :
    SetRequest.unmarshal (setBytes k v vm) {} =
      .ok ⟨k, v, vm.map (fun m => ⟨m.ttl, m.tag.toUInt32⟩)⟩ := by
  rw [setBytes, SetRequest.unmarshal_marshal _ {} (setBytes_small k v vm hk hv)]
  simp only [SetRequest.merge, keep_nil, Option.getD_none]
  congr 2
  cases vm with
  | none => rfl
  | some m =>
    simp only [Option.map]
    simp only [Wire.VMetaReq.merge]
    congr 2 <;> split <;> simp_all

theorem metaOf_back (k v : Bytes) (vm : Option VMetaReq) :
    metaOf ⟨k, v, vm.map (fun m => ⟨m.ttl, m.tag.toUInt32⟩)⟩ = vm := by
  unfold metaOf
  cases vm with
  | none => rfl
  | some m => obtain ⟨a, b⟩ := m; simp

theorem keyReq_back (k k' : Bytes) (hk : k.length < 2 ^ 32) :
    KeyRequest.unmarshal (KeyRequest.mk k).marshal ⟨k'⟩ = .ok ⟨if k = [] then k' else k⟩ := by
  rw [KeyRequest.unmarshal_marshal _ _ (key_small k hk)]; rfl

theorem keyReq_back0 (k : Bytes) (hk : k.length < 2 ^ 32) :
    KeyRequest.unmarshal (KeyRequest.mk k).marshal {} = .ok ⟨k⟩ := by
  rw [keyReq_back k [] hk]; congr 2; split <;> simp_all

theorem scanReq_back (o : ScanOption) (l : Int) (m : ScanRequest) (hp : o.pfx.length < 2 ^ 32)
    (ho : o.offset.length < 2 ^ 32) (h1 : 1 ≤ l) (h2 : l ≤ 1000) :
    ScanRequest.unmarshal (scanBytes o l) m =
      .ok ⟨some ((m.pso.getD {}).merge ⟨o.reverse, o.pfx, o.offset⟩), Int32.ofInt l⟩ := by
  rw [scanBytes, ScanRequest.unmarshal_marshal _ _ (scanBytes_small o l hp ho)]
  have : Int32.ofInt l ≠ 0 := by
    intro h
    have := congrArg Int32.toInt h
    rw [Int32.toInt_ofInt] at this
    rw [Int.bmod_eq_of_le (by simp [Int32.size]; omega) (by simp [Int32.size]; omega)] at this
    simp at this
    omega
  simp only [ScanRequest.merge, if_neg this]

/-! ### The client's view of the handlers' answers -/

variable (cx : Ctx)

theorem parseStatus_write (resp : Status) (hu : resp.unk = []) (r : Res Unit) (hr : r ≠ .panic) :
    parseStatus (respWrite cx resp r).marshal = seenWrite cx.txt r := by
  cases r with
  | panic => exact absurd rfl hr
  | ok u =>
    simp only [respWrite, parseStatus]
    rw [status_back (by simp) hu]
    rfl
  | err e =>
    simp only [respWrite, parseStatus]
    rw [status_back (cx.txt_short e) hu]
    rfl

theorem parseSet_write (resp : Status) (hu : resp.unk = []) (r : Res Unit) (hr : r ≠ .panic) :
    parseSet (respWrite cx resp r).marshal = seenWrite cx.txt r := by
  cases r with
  | panic => exact absurd rfl hr
  | ok u =>
    simp only [respWrite, parseSet]
    rw [status_back (by simp) hu]
    rfl
  | err e =>
    simp only [respWrite, parseSet]
    rw [status_back (cx.txt_short e) hu]
    rfl

theorem parseSet_txn (resp : Status) (hu : resp.unk = []) (r : Res Unit) (hr : r ≠ .panic) :
    parseSet (respTxnWrite cx resp r).marshal = seenTxnSet cx.txt r := by
  cases r with
  | panic => exact absurd rfl hr
  | ok u =>
    simp only [respTxnWrite, parseSet]
    rw [status_back (by simp) hu]
    rfl
  | err e =>
    by_cases he : e = .txnTooBig
    · subst he
      simp only [respTxnWrite, parseSet]
      rw [status_back (cx.txt_short _) hu]
      rfl
    · have : respTxnWrite cx resp (.err e) = { resp with code := codeInternalError, msg := cx.txt e } := by
        unfold respTxnWrite; split <;> simp_all
      rw [this]
      simp only [parseSet]
      rw [status_back (cx.txt_short _) hu]
      unfold seenTxnSet
      split
      · simp_all
      · rfl

theorem parseStatus_txn (resp : Status) (hu : resp.unk = []) (r : Res Unit) (hr : r ≠ .panic) :
    parseStatus (respTxnWrite cx resp r).marshal = seenTxnDelete cx.txt r := by
  cases r with
  | panic => exact absurd rfl hr
  | ok u =>
    simp only [respTxnWrite, parseStatus]
    rw [status_back (by simp) hu]
    rfl
  | err e =>
    by_cases he : e = .txnTooBig
    · subst he
      simp only [respTxnWrite, parseStatus]
      rw [status_back (cx.txt_short _) hu]
      rfl
    · have : respTxnWrite cx resp (.err e) = { resp with code := codeInternalError, msg := cx.txt e } := by
        unfold respTxnWrite; split <;> simp_all
      rw [this]
      simp only [parseStatus]
      rw [status_back (cx.txt_short _) hu]
      unfold seenTxnDelete
      split
      · simp_all
      · rfl

theorem respTxnWrite_unk (resp : Status) (r : Res Unit) : (respTxnWrite cx resp r).unk = resp.unk := by
  unfold respTxnWrite; split <;> rfl

theorem parseExists_resp (resp : ExistsResponse) (r : Res Bool) (hr : r ≠ .panic) :
    parseExists (respExists cx resp r).marshal = seenExists cx.txt r := by
  cases r with
  | panic => exact absurd rfl hr
  | ok u =>
    simp only [respExists, parseExists]
    rw [exists_back _ (by simp)]
    rfl
  | err e =>
    simp only [respExists, parseExists]
    rw [exists_back _ (cx.txt_short e)]
    rfl

theorem parseGet_resp (resp : GetResponse) (hresp : resp.value.length < 2 ^ 32) (r : Res Val) (hr : r ≠ .panic)
    (hv : ∀ v, r = .ok v → v.value.length < 2 ^ 32) :
    parseGet (respGet cx resp r).marshal = seenGet cx.txt r ∧ (respGet cx resp r).value.length < 2 ^ 32 := by
  cases r with
  | panic => exact absurd rfl hr
  | ok v =>
    have := hv v rfl
    refine ⟨?_, this⟩
    simp only [respGet, parseGet]
    rw [get_back (by simp) this]
    obtain ⟨a, b, c⟩ := v
    simp [seenGet, codeOK, pbMeta]
  | err e =>
    by_cases he : e = .keyNotFound
    · subst he
      refine ⟨?_, hresp⟩
      simp only [respGet, parseGet]
      rw [get_back (cx.txt_short _) hresp]
      rfl
    · have : respGet cx resp (.err e) = { resp with code := codeInternalError, msg := cx.txt e } := by
        unfold respGet; split <;> simp_all
      rw [this]
      refine ⟨?_, hresp⟩
      simp only [parseGet]
      rw [get_back (cx.txt_short _) hresp]
      unfold seenGet
      split
      · simp_all
      · simp_all
      · simp_all; rfl
      · simp_all

/-! ### Scans -/

/-- An entry of the response. -/
def pbEntry (e : Bytes × Val) : Wire.Entry := ⟨e.1, e.2.value, some (pbMeta e.2)⟩

theorem collect_eq (limit : Int) (acc : List Wire.Entry) (l : List (Bytes × Val)) :
    collect limit acc l = acc ++ (l.take (max 1 (limit - acc.length).toNat)).map pbEntry := by
  induction l generalizing acc with
  | nil => simp [collect]
  | cons e l ih =>
    unfold collect
    simp only
    split
    · rename_i h
      simp only [List.length_append, List.length_singleton] at h
      have : max 1 (limit - acc.length).toNat = 1 := by omega
      rw [this]
      simp [pbEntry]
    · rename_i h
      simp only [List.length_append, List.length_singleton] at h
      rw [ih]
      simp only [List.length_append, List.length_singleton, List.append_assoc]
      congr 1
      have : max 1 (limit - acc.length).toNat = max 1 (limit - ((acc.length + 1 : Nat) : Int)).toNat + 1 := by omega
      rw [this, List.take_succ_cons]
      simp [pbEntry]

theorem parseEntries_map (l : List (Bytes × Val)) : parseEntries (l.map pbEntry) = .ok l := by
  induction l with
  | nil => rfl
  | cons e l ih =>
    simp only [List.map_cons, parseEntries, pbEntry]
    rw [ih]
    obtain ⟨k, v, t, x⟩ := e
    simp [pbMeta]

theorem parseScan_ok (l : List (Bytes × Val))
    (h : (ScanResponse.mk codeOK [] (l.map pbEntry)).marshal.length < 2 ^ 63) :
    parseScan (ScanResponse.mk codeOK [] (l.map pbEntry)).marshal = .ok l := by
  unfold parseScan
  rw [scan_back' _ h]
  simp [codeOK, parseEntries_map]

end Mondis.Client
