import Verif.Lemmas.WireCalm
/-!
# C15: the wire format of requests and responses
-/
namespace Mondis.Props
open Mondis.Wire

/-- Every message is read back unchanged from what Marshal writes (into a fresh message).  Go slices
are shorter than 2^63 bytes. -/
theorem C15_roundtrip :
    (∀ m : SetRequest, m.marshal.length < 2 ^ 63 → SetRequest.unmarshal m.marshal {} = .ok m) ∧
    (∀ m : KeyRequest, m.marshal.length < 2 ^ 63 → KeyRequest.unmarshal m.marshal {} = .ok m) ∧
    (∀ m : ScanRequest, m.marshal.length < 2 ^ 63 → ScanRequest.unmarshal m.marshal {} = .ok m) ∧
    (∀ m : Status, m.unk = [] → m.marshal.length < 2 ^ 63 → Status.unmarshal m.marshal {} = .ok m) ∧
    (∀ m : GetResponse, m.marshal.length < 2 ^ 63 → GetResponse.unmarshal m.marshal {} = .ok m) ∧
    (∀ m : ExistsResponse, m.marshal.length < 2 ^ 63 → ExistsResponse.unmarshal m.marshal {} = .ok m) ∧
    (∀ m : ScanResponse, m.marshal.length < 2 ^ 63 → ScanResponse.unmarshal m.marshal {} = .ok m) := by
  have hk : ∀ b : Bytes, keep [] b = b := by intro b; unfold keep; split <;> simp_all
  have hvq : ∀ v : VMetaReq, VMetaReq.merge {} v = v := by
    intro v; obtain ⟨a, b⟩ := v; simp only [VMetaReq.merge]; congr 1 <;> split <;> simp_all
  have hvr : ∀ v : VMetaResp, VMetaResp.merge {} v = v := by
    intro v; obtain ⟨a, b⟩ := v; simp only [VMetaResp.merge]; congr 1 <;> split <;> simp_all
  have hc : ∀ c : Int32, (if c = 0 then 0 else c) = c := by intro c; split <;> simp_all
  have he : ∀ e : Entry, Entry.merge {} e = e := by
    intro e; obtain ⟨a, b, o⟩ := e
    simp only [Entry.merge, hk, Option.getD_none]
    cases o <;> simp [hvr]
  refine ⟨?_, ?_, ?_, ?_, ?_, ?_, ?_⟩
  · intro m h
    rw [SetRequest.unmarshal_marshal m {} h]
    obtain ⟨a, b, o⟩ := m
    simp only [SetRequest.merge, hk, Option.getD_none]
    cases o <;> simp [hvq]
  · intro m h
    rw [KeyRequest.unmarshal_marshal m {} h]
    simp only [KeyRequest.merge, hk]
  · intro m h
    rw [ScanRequest.unmarshal_marshal m {} h]
    obtain ⟨o, l⟩ := m
    simp only [ScanRequest.merge, hc, Option.getD_none]
    cases o <;> simp [PSO.merge, hk]
  · intro m hu h
    rw [Status.unmarshal_marshal m {} hu h]
    obtain ⟨a, b, u⟩ := m
    simp only at hu
    subst hu
    simp only [Status.merge, hk, hc]
  · intro m h
    rw [GetResponse.unmarshal_marshal m {} h]
    obtain ⟨a, b, v, o⟩ := m
    simp only [GetResponse.merge, hk, hc, Option.getD_none]
    cases o <;> simp [hvr]
  · intro m h
    rw [ExistsResponse.unmarshal_marshal m {} h]
    simp [ExistsResponse.merge, hk, hc]
  · intro m h
    rw [ScanResponse.unmarshal_marshal m {} h]
    obtain ⟨a, b, l⟩ := m
    simp only [ScanResponse.merge, hk, hc, List.nil_append]
    congr 2
    rw [List.map_congr_left (fun e _ => he e), List.map_id']

/-- Size announces exactly what MarshalTo writes, so Marshal never runs out of its buffer nor leaves
bytes unwritten. -/
theorem C15_size_exact :
    (∀ m : SetRequest, m.marshal.length = m.size) ∧ (∀ m : KeyRequest, m.marshal.length = m.size) ∧
    (∀ m : ScanRequest, m.marshal.length = m.size) ∧ (∀ m : Status, m.marshal.length = m.size) ∧
    (∀ m : GetResponse, m.marshal.length = m.size) ∧ (∀ m : ExistsResponse, m.marshal.length = m.size) ∧
    (∀ m : ScanResponse, m.marshal.length = m.size) := by
  have h1 : ∀ m : VMetaReq, m.marshal.length = m.size := by
    intro m; simp [VMetaReq.marshal, VMetaReq.size, sVar_eq]
  have h2 : ∀ m : VMetaResp, m.marshal.length = m.size := by
    intro m; simp [VMetaResp.marshal, VMetaResp.size, sVar_eq]
  have h3 : ∀ m : PSO, m.marshal.length = m.size := by
    intro m; simp [PSO.marshal, PSO.size, sBool_eq, sBytes_eq, Nat.add_assoc]
  have g1 : ∀ o : Option VMetaReq, (o.map VMetaReq.marshal).map List.length = o.map VMetaReq.size := by
    intro o; cases o <;> simp [h1]
  have g2 : ∀ o : Option VMetaResp, (o.map VMetaResp.marshal).map List.length = o.map VMetaResp.size := by
    intro o; cases o <;> simp [h2]
  have g3 : ∀ o : Option PSO, (o.map PSO.marshal).map List.length = o.map PSO.size := by
    intro o; cases o <;> simp [h3]
  have h4 : ∀ m : Entry, m.marshal.length = m.size := by
    intro m
    simp only [Entry.marshal, Entry.size, List.length_append, sBytes_eq, sMsg_eq, g2]
  refine ⟨?_, ?_, ?_, ?_, ?_, ?_, ?_⟩ <;> intro m
  · simp only [SetRequest.marshal, SetRequest.size, List.length_append, sBytes_eq, sMsg_eq, g1]
  · simp only [KeyRequest.marshal, KeyRequest.size, sBytes_eq]
  · simp only [ScanRequest.marshal, ScanRequest.size, List.length_append, sVar_eq, sMsg_eq, g3]
  · simp only [Status.marshal, Status.size, List.length_append, sVar_eq, sBytes_eq]
  · simp only [GetResponse.marshal, GetResponse.size, List.length_append, sVar_eq, sBytes_eq, sMsg_eq, g2]
  · simp only [ExistsResponse.marshal, ExistsResponse.size, List.length_append, sVar_eq, sBytes_eq, sBool_eq]
  · simp only [ScanResponse.marshal, ScanResponse.size, List.length_append, sVar_eq, sBytes_eq]
    congr 1
    rw [List.length_flatten, List.map_map]
    congr 1
    apply List.map_congr_left
    intro e _
    simp only [Function.comp, sMsg_eq, Option.map, h4]

/-- Unmarshalling into a used message merges: what is absent (zero, empty, false) keeps its old
value.  Stated for the requests the server reads into reused variables. -/
theorem C15_unmarshal_merges (k k' : Bytes) (h : (KeyRequest.mk k').marshal.length < 2 ^ 63) :
    KeyRequest.unmarshal (KeyRequest.mk k').marshal ⟨k⟩ = .ok ⟨if k' = [] then k else k'⟩ := by
  rw [KeyRequest.unmarshal_marshal _ _ h]; rfl

/-- No input whose varints have at most eight bytes makes an unmarshaller panic: it returns a message
or an error. -/
theorem C15_no_panic (d : Bytes) (hl : d.length < 2 ^ 62) (hc : NoLongVarint d) :
    (∀ m, SetRequest.unmarshal d m ≠ .panic) ∧ (∀ m, KeyRequest.unmarshal d m ≠ .panic) ∧
    (∀ m, ScanRequest.unmarshal d m ≠ .panic) ∧ (∀ m, Status.unmarshal d m ≠ .panic) ∧
    (∀ m, GetResponse.unmarshal d m ≠ .panic) ∧ (∀ m, ExistsResponse.unmarshal d m ≠ .panic) ∧
    (∀ m, ScanResponse.unmarshal d m ≠ .panic) := by
  have bnp : ∀ {α β : Type} (r : Res α) (f : α → β), r ≠ .panic → (r >>= fun a => Res.ok (f a)) ≠ .panic := by
    intro α β r f h; cases r with
    | ok a => simp
    | err e => simp
    | panic => exact absurd rfl h
  have h1 : ∀ d m, d.length < 2 ^ 62 → NoLongVarint d → VMetaReq.unmarshal d m ≠ .panic := by
    intro d m hl hc
    refine unmarshal_calm _ _ ?_ d m hl hc
    intro num f hf
    unfold VMetaReq.fld at hf
    split at hf <;> cases hf
  have h2 : ∀ d m, d.length < 2 ^ 62 → NoLongVarint d → VMetaResp.unmarshal d m ≠ .panic := by
    intro d m hl hc
    refine unmarshal_calm _ _ ?_ d m hl hc
    intro num f hf
    unfold VMetaResp.fld at hf
    split at hf <;> cases hf
  have h3 : ∀ d m, d.length < 2 ^ 62 → NoLongVarint d → PSO.unmarshal d m ≠ .panic := by
    intro d m hl hc
    refine unmarshal_calm _ _ ?_ d m hl hc
    intro num f hf
    unfold PSO.fld at hf
    split at hf <;> cases hf <;> simp
  have h4 : ∀ d m, d.length < 2 ^ 62 → NoLongVarint d → Entry.unmarshal d m ≠ .panic := by
    intro d m hl hc
    refine unmarshal_calm _ _ ?_ d m hl hc
    intro num f hf
    unfold Entry.fld at hf
    split at hf <;> cases hf
    · simp
    · simp
    · intro m b hb hcb; exact bnp _ _ (h2 b _ hb hcb)
  refine ⟨fun m => ?_, fun m => ?_, fun m => ?_, fun m => ?_, fun m => ?_, fun m => ?_, fun m => ?_⟩ <;>
    refine unmarshal_calm _ _ ?_ d m hl hc <;> intro num f hf
  · unfold SetRequest.fld at hf
    split at hf <;> cases hf
    · simp
    · simp
    · intro m b hb hcb; exact bnp _ _ (h1 b _ hb hcb)
  · unfold KeyRequest.fld at hf
    split at hf <;> cases hf
    simp
  · unfold ScanRequest.fld at hf
    split at hf <;> cases hf
    intro m b hb hcb; exact bnp _ _ (h3 b _ hb hcb)
  · unfold Status.fld at hf
    split at hf <;> cases hf
    simp
  · unfold GetResponse.fld at hf
    split at hf <;> cases hf
    · simp
    · simp
    · intro m b hb hcb; exact bnp _ _ (h2 b _ hb hcb)
  · unfold ExistsResponse.fld at hf
    split at hf <;> cases hf
    simp
  · unfold ScanResponse.fld at hf
    split at hf <;> cases hf
    · simp
    · intro m b hb hcb; exact bnp _ _ (h4 b _ hb hcb)

/-- But some input does panic: a length field near 2^63. -/
theorem C15_panic : ∃ d : Bytes, d.length = 10 ∧ SetRequest.unmarshal d {} = .panic ∧
    KeyRequest.unmarshal d {} = .panic :=
  ⟨[0x0a, 0xff, 0xff, 0xff, 0xff, 0xff, 0xff, 0xff, 0xff, 0x7f], by decide⟩

example : NoLongVarint (SetRequest.mk [1, 2] [3] (some ⟨5, 6⟩)).marshal := by
  have : (SetRequest.mk [1, 2] [3] (some ⟨5, 6⟩)).marshal = [10, 2, 1, 2, 18, 1, 3, 26, 4, 8, 5, 16, 6] := by
    have h : ∀ n, n < 128 → encVarint n = [UInt8.ofNat n] := by
      intro n hn; unfold encVarint; rw [if_pos hn]
    simp only [SetRequest.marshal, fBytes, fMsg, Option.map, VMetaReq.marshal, fVar,
      show ([1, 2] : Bytes).length = 2 from rfl, show ([3] : Bytes).length = 1 from rfl,
      show (5 : Int64).toUInt64 = 5 from rfl, show (6 : UInt32).toUInt64 = 6 from rfl,
      show (5 : UInt64).toNat = 5 from rfl, show (6 : UInt64).toNat = 6 from rfl]
    rw [h 2 (by omega), h 1 (by omega), h 5 (by omega), h 6 (by omega), h _ (by decide)]
    decide
  rw [this]
  intro pre run post e hl
  cases run with
  | nil => simp at hl
  | cons b run =>
    refine ⟨b, by simp, ?_⟩
    have hb : b ∈ ([10, 2, 1, 2, 18, 1, 3, 26, 4, 8, 5, 16, 6] : Bytes) := by rw [e]; simp
    clear e hl
    revert hb; revert b; decide

end Mondis.Props
