import Verif.Model.Wire
/-!
# Lemmas about the wire format
-/
namespace Mondis.Wire

theorem encVarint_length (v : Nat) : (encVarint v).length = sov v := by
  induction v using Nat.strongRecOn with
  | ind v ih =>
    unfold encVarint sov
    split
    · rfl
    · rw [List.length_cons, ih _ (by omega)]; omega

theorem sov_pos (v : Nat) : 1 ≤ sov v := by
  unfold sov; split <;> omega

theorem uvar_enc (v : Nat) (shift acc : Nat) (r : Bytes) (hs : shift < 64) (ha : acc + v * 2 ^ shift < 2 ^ 64) :
    uvar shift acc (encVarint v ++ r) = .ok (acc + v * 2 ^ shift, r) := by
  induction v using Nat.strongRecOn generalizing shift acc with
  | ind v ih =>
    unfold encVarint
    by_cases h : v < 128
    · rw [if_pos h]
      simp only [List.singleton_append, uvar]
      have h1 : (UInt8.ofNat v).toNat = v := by
        rw [UInt8.toNat_ofNat']; omega
      have h2 : v % 128 = v := Nat.mod_eq_of_lt h
      rw [if_neg (by omega), h1, if_pos h, h2, Nat.mod_eq_of_lt ha]
    · rw [if_neg h]
      simp only [List.cons_append, uvar]
      have h1 : (UInt8.ofNat (v % 128 + 128)).toNat = v % 128 + 128 := by
        rw [UInt8.toNat_ofNat']; omega
      have h2 : (v % 128 + 128) % 128 = v % 128 := by omega
      rw [if_neg (by omega), h1, if_neg (by omega), h2]
      have hp : (2 : Nat) ^ (shift + 7) = 2 ^ shift * 128 := by rw [Nat.pow_add]
      have hv : v * 2 ^ shift = v % 128 * 2 ^ shift + v / 128 * (2 ^ shift * 128) := by
        have : v = v % 128 + v / 128 * 128 := by omega
        conv => lhs; rw [this]
        rw [Nat.add_mul, Nat.mul_assoc, Nat.mul_comm 128]
      have hlt : acc + v % 128 * 2 ^ shift < 2 ^ 64 := by
        have : 0 ≤ v / 128 * (2 ^ shift * 128) := Nat.zero_le _
        omega
      rw [Nat.mod_eq_of_lt hlt]
      have hshift : shift + 7 < 64 := by
        by_cases hc : shift + 7 < 64
        · exact hc
        · exfalso
          have h3 : 2 ^ 64 ≤ 2 ^ (shift + 7) := Nat.pow_le_pow_right (by omega) (by omega)
          have h4 : 1 * 2 ^ (shift + 7) ≤ v / 128 * 2 ^ (shift + 7) := Nat.mul_le_mul_right _ (by omega)
          rw [hp] at h3 h4
          omega
      rw [ih (v / 128) (by omega) (shift + 7) _ hshift (by rw [hp]; omega)]
      congr 2
      rw [hp]; omega

theorem uvar_enc0 (v : Nat) (r : Bytes) (h : v < 2 ^ 64) :
    uvar 0 0 (encVarint v ++ r) = .ok (v, r) := by
  rw [uvar_enc v 0 0 r (by omega) (by omega)]
  simp

theorem uvar_byte (t : UInt8) (r : Bytes) (h : t.toNat < 128) : uvar 0 0 (t :: r) = .ok (t.toNat, r) := by
  simp only [uvar]
  rw [if_neg (by omega), if_pos h]
  congr 2
  omega

/-- The unmarshal loop consumes `seg` and transforms the message by `g`. -/
def Eats {M : Type} (fld : Nat → Option (Field M)) (unk : M → Bytes → M) (seg : Bytes) (g : M → M) : Prop :=
  ∀ fuel pos rest m, (seg ++ rest).length ≤ fuel → pos + (seg ++ rest).length < 2 ^ 63 →
    ∃ fuel' pos', rest.length ≤ fuel' ∧ pos' + rest.length < 2 ^ 63 ∧
      loop fld unk fuel pos (seg ++ rest) m = loop fld unk fuel' pos' rest (g m)

variable {M : Type} {fld : Nat → Option (Field M)} {unk : M → Bytes → M}

theorem Eats.nil : Eats fld unk [] id := fun fuel pos _ _ h h' => ⟨fuel, pos, h, h', rfl⟩

theorem Eats.append {s₁ s₂ : Bytes} {g₁ g₂ : M → M} (h₁ : Eats fld unk s₁ g₁) (h₂ : Eats fld unk s₂ g₂) :
    Eats fld unk (s₁ ++ s₂) (g₂ ∘ g₁) := by
  intro fuel pos rest m hf hp
  rw [List.append_assoc] at hf hp ⊢
  obtain ⟨f1, p1, a1, b1, e1⟩ := h₁ fuel pos (s₂ ++ rest) m hf hp
  obtain ⟨f2, p2, a2, b2, e2⟩ := h₂ f1 p1 rest (g₁ m) a1 b1
  exact ⟨f2, p2, a2, b2, by rw [e1, e2]; rfl⟩

theorem Eats.congr {s : Bytes} {g g' : M → M} (h : Eats fld unk s g) (e : ∀ m, g m = g' m) :
    Eats fld unk s g' := by
  have : g = g' := funext e
  rw [← this]; exact h

theorem Eats.unmarshal {s : Bytes} {g : M → M} (h : Eats fld unk s g) (hl : s.length < 2 ^ 63) (m : M) :
    unmarshal fld unk s m = .ok (g m) := by
  obtain ⟨f, p, _, _, e⟩ := h s.length 0 [] m (by simp) (by simp; exact hl)
  rw [List.append_nil] at e
  unfold Wire.unmarshal
  rw [e]
  cases f <;> simp [loop]

theorem eats_var (tag : UInt8) (num : Nat) (f : M → UInt64 → M) (hf : fld num = some (.var f))
    (ht : tag.toNat = num * 8) (hn : 0 < num) (hn' : num < 16) (v : UInt64) :
    Eats fld unk (tag :: encVarint v.toNat) (fun m => f m v) := by
  intro fuel pos rest m hfuel hpos
  simp only [List.cons_append, List.length_cons, List.length_append] at hfuel hpos
  cases fuel with
  | zero => omega
  | succ fuel =>
    refine ⟨fuel, pos + ((tag :: (encVarint v.toNat ++ rest)).length - rest.length), by omega, ?_, ?_⟩
    · simp only [List.length_cons, List.length_append]; omega
    · conv => lhs; unfold loop
      rw [if_neg (by simp), List.cons_append, uvar_byte tag _ (by omega)]
      simp only [Res.ok_bind]
      have h1 : tag.toNat % 8 = 0 := by omega
      have h2 : tag.toNat / 8 % 2 ^ 32 = num := by omega
      rw [if_neg (by omega), h2, if_neg (by omega), hf]
      simp only
      rw [if_neg (by omega), uvar_enc0 _ _ v.toNat_lt]
      simp only [Res.ok_bind]
      congr 2
      exact UInt64.ofNat_toNat

theorem eats_bytes (tag : UInt8) (num : Nat) (f : M → Bytes → Res M) (hf : fld num = some (.bytes f))
    (ht : tag.toNat = num * 8 + 2) (hn : 0 < num) (hn' : num < 15) (b : Bytes) (g : M → M)
    (hg : ∀ m, b.length < 2 ^ 63 → f m b = .ok (g m)) :
    Eats fld unk (tag :: (encVarint b.length ++ b)) g := by
  intro fuel pos rest m hfuel hpos
  simp only [List.cons_append, List.length_cons, List.length_append] at hfuel hpos
  cases fuel with
  | zero => omega
  | succ fuel =>
    refine ⟨fuel, pos + ((tag :: (encVarint b.length ++ (b ++ rest))).length - (b ++ rest).length) + b.length,
      by omega, ?_, ?_⟩
    · simp only [List.length_cons, List.length_append]; omega
    · conv => lhs; unfold loop
      rw [if_neg (by simp), List.cons_append, uvar_byte tag _ (by omega), List.append_assoc]
      simp only [Res.ok_bind]
      have h1 : tag.toNat % 8 = 2 := by omega
      have h2 : tag.toNat / 8 % 2 ^ 32 = num := by omega
      rw [if_neg (by omega), h2, if_neg (by omega), hf]
      simp only
      rw [if_neg (by omega), uvar_enc0 _ _ (by omega)]
      simp only [Res.ok_bind]
      rw [if_neg (by omega), if_neg, if_neg (by simp only [List.length_append]; omega)]
      · simp only [List.take_left', List.drop_left']
        rw [hg m (by omega)]
        rfl
      · simp only [List.length_cons, List.length_append]; omega

theorem eats_fBytes (tag : UInt8) (num : Nat) (f : M → Bytes → M)
    (hf : fld num = some (.bytes (fun m b => .ok (f m b))))
    (ht : tag.toNat = num * 8 + 2) (hn : 0 < num) (hn' : num < 15) (b : Bytes) :
    Eats fld unk (fBytes tag b) (fun m => if b = [] then m else f m b) := by
  unfold fBytes
  cases b with
  | nil => exact Eats.nil.congr (by simp)
  | cons c b =>
    rw [if_pos (by simp)]
    exact (eats_bytes tag num _ hf ht hn hn' (c :: b) (fun m => f m (c :: b)) (fun _ _ => rfl)).congr (by simp)

theorem eats_fVar (tag : UInt8) (num : Nat) (f : M → UInt64 → M) (hf : fld num = some (.var f))
    (ht : tag.toNat = num * 8) (hn : 0 < num) (hn' : num < 15) (v : UInt64) :
    Eats fld unk (fVar tag v) (fun m => if v = 0 then m else f m v) := by
  unfold fVar
  by_cases h : v = 0
  · rw [if_neg (by simp [h])]; exact Eats.nil.congr (by simp [h])
  · rw [if_pos h]
    exact (eats_var tag num f hf ht hn (by omega) v).congr (by simp [h])

theorem eats_fBool (tag : UInt8) (num : Nat) (f : M → UInt64 → M) (hf : fld num = some (.var f))
    (ht : tag.toNat = num * 8) (hn : 0 < num) (hn' : num < 15) (b : Bool) :
    Eats fld unk (fBool tag b) (fun m => if b then f m 1 else m) := by
  cases b with
  | false => exact Eats.nil.congr (by simp)
  | true =>
    have := eats_var (fld := fld) (unk := unk) tag num f hf ht hn (by omega) 1
    have e : encVarint (1 : UInt64).toNat = [1] := by
      have : (1 : UInt64).toNat = 1 := rfl
      rw [this]; unfold encVarint; rfl
    rw [e] at this
    exact this.congr (by simp)

theorem eats_fMsg (tag : UInt8) (num : Nat) (f : M → Bytes → Res M) (hf : fld num = some (.bytes f))
    (ht : tag.toNat = num * 8 + 2) (hn : 0 < num) (hn' : num < 15) (o : Option Bytes) (g : Bytes → M → M)
    (hg : ∀ b, o = some b → ∀ m, b.length < 2 ^ 63 → f m b = .ok (g b m)) :
    Eats fld unk (fMsg tag o) (fun m => match o with | some b => g b m | none => m) := by
  cases o with
  | none => exact Eats.nil
  | some b => exact eats_bytes tag num f hf ht hn hn' b (g b) (hg b rfl)

/-! ### Numbers inside varints -/

theorem codeOf_code64 (c : Int32) : codeOf (code64 c) = c := by
  unfold codeOf code64
  apply Int32.toBitVec_inj.mp
  show (BitVec.setWidth 32 (BitVec.signExtend 64 c.toBitVec)) = c.toBitVec
  apply BitVec.eq_of_getLsbD_eq
  intro i hi
  rw [BitVec.getLsbD_setWidth, BitVec.getLsbD_signExtend]
  have : i < 64 := by omega
  simp [hi, this]

theorem code64_zero {c : Int32} (h : code64 c = 0) : c = 0 := by
  have := codeOf_code64 c
  rw [h] at this
  rw [← this]; rfl

theorem ttl_back (t : Int64) : t.toUInt64.toInt64 = t := rfl

theorem tag_back (t : UInt32) : t.toUInt64.toUInt32 = t := by
  apply UInt32.toNat_inj.mp
  rw [UInt64.toNat_toUInt32, UInt32.toNat_toUInt64]
  exact Nat.mod_eq_of_lt t.toNat_lt

theorem tag64_zero {t : UInt32} (h : t.toUInt64 = 0) : t = 0 := by
  rw [← tag_back t, h]; rfl

/-! ### Sizes -/

theorem sBytes_eq (tag : UInt8) (b : Bytes) : (fBytes tag b).length = sBytes b := by
  unfold fBytes sBytes
  split
  · simp only [List.length_cons, List.length_append, encVarint_length]; omega
  · rfl

theorem sVar_eq (tag : UInt8) (v : UInt64) : (fVar tag v).length = sVar v := by
  unfold fVar sVar
  split
  · simp only [List.length_cons, encVarint_length]; omega
  · rfl

theorem sBool_eq (tag : UInt8) (b : Bool) : (fBool tag b).length = sBool b := by
  cases b <;> rfl

theorem sMsg_eq (tag : UInt8) (o : Option Bytes) : (fMsg tag o).length = sMsg (o.map List.length) := by
  cases o with
  | none => rfl
  | some b => simp only [fMsg, sMsg, List.length_cons, List.length_append, encVarint_length, Option.map]; omega

/-! ### What a marshalled message does to an existing one -/

/-- Unmarshalling `x` into `m`. -/
def VMetaReq.merge (m x : VMetaReq) : VMetaReq :=
  { ttl := if x.ttl = 0 then m.ttl else x.ttl, tag := if x.tag = 0 then m.tag else x.tag }
def VMetaResp.merge (m x : VMetaResp) : VMetaResp :=
  { expiresAt := if x.expiresAt = 0 then m.expiresAt else x.expiresAt,
    tag := if x.tag = 0 then m.tag else x.tag }
def keep (m x : Bytes) : Bytes := if x = [] then m else x
def SetRequest.merge (m x : SetRequest) : SetRequest :=
  { key := keep m.key x.key, value := keep m.value x.value,
    vmeta := match x.vmeta with
      | some v => some ((m.vmeta.getD {}).merge v)
      | none => m.vmeta }
def Status.merge (m x : Status) : Status :=
  { code := if x.code = 0 then m.code else x.code, msg := keep m.msg x.msg, unk := m.unk }
def KeyRequest.merge (m x : KeyRequest) : KeyRequest := { key := keep m.key x.key }
def GetResponse.merge (m x : GetResponse) : GetResponse :=
  { code := if x.code = 0 then m.code else x.code, msg := keep m.msg x.msg,
    value := keep m.value x.value,
    vmeta := match x.vmeta with
      | some v => some ((m.vmeta.getD {}).merge v)
      | none => m.vmeta }
def ExistsResponse.merge (m x : ExistsResponse) : ExistsResponse :=
  { code := if x.code = 0 then m.code else x.code, msg := keep m.msg x.msg,
    found := m.found || x.found }
def PSO.merge (m x : PSO) : PSO :=
  { reverse := m.reverse || x.reverse, pfx := keep m.pfx x.pfx, offset := keep m.offset x.offset }
def ScanRequest.merge (m x : ScanRequest) : ScanRequest :=
  { pso := match x.pso with
      | some v => some ((m.pso.getD {}).merge v)
      | none => m.pso,
    limit := if x.limit = 0 then m.limit else x.limit }
def Entry.merge (m x : Entry) : Entry :=
  { key := keep m.key x.key, value := keep m.value x.value,
    vmeta := match x.vmeta with
      | some v => some ((m.vmeta.getD {}).merge v)
      | none => m.vmeta }
def ScanResponse.merge (m x : ScanResponse) : ScanResponse :=
  { code := if x.code = 0 then m.code else x.code, msg := keep m.msg x.msg,
    entries := m.entries ++ x.entries.map (Entry.merge {}) }

theorem VMetaReq.unmarshal_marshal (x m : VMetaReq) (h : x.marshal.length < 2 ^ 63) :
    VMetaReq.unmarshal x.marshal m = .ok (m.merge x) := by
  have e := (eats_fVar (fld := VMetaReq.fld) (unk := ignore) 0x08 1 _ rfl rfl (by omega) (by omega)
    x.ttl.toUInt64).append (eats_fVar 0x10 2 _ rfl rfl (by omega) (by omega) x.tag.toUInt64)
  refine (e.unmarshal h m).trans ?_
  congr 1
  obtain ⟨t, g⟩ := x
  simp only [Function.comp, VMetaReq.merge]
  have h1 : t.toUInt64 = 0 ↔ t = 0 := ⟨fun h => by rw [← ttl_back t, h]; rfl, fun h => by rw [h]; rfl⟩
  have h2 : g.toUInt64 = 0 ↔ g = 0 := ⟨tag64_zero, fun h => by rw [h]; rfl⟩
  rw [ttl_back, tag_back]
  by_cases a : t = 0 <;> by_cases b : g = 0 <;> simp [h1, h2, a, b, show Int64.toUInt64 0 = 0 from rfl]

theorem VMetaResp.unmarshal_marshal (x m : VMetaResp) (h : x.marshal.length < 2 ^ 63) :
    VMetaResp.unmarshal x.marshal m = .ok (m.merge x) := by
  have e := (eats_fVar (fld := VMetaResp.fld) (unk := ignore) 0x08 1 _ rfl rfl (by omega) (by omega)
    x.expiresAt).append (eats_fVar 0x10 2 _ rfl rfl (by omega) (by omega) x.tag.toUInt64)
  refine (e.unmarshal h m).trans ?_
  congr 1
  obtain ⟨t, g⟩ := x
  simp only [Function.comp, VMetaResp.merge]
  have h2 : g.toUInt64 = 0 ↔ g = 0 := ⟨tag64_zero, fun h => by rw [h]; rfl⟩
  rw [tag_back]
  by_cases a : t = 0 <;> by_cases b : g = 0 <;> simp [h2, a, b]

theorem fMsg_le {tag : UInt8} {o : Option Bytes} {b : Bytes} (h : o = some b) :
    b.length ≤ (fMsg tag o).length := by
  subst h; simp only [fMsg, List.length_cons, List.length_append]; omega

theorem SetRequest.unmarshal_marshal (x m : SetRequest) (h : x.marshal.length < 2 ^ 63) :
    SetRequest.unmarshal x.marshal m = .ok (m.merge x) := by
  have e := ((eats_fBytes (fld := SetRequest.fld) (unk := ignore) 0x0a 1
      (fun m b => { m with key := b }) rfl rfl (by omega) (by omega) x.key).append
    (eats_fBytes 0x12 2 (fun m b => { m with value := b }) rfl rfl (by omega) (by omega) x.value)).append
    (eats_fMsg 0x1a 3 _ rfl rfl (by omega) (by omega) (x.vmeta.map VMetaReq.marshal)
      (fun _ m => { m with vmeta := some ((m.vmeta.getD {}).merge (x.vmeta.getD {})) })
      (by
        intro b hb m hl
        cases hv : x.vmeta with
        | none => rw [hv] at hb; cases hb
        | some v =>
          rw [hv] at hb; cases hb
          rw [VMetaReq.unmarshal_marshal v _ hl]; rfl))
  refine (e.unmarshal h m).trans ?_
  congr 1
  obtain ⟨k, v, o⟩ := x
  simp only [Function.comp, SetRequest.merge, keep]
  cases o <;> by_cases a : k = [] <;> by_cases b : v = [] <;> simp [a, b]

theorem KeyRequest.unmarshal_marshal (x m : KeyRequest) (h : x.marshal.length < 2 ^ 63) :
    KeyRequest.unmarshal x.marshal m = .ok (m.merge x) := by
  have e := (eats_fBytes (fld := KeyRequest.fld) (unk := ignore) 0x0a 1
      (fun m b => { m with key := b }) rfl rfl (by omega) (by omega) x.key)
  refine (e.unmarshal h m).trans ?_
  congr 1
  obtain ⟨k⟩ := x
  simp only [KeyRequest.merge, keep]
  by_cases a : k = [] <;> simp [a]

theorem Status.unmarshal_marshal (x m : Status) (hu : x.unk = []) (h : x.marshal.length < 2 ^ 63) :
    Status.unmarshal x.marshal m = .ok (m.merge x) := by
  have hm : x.marshal = fVar 0x08 (code64 x.code) ++ fBytes 0x12 x.msg := by
    unfold Status.marshal; rw [hu, List.append_nil]
  rw [hm] at h ⊢
  have e := (eats_fVar (fld := Status.fld) (unk := fun m b => { m with unk := m.unk ++ b }) 0x08 1 _ rfl rfl
      (by omega) (by omega) (code64 x.code)).append
    (eats_fBytes 0x12 2 (fun m b => { m with msg := b }) rfl rfl (by omega) (by omega) x.msg)
  refine (e.unmarshal h m).trans ?_
  congr 1
  obtain ⟨c, s, u⟩ := x
  simp only [Function.comp, Status.merge, keep]
  have h1 : code64 c = 0 ↔ c = 0 := ⟨code64_zero, fun h => by rw [h]; rfl⟩
  rw [codeOf_code64]
  by_cases a : c = 0 <;> by_cases b : s = [] <;> simp [h1, a, b, show code64 0 = 0 from rfl]

theorem GetResponse.unmarshal_marshal (x m : GetResponse) (h : x.marshal.length < 2 ^ 63) :
    GetResponse.unmarshal x.marshal m = .ok (m.merge x) := by
  have e := (((eats_fVar (fld := GetResponse.fld) (unk := ignore) 0x08 1 _ rfl rfl
      (by omega) (by omega) (code64 x.code)).append
    (eats_fBytes 0x12 2 (fun m b => { m with msg := b }) rfl rfl (by omega) (by omega) x.msg)).append
    (eats_fBytes 0x1a 3 (fun m b => { m with value := b }) rfl rfl (by omega) (by omega) x.value)).append
    (eats_fMsg 0x22 4 _ rfl rfl (by omega) (by omega) (x.vmeta.map VMetaResp.marshal)
      (fun _ m => { m with vmeta := some ((m.vmeta.getD {}).merge (x.vmeta.getD {})) })
      (by
        intro b hb m hl
        cases hv : x.vmeta with
        | none => rw [hv] at hb; cases hb
        | some v =>
          rw [hv] at hb; cases hb
          rw [VMetaResp.unmarshal_marshal v _ hl]; rfl))
  refine (e.unmarshal h m).trans ?_
  congr 1
  obtain ⟨c, s, v, o⟩ := x
  simp only [Function.comp, GetResponse.merge, keep]
  have h1 : code64 c = 0 ↔ c = 0 := ⟨code64_zero, fun h => by rw [h]; rfl⟩
  rw [codeOf_code64]
  cases o <;> by_cases a : c = 0 <;> by_cases b : s = [] <;> by_cases d : v = [] <;> simp [h1, a, b, d, show code64 0 = 0 from rfl]

theorem ExistsResponse.unmarshal_marshal (x m : ExistsResponse) (h : x.marshal.length < 2 ^ 63) :
    ExistsResponse.unmarshal x.marshal m = .ok (m.merge x) := by
  have e := ((eats_fVar (fld := ExistsResponse.fld) (unk := ignore) 0x08 1 _ rfl rfl
      (by omega) (by omega) (code64 x.code)).append
    (eats_fBytes 0x12 2 (fun m b => { m with msg := b }) rfl rfl (by omega) (by omega) x.msg)).append
    (eats_fBool 0x18 3 _ rfl rfl (by omega) (by omega) x.found)
  refine (e.unmarshal h m).trans ?_
  congr 1
  obtain ⟨c, s, f⟩ := x
  simp only [Function.comp, ExistsResponse.merge, keep]
  have h1 : code64 c = 0 ↔ c = 0 := ⟨code64_zero, fun h => by rw [h]; rfl⟩
  rw [codeOf_code64]
  cases f <;> by_cases a : c = 0 <;> by_cases b : s = [] <;> simp [h1, a, b, show code64 0 = 0 from rfl]

theorem PSO.unmarshal_marshal (x m : PSO) (h : x.marshal.length < 2 ^ 63) :
    PSO.unmarshal x.marshal m = .ok (m.merge x) := by
  have e := ((eats_fBool (fld := PSO.fld) (unk := ignore) 0x08 1 _ rfl rfl
      (by omega) (by omega) x.reverse).append
    (eats_fBytes 0x12 2 (fun m b => { m with pfx := b }) rfl rfl (by omega) (by omega) x.pfx)).append
    (eats_fBytes 0x1a 3 (fun m b => { m with offset := b }) rfl rfl (by omega) (by omega) x.offset)
  refine (e.unmarshal h m).trans ?_
  congr 1
  obtain ⟨c, s, v⟩ := x
  simp only [Function.comp, PSO.merge, keep]
  cases c <;> by_cases b : s = [] <;> by_cases d : v = [] <;> simp [b, d]

theorem ScanRequest.unmarshal_marshal (x m : ScanRequest) (h : x.marshal.length < 2 ^ 63) :
    ScanRequest.unmarshal x.marshal m = .ok (m.merge x) := by
  have e := (eats_fMsg (fld := ScanRequest.fld) (unk := ignore) 0x0a 1 _ rfl rfl (by omega) (by omega)
      (x.pso.map PSO.marshal)
      (fun _ m => { m with pso := some ((m.pso.getD {}).merge (x.pso.getD {})) })
      (by
        intro b hb m hl
        cases hv : x.pso with
        | none => rw [hv] at hb; cases hb
        | some v =>
          rw [hv] at hb; cases hb
          rw [PSO.unmarshal_marshal v _ hl]; rfl)).append
    (eats_fVar 0x10 2 _ rfl rfl (by omega) (by omega) (code64 x.limit))
  refine (e.unmarshal h m).trans ?_
  congr 1
  obtain ⟨o, c⟩ := x
  simp only [Function.comp, ScanRequest.merge]
  have h1 : code64 c = 0 ↔ c = 0 := ⟨code64_zero, fun h => by rw [h]; rfl⟩
  rw [codeOf_code64]
  cases o <;> by_cases a : c = 0 <;> simp [h1, a, show code64 0 = 0 from rfl]

theorem Entry.unmarshal_marshal (x m : Entry) (h : x.marshal.length < 2 ^ 63) :
    Entry.unmarshal x.marshal m = .ok (m.merge x) := by
  have e := ((eats_fBytes (fld := Entry.fld) (unk := ignore) 0x0a 1
      (fun m b => { m with key := b }) rfl rfl (by omega) (by omega) x.key).append
    (eats_fBytes 0x12 2 (fun m b => { m with value := b }) rfl rfl (by omega) (by omega) x.value)).append
    (eats_fMsg 0x1a 3 _ rfl rfl (by omega) (by omega) (x.vmeta.map VMetaResp.marshal)
      (fun _ m => { m with vmeta := some ((m.vmeta.getD {}).merge (x.vmeta.getD {})) })
      (by
        intro b hb m hl
        cases hv : x.vmeta with
        | none => rw [hv] at hb; cases hb
        | some v =>
          rw [hv] at hb; cases hb
          rw [VMetaResp.unmarshal_marshal v _ hl]; rfl))
  refine (e.unmarshal h m).trans ?_
  congr 1
  obtain ⟨k, v, o⟩ := x
  simp only [Function.comp, Entry.merge, keep]
  cases o <;> by_cases a : k = [] <;> by_cases b : v = [] <;> simp [a, b]

theorem eats_entries (l : List Entry) :
    Eats ScanResponse.fld ignore (l.map (fun e => fMsg 0x1a (some e.marshal))).flatten
      (fun m => { m with entries := m.entries ++ l.map (Entry.merge {}) }) := by
  induction l with
  | nil => exact Eats.nil.congr (by simp)
  | cons e l ih =>
    rw [List.map_cons, List.flatten_cons]
    have h := (eats_fMsg (fld := ScanResponse.fld) (unk := ignore) 0x1a 3 _ rfl rfl (by omega) (by omega)
      (some e.marshal) (fun _ m => { m with entries := m.entries ++ [Entry.merge {} e] })
      (by
        intro b hb m hl
        cases hb
        rw [Entry.unmarshal_marshal e _ hl]; rfl)).append ih
    exact h.congr (by intro m; simp [Function.comp])

theorem ScanResponse.unmarshal_marshal (x m : ScanResponse) (h : x.marshal.length < 2 ^ 63) :
    ScanResponse.unmarshal x.marshal m = .ok (m.merge x) := by
  have e := ((eats_fVar (fld := ScanResponse.fld) (unk := ignore) 0x08 1 _ rfl rfl
      (by omega) (by omega) (code64 x.code)).append
    (eats_fBytes 0x12 2 (fun m b => { m with msg := b }) rfl rfl (by omega) (by omega) x.msg)).append
    (eats_entries x.entries)
  refine (e.unmarshal h m).trans ?_
  congr 1
  obtain ⟨c, s, l⟩ := x
  simp only [Function.comp, ScanResponse.merge, keep]
  have h1 : code64 c = 0 ↔ c = 0 := ⟨code64_zero, fun h => by rw [h]; rfl⟩
  rw [codeOf_code64]
  by_cases a : c = 0 <;> by_cases b : s = [] <;> simp [h1, a, b, show code64 0 = 0 from rfl]

end Mondis.Wire
