import Verif.Lemmas.Structure
/-!
# Hash operations
-/
namespace Mondis.Structure
open Mondis.Memcomparable Mondis.Prog Mondis.Spec

theorem bin_roundtrip (v : UInt64) :
    Numeric.decodeFromBinary (Numeric.encode2Binary v []) = .ok v := by
  have := decodeUint64_put v []
  simp only [List.append_nil] at this
  unfold Numeric.encode2Binary
  simp only [List.nil_append]
  simp only [putUint64, Numeric.decodeFromBinary, decodeUint64] at *
  simpa using this

theorem int64_toUInt64_toInt64 (v : Int64) : v.toUInt64.toInt64 = v := rfl

theorem loadHashMeta_spec {env : Env} {pfx key : Bytes} {h : OMap Bytes} {m : DB}
    (hr : HashRep pfx key h m) {β : Type} {f : Option Int64 → Prog β} {Q : Res β → DB → Prop}
    (hq : (f (if h.ents.length = 0 then none else some (Int64.ofNat h.ents.length))).wp env m Q) :
    (loadHashMeta (hashMetaKey pfx key) >>= f).wp env m Q := by
  rw [wp_bind]
  unfold loadHashMeta
  apply wp_getOpt_bind (hashMetaKey_ne _ _)
  have hc := hr.count
  cases hg : m.get (hashMetaKey pfx key) with
  | none =>
    rw [hg] at hc
    by_cases h0 : h.ents.length = 0
    · simpa [h0] using hq
    · simp [h0] at hc
  | some v =>
    rw [hg] at hc
    by_cases h0 : h.ents.length = 0
    · simp [h0] at hc
    · simp only [if_neg h0, Option.map_some, Option.some.injEq] at hc hq
      simp only [hc, hashMetaValue]
      rw [wp_ofRes_bind, bin_roundtrip]
      simpa [int64_toUInt64_toInt64] using hq

theorem loadHashMeta_andThen {env : Env} {pfx key : Bytes} {h : OMap Bytes} {m : DB}
    (hr : HashRep pfx key h m) {β : Type} {f : Res (Option Int64) → Prog β} {Q : Res β → DB → Prop}
    (hq : (f (.ok (if h.ents.length = 0 then none else some (Int64.ofNat h.ents.length)))).wp env m Q) :
    ((loadHashMeta (hashMetaKey pfx key)).andThen f).wp env m Q := by
  rw [wp_andThen]
  have := loadHashMeta_spec (env := env) hr (f := fun o => .done (.ok o)) (Q := fun r m => (f r).wp env m Q) hq
  rw [wp_bind] at this
  refine wp_mono this ?_
  intro r m' h
  cases r <;> exact h

/-- Where the hash operations may write. -/
abbrev HW (pfx key : Bytes) (F : Bytes → Prop) (k : Bytes) : Prop :=
  k = hashMetaKey pfx key ∨ ∃ f, F f ∧ k = hashDataKey pfx key f

theorem HW.hkey {pfx key : Bytes} {F : Bytes → Prop} {k : Bytes} (h : HW pfx key F k) :
    HKey pfx key k := by
  rcases h with h | ⟨f, _, h⟩
  · exact .inl h
  · exact .inr ⟨f, h⟩

theorem hashDataKey_inj {pfx key f f' : Bytes} :
    hashDataKey pfx key f = hashDataKey pfx key f' ↔ f = f' := by
  simp [hashDataKey_eq, skey_inj, encodeGroups_inj]
theorem hashData_ne_meta {pfx key f : Bytes} : hashDataKey pfx key f ≠ hashMetaKey pfx key := by
  simp [hashDataKey_eq, hashMetaKey_eq, skey_inj]
theorem hashMeta_ne_data {pfx key f : Bytes} : hashMetaKey pfx key ≠ hashDataKey pfx key f :=
  fun h => hashData_ne_meta h.symm

/-- Effect of an operation on the hash under `key`. -/
def HashEff (pfx key : Bytes) (m : DB) (h' : OMap Bytes) (m' : DB) : Prop :=
  HashRep pfx key h' m' ∧ SameBut (HKey pfx key) m m' ∧ (Clean pfx m → Clean pfx m')

theorem HashEff.refl {pfx key : Bytes} {m : DB} {h : OMap Bytes} (hr : HashRep pfx key h m) :
    HashEff pfx key m h m := ⟨hr, SameBut.refl _ _, id⟩

theorem omap_set_same {h : OMap Bytes} {f v : Bytes} (hg : h.get f = some v) : h.set f v = h := by
  ext1 j; rw [OMap.get_set]; split
  · rename_i e; rw [← e, hg]
  · rfl

theorem updateHash_ok {β : Type} {env : Env} {pfx key f : Bytes} {fn : Option Bytes → Res (Bytes × β)}
    {h : OMap Bytes} {m : DB} {nv : Bytes} {b : β} (hr : HashRep pfx key h m)
    (hfn : fn ((h.get f).bind nilIfEmpty) = .ok (nv, b)) (hne : nv ≠ [] ∨ h.get f ≠ none) :
    (updateHash pfx key f fn).wp env m (Post env (HW pfx key (· = f))
      (fun r m' => r = .ok b ∧ HashEff pfx key m (h.set f nv) m')) := by
  unfold updateHash
  apply wp_getOpt_bind (hashDataKey_ne _ _ _)
  have hd := hr.data f
  have hbind : ((m.get (hashDataKey pfx key f)).bind fun v => nilIfEmpty v.value) =
      (h.get f).bind nilIfEmpty := by
    rw [← hd]; cases m.get (hashDataKey pfx key f) <;> rfl
  simp only [hbind]
  rw [wp_ofRes_bind, hfn]
  simp only
  have hold : ((h.get f).bind nilIfEmpty).getD [] = (h.get f).getD [] := by
    cases h.get f with
    | none => rfl
    | some v => by_cases hv : v = [] <;> simp [nilIfEmpty, hv]
  rw [hold]
  by_cases heq : (h.get f).getD [] = nv
  · rw [if_pos heq]
    refine .inr ⟨rfl, ?_⟩
    have : h.get f = some nv := by
      cases hg : h.get f with
      | none =>
        rw [hg] at heq hne
        simp at heq hne
        first | exact absurd heq.symm hne | exact absurd heq hne | exact absurd heq (fun e => hne e.symm)
      | some v => rw [hg] at heq; simpa using heq
    rw [omap_set_same this]
    exact HashEff.refl hr
  · rw [if_neg heq]
    apply wp_set_bind (.inr ⟨f, rfl, rfl⟩)
    cases hg : m.get (hashDataKey pfx key f) with
    | some v =>
      simp only [Option.isNone_some, Bool.not_false, if_true]
      refine .inr ⟨rfl, ⟨?_, ?_⟩, SameBut.set (.inr ⟨f, rfl⟩), fun hc => hc.set (kind_hdata _ _ _)⟩
      · intro f'
        simp only [OMap.get_set, hashDataKey_inj]
        split
        · rfl
        · exact hr.data f'
      · simp only [OMap.get_set, if_neg hashData_ne_meta, hr.count]
        rw [hg] at hd
        rw [OMap.length_set, ← hd]
        simp
    | none =>
      simp only [Option.isNone_none, Bool.not_true, Bool.false_eq_true, if_false]
      rw [hg] at hd
      have hlen : (h.set f nv).ents.length = h.ents.length + 1 := by
        rw [OMap.length_set, ← hd]; simp
      have hm : (loadHashMeta (hashMetaKey pfx key)).wp env
          (m.set (hashDataKey pfx key f) ⟨nv, 0, 0⟩)
          (fun r m' => r = .ok (if h.ents.length = 0 then none else some (Int64.ofNat h.ents.length)) ∧
            m' = m.set (hashDataKey pfx key f) ⟨nv, 0, 0⟩) := by
        have hc : ((m.set (hashDataKey pfx key f) ⟨nv, 0, 0⟩).get (hashMetaKey pfx key)).map Val.value =
            if h.ents.length = 0 then none else some (hashMetaValue (Int64.ofNat h.ents.length)) := by
          simp only [OMap.get_set, if_neg hashData_ne_meta, hr.count]
        unfold loadHashMeta
        apply wp_getOpt_bind (hashMetaKey_ne _ _)
        cases hg : (m.set (hashDataKey pfx key f) ⟨nv, 0, 0⟩).get (hashMetaKey pfx key) with
        | none =>
          rw [hg] at hc
          by_cases h0 : h.ents.length = 0
          · simp [h0]
          · simp [h0] at hc
        | some v =>
          rw [hg] at hc
          by_cases h0 : h.ents.length = 0
          · simp [h0] at hc
          · simp only [if_neg h0, Option.map_some, Option.some.injEq] at hc
            simp only [hc, hashMetaValue]
            rw [wp_ofRes_bind, bin_roundtrip]
            simp [int64_toUInt64_toInt64, h0]
      rw [wp_bind]
      refine wp_mono hm ?_
      rintro r m' ⟨rfl, rfl⟩
      simp only
      apply wp_set_bind (.inl rfl)
      have hcount : (if h.ents.length = 0 then none else some (Int64.ofNat h.ents.length)).getD 0 + 1
          = Int64.ofNat (h.ents.length + 1) := by
        rw [Int64.ofNat_add]
        split
        · rename_i h0; rw [h0]; rfl
        · rfl
      refine .inr ⟨rfl, ⟨?_, ?_⟩, ?_, ?_⟩
      · intro f'
        simp only [OMap.get_set, hashMeta_ne_data, hashDataKey_inj, if_false]
        split
        · rfl
        · exact hr.data f'
      · simp only [OMap.get_set, if_true, hlen, hcount, Option.map_some]
        rw [if_neg (by omega)]
      · exact (SameBut.set (.inr ⟨f, rfl⟩)).trans (SameBut.set (.inl rfl))
      · exact fun hc => (hc.set (kind_hdata _ _ _)).set (kind_hmeta _ _)

theorem updateHash_err {β : Type} {env : Env} {pfx key f : Bytes} {fn : Option Bytes → Res (Bytes × β)}
    {h : OMap Bytes} {m : DB} {e : Err} (hr : HashRep pfx key h m)
    (hfn : fn ((h.get f).bind nilIfEmpty) = .err e) (Q : Res β → DB → Prop) (hQ : Q (.err e) m) :
    (updateHash pfx key f fn).wp env m Q := by
  unfold updateHash
  apply wp_getOpt_bind (hashDataKey_ne _ _ _)
  have hd := hr.data f
  have hbind : ((m.get (hashDataKey pfx key f)).bind fun v => nilIfEmpty v.value) =
      (h.get f).bind nilIfEmpty := by
    rw [← hd]; cases m.get (hashDataKey pfx key f) <;> rfl
  simp only [hbind]
  rw [wp_ofRes_bind, hfn]
  exact hQ

/-- HSet of an empty value on a missing field changes nothing. -/
theorem hset_empty_missing {env : Env} {pfx key f : Bytes} {h : OMap Bytes} {m : DB}
    (hr : HashRep pfx key h m) (hm : h.get f = none) :
    (hset pfx key f []).wp env m (fun r m' => r = .ok () ∧ m' = m) := by
  unfold hset updateHash
  apply wp_getOpt_bind (hashDataKey_ne _ _ _)
  have hd := hr.data f
  rw [hm] at hd
  have : m.get (hashDataKey pfx key f) = none := by
    cases hg : m.get (hashDataKey pfx key f) with
    | none => rfl
    | some v => rw [hg] at hd; simp at hd
  rw [this, wp_ofRes_bind]
  simp

theorem format_ne_nil (v : Int64) : Numeric.formatInt v ≠ [] := by
  intro h
  have := Numeric.parse_format v
  rw [h] at this
  simp [Numeric.parseInt] at this

theorem parseDigits_no_panic (ds : Bytes) (n : Nat) : Numeric.parseDigits ds n ≠ .panic := by
  induction ds generalizing n with
  | nil => simp [Numeric.parseDigits]
  | cons c r ih =>
    unfold Numeric.parseDigits
    simp only
    split
    · split
      · simp
      · exact ih _
    · simp

theorem parseInt_no_panic (b : Bytes) : Numeric.parseInt b ≠ .panic := by
  cases b with
  | nil => simp [Numeric.parseInt]
  | cons c rest =>
    intro h
    unfold Numeric.parseInt at h
    simp only at h
    generalize (if (c == 43 || c == 45) = true then rest else c :: rest) = ds at h
    by_cases hds : ds = []
    · simp [hds] at h
    · rw [if_neg hds] at h
      cases hp : Numeric.parseDigits ds 0 with
      | ok un =>
        rw [hp] at h
        simp only at h
        split at h
        · cases h
        · split at h <;> cases h
      | err e => rw [hp] at h; cases h
      | panic => exact parseDigits_no_panic _ _ hp

theorem hinc_spec {env : Env} {pfx key f : Bytes} {step : Int64} {h : OMap Bytes} {m : DB}
    (hr : HashRep pfx key h m) :
    (hinc pfx key f step).wp env m (Post env (HW pfx key (· = f)) (fun r m' =>
      match fieldInt h f with
      | .ok n => r = .ok (n + step) ∧ HashEff pfx key m (h.set f (textOf (n + step))) m'
      | .err e => r = .err e ∧ m' = m
      | .panic => False)) := by
  have hval := parseInt_no_panic
  -- the closure on the old value
  have key' : ∀ r, fieldInt h f = r → (match r with
      | .ok n => (fun old : Option Bytes => (do
          let n ← match old with
            | some b => Numeric.decodeFromHuman (some b)
            | none => .ok 0
          let n := n + step
          .ok (Numeric.encode2Human n, n) : Res (Bytes × Int64))) ((h.get f).bind nilIfEmpty)
            = .ok (textOf (n + step), n + step)
      | .err e => (fun old : Option Bytes => (do
          let n ← match old with
            | some b => Numeric.decodeFromHuman (some b)
            | none => .ok 0
          let n := n + step
          .ok (Numeric.encode2Human n, n) : Res (Bytes × Int64))) ((h.get f).bind nilIfEmpty) = .err e
      | .panic => False) := by
    intro r hrr
    unfold fieldInt at hrr
    cases hg : h.get f with
    | none => rw [hg] at hrr; subst hrr; simp [textOf, Numeric.encode2Human]
    | some b =>
      rw [hg] at hrr
      by_cases hb : b = []
      · simp only [hb, if_true] at hrr; subst hrr; simp [hb, nilIfEmpty, textOf, Numeric.encode2Human]
      · simp only [hb, if_false] at hrr
        subst hrr
        cases hp : Numeric.parseInt b with
        | ok n => simp [hb, nilIfEmpty, Numeric.decodeFromHuman, hp, textOf, Numeric.encode2Human]
        | err e => simp [hb, nilIfEmpty, Numeric.decodeFromHuman, hp]
        | panic => exact hval b hp
  have := key' _ rfl
  cases hfi : fieldInt h f with
  | ok n =>
    rw [hfi] at this
    exact updateHash_ok hr this (.inl (format_ne_nil _))
  | err e =>
    rw [hfi] at this
    exact updateHash_err hr this _ (.inr ⟨rfl, rfl⟩)
  | panic => rw [hfi] at this; exact this.elim

theorem hget_spec {env : Env} {pfx key f : Bytes} {h : OMap Bytes} {m : DB}
    (hr : HashRep pfx key h m) :
    (hget pfx key f).wp env m (fun r m' => m' = m ∧ r = match h.get f with
      | some v => .ok v
      | none => .err .keyNotFound) := by
  unfold hget
  have hd := hr.data f
  cases hg : m.get (hashDataKey pfx key f) with
  | none =>
    rw [hg] at hd
    apply wp_getK_bind_none (hashDataKey_ne _ _ _) hg
    rw [← hd]; exact ⟨rfl, rfl⟩
  | some v =>
    rw [hg] at hd
    apply wp_getK_bind (hashDataKey_ne _ _ _) hg
    rw [← hd]; exact ⟨rfl, rfl⟩

theorem hlen_spec {env : Env} {pfx key : Bytes} {h : OMap Bytes} {m : DB}
    (hr : HashRep pfx key h m) :
    (hlen pfx key).wp env m (fun r m' => m' = m ∧ r = .ok (Int64.ofNat h.ents.length)) := by
  unfold hlen
  apply loadHashMeta_spec hr
  refine ⟨rfl, ?_⟩
  by_cases h0 : h.ents.length = 0 <;> simp [h0]

theorem ofNat_sub_one (n : Nat) : Int64.ofNat (n + 1) - 1 = Int64.ofNat n := by
  rw [Int64.ofNat_add]; simp

theorem isEmpty_iff (n : Nat) (h : n < 2 ^ 63) : hashMetaIsEmpty (Int64.ofNat n) = true ↔ n = 0 := by
  unfold hashMetaIsEmpty
  rw [decide_eq_true_iff, Int64.le_iff_toInt_le, Int64.toInt_ofNat_of_lt h]
  simp

theorem hdelLoop_spec {env : Env} {pfx key : Bytes} (F : Bytes → Prop) (fs : List Bytes)
    (hF : ∀ f ∈ fs, F f) (h : OMap Bytes) (m : DB)
    (hd : ∀ f, (m.get (hashDataKey pfx key f)).map Val.value = h.get f)
    (Q : Res Int64 → DB → Prop)
    (hQ : ∀ m', (∀ f, (m'.get (hashDataKey pfx key f)).map Val.value = (fs.foldl OMap.del h).get f) →
      SameBut (fun k => ∃ f, k = hashDataKey pfx key f) m m' → (Clean pfx m → Clean pfx m') →
      Q (.ok (Int64.ofNat (fs.foldl OMap.del h).ents.length)) m') :
    (hdelLoop pfx key fs (Int64.ofNat h.ents.length)).wp env m
      (Post env (HW pfx key F) Q) := by
  induction fs generalizing h m with
  | nil => exact .inr (hQ m hd (SameBut.refl _ _) id)
  | cons f fs ih =>
    unfold hdelLoop
    apply wp_getOpt_bind (hashDataKey_ne _ _ _)
    have hdf := hd f
    cases hg : m.get (hashDataKey pfx key f) with
    | none =>
      rw [hg] at hdf
      have he : h.del f = h := by
        ext1 j; rw [OMap.get_del]; split
        · rename_i e; rw [← e, ← hdf]; rfl
        · rfl
      refine ih (fun f hf => hF f (by simp [hf])) h m hd ?_
      intro m' h1 h2 h3
      have := hQ m'
      simp only [List.foldl_cons, he] at this
      exact this h1 h2 h3
    | some v =>
      rw [hg] at hdf
      apply wp_del_bind (.inr ⟨f, hF f (by simp), rfl⟩)
      have hl : h.ents.length = (h.del f).ents.length + 1 := by
        have := OMap.length_del h f
        rw [← hdf] at this; simpa using this.symm
      rw [hl, ofNat_sub_one]
      refine ih (fun f hf => hF f (by simp [hf])) (h.del f) _ ?_ ?_
      · intro f'
        simp only [OMap.get_del, hashDataKey_inj]
        split
        · rfl
        · exact hd f'
      · intro m' h1 h2 h3
        exact hQ m' h1 ((SameBut.del ⟨f, rfl⟩).trans h2) (fun hc => h3 hc.del)

theorem foldl_del_empty (fs : List Bytes) : fs.foldl OMap.del (OMap.empty : OMap Bytes) = OMap.empty := by
  induction fs with
  | nil => rfl
  | cons f fs ih =>
    have : (OMap.empty : OMap Bytes).del f = OMap.empty := by
      ext1 k; rw [OMap.get_del]; split <;> simp
    simpa [this] using ih

theorem omap_empty_of_length {h : OMap Bytes} (h0 : h.ents.length = 0) : h = OMap.empty := by
  ext1 k; simpa using (OMap.length_eq_zero_iff h).mp h0 k

theorem foldl_del_length (fs : List Bytes) (h : OMap Bytes) :
    (fs.foldl OMap.del h).ents.length ≤ h.ents.length := by
  induction fs generalizing h with
  | nil => exact Nat.le_refl _
  | cons f fs ih =>
    have := OMap.length_del h f
    have := ih (h.del f)
    simp only [List.foldl_cons]
    omega

theorem hdel_spec {env : Env} {pfx key : Bytes} (fs : List Bytes) {h : OMap Bytes} {m : DB}
    (hr : HashRep pfx key h m) (hb : h.ents.length < 2 ^ 63) :
    (hdel pfx key fs).wp env m (Post env (HW pfx key (· ∈ fs)) (fun r m' =>
      r = .ok () ∧ HashEff pfx key m (fs.foldl OMap.del h) m')) := by
  unfold hdel
  apply loadHashMeta_spec hr
  by_cases h0 : h.ents.length = 0
  · rw [if_pos h0, omap_empty_of_length h0, foldl_del_empty]
    refine .inr ⟨rfl, ?_⟩
    rw [← omap_empty_of_length h0]; exact HashEff.refl hr
  · rw [if_neg h0]
    simp only
    rw [wp_bind]
    refine wp_mono (hdelLoop_spec (· ∈ fs) fs (fun _ h => h) h m hr.data
      (fun r m' => r = .ok (Int64.ofNat (fs.foldl OMap.del h).ents.length) ∧
        (∀ f, (m'.get (hashDataKey pfx key f)).map Val.value = (fs.foldl OMap.del h).get f) ∧
        SameBut (fun k => ∃ f, k = hashDataKey pfx key f) m m' ∧ (Clean pfx m → Clean pfx m'))
      (fun m' h1 h2 h3 => ⟨rfl, h1, h2, h3⟩)) ?_
    rintro r m' (⟨k, e, hk, he, rfl⟩ | ⟨rfl, h1, h2, h3⟩)
    · exact .inl ⟨k, e, hk, he, rfl⟩
    · simp only
      have hlen := foldl_del_length fs h
      have hs : SameBut (HKey pfx key) m m' := fun k hk => h2 k (fun ⟨f, hf⟩ => hk (.inr ⟨f, hf⟩))
      by_cases he : (fs.foldl OMap.del h).ents.length = 0
      · rw [if_pos ((isEmpty_iff _ (by omega)).mpr he)]
        apply wp_del_last (.inl rfl)
        refine ⟨rfl, ⟨?_, ?_⟩, hs.trans (SameBut.del (.inl rfl)), fun hc => (h3 hc).del⟩
        · intro f; simp only [OMap.get_del, hashMeta_ne_data, if_false]; exact h1 f
        · simp [he]
      · rw [if_neg (by rw [isEmpty_iff _ (by omega)]; exact he)]
        apply wp_set_last (.inl rfl)
        refine ⟨rfl, ⟨?_, ?_⟩, hs.trans (SameBut.set (.inl rfl)), fun hc => (h3 hc).set (kind_hmeta _ _)⟩
        · intro f; simp only [OMap.get_set, hashMeta_ne_data, if_false]; exact h1 f
        · simp [he]

/-! ### enumeration -/

theorem decodeHashDataKey_enc (pfx key f : Bytes) :
    decodeHashDataKey pfx (hashDataKey pfx key f) = .ok (key, f) := by
  unfold decodeHashDataKey
  have hp : Key.hasPrefix (hashDataKey pfx key f) pfx = true := by
    rw [Key.hasPrefix_iff]; rw [hashDataKey_eq]; exact ⟨_, rfl⟩
  simp only [hp, Bool.not_true, Bool.false_eq_true, if_false]
  have hd : (hashDataKey pfx key f).drop pfx.length = encodeGroups key ++ 104 :: encodeGroups f := by
    rw [hashDataKey_eq, skey]; simp
  rw [hd]
  have h1 : decodeBytes (encodeGroups key ++ 104 :: encodeGroups f) =
      .ok (104 :: encodeGroups f, key) := by
    have := decodeLoop_encode key [] (104 :: encodeGroups f)
    simpa [decodeBytes] using this
  have h2 : decodeBytes (encodeGroups f) = .ok ([], f) := by
    have := decodeLoop_encode f [] []
    simpa [decodeBytes] using this
  simp [h1, h2, decodeUint8, HashData]

theorem hasPrefix_data (pfx key f : Bytes) :
    Key.hasPrefix (hashDataKey pfx key f) (hashDataKeyPrefix pfx key) = true := by
  rw [Key.hasPrefix_iff]
  refine ⟨encodeGroups f, ?_⟩
  simp [hashDataKey_eq, hashDataKeyPrefix_eq, skey]

theorem data_of_prefix {pfx key k : Bytes} {m : DB} {v : Val} (hc : Clean pfx m)
    (hg : m.get k = some v) (hp : Key.hasPrefix k (hashDataKeyPrefix pfx key) = true) :
    ∃ f, k = hashDataKey pfx key f := by
  obtain ⟨t, rfl⟩ := (Key.hasPrefix_iff _ _).mp hp
  have e : hashDataKeyPrefix pfx key ++ t = skey pfx key 104 t := by
    simp [hashDataKeyPrefix_eq, skey]
  rw [e] at hg ⊢
  rcases hc key _ v hg ⟨104 :: t, by simp [skey]⟩ with h | h | ⟨f, h⟩ | h | ⟨i, h⟩
  · rw [stringDataKey_eq, skey_inj] at h; simp at h
  · rw [hashMetaKey_eq, skey_inj] at h; simp at h
  · exact ⟨f, h⟩
  · rw [listMetaKey_eq, skey_inj] at h; simp at h
  · rw [listDataKey_eq, skey_inj] at h; simp at h

/-- Decode one stored entry. -/
def decEnt (pfx : Bytes) (e : Bytes × Val) : Bytes × Bytes :=
  match decodeHashDataKey pfx e.1 with
  | .ok (_, f) => (f, e.2.value)
  | _ => ([], [])

theorem collectHash_takeWhile (pfx dp : Bytes) (l : List (Bytes × Val)) (lim : Option Nat) :
    collectHash pfx dp l lim =
      collectHash pfx dp (l.takeWhile (fun e => Key.hasPrefix e.1 dp)) lim := by
  induction l generalizing lim with
  | nil => rfl
  | cons a l ih =>
    obtain ⟨k, v⟩ := a
    cases hp : Key.hasPrefix k dp with
    | false => simp [collectHash, hp]
    | true =>
      simp only [List.takeWhile_cons, hp, if_true]
      unfold collectHash
      simp only [hp]
      cases decodeHashDataKey pfx k with
      | ok x =>
        simp only
        match lim with
        | none => simp only [ih none]
        | some 0 => rfl
        | some 1 => rfl
        | some (n + 2) => simp only [ih (some (n + 1))]
      | err e => rfl
      | panic => rfl

theorem collectHash_all (pfx key : Bytes) (l : List (Bytes × Val))
    (h : ∀ e ∈ l, ∃ f, e.1 = hashDataKey pfx key f) :
    collectHash pfx (hashDataKeyPrefix pfx key) l none = .ok (l.map (decEnt pfx)) ∧
    ∀ n, collectHash pfx (hashDataKeyPrefix pfx key) l (some (n + 1)) =
      .ok ((l.map (decEnt pfx)).take (n + 1)) := by
  induction l with
  | nil => exact ⟨rfl, fun n => by simp [collectHash]⟩
  | cons a l ih =>
    obtain ⟨k, v⟩ := a
    have ih := ih (fun e he => h e (by simp [he]))
    obtain ⟨f, hf⟩ := h (k, v) (by simp)
    simp only at hf; subst hf
    constructor
    · unfold collectHash
      simp only [hasPrefix_data, decodeHashDataKey_enc, ih.1]
      simp [Res.map', decEnt, decodeHashDataKey_enc]
    · intro n
      unfold collectHash
      simp only [hasPrefix_data, decodeHashDataKey_enc]
      cases n with
      | zero => simp [decEnt, decodeHashDataKey_enc]
      | succ n =>
        simp only [ih.2 n]
        simp [Res.map', decEnt, decodeHashDataKey_enc]

theorem hashDataKey_lt (pfx key f f' : Bytes) :
    f < f' → hashDataKey pfx key f < hashDataKey pfx key f' := by
  intro h
  have := (encodeGroups_before f f' h).lt [] []
  simp only [List.append_nil] at this
  simp only [hashDataKey_eq, skey, Lex.append_lt_append_left, Lex.cons_lt_cons]
  exact .inr ⟨trivial, this⟩

theorem hashDataKey_lt_iff (pfx key f f' : Bytes) :
    hashDataKey pfx key f < hashDataKey pfx key f' ↔ f < f' := by
  constructor
  · intro h
    rcases Lex.trichotomy f f' with h' | rfl | h'
    · exact h'
    · exact absurd h (Lex.irrefl _)
    · exact absurd (hashDataKey_lt pfx key _ _ h') (Lex.asymm h)
  · exact hashDataKey_lt pfx key f f'

/-- The entries under the data prefix decode to exactly the abstract entries, in order. -/
theorem dec_ents {pfx key : Bytes} {h : OMap Bytes} {m : DB} (hr : HashRep pfx key h m)
    (hc : Clean pfx m) :
    (m.ents.filter (fun e => Key.hasPrefix e.1 (hashDataKeyPrefix pfx key))).map (decEnt pfx) =
      h.ents := by
  have hall : ∀ e ∈ m.ents.filter (fun e => Key.hasPrefix e.1 (hashDataKeyPrefix pfx key)),
      ∃ f, e.1 = hashDataKey pfx key f ∧ decEnt pfx e = (f, e.2.value) := by
    intro e he
    rw [List.mem_filter] at he
    obtain ⟨f, hf⟩ := data_of_prefix hc (OMap.mem_get (k := e.1) (v := e.2) he.1) he.2
    exact ⟨f, hf, by simp [decEnt, hf, decodeHashDataKey_enc]⟩
  have hsorted : ((m.ents.filter (fun e => Key.hasPrefix e.1 (hashDataKeyPrefix pfx key))).map
      (decEnt pfx)).Pairwise (fun a b => a.1 < b.1) := by
    rw [List.pairwise_map]
    refine List.Pairwise.imp_of_mem ?_ (m.sorted.filter _)
    intro a b ha hb hab
    obtain ⟨f, h1, h2⟩ := hall a ha
    obtain ⟨f', h1', h2'⟩ := hall b hb
    rw [h2, h2']
    rw [h1, h1'] at hab
    exact (hashDataKey_lt_iff _ _ _ _).mp hab
  have heq : (⟨_, hsorted⟩ : OMap Bytes) = h := by
    ext1 f
    apply Option.ext
    intro v
    rw [OMap.get_eq_some_iff, ← hr.data f]
    constructor
    · intro hm
      obtain ⟨e, he, hde⟩ := List.mem_map.mp hm
      obtain ⟨f', h1, h2⟩ := hall e he
      rw [h2] at hde
      simp only [Prod.mk.injEq] at hde
      have := OMap.mem_get (k := e.1) (v := e.2) (List.mem_filter.mp he).1
      rw [h1, hde.1] at this
      simp [this, hde.2]
    · intro hm
      cases hg : m.get (hashDataKey pfx key f) with
      | none => rw [hg] at hm; simp at hm
      | some w =>
        rw [hg] at hm; simp at hm
        refine List.mem_map.mpr ⟨(hashDataKey pfx key f, w), ?_, ?_⟩
        · exact List.mem_filter.mpr ⟨(OMap.get_eq_some_iff _ _ _).mp hg, hasPrefix_data _ _ _⟩
        · simp [decEnt, decodeHashDataKey_enc, hm]
  exact congrArg OMap.ents heq

theorem iterateHash_spec {env : Env} {pfx key : Bytes} {h : OMap Bytes} {m : DB}
    (hr : HashRep pfx key h m) (hc : Clean pfx m) (lim : Option Nat) (hl : lim ≠ some 0) :
    (iterateHash pfx key lim).wp env m (fun r m' => m' = m ∧
      r = .ok (match lim with | none => h.ents | some n => h.ents.take n)) := by
  unfold iterateHash
  rw [wp_bind, wp_scanK]
  have := Scan.iterate_forward (prune := env.prune) m.sorted (hashDataKeyPrefix pfx key) [] (.inl rfl)
  simp only
  rw [this]
  have hf : (m.ents.filter fun e => Key.hasPrefix e.1 (hashDataKeyPrefix pfx key) && decide ([] ≤ e.1)) =
      m.ents.filter (fun e => Key.hasPrefix e.1 (hashDataKeyPrefix pfx key)) := by
    apply List.filter_congr; intro e _
    simp [List.nil_le]
  rw [hf, wp_ofRes]
  refine ⟨rfl, ?_⟩
  have hall : ∀ e ∈ m.ents.filter (fun e => Key.hasPrefix e.1 (hashDataKeyPrefix pfx key)),
      ∃ f, e.1 = hashDataKey pfx key f := by
    intro e he
    rw [List.mem_filter] at he
    exact data_of_prefix hc (OMap.mem_get (k := e.1) (v := e.2) he.1) he.2
  have hcol := collectHash_all pfx key _ hall
  rw [dec_ents hr hc] at hcol
  match lim with
  | none => exact hcol.1
  | some 0 => exact absurd rfl hl
  | some (n + 1) => exact hcol.2 n

theorem prefixNext_data (pfx key : Bytes) :
    Key.prefixNext (hashDataKeyPrefix pfx key) = skey pfx key 105 [] := by
  rw [hashDataKeyPrefix_eq, skey, skey, ← List.append_assoc]
  have := Key.prefixNext_split (pfx ++ encodeGroups key) 104 0 (by decide)
  simpa using this

theorem iterateReverseHash_spec {env : Env} {pfx key : Bytes} {h : OMap Bytes} {m : DB}
    (hr : HashRep pfx key h m) (hc : Clean pfx m) (n : Nat) :
    (iterateReverseHash pfx key (some (n + 1))).wp env m (fun r m' => m' = m ∧
      r = .ok (h.ents.reverse.take (n + 1))) := by
  unfold iterateReverseHash
  rw [wp_bind, wp_scanK]
  have := Scan.iterate_reverse_noprefix (prune := env.prune) m.sorted
    (Key.prefixNext (hashDataKeyPrefix pfx key)) (by rw [prefixNext_data]; exact skey_ne_nil _ _ _ _)
  simp only
  rw [this, wp_ofRes]
  refine ⟨rfl, ?_⟩
  rw [collectHash_takeWhile]
  have hsorted : ((m.ents.filter (fun e =>
      decide (e.1 ≤ Key.prefixNext (hashDataKeyPrefix pfx key)))).reverse).Pairwise
      (fun a b => b.1 < a.1) := List.pairwise_reverse.mpr (m.sorted.filter _)
  rw [Scan.takeWhile_eq_filter hsorted]
  · have hfil : ((m.ents.filter (fun e =>
        decide (e.1 ≤ Key.prefixNext (hashDataKeyPrefix pfx key)))).reverse).filter
          (fun e => Key.hasPrefix e.1 (hashDataKeyPrefix pfx key)) =
        (m.ents.filter (fun e => Key.hasPrefix e.1 (hashDataKeyPrefix pfx key))).reverse := by
      rw [← List.filter_reverse, ← List.filter_reverse, List.filter_filter]
      apply List.filter_congr
      intro e _
      cases hp : Key.hasPrefix e.1 (hashDataKeyPrefix pfx key) with
      | false => rfl
      | true =>
        obtain ⟨t, ht⟩ := (Key.hasPrefix_iff _ _).mp hp
        have : e.1 < Key.prefixNext (hashDataKeyPrefix pfx key) := by
          rw [ht, prefixNext_data, hashDataKeyPrefix_eq]
          simp only [skey, List.append_assoc, List.cons_append, Lex.append_lt_append_left,
            Lex.cons_lt_cons]
          exact .inl (by decide)
        simp [List.le_of_lt this]
    rw [hfil]
    have hall : ∀ e ∈ (m.ents.filter (fun e =>
        Key.hasPrefix e.1 (hashDataKeyPrefix pfx key))).reverse,
        ∃ f, e.1 = hashDataKey pfx key f := by
      intro e he
      rw [List.mem_reverse, List.mem_filter] at he
      exact data_of_prefix hc (OMap.mem_get (k := e.1) (v := e.2) he.1) he.2
    have hcol := (collectHash_all pfx key _ hall).2 n
    rw [List.map_reverse, dec_ents hr hc] at hcol
    exact hcol
  · intro a ha b hb hab hpb
    rw [List.mem_reverse, List.mem_filter] at ha
    simp only [decide_eq_true_eq] at ha
    have hne : a.1 ≠ Key.prefixNext (hashDataKeyPrefix pfx key) := by
      intro e
      have hg := OMap.mem_get (k := a.1) (v := a.2) ha.1
      rw [e, prefixNext_data] at hg
      rcases hc key _ _ hg ⟨[105], by simp [skey]⟩ with h | h | ⟨f, h⟩ | h | ⟨i, h⟩
      · rw [stringDataKey_eq, skey_inj] at h; simp at h
      · rw [hashMetaKey_eq, skey_inj] at h; simp at h
      · rw [hashDataKey_eq, skey_inj] at h; simp at h
      · rw [listMetaKey_eq, skey_inj] at h; simp at h
      · rw [listDataKey_eq, skey_inj] at h; simp at h
    obtain ⟨t, ht⟩ := (Key.hasPrefix_iff _ _).mp hpb
    -- a.1 lies in [prefix, prefixNext)
    have hlt : a.1 < Key.prefixNext (hashDataKeyPrefix pfx key) := by
      rcases Lex.trichotomy a.1 (Key.prefixNext (hashDataKeyPrefix pfx key)) with h | h | h
      · exact h
      · exact absurd h hne
      · exact absurd ha.2 (List.not_le.mpr h)
    have hge : hashDataKeyPrefix pfx key ≤ a.1 :=
      List.le_trans (Scan.le_of_hasPrefix hpb) (List.le_of_lt hab)
    -- exactness of PrefixNext for a last byte other than 0xFF
    have key_lemma : ∀ (q x : Bytes), q ++ [104] ≤ x → x < q ++ [105] →
        Key.hasPrefix x (q ++ [104]) = true := by
      intro q x h1 h2
      rw [Key.hasPrefix_iff]
      induction q generalizing x with
      | nil =>
        cases x with
        | nil => exact absurd (List.nil_lt_cons _ _) (List.not_lt.mpr h1)
        | cons c x =>
          simp only [List.nil_append, Lex.cons_lt_cons] at h2
          rcases h2 with h2 | ⟨_, h2⟩
          · have : ¬ c < 104 := by
              intro hc; exact absurd (Lex.cons_lt_cons.mpr (.inl hc)) (List.not_lt.mpr h1)
            have : c = 104 := by
              apply UInt8.toNat_inj.mp
              rw [UInt8.lt_iff_toNat_lt] at *
              simp at *; omega
            exact ⟨x, by simp [this]⟩
          · exact absurd h2 (List.not_lt_nil _)
      | cons d q ih =>
        cases x with
        | nil => exact absurd (List.nil_lt_cons _ _) (List.not_lt.mpr h1)
        | cons c x =>
          simp only [List.cons_append, Lex.cons_lt_cons] at h2
          rw [← List.not_lt] at h1
          rcases h2 with h2 | ⟨rfl, h2⟩
          · exact absurd (Lex.cons_lt_cons.mpr (.inl h2)) h1
          · obtain ⟨t, ht⟩ := ih x (by
              rw [← List.not_lt]; intro h; exact h1 (Lex.cons_lt_cons.mpr (.inr ⟨rfl, h⟩))) h2
            exact ⟨t, by simp [ht]⟩
    have e1 : hashDataKeyPrefix pfx key = (pfx ++ encodeGroups key) ++ [104] := by
      simp [hashDataKeyPrefix_eq, skey]
    have e2 : Key.prefixNext (hashDataKeyPrefix pfx key) = (pfx ++ encodeGroups key) ++ [105] := by
      simp [prefixNext_data, skey]
    rw [e2] at hlt
    rw [e1] at hge ⊢
    exact key_lemma _ _ hge hlt

theorem hclearLoop_spec {env : Env} {pfx key : Bytes} (F : Bytes → Prop) (l : List (Bytes × Val))
    (hl : ∀ e ∈ l, ∃ f, F f ∧ e.1 = hashDataKey pfx key f) (m : DB) (Q : Res Unit → DB → Prop)
    (hQ : ∀ m', (∀ k, m'.get k = if k ∈ l.map Prod.fst then none else m.get k) →
      (Clean pfx m → Clean pfx m') → Q (.ok ()) m') :
    (hclearLoop pfx key (hashDataKeyPrefix pfx key) none l).wp env m
      (Post env (HW pfx key F) Q) := by
  induction l generalizing m with
  | nil => exact .inr (hQ m (by simp) id)
  | cons a l ih =>
    obtain ⟨k, v⟩ := a
    obtain ⟨f, hf, he⟩ := hl (k, v) (by simp)
    simp only at he; subst he
    unfold hclearLoop
    simp only [hasPrefix_data, Bool.not_true, Bool.false_eq_true, if_false]
    rw [decodeHashDataKey_enc]
    apply wp_del_bind (.inr ⟨f, hf, rfl⟩)
    refine ih (fun e he => hl e (by simp [he])) _ ?_
    intro m' h1 h2
    refine hQ m' ?_ (fun hc => h2 hc.del)
    intro k
    rw [h1 k]
    simp only [List.map_cons, List.mem_cons, OMap.get_del]
    by_cases hk : k ∈ l.map Prod.fst
    · simp [hk]
    · by_cases hk2 : hashDataKey pfx key f = k
      · simp [hk2]
      · have : ¬ k = hashDataKey pfx key f := fun e => hk2 e.symm
        simp [hk, hk2, this]

theorem hclear_spec {env : Env} {pfx key : Bytes} {h : OMap Bytes} {m : DB}
    (hr : HashRep pfx key h m) (hc : Clean pfx m) :
    (hclear pfx key).wp env m (Post env (HW pfx key (fun f => h.get f ≠ none)) (fun r m' =>
      r = .ok () ∧ HashEff pfx key m OMap.empty m' ∧
        ∀ k, HKey pfx key k → m'.get k = none)) := by
  unfold hclear
  apply loadHashMeta_andThen hr
  by_cases h0 : h.ents.length = 0
  · rw [if_pos h0]
    have he := omap_empty_of_length h0
    subst he
    refine .inr ⟨rfl, HashEff.refl hr, ?_⟩
    intro k hk
    rcases hk with rfl | ⟨f, rfl⟩
    · have := hr.count
      rw [if_pos h0] at this
      exact Option.map_eq_none_iff.mp this
    · have := hr.data f
      exact Option.map_eq_none_iff.mp this
  · rw [if_neg h0]
    simp only [hclearRest]
    rw [wp_bind, wp_scanK]
    simp only
    have hit := Scan.iterate_forward (prune := env.prune) m.sorted (hashDataKeyPrefix pfx key) []
      (.inl rfl)
    rw [hit]
    have hl : ∀ e ∈ m.ents.filter (fun e => Key.hasPrefix e.1 (hashDataKeyPrefix pfx key) &&
        decide ([] ≤ e.1)), ∃ f, h.get f ≠ none ∧ e.1 = hashDataKey pfx key f := by
      intro e he
      rw [List.mem_filter] at he
      simp only [Bool.and_eq_true] at he
      have hg := OMap.mem_get (k := e.1) (v := e.2) he.1
      obtain ⟨f, hf⟩ := data_of_prefix hc hg he.2.1
      refine ⟨f, ?_, hf⟩
      rw [← hr.data f, ← hf, hg]; simp
    rw [wp_bind]
    refine wp_mono (hclearLoop_spec _ _ hl m (fun r m' => r = .ok () ∧
      (∀ k, m'.get k = if k ∈ (m.ents.filter (fun e => Key.hasPrefix e.1 (hashDataKeyPrefix pfx key) &&
        decide ([] ≤ e.1))).map Prod.fst then none else m.get k) ∧ (Clean pfx m → Clean pfx m'))
      (fun m' h1 h2 => ⟨rfl, h1, h2⟩)) ?_
    rintro r m' (⟨k, e, hk, he, rfl⟩ | ⟨rfl, h1, h2⟩)
    · exact .inl ⟨k, e, hk, he, rfl⟩
    · simp only
      apply wp_del_last (.inl rfl)
      have hnone : ∀ f, m'.get (hashDataKey pfx key f) = none := by
        intro f
        rw [h1]
        split
        · rfl
        · rename_i hk
          cases hg : m.get (hashDataKey pfx key f) with
          | none => rfl
          | some v =>
            exfalso; apply hk
            refine List.mem_map.mpr ⟨(hashDataKey pfx key f, v), ?_, rfl⟩
            rw [List.mem_filter]
            exact ⟨(OMap.get_eq_some_iff _ _ _).mp hg, by simp [hasPrefix_data, List.nil_le]⟩
      have hall : ∀ k, HKey pfx key k → (m'.del (hashMetaKey pfx key)).get k = none := by
        intro k hk
        rcases hk with rfl | ⟨f, rfl⟩
        · simp
        · simp [hnone f]
      refine ⟨rfl, ⟨⟨?_, ?_⟩, ?_, fun hc => (h2 hc).del⟩, hall⟩
      · intro f; rw [hall _ (.inr ⟨f, rfl⟩)]; rfl
      · rw [hall _ (.inl rfl)]; rfl
      · refine SameBut.trans ?_ (SameBut.del (.inl rfl))
        intro k hk
        rw [h1, if_neg]
        intro hm
        obtain ⟨e, he, rfl⟩ := List.mem_map.mp hm
        obtain ⟨f, _, hf⟩ := hl e he
        exact hk (.inr ⟨f, hf⟩)

end Mondis.Structure
