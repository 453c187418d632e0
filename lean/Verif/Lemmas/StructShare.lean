import Verif.Spec.StructShare
import Verif.Lemmas.Util
import Verif.Lemmas.Scan
/-!
# Structures shared by concurrent transactions: lemmas
-/
namespace Mondis.Share
open Mondis.Spec Mondis.Structure Mondis.Props Mondis.Prog

/-! ### The number of fields is read before it is written -/

/-- Every key in `K` is read before it is written. -/
def GetFirst {α : Type} (K : Bytes → Prop) : (seen : Bytes → Prop) → Prog α → Prop
  | _, .done _ => True
  | s, .get k c => ∀ r, GetFirst K (fun j => s j ∨ j = k) (c r)
  | s, .set k _ _ c => (K k → s k) ∧ ∀ r, GetFirst K s (c r)
  | s, .del k c => (K k → s k) ∧ ∀ r, GetFirst K s (c r)
  | s, .scan _ c => ∀ l, GetFirst K s (c l)

theorem GetFirst.mono {α : Type} {K s s' : Bytes → Prop} {p : Prog α} (h : GetFirst K s p)
    (hs : ∀ k, s k → s' k) : GetFirst K s' p := by
  induction p generalizing s s' with
  | done r => trivial
  | get k c ih => exact fun r => ih r (h r) (fun j hj => hj.imp (hs j) id)
  | set k v m c ih => exact ⟨fun hk => hs _ (h.1 hk), fun r => ih r (h.2 r) hs⟩
  | del k c ih => exact ⟨fun hk => hs _ (h.1 hk), fun r => ih r (h.2 r) hs⟩
  | scan o c ih => exact fun l => ih l (h l) hs

theorem GetFirst.andThen {α β : Type} {K s : Bytes → Prop} {p : Prog α} {f : Res α → Prog β}
    (hp : GetFirst K s p) (hf : ∀ r, GetFirst K s (f r)) : GetFirst K s (p.andThen f) := by
  induction p generalizing s with
  | done r => exact hf r
  | get k c ih => exact fun r => ih r (hp r) (fun r => (hf r).mono (fun _ h => .inl h))
  | set k v m c ih => exact ⟨hp.1, fun r => ih r (hp.2 r) hf⟩
  | del k c ih => exact ⟨hp.1, fun r => ih r (hp.2 r) hf⟩
  | scan o c ih => exact fun l => ih l (hp l) hf

theorem GetFirst.bind {α β : Type} {K s : Bytes → Prop} {p : Prog α} {f : α → Prog β}
    (hp : GetFirst K s p) (hf : ∀ a, GetFirst K s (f a)) : GetFirst K s (p >>= f) := by
  refine GetFirst.andThen hp (fun r => ?_)
  cases r with
  | ok a => exact hf a
  | err e => trivial
  | panic => trivial

/-- A program whose writes avoid `K`. -/
theorem getFirst_of_writes {α : Type} {K s P : Bytes → Prop} {p : Prog α} (h : p.Writes P)
    (hP : ∀ k, P k → ¬ K k) : GetFirst K s p := by
  induction p generalizing s with
  | done r => trivial
  | get k c ih => exact fun r => ih r (h r)
  | set k v m c ih => exact ⟨fun hk => absurd hk (hP _ h.1), fun r => ih r (h.2.2 r)⟩
  | del k c ih => exact ⟨fun hk => absurd hk (hP _ h.1), fun r => ih r (h.2 r)⟩
  | scan o c ih => exact fun l => ih l (h l)

theorem getFirst_quiet {α : Type} {K s : Bytes → Prop} {p : Prog α} (h : p.Writes (fun _ => False)) :
    GetFirst K s p := getFirst_of_writes h (fun _ h => h.elim)

/-- After a program that begins by reading `k` and writes nothing. -/
theorem getFirst_after {α β : Type} {K s : Bytes → Prop} {k : Bytes} {c : Res Val → Prog α} {f : Res α → Prog β}
    (hc : (Prog.get k c).Writes (fun _ => False)) (hf : ∀ r, GetFirst K (fun j => s j ∨ j = k) (f r)) :
    GetFirst K s ((Prog.get k c).andThen f) :=
  fun r => (getFirst_quiet (hc r)).andThen hf

/-- The keys in `K` that were written were read. -/
def Read (K : Bytes → Prop) (t : Txn) : Prop := ∀ k, K k → k ∈ t.writes.map Prod.fst → k ∈ t.reads

theorem get_reads (t : Txn) (k : Bytes) (hk : k ≠ []) :
    (t.get k).2.reads = if k ∈ t.writes.map Prod.fst then t.reads else k :: t.reads := by
  unfold Txn.get
  simp only [if_neg hk]
  split <;> (try split) <;> (try split) <;> simp_all

theorem get_reads_sub (t : Txn) (k j : Bytes) (h : j ∈ t.reads) : j ∈ (t.get k).2.reads :=
  reads_subset (Prog.get k (fun _ => Prog.done (.ok ()))) t j h

theorem GetFirst.run {α : Type} {K s : Bytes → Prop} (hK : ∀ k, K k → k ≠ []) {p : Prog α} (hp : GetFirst K s p)
    {t : Txn} (h : Read K t) (hs : ∀ k, K k → s k → k ∈ t.reads) : Read K (p.run t).2 := by
  induction p generalizing s t with
  | done r => exact h
  | get k c ih =>
    simp only [Prog.run]
    refine ih _ (hp _) ?_ ?_
    · intro j hj hw
      rw [(t.get_snd k).2.2.1] at hw
      exact get_reads_sub t k j (h j hj hw)
    · intro j hj hsj
      rcases hsj with hsj | rfl
      · exact get_reads_sub t k j (hs j hj hsj)
      · rw [get_reads t j (hK j hj)]
        split
        · exact h j hj ‹_›
        · simp
  | set k v m c ih =>
    simp only [Prog.run]
    rcases t.modify_cases k (some (mkVal t.env.now v m)) with ⟨e, h1, h2, h3, h4, h5, h6⟩ | ⟨h0, h0', h1, h3, h4, h5, h6⟩
    · refine ih _ (hp.2 _) ?_ ?_
      · intro j hj; simp only [Txn.set, h5, h6]; exact h j hj
      · intro j hj hsj; simp only [Txn.set, h6]; exact hs j hj hsj
    · refine ih _ (hp.2 _) ?_ ?_
      · intro j hj; simp only [Txn.set, h5, h6, List.map_append, List.mem_append, List.map_cons, List.map_nil, List.mem_singleton]
        rintro (hw | rfl)
        · exact h j hj hw
        · exact hs _ hj (hp.1 hj)
      · intro j hj hsj; simp only [Txn.set, h6]; exact hs j hj hsj
  | del k c ih =>
    simp only [Prog.run]
    rcases t.modify_cases k none with ⟨e, h1, h2, h3, h4, h5, h6⟩ | ⟨h0, h0', h1, h3, h4, h5, h6⟩
    · refine ih _ (hp.2 _) ?_ ?_
      · intro j hj; simp only [Txn.delete, h5, h6]; exact h j hj
      · intro j hj hsj; simp only [Txn.delete, h6]; exact hs j hj hsj
    · refine ih _ (hp.2 _) ?_ ?_
      · intro j hj; simp only [Txn.delete, h5, h6, List.map_append, List.mem_append, List.map_cons, List.map_nil, List.mem_singleton]
        rintro (hw | rfl)
        · exact h j hj hw
        · exact hs _ hj (hp.1 hj)
      · intro j hj hsj; simp only [Txn.delete, h6]; exact hs j hj hsj
  | scan o c ih => exact ih _ (hp _) h hs

/-- The keys that hold the number of fields. -/
def Counts (pfx k : Bytes) : Prop := ∃ key, k = hashMetaKey pfx key

theorem counts_ne {pfx : Bytes} : ∀ k, Counts pfx k → k ≠ [] := by
  rintro k ⟨key, rfl⟩; exact hashMetaKey_ne _ _

theorem data_not_count {pfx key f : Bytes} : ¬ Counts pfx (hashDataKey pfx key f) := by
  rintro ⟨key', h⟩
  rw [hashDataKey_eq, hashMetaKey_eq, skey_inj] at h
  simp at h

theorem gf_load {β : Type} {K s : Bytes → Prop} {k : Bytes} {f : Res (Option Int64) → Prog β}
    (hf : ∀ r, GetFirst K (fun j => s j ∨ j = k) (f r)) : GetFirst K s ((loadHashMeta k).andThen f) :=
  getFirst_after (k := k) (loadHashMeta_writes (P := fun _ => False) k) hf

theorem gf_load_bind {β : Type} {K s : Bytes → Prop} {k : Bytes} {f : Option Int64 → Prog β}
    (hf : ∀ r, GetFirst K (fun j => s j ∨ j = k) (f r)) : GetFirst K s (loadHashMeta k >>= f) := by
  refine gf_load (fun r => ?_)
  cases r with
  | ok a => exact hf a
  | err e => trivial
  | panic => trivial

theorem gf_mapOut {α : Type} {K s : Bytes → Prop} {f : α → Out} {p : Prog α} (h : GetFirst K s p) :
    GetFirst K s (mapOut f p) := h.bind (fun _ => trivial)

theorem gf_updateHash {β : Type} {s : Bytes → Prop} {pfx : Bytes} (key f : Bytes) (fn : Option Bytes → Res (Bytes × β)) :
    GetFirst (Counts pfx) s (updateHash pfx key f fn) := by
  unfold updateHash
  refine (getFirst_quiet (writes_getOpt _)).bind (fun o => ?_)
  refine (getFirst_quiet (writes_ofRes _)).bind (fun b => ?_)
  simp only
  split
  · trivial
  · refine GetFirst.bind (p := setK _ _) ⟨fun h => absurd h data_not_count, fun _ => trivial⟩ (fun _ => ?_)
    split
    · trivial
    · refine gf_load_bind (fun r => ?_)
      refine GetFirst.bind (p := setK _ _) ⟨fun _ => .inr rfl, fun _ => trivial⟩ (fun _ => trivial)

theorem gf_hdelLoop {s : Bytes → Prop} {pfx : Bytes} (key : Bytes) (fs : List Bytes) (c : Int64) :
    GetFirst (Counts pfx) s (hdelLoop pfx key fs c) := by
  induction fs generalizing c with
  | nil => trivial
  | cons f fs ih =>
    unfold hdelLoop
    refine (getFirst_quiet (writes_getOpt _)).bind (fun o => ?_)
    cases o with
    | none => exact ih c
    | some v => exact GetFirst.bind (p := delK _) ⟨fun h => absurd h data_not_count, fun _ => trivial⟩ (fun _ => ih _)

theorem gf_hdel {s : Bytes → Prop} {pfx : Bytes} (key : Bytes) (fs : List Bytes) :
    GetFirst (Counts pfx) s (hdel pfx key fs) := by
  unfold hdel
  refine gf_load_bind (fun o => ?_)
  cases o with
  | none => trivial
  | some c =>
    refine (gf_hdelLoop _ _ _).bind (fun c => ?_)
    split
    · exact ⟨fun _ => .inr rfl, fun _ => trivial⟩
    · exact ⟨fun _ => .inr rfl, fun _ => trivial⟩

theorem gf_hclearLoop {s : Bytes → Prop} {pfx : Bytes} (key dp : Bytes) (st : Option Err) (l : List (Bytes × Val)) :
    GetFirst (Counts pfx) s (hclearLoop pfx key dp st l) := by
  induction l generalizing st with
  | nil => cases st <;> trivial
  | cons a l ih =>
    obtain ⟨k, v⟩ := a
    unfold hclearLoop
    split
    · cases st <;> trivial
    · split
      · trivial
      · trivial
      · exact GetFirst.bind (p := delK _) ⟨fun h => absurd h data_not_count, fun _ => trivial⟩ (fun _ => ih _)

theorem gf_hclear {s : Bytes → Prop} {pfx : Bytes} (key : Bytes) :
    GetFirst (Counts pfx) s (hclear pfx key) := by
  have hrest : ∀ st, GetFirst (Counts pfx) (fun j => s j ∨ j = hashMetaKey pfx key) (hclearRest pfx key st) := by
    intro st
    exact (getFirst_quiet (writes_scanK _)).bind (fun l =>
      (gf_hclearLoop _ _ _ _).bind (fun _ => ⟨fun _ => .inr rfl, fun _ => trivial⟩))
  unfold hclear
  refine gf_load (fun r => ?_)
  split
  · trivial
  · exact hrest _
  · exact hrest _
  · trivial

theorem skey_not_count {pfx key k : Bytes} (h : SKey pfx key k) : ¬ Counts pfx k := by
  rintro ⟨key', rfl⟩
  exact hkey_not_skey (.inl rfl) h

theorem lkey_not_count {pfx key k : Bytes} (h : LKey pfx key k) : ¬ Counts pfx k := by
  rintro ⟨key', rfl⟩
  exact hkey_not_lkey (.inl rfl) h

/-- Every operation that does not enumerate reads the number of fields before it writes it. -/
theorem gf_exec {pfx : Bytes} (o : SOp) (h : NoEnum o) (s : Bytes → Prop) : GetFirst (Counts pfx) s (exec pfx o) := by
  cases o with
  | hset k f v => exact gf_mapOut (gf_updateHash _ _ _)
  | hsetInt k f v => exact gf_mapOut (p := hset _ _ _ _) (gf_updateHash _ _ _)
  | hinc k f v => exact gf_mapOut (gf_updateHash _ _ _)
  | hdel k fs => exact gf_mapOut (gf_hdel _ _)
  | hclear k => exact gf_mapOut (gf_hclear _)
  | hget k f => exact gf_mapOut (getFirst_quiet ((writes_getK _).bind (fun _ => trivial)))
  | hgetInt k f =>
    refine gf_mapOut (getFirst_quiet ?_)
    unfold hgetInt64 hget
    exact ((writes_getK _).bind (fun _ => writes_pure _)).bind (fun _ => writes_ofRes _)
  | hlen k => exact gf_mapOut (getFirst_quiet ((loadHashMeta_writes _).bind (fun _ => trivial)))
  | hkeys k => exact h.elim
  | hgetN k n => exact h.elim
  | hgetAll k => exact h.elim
  | hgetNDesc k n => exact h.elim
  | set k v => exact getFirst_of_writes (exec_writes pfx (.set k v)) (fun _ => skey_not_count)
  | get k => exact getFirst_of_writes (exec_writes pfx (.get k)) (fun _ => skey_not_count)
  | clear k => exact getFirst_of_writes (exec_writes pfx (.clear k)) (fun _ => skey_not_count)
  | getInt k => exact getFirst_of_writes (exec_writes pfx (.getInt k)) (fun _ => skey_not_count)
  | setInt k v => exact getFirst_of_writes (exec_writes pfx (.setInt k v)) (fun _ => skey_not_count)
  | inc k v => exact getFirst_of_writes (exec_writes pfx (.inc k v)) (fun _ => skey_not_count)
  | lpush k v => exact getFirst_of_writes (exec_writes pfx (.lpush k v)) (fun _ => lkey_not_count)
  | rpush k v => exact getFirst_of_writes (exec_writes pfx (.rpush k v)) (fun _ => lkey_not_count)
  | lpop k => exact getFirst_of_writes (exec_writes pfx (.lpop k)) (fun _ => lkey_not_count)
  | rpop k => exact getFirst_of_writes (exec_writes pfx (.rpop k)) (fun _ => lkey_not_count)
  | llen k => exact getFirst_of_writes (exec_writes pfx (.llen k)) (fun _ => lkey_not_count)
  | lgetAll k => exact getFirst_of_writes (exec_writes pfx (.lgetAll k)) (fun _ => lkey_not_count)
  | lindex k i => exact getFirst_of_writes (exec_writes pfx (.lindex k i)) (fun _ => lkey_not_count)
  | lset k i v => exact getFirst_of_writes (exec_writes pfx (.lset k i v)) (fun _ => lkey_not_count)
  | lclear k => exact getFirst_of_writes (exec_writes pfx (.lclear k)) (fun _ => lkey_not_count)

/-! ### Which fields there are -/

/-- Both hold the same fields (not: the same values) in the hash under `key`. -/
def SameFields (pfx key : Bytes) (m m' : DB) : Prop :=
  ∀ k, Key.hasPrefix k (hashDataKeyPrefix pfx key) = true → (m.get k = none ↔ m'.get k = none)

theorem SameFields.refl (pfx key : Bytes) (m : DB) : SameFields pfx key m m := fun _ _ => Iff.rfl
theorem SameFields.trans {pfx key : Bytes} {a b c : DB} (h : SameFields pfx key a b) (h' : SameFields pfx key b c) :
    SameFields pfx key a c := fun k hk => (h k hk).trans (h' k hk)

theorem foldl_del_cases (fs : List Bytes) (h : OMap Bytes) :
    (∀ f, (fs.foldl OMap.del h).get f = none ↔ h.get f = none) ∨
      (fs.foldl OMap.del h).ents.length < h.ents.length := by
  induction fs generalizing h with
  | nil => exact .inl (fun _ => Iff.rfl)
  | cons g fs ih =>
    simp only [List.foldl_cons]
    have hl := OMap.length_del h g
    have hle := foldl_del_length fs (h.del g)
    by_cases hg : h.get g = none
    · have e : h.del g = h := by
        ext1 j
        rw [OMap.get_del]
        split
        · subst_vars; exact hg.symm
        · rfl
      rw [e]; exact ih h
    · right
      split at hl
      · omega
      · rename_i hs
        exact absurd (by simpa using hs) hg

/-- An operation changes the number of fields or leaves them as they are. -/
theorem fields_step (A : SState) (o : SOp) (key : Bytes) :
    (∀ f, ((o.step A).2 key).hash.get f = none ↔ (A key).hash.get f = none) ∨
      ((o.step A).2 key).hash.ents.length ≠ (A key).hash.ents.length := by
  by_cases hk : key ≠ o.key
  · left; intro f; simp only [SOp.step]; rw [upd_other _ _ hk]
  simp only [ne_eq, Decidable.not_not] at hk
  subst hk
  have hset : ∀ (g v : Bytes), (∀ f, ((A o.key).hash.set g v).get f = none ↔ (A o.key).hash.get f = none) ∨
      ((A o.key).hash.set g v).ents.length ≠ (A o.key).hash.ents.length := by
    intro g v
    have hl := OMap.length_set (A o.key).hash g v
    by_cases hg : (A o.key).hash.get g = none
    · right
      simp only [hg] at hl
      simp at hl
      omega
    · left; intro f
      rw [OMap.get_set]
      split
      · subst_vars; simp [hg]
      · rfl
  simp only [SOp.step, upd_same]
  cases o with
  | hset k g v => exact hset g v
  | hsetInt k g v => exact hset g _
  | hinc k g v =>
    simp only [SOp.sem]
    split
    · exact hset g _
    · exact .inl (fun _ => Iff.rfl)
    · exact .inl (fun _ => Iff.rfl)
  | hdel k fs => exact (foldl_del_cases fs _).imp id (fun h => by simp only [SOp.sem]; omega)
  | hclear k =>
    simp only [SOp.sem]
    by_cases h0 : (A k).hash.ents.length = 0
    · left; intro f
      simp [(OMap.length_eq_zero_iff _).mp h0 f, SOp.key]
    · right; exact fun h => h0 h.symm
  | inc k s => simp only [SOp.sem]; (repeat' split) <;> exact .inl (fun _ => Iff.rfl)
  | get k => simp only [SOp.sem]; split <;> exact .inl (fun _ => Iff.rfl)
  | getInt k => simp only [SOp.sem]; split <;> exact .inl (fun _ => Iff.rfl)
  | hget k g => simp only [SOp.sem]; split <;> exact .inl (fun _ => Iff.rfl)
  | hgetInt k g => simp only [SOp.sem]; split <;> exact .inl (fun _ => Iff.rfl)
  | lpop k => simp only [SOp.sem]; split <;> exact .inl (fun _ => Iff.rfl)
  | rpop k => simp only [SOp.sem]; split <;> exact .inl (fun _ => Iff.rfl)
  | lindex k g => simp only [SOp.sem]; (repeat' split) <;> exact .inl (fun _ => Iff.rfl)
  | lset k g v => simp only [SOp.sem]; split <;> exact .inl (fun _ => Iff.rfl)
  | _ => exact .inl (fun _ => Iff.rfl)

theorem metaValue_inj {m n : Nat} (hm : m < 2 ^ 63) (hn : n < 2 ^ 63)
    (h : hashMetaValue (Int64.ofNat m) = hashMetaValue (Int64.ofNat n)) : m = n := by
  have h1 := bin_roundtrip (Int64.ofNat m).toUInt64
  have h2 := bin_roundtrip (Int64.ofNat n).toUInt64
  simp only [hashMetaValue] at h
  rw [h, h2] at h1
  have h3 : (Int64.ofNat n).toUInt64 = (Int64.ofNat m).toUInt64 := by simpa using h1
  have h4 : Int64.ofNat n = Int64.ofNat m := by
    rw [← int64_toUInt64_toInt64 (Int64.ofNat n), h3, int64_toUInt64_toInt64]
  have h5 := congrArg Int64.toInt h4
  rw [Int64.toInt_ofNat_of_lt hn, Int64.toInt_ofNat_of_lt hm] at h5
  omega

/-- The number of fields that is stored. -/
theorem count_eq {pfx key : Bytes} {h h' : OMap Bytes} {m m' : DB} (hr : HashRep pfx key h m) (hr' : HashRep pfx key h' m')
    (hl : h.ents.length < 2 ^ 63) (hl' : h'.ents.length < 2 ^ 63)
    (he : m'.get (hashMetaKey pfx key) = m.get (hashMetaKey pfx key)) : h'.ents.length = h.ents.length := by
  have h1 := hr.count
  have h2 := hr'.count
  rw [he, h1] at h2
  by_cases a : h.ents.length = 0 <;> by_cases b : h'.ents.length = 0
  · omega
  · rw [if_pos a, if_neg b] at h2; cases h2
  · rw [if_neg a, if_pos b] at h2; cases h2
  · rw [if_neg a, if_neg b] at h2
    exact (metaValue_inj hl hl' (Option.some.inj h2)).symm

/-- Same fields in the specification, same fields stored. -/
theorem sameFields_of {pfx key : Bytes} {B B' : Int} {A A' : SState} {m m' : DB} (hr : Rep pfx B A m) (hr' : Rep pfx B' A' m')
    (h : ∀ f, (A' key).hash.get f = none ↔ (A key).hash.get f = none) : SameFields pfx key m m' := by
  have none_iff : ∀ {B : Int} {A : SState} {m : DB}, Rep pfx B A m → ∀ f,
      m.get (hashDataKey pfx key f) = none ↔ (A key).hash.get f = none := by
    intro B A m hr f
    rw [← (hr.hash key).data f]
    simp
  intro k hk
  by_cases hf : ∃ f, k = hashDataKey pfx key f
  · obtain ⟨f, rfl⟩ := hf
    rw [none_iff hr, none_iff hr', h]
  · have : ∀ {B : Int} {A : SState} {m : DB}, Rep pfx B A m → m.get k = none := by
      intro B A m hr
      cases hg : m.get k with
      | none => rfl
      | some v => exact absurd (data_of_prefix hr.clean hg hk) hf
    rw [this hr, this hr']

/-- A transaction keeps the fields of the hashes whose number of fields it does not write. -/
def Stays (pfx : Bytes) (D : DB) (t : Txn) : Prop :=
  ∀ key, hashMetaKey pfx key ∉ t.writes.map Prod.fst → SameFields pfx key D t.view

theorem stays_step {pfx : Bytes} {D : DB} {B B' : Int} {A A' : SState} {t t' : Txn} {ws : List (Bytes × Option Val)}
    {o : SOp} (hA : A' = (o.step A).2) (h : Holds pfx B A t) (h' : Holds pfx B' A' t') (hB : B < 2 ^ 63) (hB' : B' < 2 ^ 63)
    (hv : t.view = applyWrites D t.writes) (hv' : t'.view = applyWrites D t'.writes)
    (hw : t'.writes = t.writes ++ ws) (hs : Stays pfx D t) : Stays pfx D t' := by
  intro key hk
  rw [hw, List.map_append, List.mem_append, not_or] at hk
  refine (hs key hk.1).trans ?_
  have e : t'.view = applyWrites t.view ws := by
    rw [hv', hw, hv]; simp only [applyWrites, List.foldl_append]
  rcases fields_step A o key with hf | hf
  · exact sameFields_of h.raw h'.raw (by rw [hA]; exact hf)
  · exfalso
    apply hf
    rw [← hA]
    have b := h.raw.hbound key
    have b' := h'.raw.hbound key
    refine count_eq (h.raw.hash key) (h'.raw.hash key) (by omega) (by omega) ?_
    rw [e]
    exact get_applyWrites_of_not_mem hk.2

/-! ### The same transaction on two databases -/

/-- The same transaction, on `S` and on `D`. -/
structure Twin (S D : DB) (t t' : Txn) : Prop where
  env : t'.env = t.env
  writes : t'.writes = t.writes
  attempts : t'.attempts = t.attempts
  reads : t'.reads = t.reads
  view : t.view = applyWrites S t.writes
  view' : t'.view = applyWrites D t'.writes

theorem twin_run {α : Type} {S D : DB} {t t' : Txn} (p : Prog α) (hp : p.ScanFree) (h : Twin S D t t')
    (hr : ∀ k ∈ (p.run t).2.reads, S.get k = D.get k) :
    (p.run t').1 = (p.run t).1 ∧ Twin S D (p.run t).2 (p.run t').2 := by
  obtain ⟨h1, h2, h3, h4⟩ := replay_aux p hp t t' S D h.view h.view' h.env h.writes h.attempts h.reads hr
  exact ⟨h1, ⟨by rw [run_env, run_env, h.env], h2, h4, h3, run_view _ _ _ h.view, run_view _ _ _ h.view'⟩⟩

/-- Nothing under the prefix ever expires. -/
def NoTTL (pfx : Bytes) (m : DB) : Prop := ∀ k v, IsPrefixOf pfx k → m.get k = some v → v.expiresAt = 0

/-- What the transaction wrote never expires. -/
def Lasting (t : Txn) : Prop := ∀ k v, (k, some v) ∈ t.writes → v.expiresAt = 0

theorem noTTL_apply {pfx : Bytes} {m : DB} {ws : List (Bytes × Option Val)} (h : NoTTL pfx m)
    (hw : ∀ k v, (k, some v) ∈ ws → v.expiresAt = 0) : NoTTL pfx (applyWrites m ws) := by
  intro k v hk hg
  rcases get_applyWrites_cases hg with hg | hg
  · exact h k v hk hg
  · exact hw k v hg

theorem pairwise_keys {l : List (Bytes × Val)} (h : l.Pairwise (fun a b => a.1 < b.1)) :
    (l.map (fun e => (e.1, ()))).Pairwise (fun a b => a.1 < b.1) := List.pairwise_map.mpr h

/-- The keys a scan of the fields meets depend only on which fields there are. -/
theorem scan_keys {pfx key : Bytes} {t t' : Txn} (hn : NoTTL pfx t.view) (hn' : NoTTL pfx t'.view)
    (hs : SameFields pfx key t.view t'.view) :
    (t.scan { pfx := hashDataKeyPrefix pfx key }).map Prod.fst =
      (t'.scan { pfx := hashDataKeyPrefix pfx key }).map Prod.fst := by
  have hscan : ∀ t : Txn, t.scan { pfx := hashDataKeyPrefix pfx key } =
      (Txn.liveEnts t.env.now t.view).filter
        (fun e => Key.hasPrefix e.1 (hashDataKeyPrefix pfx key) && decide ([] ≤ e.1)) := by
    intro t
    exact Scan.iterate_forward (t.view.sorted.filter _) _ [] (.inl rfl)
  have hmem : ∀ (t : Txn), NoTTL pfx t.view → ∀ k,
      (k, ()) ∈ (t.scan { pfx := hashDataKeyPrefix pfx key }).map (fun e => (e.1, ())) ↔
        Key.hasPrefix k (hashDataKeyPrefix pfx key) = true ∧ t.view.get k ≠ none := by
    intro t hn k
    rw [hscan]
    simp only [List.mem_map, List.mem_filter, Txn.liveEnts, Bool.and_eq_true, decide_eq_true_eq, Prod.mk.injEq, and_true]
    constructor
    · rintro ⟨⟨j, v⟩, ⟨⟨hm, -⟩, hp, -⟩, rfl⟩
      refine ⟨hp, ?_⟩
      rw [OMap.mem_get hm]; simp
    · rintro ⟨hp, hne⟩
      cases hg : t.view.get k with
      | none => exact absurd hg hne
      | some v =>
        refine ⟨(k, v), ⟨⟨(OMap.get_eq_some_iff _ _ _).mp hg, ?_⟩, hp, List.nil_le _⟩, rfl⟩
        have hpk : IsPrefixOf pfx k := by
          obtain ⟨r, rfl⟩ := (Key.hasPrefix_iff _ _).mp hp
          rw [hashDataKeyPrefix_eq]
          exact ⟨Memcomparable.encodeGroups key ++ [104] ++ r, by simp [skey]⟩
        simp [Val.live, hn k v hpk hg]
  have hsorted : ∀ t : Txn, ((t.scan { pfx := hashDataKeyPrefix pfx key }).map (fun e => (e.1, ()))).Pairwise
      (fun a b => a.1 < b.1) := by
    intro t
    rw [hscan]
    exact pairwise_keys ((t.view.sorted.filter _).filter _)
  have := OMap.ents_eq (hsorted t) (hsorted t') (by
    rintro ⟨k, ⟨⟩⟩
    rw [hmem t hn, hmem t' hn']
    constructor
    · rintro ⟨hp, hne⟩; exact ⟨hp, fun h => hne ((hs k hp).mpr h)⟩
    · rintro ⟨hp, hne⟩; exact ⟨hp, fun h => hne ((hs k hp).mp h)⟩)
  have := congrArg (List.map Prod.fst) this
  simpa [List.map_map, Function.comp_def] using this

theorem hclearLoop_keys {pfx key dp : Bytes} (st : Option Err) (l l' : List (Bytes × Val))
    (h : l.map Prod.fst = l'.map Prod.fst) : hclearLoop pfx key dp st l = hclearLoop pfx key dp st l' := by
  induction l generalizing l' st with
  | nil => cases l' with
    | nil => rfl
    | cons b l' => cases h
  | cons a l ih =>
    cases l' with
    | nil => cases h
    | cons b l' =>
      obtain ⟨k, v⟩ := a
      obtain ⟨k', v'⟩ := b
      simp only [List.map_cons, List.cons.injEq] at h
      obtain ⟨rfl, h⟩ := h
      unfold hclearLoop
      split
      · rfl
      · split
        · rfl
        · rfl
        · rw [ih _ _ h]

theorem sf_hclearLoop {pfx key dp : Bytes} (st : Option Err) (l : List (Bytes × Val)) :
    (hclearLoop pfx key dp st l).ScanFree := by
  induction l generalizing st with
  | nil => cases st <;> trivial
  | cons a l ih =>
    obtain ⟨k, v⟩ := a
    unfold hclearLoop
    split
    · cases st <;> trivial
    · split
      · trivial
      · trivial
      · exact ScanFree.bind (sf_delK _) (fun _ => ih _)

theorem sameFields_apply {pfx key : Bytes} {S D : DB} (ws : List (Bytes × Option Val)) (h : SameFields pfx key S D) :
    SameFields pfx key (applyWrites S ws) (applyWrites D ws) := by
  intro k hk
  by_cases hm : k ∈ ws.map Prod.fst
  · rw [get_writes_congr (db := S) (db' := D) (.inl hm)]
  · rw [get_applyWrites_of_not_mem hm, get_applyWrites_of_not_mem hm]
    exact h k hk

/-- HClear, on two databases that agree on what it read and on which fields there are. -/
theorem twin_hclear {pfx key : Bytes} {S D : DB} {t t' : Txn} (h : Twin S D t t') (hl : Lasting t)
    (hn : NoTTL pfx S) (hn' : NoTTL pfx D) (hrd : Read (Counts pfx) t)
    (hr : ∀ k ∈ ((hclear pfx key).run t).2.reads, S.get k = D.get k)
    (hf : hashMetaKey pfx key ∈ ((hclear pfx key).run t).2.reads → SameFields pfx key S D) :
    ((hclear pfx key).run t').1 = ((hclear pfx key).run t).1 ∧
      Twin S D ((hclear pfx key).run t).2 ((hclear pfx key).run t').2 := by
  unfold hclear at hr hf ⊢
  rw [run_andThen] at hr hf
  rw [run_andThen, run_andThen]
  obtain ⟨e1, tw⟩ := twin_run (loadHashMeta (hashMetaKey pfx key)) (sf_loadHashMeta _) h
    (fun k hk => hr k (reads_subset _ _ _ hk))
  have hmeta : hashMetaKey pfx key ∈ ((loadHashMeta (hashMetaKey pfx key)).run t).2.reads := by
    show hashMetaKey pfx key ∈ (Prog.run (Prog.get (hashMetaKey pfx key) _) t).2.reads
    simp only [Prog.run]
    apply reads_subset
    rw [get_reads t _ (hashMetaKey_ne _ _)]
    split
    · exact hrd _ ⟨key, rfl⟩ ‹_›
    · simp
  have hf' := hf (reads_subset _ _ _ hmeta)
  have hw1 := loadHashMeta_writes (P := fun _ => False) (hashMetaKey pfx key)
  have hw : ((loadHashMeta (hashMetaKey pfx key)).run t).2.writes = t.writes := by
    obtain ⟨ws, a, b⟩ := run_writes hw1 t
    cases ws with
    | nil => simpa using a
    | cons w ws => exact (b w (by simp)).1.elim
  rw [e1]
  generalize hx : (loadHashMeta (hashMetaKey pfx key)).run t = x at *
  generalize hx' : (loadHashMeta (hashMetaKey pfx key)).run t' = x' at *
  clear hx hx' e1 hf hmeta
  obtain ⟨r, u⟩ := x
  obtain ⟨r', u'⟩ := x'
  simp only at *
  have hrest : ∀ st, (∀ k ∈ ((hclearRest pfx key st).run u).2.reads, S.get k = D.get k) →
      ((hclearRest pfx key st).run u').1 = ((hclearRest pfx key st).run u).1 ∧
        Twin S D ((hclearRest pfx key st).run u).2 ((hclearRest pfx key st).run u').2 := by
    intro st hr
    have hv : NoTTL pfx u.view := by rw [tw.view]; exact noTTL_apply hn (by rw [hw]; exact hl)
    have hv' : NoTTL pfx u'.view := by rw [tw.view', tw.writes]; exact noTTL_apply hn' (by rw [hw]; exact hl)
    have hsf : SameFields pfx key u.view u'.view := by
      rw [tw.view, tw.view', tw.writes]; exact sameFields_apply _ hf'
    have hk := scan_keys hv hv' hsf
    have eq : ∀ u, (hclearRest pfx key st).run u =
        (hclearLoop pfx key (hashDataKeyPrefix pfx key) st (u.scan { pfx := hashDataKeyPrefix pfx key }) >>=
          fun _ => delK (hashMetaKey pfx key)).run u := by
      intro u; rfl
    rw [eq u, eq u', ← hclearLoop_keys st _ _ hk]
    refine twin_run _ (ScanFree.bind (sf_hclearLoop _ _) (fun _ => sf_delK _)) tw ?_
    intro k hk; rw [← eq u] at hk; exact hr k hk
  cases r with
  | panic => exact ⟨rfl, tw⟩
  | err e => exact hrest _ hr
  | ok m => cases m with
    | none => exact ⟨rfl, tw⟩
    | some c => exact hrest _ hr

/-- Any operation that does not enumerate. -/
theorem twin_step {pfx : Bytes} {S D : DB} {t t' : Txn} (o : SOp) (hne : NoEnum o) (h : Twin S D t t') (hl : Lasting t)
    (hn : NoTTL pfx S) (hn' : NoTTL pfx D) (hrd : Read (Counts pfx) t)
    (hr : ∀ k ∈ ((exec pfx o).run t).2.reads, S.get k = D.get k)
    (hf : ∀ key, hashMetaKey pfx key ∈ ((exec pfx o).run t).2.reads → SameFields pfx key S D) :
    ((exec pfx o).run t').1 = ((exec pfx o).run t).1 ∧
      Twin S D ((exec pfx o).run t).2 ((exec pfx o).run t').2 := by
  by_cases hc : ∃ key, o = .hclear key
  · obtain ⟨key, rfl⟩ := hc
    have e : ∀ t, (exec pfx (.hclear key)).run t =
        (((hclear pfx key).run t).1.map' (fun _ => Out.unit), ((hclear pfx key).run t).2) := by
      intro t
      show (hclear pfx key >>= fun _ => pure Out.unit).run t = _
      rw [run_bind]
      cases ((hclear pfx key).run t).1 <;> rfl
    rw [e] at hr hf
    rw [e, e]
    obtain ⟨h1, h2⟩ := twin_hclear h hl hn hn' hrd hr (hf key)
    exact ⟨by rw [h1], h2⟩
  · refine twin_run _ (sf_exec o ?_) h hr
    cases o <;> first | trivial | exact hne | exact hc ⟨_, rfl⟩

theorem lasting_step {pfx : Bytes} {t : Txn} (o : SOp) (h : Lasting t) : Lasting ((exec pfx o).run t).2 := by
  obtain ⟨ws, h1, h2⟩ := run_writes (exec_writes pfx o) t
  intro k v hm
  rw [h1, List.mem_append] at hm
  rcases hm with hm | hm
  · exact h k v hm
  · exact ((h2 _ hm).2 v rfl).2

/-- Run on the snapshot it saw, a program does what it means on the newest contents. -/
theorem replay_structs {α : Type} {pfx : Bytes} {S D : DB} (hn : NoTTL pfx S) (hn' : NoTTL pfx D) (p : SProg α)
    {B : Int} {A : SState} {t t' : Txn} (tw : Twin S D t t') (hh : Holds pfx B A t') (hB : B + p.spent A < 2 ^ 63)
    (hal : Along (fun A o => Fits pfx A o ∧ NoEnum o) p A)
    (hc : (t.env.update = true ∧ ∀ n, t.env.tooBig n = false) ∨ (p.HandsOn ∧ ∃ a, ((p.prog pfx).run t).1 = .ok a))
    (hrd : Read (Counts pfx) t) (hst : Stays pfx D t') (hl : Lasting t)
    (hr : ∀ k ∈ ((p.prog pfx).run t).2.reads, S.get k = D.get k)
    (hf : ∀ key, hashMetaKey pfx key ∈ ((p.prog pfx).run t).2.reads → SameFields pfx key S D) :
    ((p.prog pfx).run t).1 = (p.sem A).1 ∧ Twin S D ((p.prog pfx).run t).2 ((p.prog pfx).run t').2 ∧
      Holds pfx (B + p.spent A) (p.sem A).2 ((p.prog pfx).run t').2 ∧ Stays pfx D ((p.prog pfx).run t').2 ∧
      Lasting ((p.prog pfx).run t).2 := by
  induction p generalizing B A t t' with
  | done r => exact ⟨rfl, tw, by simpa [SProg.spent, SProg.sem, SProg.prog, Prog.run] using hh, hst, hl⟩
  | op o c ih =>
    simp only [SProg.spent] at hB
    rw [SProg.run_prog_op] at hr hf hc
    rw [SProg.run_prog_op, SProg.run_prog_op]
    obtain ⟨⟨⟨hfit, hloss⟩, hne⟩, hal⟩ := hal
    obtain ⟨e1, tw'⟩ := twin_step o hne tw hl hn hn' hrd (fun k hk => hr k (reads_subset _ _ _ hk))
      (fun key hk => hf key (reads_subset _ _ _ hk))
    rcases step_run o hh (by omega) hloss with ⟨k, e, hk, he, hres⟩ | ⟨hres, hh'⟩
    · exfalso
      rw [tw.env] at he
      rcases hc with hc | ⟨hon, a, ha⟩
      · exact Env.Writable.not_err ⟨hc.1, hfit k hk, hc.2⟩ e he
      · rw [← e1, hres] at ha
        rcases SProg.envErr_of (hfit k hk) he with ⟨_, rfl⟩ | ⟨rfl, _⟩
        · rw [hon.1] at ha; cases ha
        · rw [hon.2.1] at ha; cases ha
    · have hst' : Stays pfx D ((exec pfx o).run t').2 := by
        obtain ⟨ws, hw, -⟩ := run_writes (exec_writes pfx o) t'
        exact stays_step rfl hh hh' (by omega) (by omega) tw.view' tw'.view' hw hst
      have hrd' : Read (Counts pfx) ((exec pfx o).run t).2 :=
        (gf_exec o hne (fun _ => False)).run counts_ne hrd (fun _ _ h => h.elim)
      rw [← e1, hres] at hr hf hc ⊢
      obtain ⟨h1, h2, h3, h4, h5⟩ := ih (o.step A).1 tw' hh' (by omega) hal
        (by rw [run_env]; exact hc.imp id (fun h => ⟨h.1.2.2 _, h.2⟩)) hrd' hst' (lasting_step o hl) hr hf
      refine ⟨h1, h2, ?_, h4, h5⟩
      have e : B + ((SProg.op o c).spent A : Nat) = B + cost o + ((c (o.step A).1).spent (o.step A).2 : Nat) := by
        simp only [SProg.spent]; omega
      rw [e]; exact h3

/-! ### Histories -/

section
variable {α : Type} (pfx : Bytes) (db₀ : DB)

/-- The keys a transaction wrote. -/
def wrote (before : List (Client α)) (T : Client α) : List Bytes :=
  Util.writtenKeys db₀ (before.map (Client.committed pfx)) (T.committed pfx)

/-- A member of a history: the answer is that of the newest contents, and the fields of the hashes whose number of
fields it did not write stay. -/
structure Member (before : List (Client α)) (T : Client α) : Prop where
  answer : ∀ p, T.body = .structs p → answered pfx db₀ before T = (p.sem (state before)).1
  keeps : ∀ key, hashMetaKey pfx key ∉ wrote pfx db₀ before T →
    SameFields pfx key (contents pfx db₀ before) (contents pfx db₀ (T :: before))

/-- What holds after every history. -/
structure Shared (h : List (Client α)) : Prop where
  rep : Rep pfx (added h) (state h) (contents pfx db₀ h)
  noTTL : ∀ after before, h = after ++ before → NoTTL pfx (contents pfx db₀ before)
  members : ∀ after T before, h = after ++ T :: before → Member pfx db₀ before T

variable {pfx db₀}

theorem keeps_chain {after before : List (Client α)}
    (hm : ∀ a T b, after ++ before = a ++ T :: b → Member pfx db₀ b T) {key : Bytes}
    (hw : ∀ a T b, after ++ before = a ++ T :: b → before.length ≤ b.length → hashMetaKey pfx key ∉ wrote pfx db₀ b T) :
    SameFields pfx key (contents pfx db₀ before) (contents pfx db₀ (after ++ before)) := by
  induction after with
  | nil => exact .refl _ _ _
  | cons T after ih =>
    refine (ih (fun a U b e => hm (T :: a) U b (by simp [e])) (fun a U b e => hw (T :: a) U b (by simp [e]))).trans ?_
    exact (hm [] T (after ++ before) rfl).keeps key (hw [] T (after ++ before) rfl (by simp))

theorem added_cons (T : Client α) (rest : List (Client α)) : added rest ≤ added (T :: rest) := by
  simp only [added]; omega

theorem contents_cons (T : Client α) (rest : List (Client α)) :
    contents pfx db₀ (T :: rest) = applyWrites (contents pfx db₀ rest)
      ((T.committed pfx).outcome (Util.snapshotOf db₀ (rest.map (Client.committed pfx)) (T.committed pfx))).2.writes := rfl

/-- The snapshot a transaction saw is the contents after the commits it saw. -/
theorem snapshot_contents (T : Client α) (rest : List (Client α)) (hs : T.snap ≤ rest.length) :
    Util.snapshotOf db₀ (rest.map (Client.committed pfx)) (T.committed pfx) =
      contents pfx db₀ (rest.drop (rest.length - T.snap)) := by
  have hsplit : rest = rest.take (rest.length - T.snap) ++ rest.drop (rest.length - T.snap) :=
    (List.take_append_drop _ _).symm
  have e : rest.map (Client.committed pfx) = (rest.take (rest.length - T.snap)).map (Client.committed pfx) ++
      (rest.drop (rest.length - T.snap)).map (Client.committed pfx) := by
    rw [← List.map_append, ← hsplit]
  rw [e, Util.snapshotOf_eq]
  · rfl
  · show T.snap = _
    rw [List.length_map, List.length_drop]; omega

theorem shared (hfresh : Fresh pfx db₀) (h : List (Client α))
    (ha : Util.Accepted db₀ (h.map (Client.committed pfx))) (hg : Fair pfx db₀ h) (hB : added h < 2 ^ 63) :
    Shared pfx db₀ h := by
  have hn0 : NoTTL pfx db₀ := fun k v hk hg => by rw [hfresh k hk] at hg; cases hg
  induction h with
  | nil =>
    refine ⟨rep_fresh hfresh, ?_, ?_⟩
    · intro after before e
      obtain ⟨rfl, rfl⟩ : after = [] ∧ before = [] := by simpa using e.symm
      exact hn0
    · intro after T before e; simp at e
  | cons T rest ih =>
    have ih := ih ha.1 hg.1 (by have := added_cons T rest; omega)
    have hu := Util.accepted_unchanged db₀ (T.committed pfx) (rest.map (Client.committed pfx)) ha
    have hsnap : T.snap ≤ rest.length := by have := ha.2.1; simpa [Client.committed] using this
    have hconf := ha.2.2
    have hsp := snapshot_contents (pfx := pfx) (db₀ := db₀) T rest hsnap
    have hD : NoTTL pfx (contents pfx db₀ rest) := ih.noTTL [] rest rfl
    have hS : NoTTL pfx (Util.snapshotOf db₀ (rest.map (Client.committed pfx)) (T.committed pfx)) := by
      rw [hsp]; exact ih.noTTL (rest.take (rest.length - T.snap)) _ (List.take_append_drop _ _).symm
    -- the step gives: new rep, no TTL, member
    suffices H : Rep pfx (added (T :: rest)) (state (T :: rest)) (contents pfx db₀ (T :: rest)) ∧
        NoTTL pfx (contents pfx db₀ (T :: rest)) ∧ Member pfx db₀ rest T by
      refine ⟨H.1, ?_, ?_⟩
      · intro after before e
        cases after with
        | nil => rw [← (show T :: rest = before from e)]; exact H.2.1
        | cons U after =>
          simp only [List.cons_append, List.cons.injEq] at e
          exact ih.noTTL after before e.2
      · intro after U before e
        cases after with
        | nil =>
          simp only [List.nil_append, List.cons.injEq] at e
          obtain ⟨rfl, rfl⟩ := e; exact H.2.2
        | cons V after =>
          simp only [List.cons_append, List.cons.injEq] at e
          exact ih.members after U before e.2
    have hf : ∀ key, hashMetaKey pfx key ∈ ((T.committed pfx).outcome
        (Util.snapshotOf db₀ (rest.map (Client.committed pfx)) (T.committed pfx))).2.reads →
        SameFields pfx key (Util.snapshotOf db₀ (rest.map (Client.committed pfx)) (T.committed pfx))
          (contents pfx db₀ rest) := by
      intro key hk
      rw [hsp]
      have hsplit : rest.take (rest.length - T.snap) ++ rest.drop (rest.length - T.snap) = rest :=
        List.take_append_drop _ _
      have := keeps_chain (pfx := pfx) (db₀ := db₀) (after := rest.take (rest.length - T.snap))
        (before := rest.drop (rest.length - T.snap)) (key := key)
        (fun a U b e => ih.members a U b (by rw [← hsplit]; exact e))
        (fun a U b e hl => by
          refine hconf (b.map (Client.committed pfx)) (a.map (Client.committed pfx)) (U.committed pfx) ?_ ?_ _ hk
          · rw [hsplit] at e; rw [e]; simp
          · rw [List.length_map]
            rw [List.length_drop] at hl
            show T.snap ≤ b.length
            omega)
      rwa [hsplit] at this
    cases hb : T.body with
    | structs p =>
      have hgT := hg.2
      rw [hb] at hgT
      obtain ⟨hal, hc⟩ := hgT
      have hprog : (T.committed pfx).prog = p.prog pfx := by simp only [Client.committed, hb]
      have had : added (T :: rest) = added rest + p.spent (state rest) := by simp only [added, hb]
      have hst : state (T :: rest) = (p.sem (state rest)).2 := by simp only [state, hb]
      generalize hSdef : Util.snapshotOf db₀ (rest.map (Client.committed pfx)) (T.committed pfx) = S at *
      have hout : (T.committed pfx).outcome S = (p.prog pfx).run (Txn.start T.env S) := by
        unfold Util.Committed.outcome; rw [hprog]; rfl
      rw [hout] at hu hf hc
      obtain ⟨h1, h2, h3, h4, h5⟩ := replay_structs hS hD p (t := Txn.start T.env S)
        (t' := Txn.start T.env (contents pfx db₀ rest))
        ⟨rfl, rfl, rfl, rfl, rfl, rfl⟩ (holds_start T.env ih.rep hD) (by rw [had] at hB; omega) hal hc
        (fun k _ hk => by simp [Txn.start] at hk) (fun key _ => .refl _ _ _) (fun k v hm => by simp [Txn.start] at hm)
        hu hf
      have hcont : contents pfx db₀ (T :: rest) =
          ((p.prog pfx).run (Txn.start T.env (contents pfx db₀ rest))).2.view := by
        rw [contents_cons, hSdef, hout, ← h2.writes, ← h2.view']
      refine ⟨?_, ?_, ?_, ?_⟩
      · rw [hcont, hst, had, Int.natCast_add]; exact h3.raw
      · rw [hcont]; exact h3.noTTL
      · intro q hq
        rw [hb] at hq; cases hq
        unfold answered; rw [hSdef, hout, h1]
      · intro key hk
        rw [hcont]
        refine h4 key ?_
        unfold wrote Util.writtenKeys at hk
        rw [hSdef, hout] at hk
        rw [h2.writes]; exact hk
    | other q =>
      have hgT := hg.2
      rw [hb] at hgT
      have hsp : added (T :: rest) = added rest := by simp only [added, hb]; rfl
      have hst : state (T :: rest) = state rest := by simp only [state, hb]
      have hsame : ∀ k, IsPrefixOf pfx k → (contents pfx db₀ (T :: rest)).get k = (contents pfx db₀ rest).get k := by
        intro k hk
        rw [contents_cons]
        exact get_applyWrites_of_not_mem (fun hm => hgT k hm hk)
      refine ⟨?_, ?_, ?_, ?_⟩
      · rw [hst, hsp]; exact rep_congr hsame ih.rep
      · intro k v hk hg
        rw [hsame k hk] at hg
        exact hD k v hk hg
      · intro p hp; rw [hb] at hp; cases hp
      · intro key _ k hk
        have hpk : IsPrefixOf pfx k := by
          obtain ⟨r, rfl⟩ := (Key.hasPrefix_iff _ _).mp hk
          rw [hashDataKeyPrefix_eq]
          exact ⟨Memcomparable.encodeGroups key ++ [104] ++ r, by simp [skey]⟩
        rw [hsame k hpk]

end

/-- Any program, also one that enumerates, run alone on contents that hold `A`. -/
theorem sim_fits {α : Type} {pfx : Bytes} (p : SProg α) {B : Int} {A : SState} {t : Txn} (h : Holds pfx B A t)
    (hB : B + p.spent A < 2 ^ 63) (hal : Along (Fits pfx) p A)
    (hc : (t.env.update = true ∧ ∀ n, t.env.tooBig n = false) ∨ p.Reads) :
    ((p.prog pfx).run t).1 = (p.sem A).1 := by
  induction p generalizing B A t with
  | done r => rfl
  | op o c ih =>
    simp only [SProg.spent] at hB
    rw [SProg.run_prog_op]
    rcases step_run o h (by omega) hal.1.2 with ⟨k, e, hk, he, hr⟩ | ⟨hr, hh'⟩
    · exfalso
      rcases hc with hc | hc
      · exact Env.Writable.not_err ⟨hc.1, hal.1.1 k hk, hc.2⟩ e he
      · exact SProg.read_no_write hc.1 k hk
    · rw [hr]
      exact ih (o.step A).1 hh' (by omega) hal.2 (by rw [run_env]; exact hc.imp id (fun h => h.2 _))

end Mondis.Share
