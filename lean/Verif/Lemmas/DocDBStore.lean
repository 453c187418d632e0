import Verif.Spec.DocumentDB
import Verif.Props.InsertOne
import Verif.Props.Index
/-!
# Package document: the store and the sequences
-/
namespace Mondis.DocDB
open Mondis Prog Doc Spec Props
open Mondis.Sequence (Circ)
open Mondis.Sequence.Old (Seq lease)

/-! ### The store -/

/-- Contents change only where a commit wrote. -/
def Framed (S : Store) : Prop := ∀ n, n < S.now → ∀ k, k ∉ S.wrote (n + 1) → (S.data (n + 1)).get k = (S.data n).get k

theorem data_push (S : Store) (db : DB) (ks : List Bytes) {n : Nat} (h : n ≤ S.now) : (S.push db ks).data n = S.data n := by
  show (if n = S.now + 1 then db else S.data n) = _
  rw [if_neg (by omega)]

theorem wrote_push (S : Store) (db : DB) (ks : List Bytes) {n : Nat} (h : n ≤ S.now) : (S.push db ks).wrote n = S.wrote n := by
  show (if n = S.now + 1 then ks else S.wrote n) = _
  rw [if_neg (by omega)]

@[simp] theorem now_push (S : Store) (db : DB) (ks : List Bytes) : (S.push db ks).now = S.now + 1 := rfl

@[simp] theorem db_push (S : Store) (db : DB) (ks : List Bytes) : (S.push db ks).db = db := by
  show (if S.now + 1 = S.now + 1 then db else _) = _
  rw [if_pos rfl]

@[simp] theorem wrote_push_new (S : Store) (db : DB) (ks : List Bytes) : (S.push db ks).wrote (S.now + 1) = ks := by
  show (if S.now + 1 = S.now + 1 then ks else _) = _
  rw [if_pos rfl]

@[simp] theorem data_push_new (S : Store) (db : DB) (ks : List Bytes) : (S.push db ks).data (S.now + 1) = db := db_push S db ks

theorem Framed.push {S : Store} (h : Framed S) {db : DB} {ks : List Bytes} (hd : ∀ k, k ∉ ks → db.get k = S.db.get k) :
    Framed (S.push db ks) := by
  intro n hn k hk
  rw [now_push] at hn
  rcases Nat.lt_or_ge n S.now with hl | hl
  · rw [wrote_push _ _ _ (by omega)] at hk
    rw [data_push _ _ _ (by omega), data_push _ _ _ (by omega)]
    exact h n hl k hk
  · have : n = S.now := by omega
    subst this
    rw [wrote_push_new] at hk
    rw [data_push_new, data_push _ _ _ (Nat.le_refl _)]
    exact hd k hk

theorem clash_false {S : Store} {ks : List Bytes} {v : Nat} (h : S.clash ks v = false) {n : Nat} (hv : v ≤ n) (hn : n < S.now)
    {k : Bytes} (hk : k ∈ ks) : k ∉ S.wrote (n + 1) := by
  intro hw
  have := List.any_eq_false.mp h n (List.mem_range.mpr hn)
  apply this
  rw [Bool.and_eq_true]
  exact ⟨decide_eq_true hv, List.any_eq_true.mpr ⟨k, hw, by simpa using hk⟩⟩

/-- What no commit wrote since is as it was. -/
theorem Framed.same {S : Store} (h : Framed S) {k : Bytes} {v m : Nat} (hm : m ≤ S.now) (hv : v ≤ m)
    (hk : ∀ n, v ≤ n → n < m → k ∉ S.wrote (n + 1)) : (S.data m).get k = (S.data v).get k := by
  induction m with
  | zero => rw [show v = 0 by omega]
  | succ m ih =>
    rcases Nat.lt_or_ge v (m + 1) with hl | hl
    · rw [h m (by omega) k (hk m (by omega) (by omega))]
      exact ih (by omega) (by omega) (fun n h1 h2 => hk n h1 (by omega))
    · rw [show v = m + 1 by omega]

theorem Framed.unclashed {S : Store} (h : Framed S) {ks : List Bytes} {v : Nat} (hc : S.clash ks v = false) (hv : v ≤ S.now)
    {k : Bytes} (hk : k ∈ ks) : S.db.get k = (S.data v).get k :=
  h.same (Nat.le_refl _) hv (fun _ h1 h2 => clash_false hc h1 h2 hk)

/-- What a commit does. -/
theorem commit_cases (S : Store) (t : Txn) (v : Nat) (f : Option Err) :
    ((S.commit t v f).2 = S ∧ (t.writes = [] ∧ (S.commit t v f).1 = .ok () ∨ t.writes ≠ [] ∧ ∃ e, (S.commit t v f).1 = .err e)) ∨
    (t.writes ≠ [] ∧ S.clash t.reads v = false ∧
      S.commit t v f = (.ok (), S.push (applyWrites S.db t.writes) (t.writes.map Prod.fst))) := by
  unfold Store.commit Txn.commit
  by_cases hw : t.writes = []
  · left
    simp [hw]
  · simp only [if_neg hw]
    cases hc : S.clash t.reads v with
    | true => exact .inl ⟨rfl, .inr ⟨hw, _, rfl⟩⟩
    | false =>
      simp only [Bool.false_eq_true, if_false]
      cases f with
      | some e => exact .inl ⟨rfl, .inr ⟨hw, _, rfl⟩⟩
      | none => exact .inr ⟨hw, by trivial, rfl⟩

/-! ### One renewal -/

theorem lease_reads (key : Bytes) (bw old : UInt64) (env : Env) (db : DB) :
    ∀ k ∈ (Util.body env true (lease key bw old) db).2.reads, k = key := by
  have hget : ∀ t : Txn, t.reads = [] → ∀ k ∈ (t.get key).2.reads, k = key := by
    intro t ht k hk
    unfold Txn.get at hk
    split at hk
    · rw [ht] at hk; cases hk
    · dsimp only at hk
      have : k ∈ (if key ∈ t.writes.map Prod.fst then t else { t with reads := key :: t.reads }).reads := by
        split at hk
        · split at hk <;> exact hk
        · exact hk
      split at this
      · rw [ht] at this; cases this
      · rw [ht] at this; exact List.mem_singleton.mp this
  have hset : ∀ (t : Txn) (v : Bytes) (m : Option VMetaReq), (t.set key v m).2.reads = t.reads := by
    intro t v m
    unfold Txn.set Txn.modify
    split
    · rfl
    · split
      · rfl
      · split <;> rfl
  intro k hk
  unfold Util.body lease at hk
  simp only [Prog.run] at hk
  refine hget (Txn.start { env with update := true } db) rfl k ?_
  split at hk
  · simp only [Prog.run] at hk
    rwa [hset] at hk
  · exact hk
  · exact hk
  · split at hk
    · exact hk
    · exact hk
    · simp only [Prog.run] at hk
      rwa [hset] at hk

/-! ### Sequences -/

/-- The id is in the lease. -/
def InLease (s : Seq) (u : UInt64) : Prop := s.next < u ∧ u ≤ s.leased

structure GenOK (S : Store) (g : Gen) : Prop where
  key : ∃ kw, g.seq.key = metaSequenceKey kw
  wide : g.seq.bandwidth ≠ 0 ∧ g.seq.bandwidth.toNat ≤ 1000
  since : g.since ≤ S.now
  leased : ∀ c, stored64 g.seq.key (S.data g.since) = some c → g.seq.leased ≤ c ∧ g.seq.next ≤ c

/-- The counters, the leases, and the ids drawn. -/
structure SeqsOK (S : Store) (gs : List Gen) (drawn : List (Bytes × UInt64)) (B : Nat) : Prop where
  framed : Framed S
  count : ∀ kw n, n ≤ S.now → ∃ c, stored64 (metaSequenceKey kw) (S.data n) = some c
  mono : ∀ kw n m c d, n ≤ m → m ≤ S.now → stored64 (metaSequenceKey kw) (S.data n) = some c →
    stored64 (metaSequenceKey kw) (S.data m) = some d → c ≤ d
  bound : ∀ kw c, stored64 (metaSequenceKey kw) S.db = some c → c.toNat ≤ B
  gens : ∀ (p : Nat) g, gs[p]? = some g → GenOK S g
  apart : ∀ (p q : Nat) g h, p ≠ q → gs[p]? = some g → gs[q]? = some h → g.seq.key = h.seq.key →
    ∀ u, InLease g.seq u → ¬ InLease h.seq u
  out : ∀ kw u, (metaSequenceKey kw, u) ∈ drawn → (∀ c, stored64 (metaSequenceKey kw) S.db = some c → u ≤ c) ∧
    ∀ (p : Nat) g, gs[p]? = some g → g.seq.key = metaSequenceKey kw → ¬ InLease g.seq u

theorem msk_inj {a b : Bytes} (h : metaSequenceKey a = metaSequenceKey b) : a = b := List.append_cancel_left h

/-- A commit that leaves the counters alone. -/
theorem SeqsOK.other {S : Store} {gens : List Gen} {out : List (Bytes × UInt64)} {bound : Nat} (h : SeqsOK S gens out bound)
    {db : DB} {ks : List Bytes} (hf : ∀ k, k ∉ ks → db.get k = S.db.get k) (hk : ∀ kw, metaSequenceKey kw ∉ ks) :
    SeqsOK (S.push db ks) gens out bound := by
  have hs : ∀ kw, stored64 (metaSequenceKey kw) db = stored64 (metaSequenceKey kw) S.db :=
    fun kw => OldSeq.stored64_congr (hf _ (hk kw))
  have hd : ∀ kw n, n ≤ S.now + 1 → ∃ m, m ≤ S.now ∧ (n ≤ S.now → m = n) ∧ (n = S.now + 1 → m = S.now) ∧
      stored64 (metaSequenceKey kw) ((S.push db ks).data n) = stored64 (metaSequenceKey kw) (S.data m) := by
    intro kw n hn
    rcases Nat.lt_or_ge S.now n with hl | hl
    · have : n = S.now + 1 := by omega
      subst this
      exact ⟨S.now, Nat.le_refl _, fun h => by omega, fun _ => rfl, by rw [data_push_new]; exact hs kw⟩
    · exact ⟨n, hl, fun _ => rfl, fun h => by omega, by rw [data_push _ _ _ hl]⟩
  refine ⟨h.framed.push hf, ?_, ?_, ?_, ?_, h.apart, ?_⟩
  · intro kw n hn
    obtain ⟨m, h1, -, -, h2⟩ := hd kw n hn
    rw [h2]
    exact h.count kw m h1
  · intro kw n m c d hnm hm hc hd'
    rw [now_push] at hm
    obtain ⟨n', a1, a2, a3, a4⟩ := hd kw n (by omega)
    obtain ⟨m', b1, b2, b3, b4⟩ := hd kw m hm
    rw [a4] at hc
    rw [b4] at hd'
    exact h.mono kw n' m' c d (by omega) b1 hc hd'
  · intro kw c hc
    rw [db_push, hs] at hc
    exact h.bound kw c hc
  · intro p g hg
    have := h.gens p g hg
    refine ⟨this.key, this.wide, by rw [now_push]; exact Nat.le_succ_of_le this.since, ?_⟩
    rw [data_push _ _ _ this.since]
    exact this.leased
  · intro kw u hu
    refine ⟨fun c hc => ?_, (h.out kw u hu).2⟩
    rw [db_push, hs] at hc
    exact (h.out kw u hu).1 c hc

/-- Some room is added to the bound. -/
theorem SeqsOK.weaken {S : Store} {gens : List Gen} {out : List (Bytes × UInt64)} {b b' : Nat} (h : SeqsOK S gens out b)
    (hb : b ≤ b') : SeqsOK S gens out b' :=
  { h with bound := fun kw c hc => Nat.le_trans (h.bound kw c hc) hb }

/-- Replacing a sequence by one with a smaller lease. -/
theorem SeqsOK.shrink {S : Store} {gens : List Gen} {out : List (Bytes × UInt64)} {b : Nat} (h : SeqsOK S gens out b) {p : Nat}
    {g : Gen} (hg : gens[p]? = some g) {s : Seq} {n : Nat} (hk : s.key = g.seq.key) (hb : s.bandwidth = g.seq.bandwidth)
    (hn : n ≤ S.now) (hs : g.since ≤ n) (hl : ∀ c, stored64 s.key (S.data n) = some c → s.leased ≤ c ∧ s.next ≤ c)
    (hi : ∀ u, InLease s u → InLease g.seq u) : SeqsOK S (gens.set p ⟨s, n⟩) out b := by
  have hset : ∀ {q : Nat} {g' : Gen}, (gens.set p ⟨s, n⟩)[q]? = some g' → (q = p ∧ g' = ⟨s, n⟩) ∨ (q ≠ p ∧ gens[q]? = some g') := by
    intro q g' hq
    rw [List.getElem?_set] at hq
    split at hq
    · rename_i e
      split at hq
      · cases hq; exact .inl ⟨e.symm, rfl⟩
      · cases hq
    · rename_i e
      exact .inr ⟨fun e' => e e'.symm, hq⟩
  have hg' := h.gens p g hg
  refine ⟨h.framed, h.count, h.mono, h.bound, ?_, ?_, ?_⟩
  · intro q g' hq
    rcases hset hq with ⟨rfl, rfl⟩ | ⟨-, hq⟩
    · refine ⟨?_, ?_, hn, hl⟩
      · obtain ⟨kw, hkw⟩ := hg'.key
        exact ⟨kw, by rw [← hkw]; exact hk⟩
      · show s.bandwidth ≠ 0 ∧ s.bandwidth.toNat ≤ 1000
        rw [hb]; exact hg'.wide
    · exact h.gens q g' hq
  · intro q r x y hqr hx hy hxy u hxu hyu
    rcases hset hx with ⟨rfl, rfl⟩ | ⟨hq, hx₂⟩
    · rcases hset hy with ⟨rfl, rfl⟩ | ⟨hr, hy⟩
      · exact hqr rfl
      · exact h.apart q r g y (Ne.symm hr) hg hy (by rw [← hk]; exact hxy) u (hi u hxu) hyu
    · rcases hset hy with ⟨rfl, rfl⟩ | ⟨hr, hy⟩
      · exact h.apart q r x g hqr hx₂ hg (by rw [← hk]; exact hxy) u hxu (hi u hyu)
      · exact h.apart q r x y hqr hx₂ hy hxy u hxu hyu
  · intro kw u hu
    refine ⟨(h.out kw u hu).1, ?_⟩
    intro q x hx hxk hxu
    rcases hset hx with ⟨rfl, rfl⟩ | ⟨hq, hx⟩
    · exact (h.out kw u hu).2 q g hg (by rw [← hk]; exact hxk) (hi u hxu)
    · exact (h.out kw u hu).2 q x hx hxk hxu

/-- One more sequence, whose lease is empty. -/
theorem SeqsOK.append {S : Store} {gens : List Gen} {out : List (Bytes × UInt64)} {b : Nat} (h : SeqsOK S gens out b) {g : Gen}
    (hg : GenOK S g) (hi : ∀ u, ¬ InLease g.seq u) : SeqsOK S (gens ++ [g]) out b := by
  have hset : ∀ {q : Nat} {g' : Gen}, (gens ++ [g])[q]? = some g' → g' = g ∨ gens[q]? = some g' := by
    intro q g' hq
    rcases Nat.lt_or_ge q gens.length with hl | hl
    · rw [List.getElem?_append_left hl] at hq; exact .inr hq
    · rw [List.getElem?_append_right hl] at hq
      left
      have := List.mem_of_getElem? hq
      exact List.mem_singleton.mp this
  refine ⟨h.framed, h.count, h.mono, h.bound, ?_, ?_, ?_⟩
  · intro q g' hq
    rcases hset hq with rfl | hq
    · exact hg
    · exact h.gens q g' hq
  · intro q r x y hqr hx hy hxy u hxu hyu
    rcases hset hx with rfl | hx
    · exact hi u hxu
    · rcases hset hy with rfl | hy
      · exact hi u hyu
      · exact h.apart q r x y hqr hx hy hxy u hxu hyu
  · intro kw u hu
    refine ⟨(h.out kw u hu).1, ?_⟩
    intro q x hx hxk hxu
    rcases hset hx with rfl | hx
    · exact hi u hxu
    · exact (h.out kw u hu).2 q x hx hxk hxu

/-- A renewal is committed: sequence `p` has a new lease. -/
theorem SeqsOK.renewed {S : Store} {gens : List Gen} {out : List (Bytes × UInt64)} {b : Nat} (h : SeqsOK S gens out b) {p : Nat}
    {g : Gen} (hg : gens[p]? = some g) {st : UInt64} (hst : stored64 g.seq.key S.db = some st)
    (hfit : st.toNat + g.seq.bandwidth.toNat < 2 ^ 64) {db : DB} (hdb : stored64 g.seq.key db = some (st + g.seq.bandwidth))
    (hf : ∀ k, k ≠ g.seq.key → db.get k = S.db.get k) :
    SeqsOK (S.push db [g.seq.key]) (gens.set p ⟨{ g.seq with next := st, leased := st + g.seq.bandwidth }, S.now + 1⟩) out (b + 1000) := by
  have hg' := h.gens p g hg
  obtain ⟨kw₀, hkw⟩ := hg'.key
  have hadd := OldSeq.add_toNat hfit
  have hother : ∀ kw, metaSequenceKey kw ≠ g.seq.key → stored64 (metaSequenceKey kw) db = stored64 (metaSequenceKey kw) S.db :=
    fun kw hne => OldSeq.stored64_congr (hf _ hne)
  have hup : ∀ kw c d, stored64 (metaSequenceKey kw) S.db = some c → stored64 (metaSequenceKey kw) db = some d → c ≤ d := by
    intro kw c d hc hd
    by_cases e : metaSequenceKey kw = g.seq.key
    · rw [e] at hc hd
      rw [hst] at hc; rw [hdb] at hd
      cases hc; cases hd
      rw [UInt64.le_iff_toNat_le, hadd]; omega
    · rw [hother kw e, hc] at hd; cases hd
      exact UInt64.le_refl _
  have hset : ∀ {q : Nat} {g' : Gen}, (gens.set p ⟨{ g.seq with next := st, leased := st + g.seq.bandwidth }, S.now + 1⟩)[q]? = some g' →
      (q = p ∧ g' = ⟨{ g.seq with next := st, leased := st + g.seq.bandwidth }, S.now + 1⟩) ∨ (q ≠ p ∧ gens[q]? = some g') := by
    intro q g' hq
    rw [List.getElem?_set] at hq
    split at hq
    · rename_i e
      split at hq
      · cases hq; exact .inl ⟨e.symm, rfl⟩
      · cases hq
    · rename_i e
      exact .inr ⟨fun e' => e e'.symm, hq⟩
  -- leases of the others end at the counter
  have hle : ∀ (q : Nat) (x : Gen), gens[q]? = some x → x.seq.key = g.seq.key → x.seq.leased ≤ st := by
    intro q x hx hxk
    have hx' := h.gens q x hx
    obtain ⟨c, hc⟩ := h.count kw₀ x.since hx'.since
    rw [← hkw, ← hxk] at hc
    have h1 := (hx'.leased c hc).1
    have h2 := h.mono kw₀ x.since S.now c st hx'.since (Nat.le_refl _) (by rw [← hkw, ← hxk]; exact hc) (by rw [← hkw]; exact hst)
    exact UInt64.le_trans h1 h2
  refine ⟨h.framed.push (fun k hk => hf k (by simpa using hk)), ?_, ?_, ?_, ?_, ?_, ?_⟩
  · intro kw n hn
    rcases Nat.lt_or_ge S.now n with hl | hl
    · have : n = S.now + 1 := by rw [now_push] at hn; omega
      subst this
      rw [data_push_new]
      by_cases e : metaSequenceKey kw = g.seq.key
      · rw [e]; exact ⟨_, hdb⟩
      · rw [hother kw e]; exact h.count kw S.now (Nat.le_refl _)
    · rw [data_push _ _ _ hl]; exact h.count kw n hl
  · intro kw n m c d hnm hm hc hd
    rw [now_push] at hm
    rcases Nat.lt_or_ge S.now m with hl | hl
    · have : m = S.now + 1 := by omega
      subst this
      rw [data_push_new] at hd
      rcases Nat.lt_or_ge S.now n with hl' | hl'
      · have : n = S.now + 1 := by omega
        subst this
        rw [data_push_new, hd] at hc; cases hc
        exact UInt64.le_refl _
      · rw [data_push _ _ _ hl'] at hc
        obtain ⟨c', hc'⟩ := h.count kw S.now (Nat.le_refl _)
        exact UInt64.le_trans (h.mono kw n S.now c c' hl' (Nat.le_refl _) hc hc') (hup kw c' d hc' hd)
    · rw [data_push _ _ _ hl] at hd
      rw [data_push _ _ _ (by omega)] at hc
      exact h.mono kw n m c d hnm hl hc hd
  · intro kw c hc
    rw [db_push] at hc
    by_cases e : metaSequenceKey kw = g.seq.key
    · rw [e, hdb] at hc; cases hc
      have := h.bound kw₀ st (by rw [← hkw]; exact hst)
      have := hg'.wide.2
      rw [hadd]; omega
    · rw [hother kw e] at hc
      have := h.bound kw c hc
      omega
  · intro q x hx
    rcases hset hx with ⟨rfl, rfl⟩ | ⟨-, hx⟩
    · refine ⟨⟨kw₀, hkw⟩, hg'.wide, Nat.le_refl _, ?_⟩
      intro c hc
      dsimp only at hc
      rw [data_push_new, hdb] at hc
      cases hc
      refine ⟨UInt64.le_refl _, ?_⟩
      show st ≤ st + g.seq.bandwidth
      rw [UInt64.le_iff_toNat_le, hadd]; omega
    · have := h.gens q x hx
      refine ⟨this.key, this.wide, by rw [now_push]; exact Nat.le_succ_of_le this.since, ?_⟩
      rw [data_push _ _ _ this.since]
      exact this.leased
  · intro q r x y hqr hx hy hxy u hxu hyu
    rcases hset hx with ⟨rfl, rfl⟩ | ⟨hq, hx₂⟩
    · rcases hset hy with ⟨rfl, rfl⟩ | ⟨hr, hy⟩
      · exact hqr rfl
      · have h1 := hle r y hy hxy.symm
        have h2 : st < u := hxu.1
        have h3 := hyu.2
        simp only [UInt64.lt_iff_toNat_lt, UInt64.le_iff_toNat_le] at h1 h2 h3
        omega
    · rcases hset hy with ⟨rfl, rfl⟩ | ⟨hr, hy⟩
      · have h1 := hle q x hx₂ hxy
        have h2 : st < u := hyu.1
        have h3 := hxu.2
        simp only [UInt64.lt_iff_toNat_lt, UInt64.le_iff_toNat_le] at h1 h2 h3
        omega
      · exact h.apart q r x y hqr hx₂ hy hxy u hxu hyu
  · intro kw u hu
    obtain ⟨h1, h2⟩ := h.out kw u hu
    refine ⟨fun c hc => ?_, ?_⟩
    · rw [db_push] at hc
      obtain ⟨c', hc'⟩ := h.count kw S.now (Nat.le_refl _)
      exact UInt64.le_trans (h1 c' hc') (hup kw c' c hc' hc)
    · intro q x hx hxk hxu
      rcases hset hx with ⟨rfl, rfl⟩ | ⟨hq, hx⟩
      · have h3 := h1 st (by rw [← hxk]; exact hst)
        have h4 : st < u := hxu.1
        simp only [UInt64.lt_iff_toNat_lt, UInt64.le_iff_toNat_le] at h3 h4
        omega
      · exact h2 q x hx hxk hxu

/-- Handing out the next id of a lease. -/
theorem SeqsOK.hand {S : Store} {gens : List Gen} {out : List (Bytes × UInt64)} {b : Nat} (h : SeqsOK S gens out b) {p : Nat}
    {g : Gen} (hg : gens[p]? = some g) (hlt : g.seq.next < g.seq.leased) {n : Nat} (hn : n ≤ S.now) (hs : g.since ≤ n) :
    SeqsOK S (gens.set p ⟨{ g.seq with next := g.seq.next + 1 }, n⟩) ((g.seq.key, g.seq.next + 1) :: out) b ∧
      (g.seq.key, g.seq.next + 1) ∉ out := by
  have hg' := h.gens p g hg
  obtain ⟨kw₀, hkw⟩ := hg'.key
  have hnx : (g.seq.next + 1).toNat = g.seq.next.toNat + 1 := by
    have := g.seq.leased.toNat_lt
    rw [UInt64.lt_iff_toNat_lt] at hlt
    exact OldSeq.add_toNat (by simp; omega)
  have hin : InLease g.seq (g.seq.next + 1) := by
    constructor
    · rw [UInt64.lt_iff_toNat_lt, hnx]; omega
    · rw [UInt64.le_iff_toNat_le, hnx]; rw [UInt64.lt_iff_toNat_lt] at hlt; omega
  have hfresh : (g.seq.key, g.seq.next + 1) ∉ out := by
    intro hm
    rw [hkw] at hm
    exact (h.out kw₀ _ hm).2 p g hg hkw hin
  have hcnt : ∀ m, g.since ≤ m → m ≤ S.now → ∀ c, stored64 g.seq.key (S.data m) = some c → g.seq.leased ≤ c := by
    intro m h1 h2 c hc
    obtain ⟨c', hc'⟩ := h.count kw₀ g.since hg'.since
    rw [hkw] at hc
    exact UInt64.le_trans (hg'.leased c' (by rw [hkw]; exact hc')).1 (h.mono kw₀ g.since m c' c h1 h2 hc' hc)
  have hsh := h.shrink hg (s := { g.seq with next := g.seq.next + 1 }) (n := n) rfl rfl hn hs (fun c hc => ⟨hcnt n hs hn c hc, UInt64.le_trans hin.2 (hcnt n hs hn c hc)⟩) (by
    intro u hu
    refine ⟨?_, hu.2⟩
    have := hu.1
    simp only [UInt64.lt_iff_toNat_lt, hnx] at this ⊢
    omega)
  refine ⟨{ hsh with out := ?_ }, hfresh⟩
  intro kw u hu
  rcases List.mem_cons.mp hu with e | hu
  · obtain ⟨e1, e2⟩ := Prod.mk.inj e
    subst e2
    refine ⟨?_, ?_⟩
    · intro c hc
      rw [e1] at hc
      exact UInt64.le_trans hin.2 (hcnt S.now hg'.since (Nat.le_refl _) c hc)
    · intro q x hx hxk hxu
      rw [List.getElem?_set] at hx
      split at hx
      · split at hx
        · cases hx
          have := hxu.1
          simp only [UInt64.lt_iff_toNat_lt] at this
          omega
        · cases hx
      · rename_i e
        exact h.apart p q g x e hg hx (by rw [hxk, e1]) _ hin hxu
  · exact hsh.out kw u hu

/-! ### Next, NewSequence and ReleaseRemaining -/

theorem SeqsOK.counter {S : Store} {gs : List Gen} {out : List (Bytes × UInt64)} {b : Nat} (h : SeqsOK S gs out b) {p : Nat} {g : Gen}
    (hg : gs[p]? = some g) {n : Nat} (h1 : g.since ≤ n) (h2 : n ≤ S.now) :
    ∃ c, stored64 g.seq.key (S.data n) = some c ∧ g.seq.leased ≤ c ∧ g.seq.next ≤ c := by
  have hg' := h.gens p g hg
  obtain ⟨kw, hkw⟩ := hg'.key
  obtain ⟨c, hc⟩ := h.count kw n h2
  obtain ⟨c', hc'⟩ := h.count kw g.since hg'.since
  refine ⟨c, by rw [hkw]; exact hc, ?_⟩
  have hm := h.mono kw g.since n c' c h1 h2 hc' hc
  obtain ⟨e1, e2⟩ := hg'.leased c' (by rw [hkw]; exact hc')
  exact ⟨UInt64.le_trans e1 hm, UInt64.le_trans e2 hm⟩

/-- A renewal meets what it needs. -/
theorem fair_of {S : Store} (hf : Framed S) {s : Seq} {c : Turn} (hv : c.v ≤ S.now)
    (hc : ∃ x, stored64 s.key (S.data c.v) = some x ∧ s.leased ≤ x) : OldSeq.Fair s.key s (S.circ s.key c) S.db := by
  refine ⟨hc, ?_⟩
  intro hfail hw k hk
  have hk : k = s.key := lease_reads s.key s.bandwidth s.next c.env (S.data c.v) k hk
  subst hk
  have hcl : S.clash [s.key] c.v = false := by
    cases hcl : S.clash [s.key] c.v with
    | false => rfl
    | true =>
      unfold Store.circ at hfail
      rw [hcl] at hfail
      cases hfail
  exact (hf.unclashed hcl hv List.mem_cons_self).symm

/-- Where a renewal leaves the cursor. -/
theorem renew_cursor (s : Seq) (hk : s.key ≠ []) (c : Circ) (db : DB) {v : UInt64} (hv : stored64 s.key c.snap = some v) :
    (s.updateLease c db).2.1.next = s.next ∨ (s.updateLease c db).2.1.next = v := by
  have hb := (OldSeq.body_lease s.key hk s.bandwidth s.next v c.env c.snap hv).2
  unfold Sequence.Old.Seq.updateLease
  cases hbody : Util.body c.env true (lease s.key s.bandwidth s.next) c.snap with
  | mk r t =>
    rw [hbody] at hb
    match r with
    | .panic => exact .inl rfl
    | .err e => exact .inl rfl
    | .ok (n, .err e) => exact .inr (hb n _ rfl).1
    | .ok (n, .panic) => exact .inl rfl
    | .ok (n, .ok _) =>
      simp only
      cases ht : t.commit c.fail db with
      | mk r' db' => cases r' with
        | ok u => exact .inr (hb n _ rfl).1
        | err e => exact .inr (hb n _ rfl).1
        | panic => exact .inl rfl

/-- The store changes at one key. -/
inductive Bumped (S : Store) (key : Bytes) : Store → Prop where
  | same : Bumped S key S
  | push (db : DB) : (∀ k, k ≠ key → db.get k = S.db.get k) → Bumped S key (S.push db [key])

/-- The sequences keep their places and keys. -/
def KeysLe (gs gs' : List Gen) : Prop := ∀ (p : Nat) (g : Gen), gs[p]? = some g → ∃ g', gs'[p]? = some g' ∧ g'.seq.key = g.seq.key

theorem KeysLe.refl (gs : List Gen) : KeysLe gs gs := fun _ g h => ⟨g, h, rfl⟩

theorem KeysLe.trans {a b c : List Gen} (h : KeysLe a b) (h' : KeysLe b c) : KeysLe a c := by
  intro p g hg
  obtain ⟨g', h1, h2⟩ := h p g hg
  obtain ⟨g'', h3, h4⟩ := h' p g' h1
  exact ⟨g'', h3, h4.trans h2⟩

theorem KeysLe.set {gs : List Gen} {p : Nat} {g : Gen} (hg : gs[p]? = some g) {g' : Gen} (hk : g'.seq.key = g.seq.key) :
    KeysLe gs (gs.set p g') := by
  intro q x hx
  by_cases e : p = q
  · subst e
    rw [hg] at hx; cases hx
    refine ⟨g', ?_, hk⟩
    rw [List.getElem?_set_self]
    exact (List.getElem?_eq_some_iff.mp hg).1
  · exact ⟨x, by rw [List.getElem?_set_ne e]; exact hx, rfl⟩

theorem KeysLe.append (gs l : List Gen) : KeysLe gs (gs ++ l) := by
  intro q x hx
  refine ⟨x, ?_, rfl⟩
  rw [List.getElem?_append_left (List.getElem?_eq_some_iff.mp hx).1]
  exact hx

/-- What a draw does. -/
theorem draw_ok {w : World} {p : Nat} {c : Turn} {r : Res UInt64} {w' : World} {out : List (Bytes × UInt64)} {b : Nat}
    (h : SeqsOK w.store w.gens out b) (hb : b + 1000 < 2 ^ 64) (hd : w.draw p c = some (r, w')) {g : Gen} (hg : w.gens[p]? = some g) :
    Bumped w.store g.seq.key w'.store ∧ KeysLe w.gens w'.gens ∧
    w' = { w with store := w'.store, gens := w'.gens } ∧
    ∃ out', SeqsOK w'.store w'.gens out' (b + 1000) ∧
      ((∃ u, r = .ok u ∧ out' = (g.seq.key, u) :: out ∧ (g.seq.key, u) ∉ out) ∨ ((∀ u, r ≠ .ok u) ∧ out' = out)) := by
  unfold World.draw at hd
  rw [hg] at hd
  simp only at hd
  split at hd
  · rename_i hv
    obtain ⟨hv1, hv2⟩ := hv
    have hg' := h.gens p g hg
    obtain ⟨kw, hkw⟩ := hg'.key
    have hne : g.seq.key ≠ [] := by rw [hkw]; exact Ins.key_ne kw
    obtain ⟨st, hst, -⟩ := h.counter hg hg'.since (Nat.le_refl _)
    have hst : stored64 g.seq.key w.store.db = some st := hst
    have hfit : st.toNat + g.seq.bandwidth.toNat < 2 ^ 64 := by
      have := h.bound kw st (by rw [← hkw]; exact hst)
      have := hg'.wide.2
      omega
    by_cases hge : g.seq.next ≥ g.seq.leased
    · have hfair := fair_of h.framed (s := g.seq) hv2 (by obtain ⟨x, h1, h2, -⟩ := h.counter hg hv1 hv2; exact ⟨x, h1, h2⟩)
      have hu := fun k hk => OldSeq.updateLease_get g.seq (w.store.circ g.seq.key c) w.store.db (k := k) hk
      rcases OldSeq.renew_cases g.seq.key hne g.seq _ w.store.db st rfl hg'.wide.1 hst hfair with
        ⟨db', hr, hst'⟩ | ⟨r', n, hr, hnr, hn⟩
      · simp only [Sequence.Old.Seq.nextId, if_pos hge, hr] at hd
        rw [hr] at hu
        cases hd
        have h1 := h.renewed hg hst hfit hst' hu
        have hg1 : (w.gens.set p ⟨{ g.seq with next := st, leased := st + g.seq.bandwidth }, w.store.now + 1⟩)[p]? =
            some ⟨{ g.seq with next := st, leased := st + g.seq.bandwidth }, w.store.now + 1⟩ := by
          rw [List.getElem?_set_self]
          exact (List.getElem?_eq_some_iff.mp hg).1
        obtain ⟨h2, h3⟩ := h1.hand hg1 (by
          show st < st + g.seq.bandwidth
          rw [UInt64.lt_iff_toNat_lt, OldSeq.add_toNat hfit]
          have := OldSeq.pos_of_ne hg'.wide.1
          omega) (n := w.store.now + 1) (Nat.le_refl _) (Nat.le_refl _)
        simp only [List.set_set] at h2
        exact ⟨.push db' hu, KeysLe.set hg rfl, rfl, _, h2, .inl ⟨st + 1, rfl, rfl, h3⟩⟩
      · simp only [Sequence.Old.Seq.nextId, if_pos hge, hr] at hd
        have hgen : SeqsOK w.store (w.gens.set p ⟨{ g.seq with next := n }, w.store.now⟩) out (b + 1000) := by
          refine (h.weaken (Nat.le_add_right _ _)).shrink hg rfl rfl (Nat.le_refl _) hg'.since ?_ ?_
          · intro c' hc'
            obtain ⟨c'', h1, h2, h3⟩ := h.counter hg hg'.since (Nat.le_refl _)
            have hc' : stored64 g.seq.key (w.store.data w.store.now) = some c' := hc'
            rw [h1] at hc'; cases hc'
            refine ⟨h2, ?_⟩
            obtain ⟨x, hx⟩ := h.count kw c.v hv2
            have := renew_cursor g.seq hne (w.store.circ g.seq.key c) w.store.db (v := x) (by rw [hkw]; exact hx)
            rw [hr] at this
            rcases this with e | e
            · exact UInt64.le_trans (UInt64.le_of_eq e) h3
            · exact UInt64.le_trans (UInt64.le_of_eq e) (h.mono kw c.v w.store.now x _ hv2 (Nat.le_refl _) hx (by rw [← hkw]; exact h1))
          · intro u hu
            rcases hn with rfl | hn
            · exact hu
            · exfalso
              have h1 := hu.1
              have h2 := hu.2
              simp only [UInt64.lt_iff_toNat_lt, UInt64.le_iff_toNat_le] at h1 h2 hn
              omega
        cases r' with
        | ok u => exact absurd rfl hnr
        | err e =>
          cases hd
          exact ⟨.same, KeysLe.set hg rfl, rfl, _, hgen, .inr ⟨nofun, rfl⟩⟩
        | panic =>
          cases hd
          exact ⟨.same, KeysLe.set hg rfl, rfl, _, hgen, .inr ⟨nofun, rfl⟩⟩
    · simp only [Sequence.Old.Seq.nextId, if_neg hge] at hd
      cases hd
      obtain ⟨h2, h3⟩ := (h.weaken (Nat.le_add_right b 1000)).hand hg (by
        have := mt UInt64.le_iff_toNat_le.mpr hge
        rw [UInt64.lt_iff_toNat_lt]
        omega) (n := w.store.now) (Nat.le_refl _) hg'.since
      exact ⟨.same, KeysLe.set hg rfl, rfl, _, h2, .inl ⟨_, rfl, rfl, h3⟩⟩
  · cases hd

/-- What NewSequence does. -/
theorem newSequence_ok {w : World} {kw : Bytes} {bw : UInt64} {c : Turn} {r : Res Unit} {w' : World} {out : List (Bytes × UInt64)} {b : Nat}
    (h : SeqsOK w.store w.gens out b) (hb : b + 1000 < 2 ^ 64) (hbw : bw ≠ 0) (hbw' : bw.toNat ≤ 1000)
    (hd : w.newSequence (metaSequenceKey kw) bw c = some (r, w')) :
    Bumped w.store (metaSequenceKey kw) w'.store ∧ KeysLe w.gens w'.gens ∧
    w' = { w with store := w'.store, gens := w'.gens } ∧ SeqsOK w'.store w'.gens out (b + 1000) ∧
    ∃ g, w'.gens[w.gens.length]? = some g ∧ g.seq.key = metaSequenceKey kw := by
  unfold World.newSequence at hd
  split at hd
  · rename_i hv
    let s : Seq := { key := metaSequenceKey kw, bandwidth := bw }
    obtain ⟨st, hst⟩ := h.count kw w.store.now (Nat.le_refl _)
    have hst : stored64 s.key w.store.db = some st := hst
    have hfit : st.toNat + bw.toNat < 2 ^ 64 := by
      have := h.bound kw st hst
      omega
    obtain ⟨x, hx⟩ := h.count kw c.v hv
    have hfair := fair_of h.framed (s := s) hv ⟨x, hx, UInt64.zero_le⟩
    have hu := fun k hk => OldSeq.updateLease_get s (w.store.circ s.key c) w.store.db (k := k) hk
    have hempty : ∀ u, ¬ InLease s u := by
      intro u hu
      have h1 : 0 < u := hu.1
      have h2 : u ≤ 0 := hu.2
      simp only [UInt64.lt_iff_toNat_lt, UInt64.le_iff_toNat_le] at h1 h2
      omega
    have happ : SeqsOK w.store (w.gens ++ [⟨s, w.store.now⟩]) out b := by
      refine h.append ⟨⟨kw, rfl⟩, ⟨hbw, hbw'⟩, Nat.le_refl _, ?_⟩ hempty
      intro c' _
      exact ⟨UInt64.zero_le, UInt64.zero_le⟩
    have hlast : ∀ g : Gen, (w.gens ++ [g])[w.gens.length]? = some g := fun g => by simp
    rcases OldSeq.renew_cases s.key (Ins.key_ne kw) s _ w.store.db st rfl hbw hst hfair with
      ⟨db', hr, hst'⟩ | ⟨r', n, hr, hnr, hn⟩
    · have hr' : Sequence.Old.Seq.updateLease { key := metaSequenceKey kw, bandwidth := bw } (w.store.circ (metaSequenceKey kw) c) w.store.db = _ := hr
      simp only [Sequence.Old.Seq.new, if_neg hbw, hr'] at hd
      rw [hr] at hu
      cases hd
      have h1 := happ.renewed (hlast _) hst hfit hst' hu
      have hset : (w.gens ++ [(⟨s, w.store.now⟩ : Gen)]).set w.gens.length ⟨{ s with next := st, leased := st + s.bandwidth }, w.store.now + 1⟩ =
          w.gens ++ [⟨{ s with next := st, leased := st + s.bandwidth }, w.store.now + 1⟩] := by
        rw [List.set_append_right _ _ (Nat.le_refl _)]; simp
      rw [hset] at h1
      exact ⟨.push db' hu, KeysLe.append _ _, rfl, h1, _, hlast _, rfl⟩
    · have hr' : Sequence.Old.Seq.updateLease { key := metaSequenceKey kw, bandwidth := bw } (w.store.circ (metaSequenceKey kw) c) w.store.db = _ := hr
      simp only [Sequence.Old.Seq.new, if_neg hbw, hr'] at hd
      have hgen : SeqsOK w.store (w.gens ++ [⟨{ s with next := n }, w.store.now⟩]) out (b + 1000) := by
        refine (h.weaken (Nat.le_add_right _ _)).append ⟨⟨kw, rfl⟩, ⟨hbw, hbw'⟩, Nat.le_refl _, ?_⟩ ?_
        · intro c' hc'
          refine ⟨UInt64.zero_le, ?_⟩
          have := renew_cursor s (Ins.key_ne kw) (w.store.circ s.key c) w.store.db (v := x) hx
          rw [hr] at this
          rcases this with e | e
          · exact UInt64.le_trans (UInt64.le_of_eq e) UInt64.zero_le
          · exact UInt64.le_trans (UInt64.le_of_eq e) (h.mono kw c.v w.store.now x c' hv (Nat.le_refl _) hx hc')
        intro u hu
        have h1 := hu.1
        have h2 : u ≤ 0 := hu.2
        have h1 : n < u := h1
        simp only [UInt64.lt_iff_toNat_lt, UInt64.le_iff_toNat_le] at h1 h2
        simp at h2
        omega
      cases r' with
      | ok u => exact absurd rfl hnr
      | err e =>
        cases hd
        exact ⟨.same, KeysLe.append _ _, rfl, hgen, _, hlast _, rfl⟩
      | panic =>
        cases hd
        exact ⟨.same, KeysLe.append _ _, rfl, hgen, _, hlast _, rfl⟩
  · cases hd

/-- What ReleaseRemaining does. -/
theorem release_ok {w : World} (env : Env) (p : Nat) {out : List (Bytes × UInt64)} {b : Nat} (h : SeqsOK w.store w.gens out b) :
    (w.release env p).store = w.store ∧ (w.release env p).objs = w.objs ∧ (w.release env p).sessions = w.sessions ∧
      (w.release env p).pending = w.pending ∧ KeysLe w.gens (w.release env p).gens ∧
      SeqsOK w.store (w.release env p).gens out b := by
  unfold World.release
  cases hg : w.gens[p]? with
  | none => exact ⟨rfl, rfl, rfl, rfl, KeysLe.refl _, h⟩
  | some g =>
    have hg' := h.gens p g hg
    have keep : SeqsOK w.store (w.gens.set p ⟨g.seq, w.store.now⟩) out b := by
      refine h.shrink hg rfl rfl (Nat.le_refl _) hg'.since ?_ (fun _ h => h)
      intro c hc
      obtain ⟨c', h1, h2⟩ := h.counter hg hg'.since (Nat.le_refl _)
      rw [h1] at hc; cases hc; exact h2
    have hk : (g.seq.releaseRemaining ⟨env, w.store.db, none⟩ w.store.db).2.1 = g.seq ∨
        (g.seq.releaseRemaining ⟨env, w.store.db, none⟩ w.store.db).2.1 = { g.seq with leased := g.seq.next } ∧ g.seq.leased ≠ g.seq.next := by
      unfold Sequence.Old.Seq.releaseRemaining
      split
      · exact .inl rfl
      · rename_i hne
        split
        · exact .inr ⟨rfl, hne⟩
        · exact .inl rfl
        · exact .inl rfl
    dsimp only
    rcases hk with hk | ⟨hk, -⟩
    · rw [hk]
      exact ⟨rfl, rfl, rfl, rfl, KeysLe.set hg rfl, keep⟩
    · rw [hk]
      refine ⟨rfl, rfl, rfl, rfl, KeysLe.set hg rfl, ?_⟩
      refine h.shrink hg rfl rfl (Nat.le_refl _) hg'.since ?_ ?_
      · intro c hc
        obtain ⟨c', h1, -, h2⟩ := h.counter hg hg'.since (Nat.le_refl _)
        have hc : stored64 g.seq.key (w.store.data w.store.now) = some c := hc
        rw [h1] at hc; cases hc; exact ⟨h2, h2⟩
      · intro u hu
        have h1 := hu.1
        have h2 : u ≤ g.seq.next := hu.2
        simp only [UInt64.lt_iff_toNat_lt, UInt64.le_iff_toNat_le] at h1 h2
        omega

end Mondis.DocDB
