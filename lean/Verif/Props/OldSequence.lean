import Verif.Props.Sequence
import Verif.Props.Codec
/-!
# C37: document.Sequence
-/
namespace Mondis.Props
open Mondis Util Prog
open Mondis.Sequence (Circ NoConflict)

/-- The stored counter of a document.Sequence. -/
def stored64 (key : Bytes) (db : DB) : Option UInt64 :=
  match db.get key with
  | none => some 0
  | some v => if v.expiresAt = 0 then
      match Numeric.decodeFromBinary v.value with
      | .ok n => some n
      | _ => none
    else none

namespace OldSeq
open Sequence.Old

/-- What the storage guarantees about a renewal: its snapshot is a state since the holder's last commit
(so the counter is a number not below the holder's lease), and it is refused if the counter has changed
since. -/
def Fair (key : Bytes) (s : Seq) (c : Circ) (db : DB) : Prop :=
  (∃ v, stored64 key c.snap = some v ∧ s.leased ≤ v) ∧ NoConflict c (lease key s.bandwidth s.next) db

def Fits (key : Bytes) (db : DB) (bw : UInt64) : Prop :=
  ∀ v, stored64 key db = some v → v.toNat + bw.toNat < 2 ^ 64

/-- What is assumed about an event. -/
def Sound (key : Bytes) (w : World) : Event → Prop
  | .new bw c => bw ≠ 0 ∧ Fits key w.db bw ∧ Fair key { key := key, bandwidth := bw } c w.db
  | .next i c => ∀ s, w.holders[i]? = some s → Fits key w.db s.bandwidth ∧ Fair key s c w.db
  | .release _ _ | .crash _ => True
  | .other db => stored64 key db = stored64 key w.db

def run (key : Bytes) : World → List Event → World
  | w, [] => w
  | w, e :: es => run key (w.step key e) es

def AllSound (key : Bytes) : World → List Event → Prop
  | _, [] => True
  | w, e :: es => Sound key w e ∧ AllSound key (w.step key e) es

/-! ### One renewal -/

theorem lease_scanFree (key : Bytes) (bw old : UInt64) : (lease key bw old).ScanFree := by
  unfold lease
  intro r
  cases r with
  | ok v =>
    simp only
    split
    · trivial
    · trivial
    · intro _; trivial
  | panic => trivial
  | err e => cases e <;> first | trivial | exact fun _ => trivial

def Shows64 (o : Option Val) (n : UInt64) : Prop :=
  (o = none ∧ n = 0) ∨ ∃ v, o = some v ∧ v.expiresAt = 0 ∧ Numeric.decodeFromBinary v.value = .ok n

theorem shows64 {key : Bytes} {db : DB} {n : UInt64} (now : Int) (h : stored64 key db = some n) :
    Shows64 ((DB.live now db).get key) n := by
  unfold stored64 at h
  rw [live_get]
  cases hg : db.get key with
  | none => rw [hg] at h; simp at h; exact .inl ⟨rfl, h.symm⟩
  | some v =>
    rw [hg] at h
    simp only at h
    split at h
    · rename_i he
      split at h
      · rename_i m hm
        cases h
        exact .inr ⟨v, by simp [Val.live, he], he, hm⟩
      · cases h
    · cases h

theorem stored64_of_live {key : Bytes} {db : DB} {n : UInt64} {now : Int}
    (h : ∃ v, (DB.live now db).get key = some v ∧ v.expiresAt = 0 ∧ v.value = Numeric.encode2Binary n []) :
    stored64 key db = some n := by
  obtain ⟨v, h, he, hv⟩ := h
  rw [live_get] at h
  have hg : db.get key = some v := by
    cases hg : db.get key with
    | none => rw [hg] at h; simp at h
    | some v' =>
      rw [hg] at h
      simp only [Option.filter] at h
      split at h
      · exact h
      · cases h
  have : Numeric.decodeFromBinary (Numeric.encode2Binary n []) = .ok n := C10_binary_roundtrip n
  simp [stored64, hg, he, hv, this]

theorem lease_wp (env : Env) (m : DB) (key : Bytes) (hk : key ≠ []) (bw old n : UInt64) (h : Shows64 (m.get key) n) :
    (lease key bw old).wp env m (fun r m' => r ≠ .panic ∧ ∀ n' r', r = .ok (n', r') → n' = n ∧ ∀ u, r' = .ok u →
      ∃ v, m'.get key = some v ∧ v.expiresAt = 0 ∧ v.value = Numeric.encode2Binary (n + bw) []) := by
  have hset : ∀ v : Bytes, setLive env.now m key (mkVal env.now v none) = m.set key ⟨v, 0, 0⟩ := by
    intro v; simp [setLive, mkVal, Val.live]
  unfold lease
  simp only [wp, readRes, if_neg hk]
  rcases h with ⟨h, rfl⟩ | ⟨v, h, -, hv⟩
  · rw [h]
    simp only [wp]
    refine ⟨?_, ?_⟩
    · intro e _; simp
    · intro _ _; rw [hset]; simp
  · rw [h]
    simp only [hv, wp]
    refine ⟨?_, ?_⟩
    · intro e _; simp
    · intro _ _; rw [hset]; simp

theorem body_lease (key : Bytes) (hk : key ≠ []) (bw old n : UInt64) (env : Env) (db : DB) (h : stored64 key db = some n) :
    (body env true (lease key bw old) db).1 ≠ .panic ∧
    ∀ n' r', (body env true (lease key bw old) db).1 = .ok (n', r') → n' = n ∧ ∀ u, r' = .ok u →
      stored64 key (body env true (lease key bw old) db).2.view = some (n + bw) := by
  have := wp_sound (lease key bw old) (Txn.start { env with update := true } db) _
    (lease_wp { env with update := true } _ key hk bw old n (shows64 _ h))
  refine ⟨this.1, ?_⟩
  intro n' r' hr
  obtain ⟨h1, h2⟩ := this.2 n' r' hr
  refine ⟨h1, ?_⟩
  intro u hu
  exact stored64_of_live (now := env.now) (by
    simpa only [body, Txn.live, run_env, Txn.start] using h2 u hu)

theorem add_ne {a b : UInt64} (h : b ≠ 0) : a + b ≠ a := by
  intro e
  have := congrArg (· - a) e
  simp only [UInt64.sub_self] at this
  rw [UInt64.add_comm, UInt64.add_sub_cancel] at this
  exact h this

/-- A renewal either leases the next ids from the stored counter, or changes nothing but, at most, puts
the cursor at or past the end of the lease. -/
theorem renew_cases (key : Bytes) (hk : key ≠ []) (s : Seq) (c : Circ) (db : DB) (st : UInt64) (hkey : s.key = key)
    (hb : s.bandwidth ≠ 0) (hst : stored64 key db = some st) (hfair : Fair key s c db) :
    (∃ db', s.updateLease c db = (.ok (), { s with next := st, leased := st + s.bandwidth }, db') ∧
      stored64 key db' = some (st + s.bandwidth)) ∨
    (∃ r n, s.updateLease c db = (r, { s with next := n }, db) ∧ r ≠ .ok () ∧ (n = s.next ∨ s.leased ≤ n)) := by
  subst hkey
  obtain ⟨⟨v, hv, hle⟩, hn⟩ := hfair
  obtain ⟨hp, hb1⟩ := body_lease s.key hk s.bandwidth s.next v c.env c.snap hv
  unfold Seq.updateLease
  cases hbody : body c.env true (lease s.key s.bandwidth s.next) c.snap with
  | mk r t =>
    rw [hbody] at hp hb1
    simp only at hp hb1
    cases r with
    | panic => exact absurd rfl hp
    | err e => exact .inr ⟨.panic, s.next, rfl, by simp, .inl rfl⟩
    | ok x =>
      obtain ⟨n, r⟩ := x
      obtain ⟨rfl, h2⟩ := hb1 n r rfl
      cases r with
      | panic => exact .inr ⟨.panic, s.next, rfl, by simp, .inl rfl⟩
      | err e => exact .inr ⟨.err e, n, rfl, by simp, .inr hle⟩
      | ok u =>
        simp only
        have hview := h2 u rfl
        have hw : t.writes ≠ [] := by
          intro hw
          have := Sequence.body_view c.env (lease s.key s.bandwidth s.next) c.snap (by rw [hbody]; exact hw)
          rw [hbody] at this
          simp only at this
          rw [this, hv] at hview
          injection hview with hview
          exact add_ne hb hview.symm
        simp only [Txn.commit, if_neg hw]
        cases hf : c.fail with
        | some e => exact .inr ⟨.err e, n, rfl, by simp, .inr hle⟩
        | none =>
          simp only
          left
          have h' := hn hf (by rw [hbody]; exact hw)
          obtain ⟨r1, r2⟩ := replay _ (lease_scanFree s.key s.bandwidth s.next) { c.env with update := true } c.snap db h'
          have hb' : (lease s.key s.bandwidth s.next).run (Txn.start { c.env with update := true } c.snap) = (.ok (n, .ok u), t) := hbody
          rw [hb'] at r1 r2
          have h3 := (body_lease s.key hk s.bandwidth s.next st c.env db hst).2 n (.ok u) r1
          have hview' := h3.2 u rfl
          have hvw : (body c.env true (lease s.key s.bandwidth s.next) db).2.view = applyWrites db t.writes := by
            have := run_start_view (lease s.key s.bandwidth s.next) { c.env with update := true } db
            rw [r2] at this
            exact this
          rw [hvw] at hview'
          exact ⟨_, by rw [h3.1], hview'⟩

/-! ### The invariant -/

def weight (v : UInt64) (s : Seq) : Nat := if s.next < v ∧ v ≤ s.leased then 1 else 0

structure Inv (key : Bytes) (c₀ : UInt64) (w : World) (st : UInt64) : Prop where
  stored : stored64 key w.db = some st
  holders : ∀ s ∈ w.holders, s.key = key ∧ s.bandwidth ≠ 0
  ids : ∀ v : UInt64, w.out.count v + (w.holders.map (weight v)).sum + (if st < v then 1 else 0) +
    (if v ≤ c₀ then 1 else 0) ≤ 1

theorem sum_set {l : List Seq} {i : Nat} {s s' : Seq} (f : Seq → Nat) (h : l[i]? = some s) :
    ((l.set i s').map f).sum + f s = (l.map f).sum + f s' := by
  induction l generalizing i with
  | nil => simp at h
  | cons a l ih =>
    cases i with
    | zero => simp at h; subst h; simp; omega
    | succ i =>
      simp at h
      have := ih h
      simp only [List.set_cons_succ, List.map_cons, List.sum_cons]
      omega

theorem sum_eraseIdx (l : List Seq) (i : Nat) (f : Seq → Nat) :
    ((l.eraseIdx i).map f).sum ≤ (l.map f).sum := by
  induction l generalizing i with
  | nil => simp
  | cons a l ih =>
    cases i with
    | zero => simp
    | succ i => simp only [List.eraseIdx_cons_succ, List.map_cons, List.sum_cons]; have := ih i; omega

theorem Inv.put {key : Bytes} {c₀ st st' : UInt64} {w : World} (h : Inv key c₀ w st) {i : Nat} {s s' : Seq}
    (hi : w.holders[i]? = some s) {db' : DB} {out : List UInt64} (hdb : stored64 key db' = some st')
    (hs' : s'.key = key ∧ s'.bandwidth ≠ 0)
    (hids : ∀ v : UInt64, out.count v + weight v s' + (if st' < v then 1 else 0) ≤
      w.out.count v + weight v s + (if st < v then 1 else 0)) :
    Inv key c₀ { w with db := db', holders := w.holders.set i s', out := out } st' := by
  refine ⟨hdb, ?_, ?_⟩
  · intro x hx
    rcases List.mem_or_eq_of_mem_set hx with hx | hx
    · exact h.holders x hx
    · rw [hx]; exact hs'
  · intro v
    have h1 := h.ids v
    have h2 := hids v
    have h3 := sum_set (s' := s') (weight v) hi
    simp only
    omega

theorem add_toNat {a b : UInt64} (h : a.toNat + b.toNat < 2 ^ 64) : (a + b).toNat = a.toNat + b.toNat := by
  rw [UInt64.toNat_add]; omega

theorem pos_of_ne {b : UInt64} (h : b ≠ 0) : 0 < b.toNat := by
  rcases Nat.eq_zero_or_pos b.toNat with h0 | h0
  · exact absurd (UInt64.toNat_inj.mp (by simpa using h0)) h
  · exact h0

theorem count_cons_eq (v x : UInt64) (l : List UInt64) : (x :: l).count v = l.count v + if x = v then 1 else 0 := by
  rw [List.count_cons]; simp

theorem renew_weight (st b v : UInt64) (hfit : st.toNat + b.toNat < 2 ^ 64) :
    (if st < v ∧ v ≤ st + b then 1 else 0) + (if st + b < v then 1 else 0) ≤ (if st < v then 1 else 0) := by
  simp only [UInt64.lt_iff_toNat_lt, UInt64.le_iff_toNat_le, add_toNat hfit]
  split <;> split <;> split <;> omega

theorem cursor_weight {s : Seq} {n : UInt64} (v : UInt64) (h : n = s.next ∨ s.leased ≤ n) :
    weight v { s with next := n } ≤ weight v s := by
  rcases h with rfl | h
  · exact Nat.le_refl _
  · unfold weight
    simp only [UInt64.lt_iff_toNat_lt, UInt64.le_iff_toNat_le] at *
    rw [if_neg (by omega)]
    omega

theorem Inv.step {key : Bytes} (hk : key ≠ []) {c₀ st : UInt64} {w : World} (h : Inv key c₀ w st) (e : Event)
    (hs : Sound key w e) : ∃ st', Inv key c₀ (w.step key e) st' := by
  cases e with
  | new bw c =>
    obtain ⟨hb, hfit, hfair⟩ := hs
    have hfit := hfit st h.stored
    simp only [World.step, Seq.new, if_neg hb]
    have grow : ∀ {s : Seq} {db' : DB} {st' : UInt64}, s.key = key → s.bandwidth ≠ 0 → stored64 key db' = some st' →
        (∀ v, weight v s + (if st' < v then 1 else 0) ≤ (if st < v then 1 else 0)) →
        Inv key c₀ { w with db := db', holders := w.holders ++ [s] } st' := by
      intro s db' st' h1 h2 h3 h4
      refine ⟨h3, ?_, ?_⟩
      · intro x hx
        rcases List.mem_append.mp hx with hx | hx
        · exact h.holders x hx
        · rw [List.mem_singleton.mp hx]; exact ⟨h1, h2⟩
      · intro v
        have := h.ids v
        have := h4 v
        simp only [List.map_append, List.sum_append, List.map_cons, List.map_nil, List.sum_cons, List.sum_nil]
        omega
    rcases renew_cases key hk { key := key, bandwidth := bw } c w.db st rfl hb h.stored hfair with
      ⟨db', hr, hst'⟩ | ⟨r, n, hr, hne, hn⟩
    · rw [hr]
      exact ⟨_, grow (by rfl) hb hst' (fun v => renew_weight st bw v hfit)⟩
    · rw [hr]
      refine ⟨st, grow (by rfl) hb h.stored ?_⟩
      intro v
      simp only [weight, UInt64.lt_iff_toNat_lt, UInt64.le_iff_toNat_le]
      rw [if_neg (by simp; omega)]
      omega
  | next i c =>
    simp only [World.step]
    cases hi : w.holders[i]? with
    | none => exact ⟨st, h⟩
    | some s =>
      obtain ⟨hfit, hfair⟩ := hs s hi
      have hfit := hfit st h.stored
      obtain ⟨hkey, hb⟩ := h.holders s (List.mem_of_getElem? hi)
      simp only [Seq.nextId]
      by_cases hge : s.next ≥ s.leased
      · rw [if_pos hge]
        rcases renew_cases key hk s c w.db st hkey hb h.stored hfair with ⟨db', hr, hst'⟩ | ⟨r, n, hr, hne, hn⟩
        · rw [hr]
          simp only
          refine ⟨_, h.put hi hst' ⟨hkey, hb⟩ ?_⟩
          intro v
          have h1 := renew_weight st s.bandwidth v hfit
          have h2 := pos_of_ne hb
          have h3 : (st + 1).toNat = st.toNat + 1 := add_toNat (by simp; omega)
          rw [count_cons_eq]
          simp only [weight, UInt64.lt_iff_toNat_lt, UInt64.le_iff_toNat_le, h3, add_toNat hfit] at h1 ⊢
          have : (if st + 1 = v then 1 else 0) + (if st.toNat + 1 < v.toNat ∧ v.toNat ≤ st.toNat + s.bandwidth.toNat then 1 else 0) ≤
              (if st.toNat < v.toNat ∧ v.toNat ≤ st.toNat + s.bandwidth.toNat then 1 else 0) := by
            by_cases he : st + 1 = v
            · rw [if_pos he]
              rw [← he, h3]
              split <;> split <;> omega
            · rw [if_neg he]
              split <;> split <;> omega
          omega
        · rw [hr]
          have hput : Inv key c₀ { w with db := w.db, holders := w.holders.set i { s with next := n } } st :=
            h.put hi h.stored ⟨hkey, hb⟩ (by
              intro v
              have := cursor_weight v hn
              omega)
          cases r with
          | ok u => exact absurd rfl hne
          | err e => exact ⟨st, hput⟩
          | panic => exact ⟨st, hput⟩
      · rw [if_neg hge]
        simp only
        have hlt : s.next.toNat < s.leased.toNat := by
          have := mt UInt64.le_iff_toNat_le.mpr hge
          omega
        have hl := s.leased.toNat_lt
        have h3 : (s.next + 1).toNat = s.next.toNat + 1 := add_toNat (by simp; omega)
        refine ⟨st, h.put hi h.stored ⟨hkey, hb⟩ ?_⟩
        intro v
        rw [count_cons_eq]
        simp only [weight, UInt64.lt_iff_toNat_lt, UInt64.le_iff_toNat_le, h3]
        have : (if s.next + 1 = v then 1 else 0) + (if s.next.toNat + 1 < v.toNat ∧ v.toNat ≤ s.leased.toNat then 1 else 0) ≤
            (if s.next.toNat < v.toNat ∧ v.toNat ≤ s.leased.toNat then 1 else 0) := by
          by_cases he : s.next + 1 = v
          · rw [if_pos he]
            rw [← he, h3]
            split <;> split <;> omega
          · rw [if_neg he]
            split <;> split <;> omega
        omega
  | release i c =>
    simp only [World.step]
    cases hi : w.holders[i]? with
    | none => exact ⟨st, h⟩
    | some s =>
      obtain ⟨hkey, hb⟩ := h.holders s (List.mem_of_getElem? hi)
      have hsame : Inv key c₀ { w with db := w.db, holders := w.holders.set i s } st :=
        h.put hi h.stored ⟨hkey, hb⟩ (by intro v; omega)
      simp only [Seq.releaseRemaining]
      split
      · exact ⟨st, hsame⟩
      · split
        · refine ⟨st, h.put hi h.stored ⟨hkey, hb⟩ ?_⟩
          intro v
          have : weight v { s with leased := s.next } = 0 := by
            simp only [weight, UInt64.lt_iff_toNat_lt, UInt64.le_iff_toNat_le]
            exact if_neg (by omega)
          simp only
          omega
        · exact ⟨st, hsame⟩
        · exact ⟨st, hsame⟩
  | crash i =>
    refine ⟨st, h.stored, ?_, ?_⟩
    · intro s hs
      exact h.holders s (List.mem_of_mem_eraseIdx hs)
    · intro v
      have := h.ids v
      have := sum_eraseIdx w.holders i (weight v)
      simp only [World.step]
      omega
  | other db =>
    exact ⟨st, by rw [← h.stored]; exact hs, h.holders, h.ids⟩

theorem Inv.run {key : Bytes} (hk : key ≠ []) {c₀ st : UInt64} {w : World} (h : Inv key c₀ w st) (es : List Event)
    (hs : AllSound key w es) : ∃ st', Inv key c₀ (OldSeq.run key w es) st' := by
  induction es generalizing w st with
  | nil => exact ⟨st, h⟩
  | cons e es ih =>
    obtain ⟨st', h'⟩ := h.step hk e hs.1
    exact ih h' hs.2

end OldSeq
open OldSeq

/-- document.Sequence: over any number of objects, renewals that succeed or fail, releases and crashes, no
id is handed out twice, and all lie above the counter's first value. -/
theorem C37_unique (key : Bytes) (hk : key ≠ []) (db : DB) (c₀ : UInt64) (es : List Sequence.Old.Event)
    (h0 : stored64 key db = some c₀) (hs : OldSeq.AllSound key { db := db } es) :
    (OldSeq.run key { db := db } es).out.Nodup ∧ ∀ v ∈ (OldSeq.run key { db := db } es).out, c₀ < v := by
  have h : OldSeq.Inv key c₀ { db := db } c₀ := by
    refine ⟨h0, by simp, ?_⟩
    intro v
    simp only [List.count_nil, List.map_nil, List.sum_nil, UInt64.lt_iff_toNat_lt, UInt64.le_iff_toNat_le]
    split <;> split <;> omega
  obtain ⟨st, h⟩ := h.run hk es hs
  refine ⟨List.nodup_iff_count.mpr ?_, ?_⟩
  · intro v; have := h.ids v; omega
  · intro v hv
    have h1 := h.ids v
    have h2 : 0 < (OldSeq.run key { db := db } es).out.count v := List.count_pos_iff.mpr hv
    by_cases hc : v ≤ c₀
    · rw [if_pos hc] at h1; omega
    · exact UInt64.not_le.mp hc

/-- ReleaseRemaining never changes the database: the ids it gives up are lost, not given back. -/
theorem C37_release_keeps_db (s : Sequence.Old.Seq) (c : Circ) (db : DB) : (s.releaseRemaining c db).2.2 = db := by
  unfold Sequence.Old.Seq.releaseRemaining
  split
  · rfl
  · split <;> rfl

/-- When the engine takes the write, ReleaseRemaining succeeds and the object gives up what is left of its lease,
so its next id comes from a new lease. -/
theorem C37_release_forgets (s : Sequence.Old.Seq) (c : Circ) (db : DB) (hk : keyErr s.key = none)
    (hb : c.env.tooBig 0 = false) :
    (s.releaseRemaining c db).1 = .ok () ∧ (s.releaseRemaining c db).2.1 = { s with leased := s.next } := by
  unfold Sequence.Old.Seq.releaseRemaining
  split
  · rename_i h; exact ⟨rfl, by cases s; simp_all⟩
  · simp [Util.body, Prog.setK, Prog.run, Txn.start, Txn.set, Txn.modify, hk, hb]

example : keyErr [1] = none ∧ (calmCirc .empty).env.tooBig 0 = false := by decide

set_option maxRecDepth 20000 in
/-- After ReleaseRemaining a new object starts behind the released ids: 1 was handed out, 2 – 10 were
released, the next id is 11. -/
theorem C37_release_false :
    (OldSeq.run [1] { db := .empty } [.new 10 (calmCirc .empty), .next 0 (calmCirc .empty), .release 0 (calmCirc .empty),
      .crash 0, .new 10 (calmCirc (Sequence.Old.Seq.new [1] 10 (calmCirc .empty) .empty).2.2), .next 0 (calmCirc .empty)]).out
      = [11, 1] := by
  decide

/-- A history that meets the assumptions of `C37_unique`: two objects on one counter. -/
example : OldSeq.AllSound [1] { db := .empty } [.new 10 (calmCirc .empty), .release 0 (calmCirc .empty),
    .new 5 (calmCirc (Sequence.Old.Seq.new [1] 10 (calmCirc .empty) .empty).2.2), .crash 0] := by
  refine ⟨⟨by decide, ?_, ⟨0, by decide, by decide⟩, fun _ _ _ _ => rfl⟩, trivial,
    ⟨by decide, ?_, ⟨10, ?_, by decide⟩, fun _ _ _ _ => rfl⟩, trivial, trivial⟩
  · intro v hv
    have : stored64 [1] OMap.empty = some 0 := by decide
    simp only at hv
    rw [this] at hv; cases hv; decide
  · intro v hv
    have : stored64 [1] (Sequence.Old.Seq.new [1] 10 (calmCirc .empty) .empty).2.2 = some 10 := by
      set_option maxRecDepth 20000 in decide
    have hv : stored64 [1] (Sequence.Old.Seq.new [1] 10 (calmCirc .empty) .empty).2.2 = some v := by
      rw [← hv]; set_option maxRecDepth 20000 in decide
    rw [this] at hv; cases hv; decide
  · set_option maxRecDepth 20000 in decide

end Mondis.Props
