import Verif.Lemmas.Sequence
/-!
# C33 – C39: sequences

A `World` is a database and any number of sequence objects (in any number of processes) on one stored
counter.  `Sound` says of an event what is assumed about it; nothing is assumed about whether
transactions commit, or when processes die.
-/
namespace Mondis.Props
open Mondis Util Sequence

/-- The stored counter. -/
def stored (cell : Cell) (db : DB) : Option Int64 := counter db cell.dataKey

/-- A transaction's snapshot is an earlier state, in which the counter was a number too, and the storage
refuses it if something it read has changed. -/
def Fair {α : Type} (cell : Cell) (c : Circ) (p : Prog α) (db : DB) : Prop :=
  (∃ v, stored cell c.snap = some v) ∧ NoConflict c p db

/-- The counter stays below 2^63 if it grows by `step`. -/
def Fits (cell : Cell) (db : DB) (step : Int64) : Prop :=
  ∀ v, stored cell db = some v → v.toInt + step.toInt < 2 ^ 63

/-- Nobody has leased since this holder did. -/
def Newest (cell : Cell) (s : Seq) (db : DB) : Prop := stored cell db = some s.leased

/-- What is assumed about an event: a positive bandwidth, no overflow of the counter, the storage's
guarantee; that NextN is used within the lease; that ids are released only by the holder of the newest
lease; and that other transactions leave the counter alone. -/
def Sound (cell : Cell) (w : World) : Event → Prop
  | .new bw c => 0 < bw.toInt ∧ Fits cell w.db bw ∧ Fair cell c (cell.inc bw) w.db
  | .next i c | .reNew i c => ∀ s, w.holders[i]? = some s →
      Fits cell w.db s.bandwidth ∧ Fair cell c (cell.inc s.bandwidth) w.db
  | .nextN i n _ => ∀ s, w.holders[i]? = some s → 0 ≤ n.toInt ∧ s.next.toInt + n.toInt ≤ s.leased.toInt
  | .release i c => ∀ s, w.holders[i]? = some s → Newest cell s w.db ∧ Fair cell c (cell.put s.next) w.db
  | .close i rel c => ∀ s, w.holders[i]? = some s → rel = true →
      Newest cell s w.db ∧ Fair cell c (cell.put s.next) w.db
  | .putBack _ _ | .crash _ => True
  | .other db => stored cell db = stored cell w.db

/-- Histories. -/
def runEvents (cell : Cell) : World → List Event → World
  | w, [] => w
  | w, e :: es => runEvents cell (w.step cell e) es

def AllSound (cell : Cell) : World → List Event → Prop
  | _, [] => True
  | w, e :: es => Sound cell w e ∧ AllSound cell (w.step cell e) es

/-! ### The invariant -/

/-- Ids a holder can still hand out. -/
def weight (v : Int64) (s : Seq) : Nat :=
  s.putbacks.count v + if s.next.toInt < v.toInt ∧ v.toInt ≤ s.leased.toInt then 1 else 0

structure Inv (cell : Cell) (c₀ : Int64) (w : World) (st : Int64) : Prop where
  stored : stored cell w.db = some st
  holders : ∀ s ∈ w.holders, s.cell = cell ∧ 0 < s.bandwidth.toInt ∧ s.next.toInt ≤ s.leased.toInt
  ids : ∀ v : Int64, w.out.count v + (w.holders.map (weight v)).sum + (if st.toInt < v.toInt then 1 else 0) +
    (if v.toInt ≤ c₀.toInt then 1 else 0) ≤ w.back.count v + 1

theorem sum_set {l : List Seq} {i : Nat} {s s' : Seq} (f : Seq → Nat) (h : l[i]? = some s) :
    ((l.set i s').map f).sum + f s = (l.map f).sum + f s' := by
  induction l generalizing i with
  | nil => simp at h
  | cons a l ih =>
    cases i with
    | zero => simp at h; subst h; simp; omega
    | succ i =>
      simp at h
      have := ih h
      simp only [List.set_cons_succ, List.map_cons, List.sum_cons]
      omega

theorem sum_eraseIdx (l : List Seq) (i : Nat) (f : Seq → Nat) :
    ((l.eraseIdx i).map f).sum ≤ (l.map f).sum := by
  induction l generalizing i with
  | nil => simp
  | cons a l ih =>
    cases i with
    | zero => simp
    | succ i => simp only [List.eraseIdx_cons_succ, List.map_cons, List.sum_cons]; have := ih i; omega

theorem toInt_add {a b : Int64} (h : a.toInt + b.toInt < 2 ^ 63) (h' : -2 ^ 63 ≤ a.toInt + b.toInt) :
    (a + b).toInt = a.toInt + b.toInt := by
  rw [Int64.toInt_add]
  exact Int.bmod_eq_of_le (by omega) (by omega)

theorem toInt_sub {a b : Int64} (h : a.toInt - b.toInt < 2 ^ 63) (h' : -2 ^ 63 ≤ a.toInt - b.toInt) :
    (a - b).toInt = a.toInt - b.toInt := by
  rw [Int64.toInt_sub]
  exact Int.bmod_eq_of_le (by omega) (by omega)

/-- What a renewal does. -/
theorem renew_cases (cell : Cell) (s : Seq) (c : Circ) (db : DB) (st : Int64) (hcell : s.cell = cell)
    (hb : 0 < s.bandwidth.toInt) (hst : stored cell db = some st) (hfit : Fits cell db s.bandwidth)
    (hfair : Fair cell c (cell.inc s.bandwidth) db) :
    (∃ db' st', s.renewLease c 0 db = (.ok (), { s with leased := st', next := st }, db') ∧
      stored cell db' = some st' ∧ st'.toInt = st.toInt + s.bandwidth.toInt) ∨
    (∃ r, s.renewLease c 0 db = (r, s, db) ∧ r ≠ .ok ()) := by
  have hb0 : s.bandwidth ≠ 0 := by intro h; rw [h] at hb; simp at hb
  unfold Seq.renewLease
  simp only [if_true]
  rw [hcell]
  cases hr : runInNewUpdateTxn c.env c.fail (cell.inc s.bandwidth) c.snap db with
  | mk r db' =>
    cases r with
    | ok n =>
      left
      obtain ⟨⟨v', hv'⟩, hn⟩ := hfair
      obtain ⟨h1, h2⟩ := inc_commit cell c db db' s.bandwidth st v' n hb0 hv' hst hn hr
      have hf := hfit st hst
      have h3 : n.toInt = st.toInt + s.bandwidth.toInt := by
        rw [h1]; exact toInt_add hf (by have := Int64.le_toInt st; omega)
      refine ⟨db', n, ?_, h2, h3⟩
      have : n - s.bandwidth = st := by rw [h1]; exact Int64.add_sub_cancel st s.bandwidth
      simp [this]
    | err e =>
      right
      have := update_failed (env := c.env) (fail := c.fail) (p := cell.inc s.bandwidth) (snap := c.snap) (db := db)
        (by intro a; rw [hr]; simp)
      rw [hr] at this
      exact ⟨.err e, by simp at this; simp [this], by simp⟩
    | panic =>
      right
      have := update_failed (env := c.env) (fail := c.fail) (p := cell.inc s.bandwidth) (snap := c.snap) (db := db)
        (by intro a; rw [hr]; simp)
      rw [hr] at this
      exact ⟨.panic, by simp at this; simp [this], by simp⟩

/-- What a release does. -/
theorem release_cases (cell : Cell) (s : Seq) (c : Circ) (db : DB) (hcell : s.cell = cell)
    (hst : stored cell db = some s.leased) (hsnap : stored cell c.snap = some s.leased)
    (hfair : Fair cell c (cell.put s.next) db) :
    (∃ db', s.releaseRemainingLocked c db = (.ok (), { s with leased := s.next }, db') ∧
      stored cell db' = some s.next) ∨
    (∃ r, s.releaseRemainingLocked c db = (r, s, db) ∧ r ≠ .ok ()) := by
  unfold Seq.releaseRemainingLocked
  by_cases he : s.leased = s.next
  · rw [if_pos he]
    left
    exact ⟨db, by cases s; simp only at he; subst he; rfl, he ▸ hst⟩
  · rw [if_neg he]
    unfold Seq.updateLeased
    rw [hcell]
    cases hr : runInNewUpdateTxn c.env c.fail (cell.put s.next) c.snap db with
    | mk r db' =>
      cases r with
      | ok u =>
        left
        exact ⟨db', rfl, put_commit cell c db db' s.leased s.next u he hsnap hst hfair.2 hr⟩
      | err e =>
        right
        have := update_failed (env := c.env) (fail := c.fail) (p := cell.put s.next) (snap := c.snap) (db := db)
          (by intro a; rw [hr]; simp)
        rw [hr] at this
        exact ⟨.err e, by simp at this; simp [this], by simp⟩
      | panic =>
        right
        have := update_failed (env := c.env) (fail := c.fail) (p := cell.put s.next) (snap := c.snap) (db := db)
          (by intro a; rw [hr]; simp)
        rw [hr] at this
        exact ⟨.panic, by simp at this; simp [this], by simp⟩

/-- What a release does if its snapshot may be old: then it can succeed without writing. -/
theorem release_any (cell : Cell) (s : Seq) (c : Circ) (db : DB) (hcell : s.cell = cell)
    (hst : stored cell db = some s.leased) (hfair : Fair cell c (cell.put s.next) db) :
    (∃ db', s.releaseRemainingLocked c db = (.ok (), { s with leased := s.next }, db') ∧
      (stored cell db' = some s.next ∨ db' = db)) ∨
    (∃ r, s.releaseRemainingLocked c db = (r, s, db) ∧ r ≠ .ok ()) := by
  by_cases hw : (body c.env true (cell.put s.next) c.snap).2.writes = []
  · unfold Seq.releaseRemainingLocked
    by_cases he : s.leased = s.next
    · rw [if_pos he]
      left
      exact ⟨db, by cases s; simp only at he; subst he; rfl, .inr rfl⟩
    rw [if_neg he]
    unfold Seq.updateLeased
    rw [hcell]
    have hr : (runInNewUpdateTxn c.env c.fail (cell.put s.next) c.snap db).2 = db := by
      unfold runInNewUpdateTxn
      generalize body c.env true (cell.put s.next) c.snap = z at hw
      obtain ⟨r, t⟩ := z
      cases r with
      | ok a => simp only at hw; simp only [Txn.commit, hw, if_true]
      | err e => rfl
      | panic => rfl
    cases hr' : runInNewUpdateTxn c.env c.fail (cell.put s.next) c.snap db with
    | mk r db' =>
      rw [hr'] at hr
      simp only at hr
      subst hr
      cases r with
      | ok u => exact .inl ⟨db', rfl, .inr rfl⟩
      | err e => exact .inr ⟨.err e, rfl, by simp⟩
      | panic => exact .inr ⟨.panic, rfl, by simp⟩
  · unfold Seq.releaseRemainingLocked
    by_cases he : s.leased = s.next
    · rw [if_pos he]
      left
      exact ⟨db, by cases s; simp only at he; subst he; rfl, .inr rfl⟩
    rw [if_neg he]
    unfold Seq.updateLeased
    rw [hcell]
    cases hr : runInNewUpdateTxn c.env c.fail (cell.put s.next) c.snap db with
    | mk r db' =>
      cases r with
      | ok u =>
        obtain ⟨h1, h2⟩ := update_replay c _ (put_scanFree cell s.next) db hfair.2 hr hw
        refine .inl ⟨db', rfl, .inl ?_⟩
        rw [h2]
        exact put_at cell _ db s.next s.leased u hst h1
      | err e =>
        have := update_failed (env := c.env) (fail := c.fail) (p := cell.put s.next) (snap := c.snap) (db := db)
          (by intro a; rw [hr]; simp)
        rw [hr] at this
        exact .inr ⟨.err e, by simp at this; simp [this], by simp⟩
      | panic =>
        have := update_failed (env := c.env) (fail := c.fail) (p := cell.put s.next) (snap := c.snap) (db := db)
          (by intro a; rw [hr]; simp)
        rw [hr] at this
        exact .inr ⟨.panic, by simp at this; simp [this], by simp⟩

/-- Changing one holder and the counter. -/
theorem Inv.put {cell : Cell} {c₀ st st' : Int64} {w : World} (h : Inv cell c₀ w st) {i : Nat} {s s' : Seq}
    (hi : w.holders[i]? = some s) {db' : DB} {out back : List Int64} (hdb : Props.stored cell db' = some st')
    (hs' : s'.cell = cell ∧ 0 < s'.bandwidth.toInt ∧ s'.next.toInt ≤ s'.leased.toInt)
    (hids : ∀ v : Int64, out.count v + weight v s' + (if st'.toInt < v.toInt then 1 else 0) + w.back.count v ≤
      w.out.count v + weight v s + (if st.toInt < v.toInt then 1 else 0) + back.count v) :
    Inv cell c₀ { w with db := db', holders := w.holders.set i s', out := out, back := back } st' := by
  refine ⟨hdb, ?_, ?_⟩
  · intro x hx
    rcases List.mem_or_eq_of_mem_set hx with hx | hx
    · exact h.holders x hx
    · rw [hx]; exact hs'
  · intro v
    have h1 := h.ids v
    have h2 := hids v
    have h3 := sum_set (s' := s') (weight v) hi
    simp only
    omega

theorem Inv.same {cell : Cell} {c₀ st : Int64} {w : World} (h : Inv cell c₀ w st) {i : Nat} {s : Seq}
    (hi : w.holders[i]? = some s) : Inv cell c₀ { w with db := w.db, holders := w.holders.set i s } st := by
  have hm : s ∈ w.holders := List.mem_of_getElem? hi
  exact h.put hi h.stored (h.holders s hm) (by intro v; omega)

theorem Inv.put' {α : Type} {cell : Cell} {c₀ st st' : Int64} {w : World} (h : Inv cell c₀ w st) {i : Nat} {s s' : Seq}
    (hi : w.holders[i]? = some s) {db' : DB} {r : Res α} (hdb : Props.stored cell db' = some st')
    (hs' : s'.cell = cell ∧ 0 < s'.bandwidth.toInt ∧ s'.next.toInt ≤ s'.leased.toInt)
    (hids : ∀ v : Int64, weight v s' + (if st'.toInt < v.toInt then 1 else 0) ≤
      weight v s + (if st.toInt < v.toInt then 1 else 0)) :
    Inv cell c₀ (w.put i (r, s', db')) st' :=
  h.put hi hdb hs' (by intro v; have := hids v; simp only; omega)

theorem one_toInt : (1 : Int64).toInt = 1 := by decide

theorem succ_toInt {a b : Int64} (h : a.toInt < b.toInt) : (a + 1).toInt = a.toInt + 1 := by
  have := Int64.toInt_lt b
  have := Int64.le_toInt a
  rw [toInt_add (by rw [one_toInt]; omega) (by rw [one_toInt]; omega), one_toInt]

theorem renew_weight {s : Seq} {st st' : Int64} (v : Int64) (hb : 0 < s.bandwidth.toInt) (h : st'.toInt = st.toInt + s.bandwidth.toInt) :
    weight v { s with leased := st', next := st } + (if st'.toInt < v.toInt then 1 else 0) ≤
      weight v s + (if st.toInt < v.toInt then 1 else 0) := by
  unfold weight
  simp only
  have : (if st.toInt < v.toInt ∧ v.toInt ≤ st'.toInt then 1 else 0) + (if st'.toInt < v.toInt then 1 else 0) ≤
      (if st.toInt < v.toInt then 1 else 0) := by
    split <;> split <;> split <;> omega
  omega

theorem take_weight {s : Seq} (v : Int64) (h : s.next.toInt < s.leased.toInt) :
    (if s.next + 1 = v then 1 else 0) + weight v { s with next := s.next + 1 } ≤ weight v s := by
  have h1 := succ_toInt h
  unfold weight
  simp only
  have : (if s.next + 1 = v then 1 else 0) + (if (s.next + 1).toInt < v.toInt ∧ v.toInt ≤ s.leased.toInt then 1 else 0) ≤
      (if s.next.toInt < v.toInt ∧ v.toInt ≤ s.leased.toInt then 1 else 0) := by
    by_cases he : s.next + 1 = v
    · rw [if_pos he]; subst he; rw [h1]; split <;> split <;> omega
    · rw [if_neg he]; rw [h1]; split <;> split <;> omega
  omega

theorem count_cons_eq (v x : Int64) (l : List Int64) : (x :: l).count v = l.count v + if x = v then 1 else 0 := by
  rw [List.count_cons]; simp

theorem count_idsIn (a b v : Int64) :
    (idsIn (a, b)).count v ≤ if a.toInt < v.toInt ∧ v.toInt ≤ b.toInt then 1 else 0 := by
  unfold idsIn
  simp only
  generalize hn : (b.toInt - a.toInt).toNat = n
  have key : ∀ n : Nat, (a.toInt + n ≤ b.toInt ∨ n = 0) →
      ((List.range n).map (fun (i : Nat) => Int64.ofInt (a.toInt + 1 + (i : Int)))).count v ≤
        if a.toInt < v.toInt ∧ v.toInt ≤ a.toInt + n then 1 else 0 := by
    intro n
    induction n with
    | zero => intro _; simp
    | succ n ih =>
      intro h
      have ih := ih (by omega)
      rw [List.range_succ, List.map_append, List.count_append]
      simp only [List.map_cons, List.map_nil, count_cons_eq, List.count_nil]
      have hle := Int64.le_toInt a
      have hlt := Int64.toInt_lt b
      have hx : (Int64.ofInt (a.toInt + 1 + (n : Int))).toInt = a.toInt + 1 + n := by
        exact Int64.toInt_ofInt_of_le (by omega) (by omega)
      by_cases he : Int64.ofInt (a.toInt + 1 + (n : Int)) = v
      · rw [if_pos he]
        rw [he] at hx
        rw [if_neg (by omega)] at ih
        rw [if_pos (by omega)]
        omega
      · rw [if_neg he]
        split at ih <;> split <;> omega
  have := key n (by omega)
  refine Nat.le_trans this ?_
  split <;> split <;> omega

/-- An id newly leased, taken back or handed out never makes more of any id. -/
theorem Inv.step {cell : Cell} {c₀ st : Int64} {w : World} (h : Inv cell c₀ w st) (e : Event) (hs : Sound cell w e) :
    ∃ st', Inv cell c₀ (w.step cell e) st' := by
  cases e with
  | new bw c =>
    obtain ⟨hb, hfit, hfair⟩ := hs
    simp only [World.step, Seq.new]
    by_cases hv : cell.valid = false
    · rw [if_pos hv]; exact ⟨st, by simpa using h⟩
    rw [if_neg hv]
    by_cases h0 : bw = 0
    · rw [h0] at hb; simp at hb
    rw [if_neg h0]
    rcases renew_cases cell { cell := cell, bandwidth := bw } c w.db st rfl hb h.stored hfit hfair with
      ⟨db', st', hr, hst', hi⟩ | ⟨r, hr, _⟩
    · rw [hr]
      refine ⟨st', hst', ?_, ?_⟩
      · intro s hs
        simp only [Option.toList_some, List.mem_append, List.mem_singleton] at hs
        rcases hs with hs | rfl
        · exact h.holders s hs
        · exact ⟨rfl, hb, by simp only at hi ⊢; omega⟩
      · intro v
        have := h.ids v
        simp only [Option.toList_some, List.map_append, List.sum_append, List.map_cons, List.map_nil, List.sum_cons,
          List.sum_nil, weight, List.count_nil]
        have : (if st.toInt < v.toInt ∧ v.toInt ≤ st'.toInt then 1 else 0) + (if st'.toInt < v.toInt then 1 else 0) ≤
            (if st.toInt < v.toInt then 1 else 0) := by
          simp only at hi
          split <;> split <;> split <;> omega
        omega
    · rw [hr]
      refine ⟨st, h.stored, ?_, ?_⟩
      · intro s hs
        simp only [Option.toList_some, List.mem_append, List.mem_singleton] at hs
        rcases hs with hs | rfl
        · exact h.holders s hs
        · exact ⟨rfl, hb, by simp⟩
      · intro v
        have := h.ids v
        simp only [Option.toList_some, List.map_append, List.sum_append, List.map_cons, List.map_nil, List.sum_cons,
          List.sum_nil, weight, List.count_nil]
        rw [if_neg (by simp; try omega)]
        omega
  | next i c =>
    simp only [World.step]
    cases hi : w.holders[i]? with
    | none => exact ⟨st, h⟩
    | some s =>
      obtain ⟨hfit, hfair⟩ := hs s hi
      obtain ⟨hcell, hb, hle⟩ := h.holders s (List.mem_of_getElem? hi)
      simp only [Seq.nextId]
      by_cases hc : s.closed
      · rw [if_pos hc]; exact ⟨st, h.same hi⟩
      rw [if_neg hc]
      cases hl : s.putbacks.getLast? with
      | some v =>
        simp only
        obtain ⟨pb, hpb⟩ := List.getLast?_eq_some_iff.mp hl
        refine ⟨st, h.put hi h.stored ⟨hcell, hb, hle⟩ ?_⟩
        intro u
        simp only [World.put, weight, hpb, List.dropLast_concat, List.count_append, count_cons_eq, List.count_nil]
        omega
      | none =>
        simp only
        by_cases hge : s.next ≥ s.leased
        · rw [if_pos hge]
          rcases renew_cases cell s c w.db st hcell hb h.stored hfit hfair with ⟨db', st', hr, hst', hi'⟩ | ⟨r, hr, hne⟩
          · rw [hr]
            simp only
            have hlt : st.toInt < st'.toInt := by omega
            have h1 := succ_toInt hlt
            refine ⟨st', h.put hi hst' ⟨hcell, hb, by simp only; omega⟩ ?_⟩
            intro v
            have h2 := take_weight (s := { s with leased := st', next := st }) v hlt
            have h3 := renew_weight v hb hi'
            simp only at h2 h3 ⊢
            rw [count_cons_eq]
            simp only [World.put]
            omega
          · rw [hr]
            cases r with
            | ok u => exact absurd rfl hne
            | err e => exact ⟨st, h.same hi⟩
            | panic => exact ⟨st, h.same hi⟩
        · rw [if_neg hge]
          simp only
          have hlt : s.next.toInt < s.leased.toInt := by
            have := mt Int64.le_iff_toInt_le.mpr hge
            omega
          have h1 := succ_toInt hlt
          refine ⟨st, h.put hi h.stored ⟨hcell, hb, by simp only; omega⟩ ?_⟩
          intro v
          have h2 := take_weight v hlt
          rw [count_cons_eq]
          simp only [World.put]
          omega
  | nextN i n c =>
    simp only [World.step]
    cases hi : w.holders[i]? with
    | none => exact ⟨st, h⟩
    | some s =>
      obtain ⟨hn, hle'⟩ := hs s hi
      obtain ⟨hcell, hb, hle⟩ := h.holders s (List.mem_of_getElem? hi)
      simp only [Seq.nextN]
      by_cases h0 : n = 0
      · rw [if_pos h0]; exact ⟨st, h.same hi⟩
      rw [if_neg h0]
      by_cases hc : s.closed
      · rw [if_pos hc]; exact ⟨st, h.same hi⟩
      rw [if_neg hc]
      have hlt := Int64.toInt_lt s.leased
      have hge := Int64.le_toInt s.next
      have hadd : (s.next + n).toInt = s.next.toInt + n.toInt := toInt_add (by omega) (by omega)
      rw [if_pos (Int64.le_iff_toInt_le.mpr (by rw [hadd]; exact hle'))]
      refine ⟨st, h.put hi h.stored ⟨hcell, hb, by simp only; omega⟩ ?_⟩
      intro v
      simp only [List.flatMap_cons, List.flatMap_nil, List.append_nil, List.count_append, List.count_reverse, weight, World.put]
      have := count_idsIn s.next (s.next + n) v
      have : (if s.next.toInt < v.toInt ∧ v.toInt ≤ (s.next + n).toInt then 1 else 0) +
          (if (s.next + n).toInt < v.toInt ∧ v.toInt ≤ s.leased.toInt then 1 else 0) ≤
          (if s.next.toInt < v.toInt ∧ v.toInt ≤ s.leased.toInt then 1 else 0) := by
        rw [hadd]
        split <;> split <;> split <;> omega
      omega
  | reNew i c =>
    simp only [World.step]
    cases hi : w.holders[i]? with
    | none => exact ⟨st, h⟩
    | some s =>
      obtain ⟨hfit, hfair⟩ := hs s hi
      obtain ⟨hcell, hb, hle⟩ := h.holders s (List.mem_of_getElem? hi)
      simp only [Seq.reNew]
      by_cases hc : s.closed
      · rw [if_pos hc]; exact ⟨st, h.same hi⟩
      rw [if_neg hc]
      rcases renew_cases cell s c w.db st hcell hb h.stored hfit hfair with ⟨db', st', hr, hst', hi'⟩ | ⟨r, hr, hne⟩
      · rw [hr]
        exact ⟨st', h.put' hi hst' ⟨hcell, hb, by simp only; omega⟩ (fun v => renew_weight v hb hi')⟩
      · rw [hr]; exact ⟨st, h.same hi⟩
  | release i c =>
    simp only [World.step]
    cases hi : w.holders[i]? with
    | none => exact ⟨st, h⟩
    | some s =>
      obtain ⟨hdb, hfair⟩ := hs s hi
      have hdb : Props.stored cell w.db = some s.leased := hdb
      obtain ⟨hcell, hb, hle⟩ := h.holders s (List.mem_of_getElem? hi)
      have hst : st = s.leased := by have := h.stored; rw [hdb] at this; injection this with this; exact this.symm
      simp only [Seq.releaseRemaining]
      by_cases hc : s.closed
      · rw [if_pos hc]; exact ⟨st, h.same hi⟩
      rw [if_neg hc]
      rcases release_any cell s c w.db hcell hdb hfair with ⟨db', hr, hst' | rfl⟩ | ⟨r, hr, _⟩
      · rw [hr]
        refine ⟨s.next, h.put' hi hst' ⟨hcell, hb, by simp⟩ ?_⟩
        intro v
        simp only [weight, hst]
        rw [if_neg (by omega)]
        split <;> split <;> split <;> omega
      · rw [hr]
        refine ⟨st, h.put' hi h.stored ⟨hcell, hb, by simp⟩ ?_⟩
        intro v
        simp only [weight, hst]
        rw [if_neg (by omega)]
        split <;> split <;> omega
      · rw [hr]; exact ⟨st, h.same hi⟩
  | close i rel c =>
    simp only [World.step]
    cases hi : w.holders[i]? with
    | none => exact ⟨st, h⟩
    | some s =>
      obtain ⟨hcell, hb, hle⟩ := h.holders s (List.mem_of_getElem? hi)
      simp only [Seq.close]
      by_cases hc : s.closed
      · rw [if_pos hc]; exact ⟨st, h.same hi⟩
      rw [if_neg hc]
      cases rel with
      | false =>
        simp only [Bool.false_eq_true, if_false]
        exact ⟨st, h.put' hi h.stored ⟨hcell, hb, hle⟩ (by intro v; simp only [weight]; omega)⟩
      | true =>
        simp only [if_true]
        obtain ⟨hdb, hfair⟩ := hs s hi rfl
        have hdb : Props.stored cell w.db = some s.leased := hdb
        have hst : st = s.leased := by have := h.stored; rw [hdb] at this; injection this with this; exact this.symm
        rcases release_any cell { s with closed := true } c w.db hcell hdb hfair with ⟨db', hr, hst' | rfl⟩ | ⟨r, hr, _⟩
        · rw [hr]
          refine ⟨s.next, h.put' hi hst' ⟨hcell, hb, by simp⟩ ?_⟩
          intro v
          simp only [weight, hst]
          rw [if_neg (by omega)]
          split <;> split <;> split <;> omega
        · rw [hr]
          refine ⟨st, h.put' hi h.stored ⟨hcell, hb, by simp⟩ ?_⟩
          intro v
          simp only [weight, hst]
          rw [if_neg (by omega)]
          split <;> split <;> omega
        · rw [hr]
          exact ⟨st, h.put' hi h.stored ⟨hcell, hb, hle⟩ (by intro v; simp only [weight]; omega)⟩
  | putBack i vals =>
    simp only [World.step]
    cases hi : w.holders[i]? with
    | none => exact ⟨st, h⟩
    | some s =>
      obtain ⟨hcell, hb, hle⟩ := h.holders s (List.mem_of_getElem? hi)
      refine ⟨st, h.put hi h.stored ⟨hcell, hb, hle⟩ ?_⟩
      intro v
      have hw : weight v (s.putBack vals) = vals.count v + weight v s := by
        show (s.putbacks ++ vals).count v + (if s.next.toInt < v.toInt ∧ v.toInt ≤ s.leased.toInt then 1 else 0) = _
        rw [List.count_append]; unfold weight; omega
      rw [hw, List.count_append]
      omega
  | crash i =>
    refine ⟨st, h.stored, ?_, ?_⟩
    · intro s hs
      exact h.holders s (List.mem_of_mem_eraseIdx hs)
    · intro v
      have := h.ids v
      have := sum_eraseIdx w.holders i (weight v)
      simp only [World.step]
      omega
  | other db =>
    exact ⟨st, by rw [← h.stored]; exact hs, h.holders, h.ids⟩

theorem Inv.run {cell : Cell} {c₀ st : Int64} {w : World} (h : Inv cell c₀ w st) (es : List Event)
    (hs : AllSound cell w es) : ∃ st', Inv cell c₀ (runEvents cell w es) st' := by
  induction es generalizing w st with
  | nil => exact ⟨st, h⟩
  | cons e es ih =>
    obtain ⟨st', h'⟩ := h.step e hs.1
    exact ih h' hs.2

theorem Inv.start {cell : Cell} {c₀ : Int64} {db : DB} (h : Props.stored cell db = some c₀) :
    Inv cell c₀ { db := db } c₀ := by
  refine ⟨h, by simp, ?_⟩
  intro v
  simp
  split <;> split <;> omega


/-! ### C33: uniqueness -/

/-- Any number of processes hold sequence objects on one counter; they lease, hand out, renew, release,
close and die in any order, with commits succeeding or failing in any pattern.  No id is handed out twice,
and every id lies above the counter's initial value and not above its stored value. -/
theorem C33_unique (cell : Cell) (db : DB) (c₀ : Int64) (es : List Event) (h0 : stored cell db = some c₀)
    (hs : AllSound cell { db := db } es) (hpb : ∀ e ∈ es, ∀ i vals, e ≠ .putBack i vals) :
    (runEvents cell { db := db } es).out.Nodup ∧
    ∃ st, stored cell (runEvents cell { db := db } es).db = some st ∧
      ∀ v ∈ (runEvents cell { db := db } es).out, c₀ < v ∧ v ≤ st := by
  obtain ⟨st, h⟩ := (Inv.start h0).run es hs
  have hback : ∀ (es : List Event) (w : World), (∀ e ∈ es, ∀ i vals, e ≠ .putBack i vals) →
      (runEvents cell w es).back = w.back := by
    intro es
    induction es with
    | nil => intro w _; rfl
    | cons e es ih =>
      intro w h
      rw [runEvents, ih _ (fun e' he' => h e' (List.mem_cons_of_mem _ he'))]
      cases e with
      | putBack i vals => exact absurd rfl (h _ List.mem_cons_self i vals)
      | new bw c => rfl
      | next i c =>
        simp only [World.step]; split
        · rfl
        · split <;> rfl
      | nextN i n c =>
        simp only [World.step]; split
        · rfl
        · split <;> rfl
      | reNew i c => simp only [World.step]; split <;> rfl
      | release i c => simp only [World.step]; split <;> rfl
      | close i r c => simp only [World.step]; split <;> rfl
      | crash i => rfl
      | other db => rfl
  have hb := hback es { db := db } hpb
  have hids : ∀ v, (runEvents cell { db := db } es).out.count v + (if st.toInt < v.toInt then 1 else 0) +
      (if v.toInt ≤ c₀.toInt then 1 else 0) ≤ 1 := by
    intro v
    have := h.ids v
    rw [hb] at this
    simp only [List.count_nil] at this
    omega
  refine ⟨List.nodup_iff_count.mpr ?_, st, h.stored, ?_⟩
  · intro v; have := hids v; omega
  · intro v hv
    have h1 := hids v
    have h2 : 0 < (runEvents cell { db := db } es).out.count v := List.count_pos_iff.mpr hv
    constructor
    · apply Int64.lt_iff_toInt_lt.mpr
      split at h1 <;> split at h1 <;> omega
    · apply Int64.le_iff_toInt_le.mpr
      split at h1 <;> split at h1 <;> omega

/-! ### C36: ids put back -/

/-- An id comes out at most once more than it was put back, whatever was put back, by whom and when. -/
theorem C36_reuse_bounded (cell : Cell) (db : DB) (c₀ : Int64) (es : List Event) (h0 : stored cell db = some c₀)
    (hs : AllSound cell { db := db } es) (v : Int64) :
    (runEvents cell { db := db } es).out.count v ≤ (runEvents cell { db := db } es).back.count v + 1 := by
  obtain ⟨st, h⟩ := (Inv.start h0).run es hs
  have := h.ids v
  omega

/-- n calls of Next on one object. -/
def nextMany (s : Seq) : List Circ → DB → List (Res Int64) × Seq × DB
  | [], db => ([], s, db)
  | c :: cs, db =>
    let (r, s, db) := s.nextId c db
    let (rs, s, db) := nextMany s cs db
    (r :: rs, s, db)

/-- After PutBack(vals) the following calls of Next return vals, last first, without touching the stored
counter; then Next goes on as if PutBack had not been called. -/
theorem C36_putback_first (s : Seq) (vals : List Int64) (cs : List Circ) (db : DB) (hopen : s.closed = false)
    (hlen : cs.length = vals.length) :
    nextMany (s.putBack vals) cs db = (vals.reverse.map .ok, s, db) := by
  suffices h : ∀ (l : List Int64) (cs : List Circ), cs.length = l.length →
      nextMany (s.putBack l.reverse) cs db = (l.map .ok, s, db) by
    have := h vals.reverse cs (by simpa using hlen)
    rwa [List.reverse_reverse] at this
  intro l
  induction l with
  | nil =>
    intro cs hlen
    cases cs with
    | nil => simp [nextMany, Seq.putBack]
    | cons c cs => simp at hlen
  | cons v l ih =>
    intro cs hlen
    cases cs with
    | nil => simp at hlen
    | cons c cs =>
      have hl : ((s.putBack (v :: l).reverse).putbacks).getLast? = some v := by
        simp [Seq.putBack]
      have hstep : (s.putBack (v :: l).reverse).nextId c db = (.ok v, s.putBack l.reverse, db) := by
        unfold Seq.nextId
        rw [if_neg (by simp [Seq.putBack, hopen]), hl]
        simp [Seq.putBack, ← List.append_assoc]
      simp only [nextMany, hstep]
      rw [ih cs (by simpa using hlen)]
      simp

/-! ### C34: one object at a time -/

/-- What is assumed when at most one object exists at a time and its ids are not put back: positive
bandwidth, no overflow, the storage's guarantee; NextN within the lease; others leave the counter alone,
so a transaction's snapshot shows its current value.  Objects may be dropped at any point (crashes), closed
or not. -/
def Solo (cell : Cell) (w : World) : Event → Prop
  | .new bw c => w.holders = [] ∧ 0 < bw.toInt ∧ Fits cell w.db bw ∧ Fair cell c (cell.inc bw) w.db
  | .next i c | .reNew i c => ∀ s, w.holders[i]? = some s →
      Fits cell w.db s.bandwidth ∧ Fair cell c (cell.inc s.bandwidth) w.db
  | .nextN i n _ => ∀ s, w.holders[i]? = some s → 0 ≤ n.toInt ∧ s.next.toInt + n.toInt ≤ s.leased.toInt
  | .release i c | .close i _ c => ∀ s, w.holders[i]? = some s →
      stored cell c.snap = stored cell w.db ∧ Fair cell c (cell.put s.next) w.db
  | .putBack _ _ => False
  | .crash _ => True
  | .other db => stored cell db = stored cell w.db

def AllSolo (cell : Cell) : World → List Event → Prop
  | _, [] => True
  | w, e :: es => Solo cell w e ∧ AllSolo cell (w.step cell e) es

/-- The state of the one object. -/
structure SoloInv (cell : Cell) (w : World) (st : Int64) : Prop where
  stored : stored cell w.db = some st
  below : ∀ v ∈ w.out, v.toInt ≤ st.toInt
  sorted : w.out.Pairwise (fun a b => b.toInt < a.toInt)
  one : w.holders = [] ∨ ∃ s, w.holders = [s] ∧ s.cell = cell ∧ 0 < s.bandwidth.toInt ∧ s.putbacks = [] ∧
    (s.leased = s.next ∨ (s.leased = st ∧ s.next.toInt ≤ st.toInt ∧ ∀ v ∈ w.out, v.toInt ≤ s.next.toInt))

theorem idsIn_sorted (a b : Int64) : (idsIn (a, b)).reverse.Pairwise (fun x y => y.toInt < x.toInt) ∧
    ∀ v ∈ idsIn (a, b), a.toInt < v.toInt ∧ v.toInt ≤ b.toInt := by
  have hle := Int64.le_toInt a
  have hlt := Int64.toInt_lt b
  have hx : ∀ i : Nat, i < (b.toInt - a.toInt).toNat →
      (Int64.ofInt (a.toInt + 1 + (i : Int))).toInt = a.toInt + 1 + i := by
    intro i hi
    exact Int64.toInt_ofInt_of_le (by omega) (by omega)
  constructor
  · rw [List.pairwise_reverse]
    unfold idsIn
    rw [List.pairwise_map]
    apply List.Pairwise.imp_of_mem (R := fun i j => i < j) _ List.pairwise_lt_range
    intro i j hi hj hij
    simp only at *
    rw [hx i (List.mem_range.mp hi), hx j (List.mem_range.mp hj)]
    omega
  · intro v hv
    unfold idsIn at hv
    obtain ⟨i, hi, rfl⟩ := List.mem_map.mp hv
    have := List.mem_range.mp hi
    simp only at this
    rw [hx i this]
    omega

theorem getElem_one {s s' : Seq} {l : List Seq} {i : Nat} (h : l = [s]) (hi : l[i]? = some s') : i = 0 ∧ s' = s := by
  subst h
  cases i with
  | zero => simp at hi; exact ⟨rfl, hi.symm⟩
  | succ i => simp at hi

theorem SoloInv.step {cell : Cell} {w : World} {st : Int64} (h : SoloInv cell w st) (e : Event) (hs : Solo cell w e) :
    ∃ st', SoloInv cell (w.step cell e) st' := by
  have hole : ∀ {i : Nat} {s : Seq}, w.holders[i]? = some s → i = 0 ∧ w.holders = [s] ∧ s.cell = cell ∧
      0 < s.bandwidth.toInt ∧ s.putbacks = [] ∧
      (s.leased = s.next ∨ (s.leased = st ∧ s.next.toInt ≤ st.toInt ∧ ∀ v ∈ w.out, v.toInt ≤ s.next.toInt)) := by
    intro i s hi
    rcases h.one with h0 | ⟨s', h1, h2⟩
    · rw [h0] at hi; simp at hi
    · obtain ⟨rfl, rfl⟩ := getElem_one h1 hi
      exact ⟨rfl, h1, h2⟩
  have hsame : ∀ {s : Seq}, w.holders = [s] → ∀ {α : Type} (r : Res α),
      SoloInv cell (w.put 0 (r, s, w.db)) st := by
    intro s hw α r
    refine ⟨h.stored, h.below, h.sorted, ?_⟩
    have : (w.put 0 (r, s, w.db)).holders = w.holders := by simp [World.put, hw]
    rw [this]
    exact h.one
  have hset : ∀ {s s' : Seq} {db' : DB} {st' : Int64} (out : List Int64), w.holders = [s] →
      Props.stored cell db' = some st' → (∀ v ∈ out, v.toInt ≤ st'.toInt) →
      out.Pairwise (fun a b => b.toInt < a.toInt) → s'.cell = cell → 0 < s'.bandwidth.toInt → s'.putbacks = [] →
      (s'.leased = s'.next ∨ (s'.leased = st' ∧ s'.next.toInt ≤ st'.toInt ∧ ∀ v ∈ out, v.toInt ≤ s'.next.toInt)) →
      SoloInv cell { w with db := db', holders := w.holders.set 0 s', out := out } st' := by
    intro s s' db' st' out hw h1 h2 h3 h4 h5 h6 h7
    refine ⟨h1, h2, h3, .inr ⟨s', by simp [hw], h4, h5, h6, h7⟩⟩
  cases e with
  | new bw c =>
    obtain ⟨hw, hb, hfit, hfair⟩ := hs
    simp only [World.step, Seq.new]
    by_cases hv : cell.valid = false
    · rw [if_pos hv]; exact ⟨st, by simpa using h⟩
    rw [if_neg hv]
    by_cases h0 : bw = 0
    · rw [h0] at hb; simp at hb
    rw [if_neg h0]
    rcases renew_cases cell { cell := cell, bandwidth := bw } c w.db st rfl hb h.stored hfit hfair with
      ⟨db', st', hr, hst', hi⟩ | ⟨r, hr, _⟩
    · rw [hr]
      simp only at hi
      refine ⟨st', hst', fun v hv => by have := h.below v hv; omega, h.sorted, .inr ⟨_, by simp [hw]; rfl, rfl, hb, rfl,
        .inr ⟨rfl, ?_, h.below⟩⟩⟩
      simp only; omega
    · rw [hr]
      exact ⟨st, h.stored, h.below, h.sorted, .inr ⟨_, by simp [hw]; rfl, rfl, hb, rfl, .inl rfl⟩⟩
  | next i c =>
    simp only [World.step]
    cases hi : w.holders[i]? with
    | none => exact ⟨st, h⟩
    | some s =>
      obtain ⟨hfit, hfair⟩ := hs s hi
      obtain ⟨rfl, hw, hcell, hb, hpb, hl⟩ := hole hi
      simp only [Seq.nextId]
      by_cases hc : s.closed
      · rw [if_pos hc]; exact ⟨st, hsame hw _⟩
      rw [if_neg hc, hpb]
      simp only [List.getLast?_nil]
      by_cases hge : s.next ≥ s.leased
      · rw [if_pos hge]
        rcases renew_cases cell s c w.db st hcell hb h.stored hfit hfair with ⟨db', st', hr, hst', hi'⟩ | ⟨r, hr, hne⟩
        · rw [hr]
          simp only
          have hlt : st.toInt < st'.toInt := by omega
          have h1 := succ_toInt hlt
          refine ⟨st', hset (s := s) _ hw hst' ?_ ?_ hcell hb hpb (.inr ⟨rfl, by simp only; omega, ?_⟩)⟩
          · intro v hv
            rcases List.mem_cons.mp hv with rfl | hv
            · omega
            · have := h.below v hv; omega
          · refine List.pairwise_cons.mpr ⟨?_, h.sorted⟩
            intro v hv
            have := h.below v hv
            omega
          · intro v hv
            simp only
            rcases List.mem_cons.mp hv with rfl | hv
            · omega
            · have := h.below v hv; omega
        · rw [hr]
          cases r with
          | ok u => exact absurd rfl hne
          | err e => exact ⟨st, hsame hw _⟩
          | panic => exact ⟨st, hsame hw _⟩
      · rw [if_neg hge]
        simp only
        have hlt : s.next.toInt < s.leased.toInt := by
          have := mt Int64.le_iff_toInt_le.mpr hge
          omega
        have h1 := succ_toInt hlt
        rcases hl with hl | ⟨hl, hle, hbel⟩
        · rw [hl] at hlt; omega
        rw [hl] at hlt
        refine ⟨st, hset (s := s) _ hw h.stored ?_ ?_ hcell hb hpb (.inr ⟨hl, by simp only; omega, ?_⟩)⟩
        · intro v hv
          rcases List.mem_cons.mp hv with rfl | hv
          · omega
          · have := h.below v hv; omega
        · refine List.pairwise_cons.mpr ⟨?_, h.sorted⟩
          intro v hv
          have := hbel v hv
          omega
        · intro v hv
          simp only
          rcases List.mem_cons.mp hv with rfl | hv
          · omega
          · have := hbel v hv; omega
  | nextN i n c =>
    simp only [World.step]
    cases hi : w.holders[i]? with
    | none => exact ⟨st, h⟩
    | some s =>
      obtain ⟨hn, hle'⟩ := hs s hi
      obtain ⟨rfl, hw, hcell, hb, hpb, hl⟩ := hole hi
      simp only [Seq.nextN]
      by_cases h0 : n = 0
      · rw [if_pos h0]; simp only [List.flatMap_nil, List.reverse_nil, List.nil_append]; exact ⟨st, hsame hw _⟩
      rw [if_neg h0]
      by_cases hc : s.closed
      · rw [if_pos hc]; exact ⟨st, hsame hw _⟩
      rw [if_neg hc]
      have hlt := Int64.toInt_lt s.leased
      have hge := Int64.le_toInt s.next
      have hadd : (s.next + n).toInt = s.next.toInt + n.toInt := toInt_add (by omega) (by omega)
      rw [if_pos (Int64.le_iff_toInt_le.mpr (by rw [hadd]; exact hle'))]
      simp only [List.flatMap_cons, List.flatMap_nil, List.append_nil]
      have hn0 : n.toInt ≠ 0 := by
        intro h'; exact h0 (Int64.toInt_inj.mp (by simpa using h'))
      rcases hl with hl | ⟨hl, hle, hbel⟩
      · rw [hl] at hle'; omega
      obtain ⟨hsort, hin⟩ := idsIn_sorted s.next (s.next + n)
      rw [hl] at hle'
      refine ⟨st, hset (s := s) _ hw h.stored ?_ ?_ hcell hb hpb (.inr ⟨hl, by simp only; omega, ?_⟩)⟩
      · intro v hv
        rcases List.mem_append.mp hv with hv | hv
        · have := hin v (List.mem_reverse.mp hv); omega
        · exact h.below v hv
      · refine List.pairwise_append.mpr ⟨hsort, h.sorted, ?_⟩
        intro a ha b hb
        have := hin a (List.mem_reverse.mp ha)
        have := hbel b hb
        omega
      · intro v hv
        rcases List.mem_append.mp hv with hv | hv
        · have := hin v (List.mem_reverse.mp hv); simp only; omega
        · have := hbel v hv; simp only; omega
  | reNew i c =>
    simp only [World.step]
    cases hi : w.holders[i]? with
    | none => exact ⟨st, h⟩
    | some s =>
      obtain ⟨hfit, hfair⟩ := hs s hi
      obtain ⟨rfl, hw, hcell, hb, hpb, hl⟩ := hole hi
      simp only [Seq.reNew]
      by_cases hc : s.closed
      · rw [if_pos hc]; exact ⟨st, hsame hw _⟩
      rw [if_neg hc]
      rcases renew_cases cell s c w.db st hcell hb h.stored hfit hfair with ⟨db', st', hr, hst', hi'⟩ | ⟨r, hr, hne⟩
      · rw [hr]
        refine ⟨st', hset (s := s) _ hw hst' (fun v hv => by have := h.below v hv; omega) h.sorted hcell hb hpb
          (.inr ⟨rfl, by simp only; omega, h.below⟩)⟩
      · rw [hr]; exact ⟨st, hsame hw _⟩
  | release i c =>
    simp only [World.step]
    cases hi : w.holders[i]? with
    | none => exact ⟨st, h⟩
    | some s =>
      obtain ⟨hsn, hfair⟩ := hs s hi
      obtain ⟨rfl, hw, hcell, hb, hpb, hl⟩ := hole hi
      simp only [Seq.releaseRemaining]
      by_cases hc : s.closed
      · rw [if_pos hc]; exact ⟨st, hsame hw _⟩
      rw [if_neg hc]
      rcases hl with hl | ⟨hl, hle, hbel⟩
      · rw [Seq.releaseRemainingLocked, if_pos hl]; exact ⟨st, hsame hw _⟩
      · have hdb : Props.stored cell w.db = some s.leased := by rw [h.stored, hl]
        rcases release_cases cell s c w.db hcell hdb (by rw [hsn, hdb]) hfair with ⟨db', hr, hst'⟩ | ⟨r, hr, _⟩
        · rw [hr]
          exact ⟨s.next, hset (s := s) _ hw hst' hbel h.sorted hcell hb hpb (.inl rfl)⟩
        · rw [hr]; exact ⟨st, hsame hw _⟩
  | close i rel c =>
    simp only [World.step]
    cases hi : w.holders[i]? with
    | none => exact ⟨st, h⟩
    | some s =>
      obtain ⟨hsn, hfair⟩ := hs s hi
      obtain ⟨rfl, hw, hcell, hb, hpb, hl⟩ := hole hi
      simp only [Seq.close]
      by_cases hc : s.closed
      · rw [if_pos hc]; exact ⟨st, hsame hw _⟩
      rw [if_neg hc]
      have hclosed : ∀ {r : Res Unit}, SoloInv cell (w.put 0 (r, { s with closed := true }, w.db)) st := by
        intro r
        exact hset (s := s) _ hw h.stored h.below h.sorted hcell hb hpb hl
      cases rel with
      | false => exact ⟨st, hclosed⟩
      | true =>
        simp only [if_true]
        rcases hl with hl | ⟨hl, hle, hbel⟩
        · rw [Seq.releaseRemainingLocked, if_pos hl]; exact ⟨st, hclosed⟩
        · have hdb : Props.stored cell w.db = some s.leased := by rw [h.stored, hl]
          rcases release_cases cell { s with closed := true } c w.db hcell hdb (by rw [hsn, hdb]) hfair with
            ⟨db', hr, hst'⟩ | ⟨r, hr, _⟩
          · rw [hr]
            exact ⟨s.next, hset (s := s) _ hw hst' hbel h.sorted hcell hb hpb (.inl rfl)⟩
          · rw [hr]; exact ⟨st, hclosed⟩
  | putBack i vals => exact hs.elim
  | crash i =>
    refine ⟨st, h.stored, h.below, h.sorted, ?_⟩
    rcases h.one with h0 | ⟨s, h1, h2⟩
    · left; simp [World.step, h0]
    · cases i with
      | zero => left; simp [World.step, h1]
      | succ i => right; exact ⟨s, by simp [World.step, h1], h2⟩
  | other db =>
    exact ⟨st, by rw [← h.stored]; exact hs, h.below, h.sorted, h.one⟩

theorem SoloInv.run {cell : Cell} {st : Int64} {w : World} (h : SoloInv cell w st) (es : List Event)
    (hs : AllSolo cell w es) : ∃ st', SoloInv cell (runEvents cell w es) st' := by
  induction es generalizing w st with
  | nil => exact ⟨st, h⟩
  | cons e es ih =>
    obtain ⟨st', h'⟩ := h.step e hs.1
    exact ih h' hs.2

/-- With one object at a time, dropped and reopened any number of times, at any point, the ids handed out
are strictly increasing. (`out` lists them newest first.) -/
theorem C34_increasing (cell : Cell) (db : DB) (c₀ : Int64) (es : List Event) (h0 : stored cell db = some c₀)
    (hs : AllSolo cell { db := db } es) :
    (runEvents cell { db := db } es).out.Pairwise (fun newer older => older < newer) := by
  have h : SoloInv cell { db := db } c₀ := ⟨h0, by simp, List.Pairwise.nil, .inl rfl⟩
  obtain ⟨st, h⟩ := h.run es hs
  exact h.sorted.imp (fun h => Int64.lt_iff_toInt_lt.mpr h)

/-- Nothing is lost by closing with releaseRemaining: if Next returned u, Close(true) succeeded and a new
object was made, whatever its bandwidth, then its first id is u + 1. -/
theorem C34_reopen (cell : Cell) (db : DB) (c₀ : Int64) (es : List Event) (h0 : stored cell db = some c₀)
    (hs : AllSolo cell { db := db } es) (s s1 s2 s3 s4 : Seq) (c1 c2 c3 c4 : Circ) (bw u v : Int64)
    (db1 db2 db3 db4 : DB) (hw : (runEvents cell { db := db } es).holders = [s])
    (e1 : s.nextId c1 (runEvents cell { db := db } es).db = (.ok u, s1, db1))
    (a1 : Fits cell (runEvents cell { db := db } es).db s.bandwidth ∧
      Fair cell c1 (cell.inc s.bandwidth) (runEvents cell { db := db } es).db)
    (e2 : s1.close true c2 db1 = (.ok (), s2, db2))
    (a2 : stored cell c2.snap = stored cell db1 ∧ Fair cell c2 (cell.put s1.next) db1)
    (e3 : Seq.new cell bw c3 db2 = (.ok (), some s3, db3))
    (a3 : 0 < bw.toInt ∧ Fits cell db2 bw ∧ Fair cell c3 (cell.inc bw) db2)
    (e4 : s3.nextId c4 db3 = (.ok v, s4, db4)) : v = u + 1 := by
  have h : SoloInv cell { db := db } c₀ := ⟨h0, by simp, List.Pairwise.nil, .inl rfl⟩
  obtain ⟨st, h⟩ := h.run es hs
  generalize runEvents cell { db := db } es = w at *
  obtain ⟨s', hw', hcell, hb, hpb, hl⟩ := (h.one.resolve_left (by simp [hw]))
  rw [hw] at hw'; injection hw' with hw' _; subst hw'
  -- Next
  have hs1 : s1.next = u ∧ s1.cell = cell ∧ stored cell db1 = some s1.leased := by
    unfold Seq.nextId at e1
    split at e1
    · simp at e1
    · rw [hpb] at e1
      simp only [List.getLast?_nil] at e1
      by_cases hge : s.next ≥ s.leased
      · rw [if_pos hge] at e1
        rcases renew_cases cell s c1 w.db st hcell hb h.stored a1.1 a1.2 with ⟨db', st', hr, hst', hi'⟩ | ⟨r, hr, hne⟩
        · rw [hr] at e1
          simp only [Prod.mk.injEq, Res.ok.injEq] at e1
          obtain ⟨rfl, rfl, rfl⟩ := e1
          exact ⟨rfl, hcell, hst'⟩
        · rw [hr] at e1
          cases r with
          | ok u => exact absurd rfl hne
          | err e => simp at e1
          | panic => simp at e1
      · rw [if_neg hge] at e1
        simp only [Prod.mk.injEq, Res.ok.injEq] at e1
        obtain ⟨rfl, rfl, rfl⟩ := e1
        have hlt : s.next.toInt < s.leased.toInt := by
          have := mt Int64.le_iff_toInt_le.mpr hge
          omega
        rcases hl with hl | ⟨hl, -, -⟩
        · rw [hl] at hlt; omega
        · exact ⟨rfl, hcell, by rw [h.stored, hl]⟩
  obtain ⟨hn1, hc1, hst1⟩ := hs1
  -- Close
  have hst2 : stored cell db2 = some u := by
    unfold Seq.close at e2
    split at e2
    · simp at e2
    · simp only [if_true] at e2
      rcases release_cases cell { s1 with closed := true } c2 db1 hc1 hst1 (by rw [a2.1, hst1]) a2.2 with
        ⟨db', hr, hst'⟩ | ⟨r, hr, hne⟩
      · rw [hr] at e2
        simp only [Prod.mk.injEq, true_and] at e2
        rw [← e2.2, hst', ← hn1]
      · rw [hr] at e2
        simp only [Prod.mk.injEq] at e2
        exact absurd e2.1 hne
  -- New
  unfold Seq.new at e3
  split at e3
  · simp at e3
  split at e3
  · simp at e3
  rcases renew_cases cell { cell := cell, bandwidth := bw } c3 db2 u rfl a3.1 hst2 a3.2.1 a3.2.2 with
    ⟨db', st', hr, hst', hi⟩ | ⟨r, hr, hne⟩
  · rw [hr] at e3
    simp only [Prod.mk.injEq, true_and, Option.some.injEq] at e3
    obtain ⟨rfl, rfl⟩ := e3
    -- Next
    unfold Seq.nextId at e4
    simp only [Bool.false_eq_true, if_false, List.getLast?_nil] at e4
    rw [if_neg (by
      intro hge
      have := Int64.le_iff_toInt_le.mp hge
      have := a3.1
      simp only at *
      omega)] at e4
    simp only [Prod.mk.injEq, Res.ok.injEq] at e4
    exact e4.1.symm
  · rw [hr] at e3
    simp only [Prod.mk.injEq] at e3
    exact absurd e3.1 hne

/-! ### A concrete history meets the assumptions -/

/-- No one interferes and nothing fails. -/
def calmCirc (db : DB) : Circ := ⟨plainEnv, db, none⟩

theorem calm_fair {α : Type} (cell : Cell) (p : Prog α) (db : DB) {v : Int64} (h : stored cell db = some v) :
    Fair cell (calmCirc db) p db := ⟨⟨v, h⟩, fun _ _ _ _ => rfl⟩

/-- Calls as a script; each starts after the previous one. -/
inductive Call where
  | new (bw : Int64) | next (i : Nat) | nextN (i : Nat) (n : Int64) | reNew (i : Nat) | release (i : Nat)
  | close (i : Nat) (rel : Bool) | putBack (i : Nat) (vals : List Int64) | crash (i : Nat)

def Call.event (db : DB) : Call → Event
  | .new bw => .new bw (calmCirc db)
  | .next i => .next i (calmCirc db)
  | .nextN i n => .nextN i n (calmCirc db)
  | .reNew i => .reNew i (calmCirc db)
  | .release i => .release i (calmCirc db)
  | .close i rel => .close i rel (calmCirc db)
  | .putBack i vals => .putBack i vals
  | .crash i => .crash i

def scriptEvents (cell : Cell) : World → List Call → List Event
  | _, [] => []
  | w, c :: cs => c.event w.db :: scriptEvents cell (w.step cell (c.event w.db)) cs

/-- Checks `Sound` for a scripted call. -/
def Call.sound (cell : Cell) (w : World) (call : Call) : Bool :=
  match stored cell w.db with
  | none => false
  | some st => match call with
    | .new bw => decide (0 < bw.toInt) && decide (st.toInt + bw.toInt < 2 ^ 63)
    | .next i | .reNew i => (w.holders[i]?).all (fun s => decide (st.toInt + s.bandwidth.toInt < 2 ^ 63))
    | .nextN i n => (w.holders[i]?).all (fun s => decide (0 ≤ n.toInt) && decide (s.next.toInt + n.toInt ≤ s.leased.toInt))
    | .release i | .close i _ => (w.holders[i]?).all (fun s => decide (st = s.leased))
    | .putBack _ _ | .crash _ => true

theorem Call.sound_event {cell : Cell} {w : World} {call : Call} (h : call.sound cell w = true) :
    Sound cell w (call.event w.db) := by
  unfold Call.sound at h
  cases hst : stored cell w.db with
  | none => rw [hst] at h; simp at h
  | some st =>
    rw [hst] at h
    have hf : ∀ {α : Type} (p : Prog α), Fair cell (calmCirc w.db) p w.db := fun p => calm_fair cell p w.db hst
    cases call with
    | new bw =>
      simp only [Bool.and_eq_true, decide_eq_true_eq] at h
      refine ⟨h.1, ?_, hf _⟩
      intro v hv; rw [hst] at hv; cases hv; exact h.2
    | next i =>
      intro s hs
      simp only [hs, Option.all_some, decide_eq_true_eq] at h
      refine ⟨?_, hf _⟩
      intro v hv; rw [hst] at hv; cases hv; exact h
    | reNew i =>
      intro s hs
      simp only [hs, Option.all_some, decide_eq_true_eq] at h
      refine ⟨?_, hf _⟩
      intro v hv; rw [hst] at hv; cases hv; exact h
    | nextN i n =>
      intro s hs
      simp only [hs, Option.all_some, Bool.and_eq_true, decide_eq_true_eq] at h
      exact h
    | release i =>
      intro s hs
      simp only [hs, Option.all_some, decide_eq_true_eq] at h
      exact ⟨(show stored cell w.db = some s.leased by rw [← h]; exact hst), hf _⟩
    | close i rel =>
      intro s hs _
      simp only [hs, Option.all_some, decide_eq_true_eq] at h
      exact ⟨(show stored cell w.db = some s.leased by rw [← h]; exact hst), hf _⟩
    | putBack i vals => trivial
    | crash i => trivial

def scriptSound (cell : Cell) : World → List Call → Bool
  | _, [] => true
  | w, c :: cs => c.sound cell w && scriptSound cell (w.step cell (c.event w.db)) cs

theorem script_sound {cell : Cell} {w : World} {cs : List Call} (h : scriptSound cell w cs = true) :
    AllSound cell w (scriptEvents cell w cs) := by
  induction cs generalizing w with
  | nil => trivial
  | cons c cs ih =>
    simp only [scriptSound, Bool.and_eq_true] at h
    exact ⟨Call.sound_event h.1, ih h.2⟩

/-- A script meets `Solo` if it meets `Sound`, makes objects only when there is none and puts nothing
back. -/
def scriptSolo (cell : Cell) : World → List Call → Bool
  | _, [] => true
  | w, c :: cs => (match c with
      | .new _ => w.holders.isEmpty
      | .putBack _ _ => false
      | _ => true) && scriptSolo cell (w.step cell (c.event w.db)) cs

theorem script_solo {cell : Cell} {w : World} {cs : List Call} (h : scriptSound cell w cs = true)
    (h' : scriptSolo cell w cs = true) : AllSolo cell w (scriptEvents cell w cs) := by
  induction cs generalizing w with
  | nil => trivial
  | cons c cs ih =>
    simp only [scriptSound, scriptSolo, Bool.and_eq_true] at h h'
    refine ⟨?_, ih h.2 h'.2⟩
    have hs := Call.sound_event h.1
    have hst : ∃ st, stored cell w.db = some st := by
      cases hst : stored cell w.db with
      | none => have := h.1; unfold Call.sound at this; rw [hst] at this; simp at this
      | some st => exact ⟨st, rfl⟩
    obtain ⟨st, hst⟩ := hst
    cases c with
    | new bw => exact ⟨by simpa using h'.1, hs⟩
    | next i => exact hs
    | nextN i n => exact hs
    | reNew i => exact hs
    | release i => exact fun s _ => ⟨rfl, calm_fair cell _ _ hst⟩
    | close i rel => exact fun s _ => ⟨rfl, calm_fair cell _ _ hst⟩
    | putBack i vals => simp at h'
    | crash i => trivial

/-- Runs a script from an empty database. -/
def play (cell : Cell) (cs : List Call) : World :=
  runEvents cell { db := .empty } (scriptEvents cell { db := .empty } cs)

/-- Two processes, interleaved; one crashes, one releases. -/
def twoHolders : List Call :=
  [.new 3, .new 2, .next 0, .next 1, .next 0, .nextN 1 1, .crash 0, .next 0, .next 0, .next 0, .close 0 true, .new 7, .next 1]

def aCell : Cell := .hash [7] [8]

set_option maxRecDepth 20000 in
example : scriptSound aCell { db := .empty } twoHolders = true ∧
    (play aCell twoHolders).out = [9, 8, 7, 6, 5, 2, 4, 1] := by decide

example : (play aCell twoHolders).out.Nodup :=
  (C33_unique aCell .empty 0 _ (by decide) (script_sound (by set_option maxRecDepth 20000 in decide))
    (by intro e he i vals; simp only [scriptEvents, twoHolders, Call.event, List.mem_cons, List.not_mem_nil, or_false] at he
        rcases he with rfl | rfl | rfl | rfl | rfl | rfl | rfl | rfl | rfl | rfl | rfl | rfl | rfl <;> nofun)).1

/-- One object at a time: a crash loses ids, a release does not. -/
def oneHolder : List Call :=
  [.new 3, .next 0, .crash 0, .new 4, .next 0, .nextN 0 2, .close 0 true, .crash 0, .new 2, .next 0]

set_option maxRecDepth 20000 in
example : scriptSound (.str [7]) { db := .empty } oneHolder = true ∧ scriptSolo (.str [7]) { db := .empty } oneHolder = true ∧
    (play (.str [7]) oneHolder).out = [7, 6, 5, 4, 1] := by decide

/-! ### C35: NextN -/

/-- NextN within the lease returns exactly one range of n ids, the ones right after the last id, and goes
on from its end; it needs no transaction.  (That the ids are fresh is C33_unique.) -/
theorem C35_within_lease (s : Seq) (n : Int64) (c : Circ) (db : DB) (hopen : s.closed = false) (hn : 0 < n.toInt)
    (hfit : s.next.toInt + n.toInt ≤ s.leased.toInt) :
    s.nextN n c db = (.ok [(s.next, s.next + n)], { s with next := s.next + n }, db) ∧
      (idsIn (s.next, s.next + n)).length = n.toInt.toNat := by
  have hlt := Int64.toInt_lt s.leased
  have hge := Int64.le_toInt s.next
  have hadd : (s.next + n).toInt = s.next.toInt + n.toInt := toInt_add (by omega) (by omega)
  constructor
  · unfold Seq.nextN
    rw [if_neg (by intro h; rw [h] at hn; simp at hn), if_neg (by simp [hopen]),
      if_pos (Int64.le_iff_toInt_le.mpr (by rw [hadd]; exact hfit))]
  · simp only [idsIn, List.length_map, List.length_range, hadd]
    congr 1
    omega

/-- Beyond the lease NextN leases more, but forgets to move on: the Next that follows returns an id NextN
has just returned.  (sequence.go:158-198 does not advance s.next after renewing.) -/
theorem C35_beyond_lease_false (s : Seq) (n : Int64) (c c' : Circ) (db db' : DB) (rs : List (Int64 × Int64)) (s' : Seq)
    (hopen : s.closed = false) (hpb : s.putbacks = []) (hn : 0 < n.toInt) (hle : s.next.toInt ≤ s.leased.toInt)
    (hbeyond : s.leased.toInt < s.next.toInt + n.toInt) (hb : 0 < s.bandwidth.toInt)
    (hsize : s.next.toInt + n.toInt < 2 ^ 63 ∧ n.toInt + s.bandwidth.toInt < 2 ^ 63)
    (hlow : 0 ≤ s.next.toInt)
    (hroom : s'.next.toInt + (n.toInt + s.bandwidth.toInt) - (s.leased.toInt - s.next.toInt) < 2 ^ 63 ∧ 0 ≤ s'.next.toInt ∧
      s'.next.toInt + n.toInt < 2 ^ 63)
    (h : s.nextN n c db = (.ok rs, s', db')) :
    ∃ v s'' db'', s'.nextId c' db' = (.ok v, s'', db'') ∧ v ∈ rs.flatMap idsIn := by
  have hadd : (s.next + n).toInt = s.next.toInt + n.toInt := toInt_add (by omega) (by omega)
  have hrem : (s.leased - s.next).toInt = s.leased.toInt - s.next.toInt := by
    have := Int64.toInt_lt s.leased
    exact toInt_sub (by omega) (by omega)
  have hstep1 : (n + s.bandwidth).toInt = n.toInt + s.bandwidth.toInt := toInt_add (by omega) (by omega)
  have hstep : (n + s.bandwidth - (s.leased - s.next)).toInt = n.toInt + s.bandwidth.toInt - (s.leased.toInt - s.next.toInt) := by
    have := Int64.toInt_lt s.leased
    rw [toInt_sub (by omega) (by omega), hrem, hstep1]
  unfold Seq.nextN at h
  rw [if_neg (by intro h; rw [h] at hn; simp at hn), if_neg (by simp [hopen]),
    if_neg (by intro h; have := Int64.le_iff_toInt_le.mp h; omega)] at h
  simp only at h
  unfold Seq.renewLease at h
  rw [if_neg (by intro h; rw [h] at hstep; simp at hstep; omega)] at h
  simp only at h
  cases hr : runInNewUpdateTxn c.env c.fail (s.cell.inc (n + s.bandwidth - (s.leased - s.next))) c.snap db with
  | mk r d =>
    rw [hr] at h
    cases r with
    | err e => simp at h
    | panic => simp at h
    | ok L =>
      simp only [Prod.mk.injEq, Res.ok.injEq] at h
      obtain ⟨rfl, rfl, rfl⟩ := h
      simp only at hroom
      generalize hst : n + s.bandwidth - (s.leased - s.next) = step at *
      have hL : L = (L - step) + step := by rw [Int64.sub_add_cancel]
      have hLt : L.toInt = (L - step).toInt + step.toInt := by
        conv => lhs; rw [hL]
        exact toInt_add (by omega) (by omega)
      have hlt : (L - step).toInt < L.toInt := by omega
      have h1 := succ_toInt hlt
      refine ⟨L - step + 1, { s with leased := L, next := L - step + 1 }, d, ?_, ?_⟩
      · unfold Seq.nextId
        simp only [hopen, hpb, Bool.false_eq_true, if_false, List.getLast?_nil]
        rw [if_neg (by intro h; have := Int64.le_iff_toInt_le.mp h; omega)]
      · rw [List.flatMap_append]
        apply List.mem_append_right
        simp only [List.flatMap_cons, List.flatMap_nil, List.append_nil, idsIn, List.mem_map, List.mem_range]
        refine ⟨0, ?_, ?_⟩
        · have e1 : (L - step + n).toInt = (L - step).toInt + n.toInt := toInt_add (by omega) (by omega)
          have := Int64.le_toInt (L - step + n)
          rw [toInt_sub (by rw [e1, hrem]; omega) (by rw [e1, hrem]; omega), e1, hrem]
          omega
        · apply Int64.toInt_inj.mp
          have := Int64.toInt_lt L
          rw [Int64.toInt_ofInt_of_le (by omega) (by omega)]
          simp only [Int.natCast_zero] at *
          omega

set_option maxRecDepth 20000 in
/-- It happens: Next and NextN(12) on a fresh object of bandwidth 10, then Next. -/
example : (play aCell [.new 10, .next 0, .nextN 0 12, .next 0]).out =
    [11, 13, 12, 11, 10, 9, 8, 7, 6, 5, 4, 3, 2, 1] := by decide

set_option maxRecDepth 20000 in
/-- NextN with a negative count is accepted and rewinds the object: ids come out again. -/
theorem C35_negative_false : (play aCell [.new 10, .next 0, .next 0, .nextN 0 (-2), .next 0]).out = [1, 2, 1] := by
  decide

/-! ### C38: releasing while another object has leased -/

set_option maxRecDepth 20000 in
/-- If an object that does not hold the newest lease releases its remaining ids, ids are handed out
twice. -/
theorem C38_release_false : (play aCell [.new 2, .new 2, .next 1, .release 0, .new 5, .next 2, .next 2, .next 2]).out =
    [3, 2, 1, 3] := by
  decide

/-- A release by an object with nothing to release is harmless. -/
theorem C38_nothing_to_release (s : Seq) (c : Circ) (db : DB) (h : s.leased = s.next) :
    (s.releaseRemaining c db).2 = (s, db) ∧ (s.close true c db).2.2 = db := by
  unfold Seq.releaseRemaining Seq.close Seq.releaseRemainingLocked
  constructor
  · split <;> simp [h]
  · split
    · rfl
    · simp [h]

/-! ### C39: clearing a sequence -/

/-- Clear of a sequence made by NewString removes its counter and nothing else, and the object starts
over. -/
theorem C39_clear_string (s : Seq) (k : Bytes) (c : Circ) (db db' : DB) (s' : Seq) (hc : s.cell = .str k)
    (h : s.clear c db = (.ok (), s', db')) :
    db'.get (Structure.stringDataKey metaPrefix k) = none ∧
    (∀ j, j ≠ Structure.stringDataKey metaPrefix k → db'.get j = db.get j) ∧
    s' = { s with next := 0, leased := 0 } := by
  unfold Seq.clear Seq.clearStored at h
  split at h
  · simp at h
  · rw [hc] at h
    simp only [Cell.clear, Structure.strClear, Prog.delK, runInNewUpdateTxn, body, Prog.run, Txn.delete, Txn.modify,
      Txn.start] at h
    cases hk : keyErr (Structure.stringDataKey metaPrefix k) with
    | some e => rw [hk] at h; simp at h
    | none =>
      rw [hk] at h
      simp only [Bool.not_true, Bool.false_eq_true, if_false] at h
      cases ht : c.env.tooBig 0 with
      | true => rw [ht] at h; simp at h
      | false =>
        rw [ht] at h
        simp only [Bool.false_eq_true, if_false, Txn.commit, List.nil_append] at h
        rw [if_neg (by simp)] at h
        cases hf : c.fail with
        | some e => rw [hf] at h; simp at h
        | none =>
          rw [hf] at h
          simp only [Prod.mk.injEq, true_and] at h
          obtain ⟨rfl, rfl⟩ := h
          refine ⟨?_, ?_, by rw [hc]⟩
          · simp [applyWrites, applyWrite]
          · intro j hj
            simp [applyWrites, applyWrite, OMap.get_del, Ne.symm hj]

/-- Two sequences in one hash. -/
def sharedDB : DB :=
  (Seq.new (.hash [7] [2]) 10 (calmCirc (Seq.new (.hash [7] [1]) 10 (calmCirc .empty) .empty).2.2)
    (Seq.new (.hash [7] [1]) 10 (calmCirc .empty) .empty).2.2).2.2

set_option maxRecDepth 20000 in
/-- Clear of a sequence made by NewHash clears the whole hash: another sequence in it falls back to its
first id. -/
theorem C39_clear_hash_false :
    let s : Seq := { cell := .hash [7] [1], bandwidth := 10 }
    (s.clear (calmCirc sharedDB) sharedDB).1 = .ok () ∧
    stored (.hash [7] [2]) sharedDB = some 10 ∧
    stored (.hash [7] [2]) (s.clear (calmCirc sharedDB) sharedDB).2.2 = some 0 := by
  decide

end Mondis.Props
