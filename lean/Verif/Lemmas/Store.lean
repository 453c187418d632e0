import Verif.Spec.Scan
import Verif.Model.Store
import Verif.Lemmas.Scan
import Verif.Props.Key
/-!
# Lemmas about scans and stores
-/
namespace Mondis.Store
open Mondis.Lex Mondis.Spec

theorem hasPrefix_eq (k p : Bytes) : Key.hasPrefix k p = p.isPrefixOf k := by
  cases h : Key.hasPrefix k p with
  | true =>
    obtain ⟨t, rfl⟩ := (Key.hasPrefix_iff k p).mp h
    symm; rw [List.isPrefixOf_iff_prefix]; exact List.prefix_append p t
  | false =>
    cases h2 : p.isPrefixOf k with
    | false => rfl
    | true =>
      rw [List.isPrefixOf_iff_prefix] at h2
      obtain ⟨t, rfl⟩ := h2
      rw [(Key.hasPrefix_iff _ _).mpr ⟨t, rfl⟩] at h; cases h

theorem live_sorted (now : Int) (m : DB) :
    (Txn.liveEnts now m).Pairwise (fun a b => a.1 < b.1) := m.sorted.filter _

theorem scan_forward (env : Env) (m : DB) (p o : Bytes) (ho : o = [] ∨ p ≤ o) :
    Txn.iterate env.prune (Txn.liveEnts env.now m) { pfx := p, offset := o } =
      fromOffset (·.live env.now) m p o := by
  rw [Scan.iterate_forward (live_sorted env.now m) p o ho]
  unfold Txn.liveEnts fromOffset
  rw [List.filter_filter]
  apply List.filter_congr
  intro e _
  rw [hasPrefix_eq, Bool.and_comm]

theorem scan_reverse (env : Env) (m : DB) (p o : Bytes) (ho : o ≠ []) (hpo : p <+: o) :
    Txn.iterate env.prune (Txn.liveEnts env.now m) { reverse := true, pfx := p, offset := o } =
      downFrom (·.live env.now) m p o := by
  rw [Scan.iterate_reverse (live_sorted env.now m) p o ho
    (by rw [hasPrefix_eq, List.isPrefixOf_iff_prefix]; exact hpo)]
  unfold Txn.liveEnts downFrom
  rw [List.filter_filter]
  congr 1
  apply List.filter_congr
  intro e _
  rw [hasPrefix_eq, Bool.and_comm]

/-- The part of a sorted list from a successor on is what follows the key. -/
theorem filter_next {V : Type} {l l' : List (Bytes × V)} {e : Bytes × V}
    (hs : (l ++ e :: l').Pairwise (fun a b => a.1 < b.1)) (o : Bytes) (ho : o ≤ e.1) :
    (l ++ e :: l').filter (fun x => decide (Key.next e.1 ≤ x.1)) = l' ∧
    l'.filter (fun x => decide (o ≤ x.1)) = l' := by
  rw [List.pairwise_append] at hs
  obtain ⟨_, h2, h3⟩ := hs
  rw [List.pairwise_cons] at h2
  have hn := Props.C11_next_immediate_successor e.1
  have hl' : ∀ x ∈ l', Key.next e.1 ≤ x.1 := fun x hx => hn.2 x.1 (h2.1 x hx)
  constructor
  · rw [List.filter_append, List.filter_cons, if_neg]
    · rw [List.filter_eq_nil_iff.mpr, List.nil_append, List.filter_eq_self]
      · intro x hx; simpa using hl' x hx
      · intro x hx
        simp only [decide_eq_true_eq]
        rw [List.not_le]
        exact Lex.trans (h3 x hx e (by simp)) hn.1
    · simp only [decide_eq_true_eq]; rw [List.not_le]; exact hn.1
  · rw [List.filter_eq_self]
    intro x hx
    simp only [decide_eq_true_eq]
    exact List.le_trans ho (List.le_of_lt (h2.1 x hx))

/-- Paging over a sorted list visits everything from the offset on exactly once. -/
theorem paging_complete {V : Type} (l : List (Bytes × V)) (hs : l.Pairwise (fun a b => a.1 < b.1))
    (page : Bytes → List (Bytes × V)) (ok : Bytes → Prop) (hok : ∀ e ∈ l, ok (Key.next e.1)) (n : Nat)
    (hn : 0 < n)
    (hpage : ∀ o, ok o → page o = (l.filter (fun e => decide (o ≤ e.1))).take n) (fuel : Nat) (o : Bytes)
    (ho : ok o) (hf : (l.filter (fun e => decide (o ≤ e.1))).length < fuel) :
    paging page Key.next n fuel o = l.filter (fun e => decide (o ≤ e.1)) := by
  induction fuel generalizing o with
  | zero => omega
  | succ fuel ih =>
    unfold paging
    rw [hpage o ho]
    generalize hm : l.filter (fun e => decide (o ≤ e.1)) = m at *
    have hmlen : (m.take n).length = min n m.length := List.length_take
    by_cases hlt : (m.take n).length < n
    · rw [if_pos hlt]
      rw [List.take_of_length_le]; omega
    · rw [if_neg hlt]
      have hlen : n ≤ m.length := by omega
      cases hg : (m.take n).getLast? with
      | none =>
        rw [List.getLast?_eq_none_iff] at hg
        rw [hg] at hmlen; simp at hmlen; omega
      | some e =>
        simp only
        obtain ⟨ini, hini⟩ := List.getLast?_eq_some_iff.mp hg
        have hsplit : m = ini ++ e :: m.drop n := by
          have h0 : m.take n ++ m.drop n = m := List.take_append_drop n m
          rw [hini] at h0
          simpa using h0.symm
        have hmem : e ∈ m := List.mem_of_mem_take (by rw [hini]; simp)
        have hmem' : e ∈ l := by rw [← hm] at hmem; exact (List.mem_filter.mp hmem).1
        have hoe : o ≤ e.1 := by
          rw [← hm] at hmem; simpa using (List.mem_filter.mp hmem).2
        have hnext : l.filter (fun x => decide (Key.next e.1 ≤ x.1)) = m.drop n := by
          have hsm : m.Pairwise (fun a b => a.1 < b.1) := hm ▸ hs.filter _
          have h1 : m.filter (fun x => decide (Key.next e.1 ≤ x.1)) =
              l.filter (fun x => decide (Key.next e.1 ≤ x.1)) := by
            rw [← hm, List.filter_filter]
            apply List.filter_congr
            intro x _
            by_cases hx : Key.next e.1 ≤ x.1
            · have : o ≤ x.1 := List.le_trans hoe (List.le_trans
                (List.le_of_lt (Props.C11_next_immediate_successor e.1).1) hx)
              simp [hx, this]
            · simp [hx]
          rw [← h1]
          rw [hsplit] at hsm
          have := (filter_next hsm o hoe).1
          rw [← hsplit] at this
          exact this
        have hdl : (m.drop n).length < fuel := by
          rw [List.length_drop]; omega
        rw [ih (Key.next e.1) (hok e hmem') (by rw [hnext]; exact hdl), hnext, List.take_append_drop]

/-! ### LevelDB ranges -/

theorem lt_prefixLimit {p k l : Bytes} (h : LevelDB.prefixLimit p = some l) (hle : p ≤ k) :
    k < l ↔ p <+: k := by
  induction p generalizing k l with
  | nil => simp [LevelDB.prefixLimit] at h
  | cons b p ih =>
    unfold LevelDB.prefixLimit at h
    cases k with
    | nil => exact absurd (List.nil_lt_cons b p) (List.not_lt.mpr hle)
    | cons c k =>
      have hbc : b < c ∨ (b = c ∧ p ≤ k) := by
        rcases UInt8.lt_or_lt_of_ne (a := b) (b := c) |> fun f => (Classical.em (b = c)).imp id f with h | h | h
        · right; subst h
          refine ⟨rfl, ?_⟩
          rw [← List.not_lt] at hle ⊢
          intro h2; exact hle (cons_lt_cons.mpr (.inr ⟨rfl, h2⟩))
        · left; exact h
        · exact absurd (cons_lt_cons.mpr (.inl h)) (List.not_lt.mpr hle)
      have hpre : (b :: p) <+: (c :: k) ↔ b = c ∧ p <+: k := by
        rw [List.cons_prefix_cons]
      rw [hpre]
      cases hr : LevelDB.prefixLimit p with
      | some l' =>
        rw [hr] at h
        cases h
        rw [cons_lt_cons]
        rcases hbc with hbc | ⟨rfl, hpk⟩
        · constructor
          · rintro (h | ⟨h, _⟩)
            · exact absurd (UInt8.lt_trans hbc h) (UInt8.lt_irrefl _)
            · subst h; exact absurd hbc (UInt8.lt_irrefl _)
          · rintro ⟨rfl, _⟩; exact absurd hbc (UInt8.lt_irrefl _)
        · rw [← ih hr hpk]
          constructor
          · rintro (h | ⟨_, h⟩)
            · exact absurd h (UInt8.lt_irrefl _)
            · exact ⟨rfl, h⟩
          · rintro ⟨_, h⟩; exact .inr ⟨rfl, h⟩
      | none =>
        rw [hr] at h
        simp only at h
        split at h
        · cases h
        · rename_i hb
          cases h
          have hff : ∀ (q k : Bytes), LevelDB.prefixLimit q = none → q ≤ k → q <+: k := by
            intro q
            induction q with
            | nil => intro k _ _; exact List.nil_prefix
            | cons d q ihq =>
              intro k h1 h2
              unfold LevelDB.prefixLimit at h1
              cases hq : LevelDB.prefixLimit q with
              | some x => rw [hq] at h1; cases h1
              | none =>
                rw [hq] at h1
                simp only at h1
                split at h1
                · rename_i hd
                  subst hd
                  cases k with
                  | nil => exact absurd (List.nil_lt_cons _ q) (List.not_lt.mpr h2)
                  | cons e k =>
                    have he : e = 255 := by
                      have hge : ¬ e < 255 := fun h3 =>
                        absurd (cons_lt_cons.mpr (.inl h3)) (List.not_lt.mpr h2)
                      have h5 : ¬ e.toNat < 255 := by
                        intro h6; exact hge (UInt8.lt_iff_toNat_lt.mpr (by simpa using h6))
                      have h7 := e.toNat_lt
                      exact UInt8.toNat_inj.mp (by simp; omega)
                    subst he
                    rw [List.cons_prefix_cons]
                    refine ⟨rfl, ihq k hq ?_⟩
                    rw [← List.not_lt] at h2 ⊢
                    intro h3; exact h2 (cons_lt_cons.mpr (.inr ⟨rfl, h3⟩))
                · cases h1
          rw [cons_lt_cons, Key.lt_add_one_iff hb]
          rcases hbc with hbc | ⟨rfl, hpk⟩
          · constructor
            · rintro (h | ⟨h, hk⟩)
              · exact absurd (UInt8.lt_of_lt_of_le hbc h) (UInt8.lt_irrefl _)
              · exact absurd hk (List.not_lt_nil _)
            · rintro ⟨rfl, _⟩; exact absurd hbc (UInt8.lt_irrefl _)
          · exact ⟨fun _ => ⟨rfl, hff p k hr hpk⟩, fun _ => .inl (UInt8.le_refl _)⟩

theorem inRange_eq (p k : Bytes) : LevelDB.inRange p k = p.isPrefixOf k := by
  have key : LevelDB.inRange p k = true ↔ p <+: k := by
    unfold LevelDB.inRange
    rw [Bool.and_eq_true, decide_eq_true_eq]
    constructor
    · rintro ⟨h1, h2⟩
      cases hl : LevelDB.prefixLimit p with
      | some l =>
        rw [hl] at h2
        simp only [decide_eq_true_eq] at h2
        exact (lt_prefixLimit hl h1).mp h2
      | none =>
        have hc : LevelDB.prefixLimit (0 :: p) = some [1] := by
          unfold LevelDB.prefixLimit; rw [hl]; rfl
        have hle : (0 :: p : Bytes) ≤ 0 :: k := by
          rw [← List.not_lt] at h1 ⊢
          intro h3
          rcases cons_lt_cons.mp h3 with h | ⟨_, h⟩
          · exact absurd h (UInt8.lt_irrefl _)
          · exact h1 h
        have := (lt_prefixLimit hc hle).mp (cons_lt_cons.mpr (.inl (by decide)))
        exact (List.cons_prefix_cons.mp this).2
    · intro h
      have hle : p ≤ k := by obtain ⟨t, rfl⟩ := h; exact le_append p t
      refine ⟨hle, ?_⟩
      cases hl : LevelDB.prefixLimit p with
      | some l => simp only [decide_eq_true_eq]; exact (lt_prefixLimit hl hle).mpr h
      | none => rfl
  cases h : LevelDB.inRange p k with
  | true => symm; rw [List.isPrefixOf_iff_prefix]; exact key.mp h
  | false =>
    cases h2 : p.isPrefixOf k with
    | false => rfl
    | true =>
      rw [List.isPrefixOf_iff_prefix] at h2
      rw [key.mpr h2] at h; cases h

theorem ldb_scan (db : LevelDB.LDB) (p o : Bytes) :
    LevelDB.scan db { pfx := p, offset := o } = .ok (fromOffset (fun _ => true) db p o) := by
  unfold LevelDB.scan fromOffset
  simp only [Bool.false_eq_true, if_false, Bool.true_and]
  congr 1
  have hf : db.ents.filter (fun e => LevelDB.inRange p e.1) =
      db.ents.filter (fun e => p.isPrefixOf e.1) := by
    apply List.filter_congr; intro e _; exact inRange_eq p e.1
  rw [hf]
  split
  · rename_i h; subst h
    apply List.filter_congr
    intro e _
    have : ([] : Bytes) ≤ e.1 := List.nil_le e.1
    simp [this]
  · rw [Scan.dropWhile_eq_filter (R := fun (a b : Bytes × Bytes) => a.1 < b.1) (db.sorted.filter _)]
    · rw [List.filter_filter]
      apply List.filter_congr
      intro e _
      rw [Bool.and_comm]
      congr 1
      by_cases h : o ≤ e.1
      · simp [h, List.not_lt.mpr h]
      · simp [h, List.not_le.mp h]
    · intro a _ b _ hab hb
      simp only [decide_eq_true_eq] at *
      exact Lex.trans hab hb

end Mondis.Store
