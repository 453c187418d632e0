import Verif.Lemmas.Key
import Verif.Lemmas.Lex
import Verif.Model.Provider
/-!
# Lemmas about iteration over sorted entry lists
-/
namespace Mondis.Scan
open Mondis.Lex

theorem takeWhile_eq_filter {α} {R : α → α → Prop} {l : List α} (hs : l.Pairwise R) {P : α → Bool}
    (h : ∀ a ∈ l, ∀ b ∈ l, R a b → P b = true → P a = true) : l.takeWhile P = l.filter P := by
  induction l with
  | nil => rfl
  | cons a l ih =>
    rw [List.pairwise_cons] at hs
    have ih := ih hs.2 (fun x hx y hy => h x (by simp [hx]) y (by simp [hy]))
    cases hp : P a with
    | true => simp [hp, ih]
    | false =>
      simp only [List.takeWhile_cons, hp, List.filter_cons]
      symm
      simp only [Bool.false_eq_true, if_false, List.filter_eq_nil_iff]
      intro b hb hpb
      have := h a (by simp) b (by simp [hb]) (hs.1 b hb) hpb
      rw [hp] at this; cases this

theorem dropWhile_eq_filter {α} {R : α → α → Prop} {l : List α} (hs : l.Pairwise R) {P : α → Bool}
    (h : ∀ a ∈ l, ∀ b ∈ l, R a b → P b = true → P a = true) :
    l.dropWhile P = l.filter (fun x => !P x) := by
  induction l with
  | nil => rfl
  | cons a l ih =>
    rw [List.pairwise_cons] at hs
    have ih := ih hs.2 (fun x hx y hy => h x (by simp [hx]) y (by simp [hy]))
    cases hp : P a with
    | true => simp [hp, ih]
    | false =>
      simp only [List.dropWhile_cons, hp, List.filter_cons]
      simp only [Bool.false_eq_true, if_false, Bool.not_false, if_true]
      congr 1
      symm
      rw [List.filter_eq_self]
      intro b hb
      cases hpb : P b with
      | false => rfl
      | true =>
        have := h a (by simp) b (by simp [hb]) (hs.1 b hb) hpb
        rw [hp] at this; cases this

/-- Keys that start with `p` form an interval beginning at `p`. -/
theorem prefix_convex {p x y : Bytes} (hpx : p ≤ x) (hxy : x < y) (hy : Key.hasPrefix y p = true) :
    Key.hasPrefix x p = true := by
  rw [Key.hasPrefix_iff] at *
  obtain ⟨t, rfl⟩ := hy
  induction p generalizing x with
  | nil => exact ⟨x, rfl⟩
  | cons c p ih =>
    cases x with
    | nil => exact absurd (List.nil_lt_cons c p) (List.not_lt.mpr hpx)
    | cons d x =>
      rw [List.cons_append, cons_lt_cons] at hxy
      rcases hxy with h | ⟨rfl, h⟩
      · exact absurd (cons_lt_cons.mpr (.inl h)) (List.not_lt.mpr hpx)
      · have hpx' : p ≤ x := by
          rw [← List.not_lt] at hpx ⊢
          intro h2; exact hpx (cons_lt_cons.mpr (.inr ⟨rfl, h2⟩))
        obtain ⟨t', rfl⟩ := ih hpx' h
        exact ⟨t', rfl⟩

theorem le_of_hasPrefix {p x : Bytes} (h : Key.hasPrefix x p = true) : p ≤ x := by
  obtain ⟨t, rfl⟩ := (Key.hasPrefix_iff x p).mp h
  exact le_append p t

theorem hasPrefix_nil (x : Bytes) : Key.hasPrefix x [] = true :=
  (Key.hasPrefix_iff x []).mpr ⟨x, rfl⟩

theorem not_lt_nil (x : Bytes) : ¬ x < [] := List.not_lt_nil x

/-- Forward iteration: if the offset is absent or not below the prefix, exactly the entries with
the prefix, from the offset on, in order. -/
theorem iterate_forward {prune : Bytes → Bool} {l : List (Bytes × Val)}
    (hs : l.Pairwise (fun a b => a.1 < b.1)) (p o : Bytes) (ho : o = [] ∨ p ≤ o) :
    Txn.iterate prune l { pfx := p, offset := o } =
      l.filter (fun e => Key.hasPrefix e.1 p && decide (o ≤ e.1)) := by
  unfold Txn.iterate
  simp only [Bool.false_eq_true, if_false]
  let seek : Bytes := if o = [] then p else o
  have hpseek : p ≤ seek := by
    show p ≤ if o = [] then p else o
    split
    · exact List.le_refl p
    · rcases ho with h | h
      · contradiction
      · exact h
  have hsv := hs.filter (fun e => Key.hasPrefix e.1 p || !prune e.1)
  have hdrop : (if seek = [] then l.filter (fun e => Key.hasPrefix e.1 p || !prune e.1) else
      (l.filter (fun e => Key.hasPrefix e.1 p || !prune e.1)).dropWhile (fun e => decide (e.1 < seek)))
      = (l.filter (fun e => Key.hasPrefix e.1 p || !prune e.1)).filter
          (fun e => !decide (e.1 < seek)) := by
    split
    · rename_i h
      symm; rw [List.filter_eq_self]
      intro e _
      rw [h]; simp [not_lt_nil]
    · apply dropWhile_eq_filter hsv
      intro a _ b _ hab hb
      simp only [decide_eq_true_eq] at *
      exact Lex.trans hab hb
  show List.takeWhile _ (if seek = [] then _ else _) = _
  rw [hdrop, takeWhile_eq_filter (hsv.filter _)]
  · simp only [List.filter_filter]
    apply List.filter_congr
    intro e _
    show (Key.hasPrefix e.1 p && (!decide (e.1 < seek) && (Key.hasPrefix e.1 p || !prune e.1))) =
      (Key.hasPrefix e.1 p && decide (o ≤ e.1))
    cases hp : Key.hasPrefix e.1 p with
    | false => rfl
    | true =>
      simp only [Bool.true_and, Bool.true_or, Bool.and_true]
      have hpe := le_of_hasPrefix hp
      have : e.1 < seek ↔ ¬ o ≤ e.1 := by
        show e.1 < (if o = [] then p else o) ↔ _
        split
        · rename_i h; subst h
          constructor
          · intro h; exact absurd h (List.not_lt.mpr hpe)
          · intro h; exact absurd (List.nil_le e.1) h
        · rw [List.not_le]
      by_cases h : e.1 < seek
      · simp [h, this.mp h]
      · have h2 : o ≤ e.1 := by
          by_cases h3 : o ≤ e.1
          · exact h3
          · exact absurd (this.mpr h3) h
        simp [h, h2]
  · intro a ha b _ hab hb
    simp only [List.mem_filter, Bool.not_eq_true', decide_eq_false_iff_not] at ha
    exact prefix_convex (List.le_trans hpseek (List.not_lt.mp ha.2)) hab hb

/-- Reverse iteration: if the offset starts with the prefix, exactly the entries with the prefix
up to the offset, in descending order. -/
theorem iterate_reverse {prune : Bytes → Bool} {l : List (Bytes × Val)}
    (hs : l.Pairwise (fun a b => a.1 < b.1)) (p o : Bytes) (ho : o ≠ [])
    (hpo : Key.hasPrefix o p = true) :
    Txn.iterate prune l { reverse := true, pfx := p, offset := o } =
      (l.filter (fun e => Key.hasPrefix e.1 p && decide (e.1 ≤ o))).reverse := by
  unfold Txn.iterate
  simp only [if_true, if_neg ho]
  have hsv := (List.pairwise_reverse.mpr (hs.filter (fun e => Key.hasPrefix e.1 p || !prune e.1)))
  rw [dropWhile_eq_filter (R := fun (a b : Bytes × Val) => b.1 < a.1) hsv]
  · rw [takeWhile_eq_filter (R := fun (a b : Bytes × Val) => b.1 < a.1)
      (hsv.filter _)]
    · rw [← List.filter_reverse, ← List.filter_reverse]
      simp only [List.filter_filter]
      apply List.filter_congr
      intro e _
      show (Key.hasPrefix e.1 p && (!decide (o < e.1) && (Key.hasPrefix e.1 p || !prune e.1))) =
        (Key.hasPrefix e.1 p && decide (e.1 ≤ o))
      cases hp : Key.hasPrefix e.1 p with
      | false => rfl
      | true =>
        simp only [Bool.true_and, Bool.true_or, Bool.and_true]
        by_cases h : o < e.1
        · simp [h, List.not_le.mpr h]
        · simp [h, List.not_lt.mp h]
    · intro a ha b hb hab hpb
      simp only [List.mem_filter, Bool.not_eq_true', decide_eq_false_iff_not] at ha
      have hpa : p ≤ a.1 := List.le_trans (le_of_hasPrefix hpb) (List.le_of_lt hab)
      rcases Lex.trichotomy a.1 o with h | h | h
      · exact prefix_convex hpa h hpo
      · exact h ▸ hpo
      · exact absurd h ha.2
  · intro a _ b _ hab hb
    simp only [decide_eq_true_eq] at *
    exact Lex.trans hb hab

/-- Reverse iteration without a prefix. -/
theorem iterate_reverse_noprefix {prune : Bytes → Bool} {l : List (Bytes × Val)}
    (hs : l.Pairwise (fun a b => a.1 < b.1)) (o : Bytes) (ho : o ≠ []) :
    Txn.iterate prune l { reverse := true, offset := o } =
      (l.filter (fun e => decide (e.1 ≤ o))).reverse := by
  have := iterate_reverse (prune := prune) hs [] o ho (hasPrefix_nil o)
  simpa [hasPrefix_nil] using this

end Mondis.Scan
