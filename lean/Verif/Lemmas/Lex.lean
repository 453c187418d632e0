import Verif.Spec.Order
/-! Helper lemmas on the lexicographic order of byte strings. -/
namespace Mondis.Lex

theorem irrefl (a : Bytes) : ¬ a < a := List.lt_irrefl a

theorem trans {a b c : Bytes} (h : a < b) (h' : b < c) : a < c := List.lt_trans h h'

theorem asymm {a b : Bytes} (h : a < b) : ¬ b < a := fun h' => irrefl a (trans h h')

theorem trichotomy (a b : Bytes) : a < b ∨ a = b ∨ b < a := by
  by_cases h : a < b
  · exact .inl h
  · by_cases h' : b < a
    · exact .inr (.inr h')
    · exact .inr (.inl (List.le_antisymm (List.not_lt.mp h') (List.not_lt.mp h)))

theorem cons_lt_cons {x y : UInt8} {a b : Bytes} :
    x :: a < y :: b ↔ x < y ∨ (x = y ∧ a < b) := List.cons_lt_cons_iff

@[simp] theorem append_lt_append_left (p a b : Bytes) : p ++ a < p ++ b ↔ a < b := by
  induction p with
  | nil => simp
  | cons x p ih => simp [ih]

theorem lt_append_cons (a : Bytes) (x : UInt8) (t : Bytes) : a < a ++ x :: t := by
  induction a with
  | nil => exact List.nil_lt_cons x t
  | cons y a ih => simp [ih]

theorem le_append (a t : Bytes) : a ≤ a ++ t := by
  cases t with
  | nil => simp
  | cons x t => exact List.le_of_lt (lt_append_cons a x t)

/-- `a` and `b` differ at some position, and `a` has the smaller byte at the first such position. -/
def Before (a b : Bytes) : Prop :=
  ∃ p c d s t, a = p ++ c :: s ∧ b = p ++ d :: t ∧ c < d

theorem Before.lt {a b : Bytes} (h : Before a b) (x y : Bytes) : a ++ x < b ++ y := by
  obtain ⟨p, c, d, s, t, rfl, rfl, hcd⟩ := h
  simp [cons_lt_cons, hcd]

theorem Before.lt' {a b : Bytes} (h : Before a b) : a < b := by
  simpa using h.lt [] []

theorem Before.cons {a b : Bytes} (x : UInt8) (h : Before a b) : Before (x :: a) (x :: b) := by
  obtain ⟨p, c, d, s, t, rfl, rfl, hcd⟩ := h
  exact ⟨x :: p, c, d, s, t, rfl, rfl, hcd⟩

theorem Before.head {x y : UInt8} (a b : Bytes) (h : x < y) : Before (x :: a) (y :: b) :=
  ⟨[], x, y, a, b, rfl, rfl, h⟩

theorem compl_lt {c d : UInt8} (h : c < d) : ~~~ d < ~~~ c := by
  rw [UInt8.lt_iff_toNat_lt] at *
  have hc := c.toNat_lt; have hd := d.toNat_lt
  simp only [UInt8.toNat_not, UInt8.size]
  omega

theorem Before.compl {a b : Bytes} (h : Before a b) :
    Before (b.map (~~~ ·)) (a.map (~~~ ·)) := by
  obtain ⟨p, c, d, s, t, rfl, rfl, hcd⟩ := h
  exact ⟨p.map (~~~ ·), ~~~ d, ~~~ c, t.map (~~~ ·), s.map (~~~ ·), by simp, by simp,
    compl_lt hcd⟩

/-- Byte strings of equal length that compare `<` differ at a position. -/
theorem before_of_length_eq {a b : Bytes} (hl : a.length = b.length) (h : a < b) : Before a b := by
  induction a generalizing b with
  | nil => cases b with
    | nil => exact absurd h (irrefl _)
    | cons => simp at hl
  | cons x a ih => cases b with
    | nil => simp at hl
    | cons y b =>
      rcases cons_lt_cons.mp h with h1 | ⟨rfl, h1⟩
      · exact Before.head _ _ h1
      · exact (ih (by simpa using hl) h1).cons x

end Mondis.Lex
