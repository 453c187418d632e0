import Verif.Lemmas.DomainNotes
/-!
# The document process: histories with a record
-/
namespace Mondis.Props
open Mondis Prog Spec Schema Doc Domain Ddl

variable {D : Type}

/-- What a process has answered, and where it is, after these events. -/
abbrev Tape (D : Type) := List (Domain.Ev D) → List (Domain.Answer D) × Domain.World

/-- One event: as in Model/Domain, except that an event of package ddl may do anything that is not seen in a transaction on documents. -/
def Stir (J : Json) (C : Codec D) (w : Domain.World) (e : Domain.Ev D) (a : Domain.Answer D) (w' : Domain.World) : Prop :=
  (∃ d, e = .ddl d ∧ d ≠ .crash ∧ w'.sessions = w.sessions) ∨ a = (w.step J C e).1 ∧ w' = (w.step J C e).2

theorem Stir.plain {J : Json} {C : Codec D} {w w' : Domain.World} {e : Domain.Ev D} {a : Domain.Answer D} (h : Stir J C w e a w')
    (he : ∀ d, e ≠ .ddl d) : w' = (w.step J C e).2 := by
  rcases h with ⟨d, h, -⟩ | ⟨-, h⟩
  · exact absurd h (he d)
  · exact h

theorem Stir.answer {J : Json} {C : Codec D} {w w' : Domain.World} {e : Domain.Ev D} {a : Domain.Answer D} (h : Stir J C w e a w')
    (he : ∀ d, e ≠ .ddl d) : a = (w.step J C e).1 := by
  rcases h with ⟨d, h, -⟩ | ⟨h, -⟩
  · exact absurd h (he d)
  · exact h

/-- Model/Domain `Overlap` on a tape. -/
def OverlapOn (J : Json) (C : Codec D) (R : Tape D) (es : List (Domain.Ev D)) (j k : Nat) (sj sk : Session) : Prop :=
  ∃ l₁ l₂ f l₃ g l₄ s₀,
    es = l₁ ++ .snapshot k :: (l₂ ++ .finish j f :: (l₃ ++ .finish k g :: l₄)) ∧
    (R l₁).2.session k = some s₀ ∧ s₀.phase = .fresh ∧
    (R (l₁ ++ .snapshot k :: l₂)).2.session j = some sj ∧
    ((R (l₁ ++ .snapshot k :: l₂)).2.step J C (.finish j f)).1 = .committed (.ok ()) ∧
    (R (l₁ ++ .snapshot k :: (l₂ ++ .finish j f :: l₃))).2.session k = some sk ∧
    ((R (l₁ ++ .snapshot k :: (l₂ ++ .finish j f :: l₃))).2.step J C (.finish k g)).1 = .committed (.ok ())

/-- Model/Domain `Detects` on a tape. -/
def DetectsOn (J : Json) (C : Codec D) (R : Tape D) (es : List (Domain.Ev D)) : Prop :=
  ∀ j k sj sk, OverlapOn J C R es j k sj sk → sk.txn.kv.writes ≠ [] →
    ∀ key ∈ sk.txn.kv.reads, key ∉ sj.txn.kv.writes.map Prod.fst

/-- Spec/Serial `Undisturbed` on a tape. -/
def UndisturbedOn (J : Json) (C : Codec D) (R : Tape D) (es : List (Domain.Ev D)) : Prop :=
  ∀ j k sj sk, OverlapOn J C R es j k sj sk → (saidIn k es (R es).1).any Said.wrote = true →
    ∀ q ∈ saidIn k es (R es).1, q.call.point = false →
    ∀ r ∈ saidIn j es (R es).1, r.wrote = true → ¬ (r.db = q.db ∧ r.coll = q.coll)

/-- A history on a tape, with the specification's state and the record. -/
inductive Course (J : Json) (C : Codec D) (K : Nat) (R : Tape D) :
    List (Domain.Ev D) → List (Domain.Answer D) → Site D → Domain.World → Ghost D → Prop where
  | nil {w} : R [] = ([], w) → Match J C K (2 ^ 62) ({} : Site D) w → Course J C K R [] [] {} w (fun _ => {})
  | snoc {es as S w g e a S' w' g'} : Course J C K R es as S w g → Stir J C w e a w' → R (es ++ [e]) = (as ++ [a], w') →
      S.Walk C.norm e a S' → Match J C K (2 ^ 62) S' w' → Notes C.norm S e a S' g g' →
      Course J C K R (es ++ [e]) (as ++ [a]) S' w' g'

variable {J : Json} {C : Codec D} {K : Nat} {R : Tape D} {w : Domain.World} {es : List (Domain.Ev D)} {as : List (Domain.Answer D)} {S : Site D} {g : Ghost D}

theorem Course.matches (h : Course J C K R es as S w g) : Match J C K (2 ^ 62) S w := by
  cases h <;> assumption

theorem Course.known (h : Course J C K R es as S w g) : Known S := by
  induction h with
  | nil => exact known_start
  | snoc _ _ _ hs _ _ ih => exact ih.step hs

theorem Course.positive (h : Course J C K R es as S w g) : Positive S := by
  induction h with
  | nil => exact positive_start
  | snoc _ _ _ hs _ _ ih => exact ih.step hs

theorem Course.run (h : Course J C K R es as S w g) : R es = (as, w) := by
  cases h <;> assumption

theorem Course.length (h : Course J C K R es as S w g) : as.length = es.length := by
  induction h with
  | nil => rfl
  | snoc _ _ _ _ _ _ ih => simp only [List.length_append, ih, List.length_cons, List.length_nil]

/-- The tape of Model/Domain. -/
def tapeOf (J : Json) (C : Codec D) (w₀ : Domain.World) : Tape D := fun l => Domain.run J C l w₀

theorem tape_step {w₀ : Domain.World} (h : tapeOf J C w₀ es = (as, w)) (e : Domain.Ev D) :
    tapeOf J C w₀ (es ++ [e]) = (as ++ [(w.step J C e).1], (w.step J C e).2) := by
  unfold tapeOf at h ⊢
  rw [drun_append, h]
  rfl

theorem course_from (J : Json) (C : Codec D) (c : Nat) {w₀ : Domain.World} (es : List (Domain.Ev D)) : ∀ {B : Nat} {es₀ : List (Domain.Ev D)}
    {as₀ : List (Domain.Answer D)} {S : Site D} {w : Domain.World} {g : Ghost D}, Course J C K (tapeOf J C w₀) es₀ as₀ S w g →
    Match J C K B S w → (∀ e ∈ es, DomainFits K e) → B + es.length * c ≤ 2 ^ 62 →
    4 * K + 1026 + 2 * (S.proc.state.lastID + es.length * (K + 2)) ≤ c → S.proc.state.lastID + es.length * (K + 2) < 2 ^ 63 →
    ∃ S' g', Course J C K (tapeOf J C w₀) (es₀ ++ es) (as₀ ++ (Domain.run J C es w).1) S' (Domain.run J C es w).2 g' := by
  induction es with
  | nil =>
    intro B es₀ as₀ S w g h _ _ _ _ _
    refine ⟨S, g, ?_⟩
    simp only [Domain.run, List.append_nil]
    exact h
  | cons e es ih =>
    intro B es₀ as₀ S w g hcs h hf hB hc hid
    rw [List.length_cons] at hB hc hid
    have e1 : (es.length + 1) * (K + 2) = es.length * (K + 2) + (K + 2) := Nat.succ_mul _ _
    have e2 : (es.length + 1) * c = es.length * c + c := Nat.succ_mul _ _
    rw [e1] at hc hid
    rw [e2] at hB
    have hcost : cost K S.proc.state ≤ c := by unfold cost; omega
    obtain ⟨Q, h1, h2, h3⟩ := h.step e (hf e List.mem_cons_self) (by omega) (by omega)
    have h1 := h1.walk
    obtain ⟨g', hn⟩ := step_notes hcs.positive h1 g
    obtain ⟨R, g'', h4⟩ := ih (hcs.snoc (.inr ⟨rfl, rfl⟩) (tape_step hcs.run e) h1 (h2.mono (by omega)) hn) (h2.mono (B' := B + c) (by omega)) (fun e he => hf e (List.mem_cons_of_mem _ he))
      (by omega) (by omega) (by omega)
    refine ⟨R, g'', ?_⟩
    simp only [List.append_assoc, List.singleton_append] at h4
    exact h4

/-- Every history on a fresh database. -/
theorem run_course (J : Json) (C : Codec D) {db : DB} (hdb : Fresh Sequence.metaPrefix db) (hd : NoDocs db) (hb : DomainBrief K es) :
    ∃ S g, Course J C K (tapeOf J C { ddl := { db := db } }) es (Domain.run J C es { ddl := { db := db } }).1 S (Domain.run J C es { ddl := { db := db } }).2 g := by
  have h0 := match_start (D := D) J C K hdb hd
  cases hes : es with
  | nil => exact ⟨_, _, .nil rfl (h0.mono (by omega))⟩
  | cons e es' =>
    rw [← hes]
    have hpos : 1 ≤ es.length := by rw [hes]; simp
    obtain ⟨b1, b2⟩ := domain_budget hb.2 hpos
    exact course_from J C _ es (.nil rfl (h0.mono (by omega))) h0 hb.1 (by have := hb.2; omega) b1 b2

/-- The history up to some point. -/
theorem Course.split {es' : List (Domain.Ev D)} (h : Course J C K R (es ++ es') as S w g) :
    ∃ as' S' w' g', Course J C K R es as' S' w' g' := by
  generalize hl : es ++ es' = l at h
  induction h generalizing es' with
  | nil h0 h1 =>
    obtain ⟨rfl, rfl⟩ := List.append_eq_nil_iff.mp hl
    exact ⟨_, _, _, _, .nil h0 h1⟩
  | snoc hc ht hr hs hm hn ih =>
    rcases List.eq_nil_or_concat es' with rfl | ⟨es'', x, rfl⟩
    · rw [List.append_nil] at hl
      subst hl
      exact ⟨_, _, _, _, hc.snoc ht hr hs hm hn⟩
    · rw [List.concat_eq_append, ← List.append_assoc] at hl
      exact ih (List.append_inj_left' hl rfl)

end Mondis.Props
