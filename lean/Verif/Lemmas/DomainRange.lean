import Verif.Spec.DomainAsk
import Verif.Lemmas.DomainFrame
import Verif.Props.Document
/-!
# GetDidRange on a database of metadata and documents
-/
namespace Mondis.Props
open Mondis Spec Schema Meta Domain Doc Prog Memcomparable

variable {D : Type}

/-! ### Order of the keys -/

theorem dpx_last (x : Int64) : documentKeyPrefix x = (collectionPrefix ++ (encodeInt64 [] x ++ [95])) ++ [100] := by
  rw [documentKeyPrefix_eq]; simp [documentPrefix]

theorem dpx_exact (x : Int64) (k : Bytes) :
    (documentKeyPrefix x ≤ k ∧ k < Key.prefixNext (documentKeyPrefix x)) ↔ IsPrefixOf (documentKeyPrefix x) k := by
  rw [dpx_last]
  exact C12_prefixNext_exact _ 100 (by decide) k

theorem dpx_next (x : Int64) : Key.prefixNext (documentKeyPrefix x) = (collectionPrefix ++ (encodeInt64 [] x ++ [95])) ++ [101] := by
  rw [dpx_last]
  have h := Key.prefixNext_split (collectionPrefix ++ (encodeInt64 [] x ++ [95])) 100 0 (by decide)
  simp only [List.replicate_zero, List.append_nil] at h
  exact h

theorem dk_between (c d : Int64) : documentKeyPrefix c ≤ documentKey c d ∧ documentKey c d < Key.prefixNext (documentKeyPrefix c) :=
  (dpx_exact c _).mpr (documentKey_prefix.mpr rfl)

theorem dk_from (x c d : Int64) : documentKeyPrefix x ≤ documentKey c d ↔ x ≤ c := by
  constructor
  · intro h
    rw [← Int64.not_lt]
    intro hlt
    have h1 : documentKey c d < documentKey x 0 := (C40_document_order c d x 0).mpr (.inl hlt)
    have := (dpx_exact x _).mp ⟨h, Std.lt_trans h1 (dk_between x 0).2⟩
    rw [documentKey_prefix.mp this] at hlt
    exact absurd hlt Int64.lt_irrefl
  · intro h
    rcases Int64.lt_or_eq_of_le h with h | h
    · exact List.le_trans (dk_between x 0).1 (List.le_of_lt ((C40_document_order x 0 c d).mpr (.inl h)))
    · subst h; exact (dk_between x d).1

theorem dk_upto (x c d : Int64) : documentKey c d ≤ Key.prefixNext (documentKeyPrefix x) ↔ c ≤ x := by
  constructor
  · intro h
    rw [← Int64.not_lt]
    intro hlt
    have hle := (dk_from x c d).mpr (Int64.le_of_lt hlt)
    rcases Std.le_iff_lt_or_eq.mp h with h1 | h1
    · have := (dpx_exact x _).mp ⟨hle, h1⟩
      rw [documentKey_prefix.mp this] at hlt
      exact absurd hlt Int64.lt_irrefl
    · have := congrArg List.length h1
      rw [dpx_next, documentKey_eq] at this
      simp [collectionPrefix, documentPrefix, encodeInt64_len] at this
  · intro h
    rcases Int64.lt_or_eq_of_le h with h | h
    · exact List.le_of_lt (Std.lt_trans ((C40_document_order c d x 0).mpr (.inl h)) (dk_between x 0).2)
    · subst h; exact List.le_of_lt (dk_between c d).2

/-- All keys of documents come before all keys of metadata. -/
theorem coll_lt_meta (r : Bytes) {k : Bytes} (h : IsPrefixOf Sequence.metaPrefix k) : collectionPrefix ++ r < k := by
  obtain ⟨r', rfl⟩ := h
  show (95 :: 109 :: 100 :: 95 :: 99 :: r : Bytes) < 95 :: 109 :: 100 :: 95 :: 109 :: r'
  simp only [List.cons_lt_cons_iff]
  exact .inr ⟨trivial, .inr ⟨trivial, .inr ⟨trivial, .inr ⟨trivial, .inl (by decide)⟩⟩⟩⟩

theorem decode_meta {k : Bytes} (h : IsPrefixOf Sequence.metaPrefix k) : decodeDocumentKey k = .err errInvalidKey := by
  unfold decodeDocumentKey
  split
  · rfl
  · rw [if_pos]
    rw [Bool.eq_false_iff]
    intro hp
    obtain ⟨r, e⟩ := (Key.hasPrefix_iff _ _).mp hp
    obtain ⟨r', e'⟩ := h
    rw [e'] at e
    simp [Sequence.metaPrefix, collectionPrefix] at e

/-! ### The answer -/

/-- Only metadata and documents are stored. -/
def OnlyOurs (db : DB) : Prop := ∀ k v, db.get k = some v → AtDoc k ∨ IsPrefixOf Sequence.metaPrefix k

/-- Some metadata is stored. -/
def SomeMeta (db : DB) : Prop := ∃ k v, IsPrefixOf Sequence.metaPrefix k ∧ db.get k = some v ∧ v.expiresAt = 0

theorem range_exact {C : Codec D} {A : Docs D} {t : Txn} (x : Int64) (h : HoldsDocs C A t.view) (hk : OnlyOurs t.view)
    (hm : SomeMeta t.view) : Ranges A x ((Doc.getDidRange x).run t).1 := by
  have hrep := h.live t.env.now
  have hmem : ∀ c d, (A c).get d ≠ none → ∃ v, (documentKey c d, v) ∈ t.live.ents := by
    intro c d hd
    have := hrep.docs c d
    cases hg : (DB.live t.env.now t.view).get (documentKey c d) with
    | some v => exact ⟨v, (OMap.get_eq_some_iff _ _ _).mp hg⟩
    | none =>
      rw [hg] at this
      cases ha : (A c).get d with
      | none => exact absurd ha hd
      | some d => rw [ha] at this; exact this.elim
  have hcases : ∀ e ∈ t.live.ents, (∃ c d, e.1 = documentKey c d ∧ (A c).get d ≠ none) ∨ IsPrefixOf Sequence.metaPrefix e.1 := by
    intro e he
    have hg : t.live.get e.1 = some e.2 := OMap.mem_get he
    have hv : ∃ v, t.view.get e.1 = some v := by
      unfold Txn.live at hg
      rw [live_get] at hg
      cases hx : t.view.get e.1 with
      | none => rw [hx] at hg; cases hg
      | some v => exact ⟨v, rfl⟩
    obtain ⟨v, hv⟩ := hv
    rcases hk _ _ hv with ⟨c, hp⟩ | hp
    · left
      obtain ⟨d, hkd⟩ := hrep.clean c e.1 e.2 hg hp
      refine ⟨c, d, hkd, ?_⟩
      have := hrep.docs c d
      rw [← hkd] at this
      intro ha
      rw [ha] at this
      have hg' : (DB.live t.env.now t.view).get e.1 = some e.2 := hg
      rw [hg'] at this
      exact this
    · exact .inr hp
  obtain ⟨mk, mv, hmp, hmg, hmt⟩ := hm
  have hmlive : (mk, mv) ∈ t.live.ents := by
    apply (OMap.get_eq_some_iff _ _ _).mp
    unfold Txn.live
    rw [live_get_noTTL (fun v hv => by rw [hmg] at hv; cases hv; exact hmt)]
    exact hmg
  have hlo : ∃ e l, Txn.iterate t.env.prune t.live.ents { offset := documentKeyPrefix x } = e :: l ∧
      ((∃ c d, e.1 = documentKey c d ∧ FirstFrom A x d) ∨
        (IsPrefixOf Sequence.metaPrefix e.1 ∧ ∀ c d, x ≤ c → (A c).get d = none)) := by
    rw [Scan.iterate_forward (prune := t.env.prune) t.live.sorted [] (documentKeyPrefix x) (.inr (List.nil_le _))]
    simp only [Scan.hasPrefix_nil, Bool.true_and]
    have hin : ∀ e ∈ t.live.ents, documentKeyPrefix x ≤ e.1 → e ∈ t.live.ents.filter (fun e => decide (documentKeyPrefix x ≤ e.1)) :=
      fun e he hle => List.mem_filter.mpr ⟨he, by simpa using hle⟩
    have hsub : ∀ e ∈ t.live.ents.filter (fun e => decide (documentKeyPrefix x ≤ e.1)), e ∈ t.live.ents ∧ documentKeyPrefix x ≤ e.1 := by
      intro e he; rw [List.mem_filter] at he; exact ⟨he.1, by simpa using he.2⟩
    have hso := t.live.sorted.filter (fun e => decide (documentKeyPrefix x ≤ e.1))
    generalize t.live.ents.filter (fun e => decide (documentKeyPrefix x ≤ e.1)) = L at *
    have hmL := hin _ hmlive (by rw [documentKeyPrefix_eq]; exact List.le_of_lt (coll_lt_meta _ hmp))
    cases L with
    | nil => cases hmL
    | cons e l =>
      have hle : ∀ e' ∈ e :: l, e.1 ≤ e'.1 := by
        intro e' he'
        rcases List.mem_cons.mp he' with rfl | he'
        · exact List.le_refl _
        · exact List.le_of_lt ((List.pairwise_cons.mp hso).1 _ he')
      obtain ⟨he, hpe⟩ := hsub e (by simp)
      refine ⟨e, l, rfl, ?_⟩
      rcases hcases e he with ⟨c, d, hkd, had⟩ | hp
      · left
        rw [hkd] at hpe
        refine ⟨c, d, hkd, c, (dk_from x c d).mp hpe, had, ?_⟩
        intro c' d' hx' hd'
        obtain ⟨v, hv⟩ := hmem c' d' hd'
        have := hle _ (hin _ hv ((dk_from x c' d').mpr hx'))
        rw [hkd] at this
        rcases Std.le_iff_lt_or_eq.mp this with h1 | h1
        · rcases (C40_document_order c d c' d').mp h1 with h2 | ⟨h2, h3⟩
          · exact .inl h2
          · exact .inr ⟨h2, Int64.le_of_lt h3⟩
        · obtain ⟨rfl, rfl⟩ := documentKey_inj h1
          exact .inr ⟨rfl, Int64.le_refl _⟩
      · right
        refine ⟨hp, ?_⟩
        intro c' d' hx'
        cases hd' : (A c').get d' with
        | none => rfl
        | some y =>
          obtain ⟨v, hv⟩ := hmem c' d' (by rw [hd']; simp)
          have := hle _ (hin _ hv ((dk_from x c' d').mpr hx'))
          have hlt : documentKey c' d' < e.1 := by rw [documentKey_eq]; exact coll_lt_meta _ hp
          exact absurd hlt (List.not_lt.mpr this)
  have hpn : Key.prefixNext (documentKeyPrefix x) ≠ [] := by rw [dpx_next]; simp
  have hhi : (Txn.iterate t.env.prune t.live.ents { reverse := true, offset := Key.prefixNext (documentKeyPrefix x) } = [] ∧
        ∀ c d, c ≤ x → (A c).get d = none) ∨
      ∃ e l c d, Txn.iterate t.env.prune t.live.ents { reverse := true, offset := Key.prefixNext (documentKeyPrefix x) } = e :: l ∧
        e.1 = documentKey c d ∧ LastUpTo A x d := by
    rw [Scan.iterate_reverse_noprefix (prune := t.env.prune) t.live.sorted (Key.prefixNext (documentKeyPrefix x)) hpn]
    have hin : ∀ e ∈ t.live.ents, e.1 ≤ Key.prefixNext (documentKeyPrefix x) →
        e ∈ (t.live.ents.filter (fun e => decide (e.1 ≤ Key.prefixNext (documentKeyPrefix x)))).reverse :=
      fun e he hle => List.mem_reverse.mpr (List.mem_filter.mpr ⟨he, by simpa using hle⟩)
    have hsub : ∀ e ∈ (t.live.ents.filter (fun e => decide (e.1 ≤ Key.prefixNext (documentKeyPrefix x)))).reverse,
        e ∈ t.live.ents ∧ e.1 ≤ Key.prefixNext (documentKeyPrefix x) := by
      intro e he; rw [List.mem_reverse, List.mem_filter] at he; exact ⟨he.1, by simpa using he.2⟩
    have hso := List.pairwise_reverse.mpr
      (t.live.sorted.filter (fun e => decide (e.1 ≤ Key.prefixNext (documentKeyPrefix x))))
    generalize (t.live.ents.filter (fun e => decide (e.1 ≤ Key.prefixNext (documentKeyPrefix x)))).reverse = L at *
    cases L with
    | nil =>
      left
      refine ⟨rfl, fun c d hc => ?_⟩
      cases hd : (A c).get d with
      | none => rfl
      | some y =>
        obtain ⟨v, hv⟩ := hmem c d (by rw [hd]; simp)
        exact absurd (hin _ hv ((dk_upto x c d).mpr hc)) List.not_mem_nil
    | cons e l =>
      right
      obtain ⟨he, hpe⟩ := hsub e (by simp)
      rcases hcases e he with ⟨c, d, hkd, had⟩ | hp
      · have hle : ∀ e' ∈ e :: l, e'.1 ≤ e.1 := by
          intro e' he'
          rcases List.mem_cons.mp he' with rfl | he'
          · exact List.le_refl _
          · exact List.le_of_lt ((List.pairwise_cons.mp hso).1 _ he')
        refine ⟨e, l, c, d, rfl, hkd, c, ?_, had, ?_⟩
        · rw [hkd] at hpe; exact (dk_upto x c d).mp hpe
        · intro c' d' hx' hd'
          obtain ⟨v, hv⟩ := hmem c' d' hd'
          have := hle _ (hin _ hv ((dk_upto x c' d').mpr hx'))
          rw [hkd] at this
          rcases Std.le_iff_lt_or_eq.mp this with h1 | h1
          · rcases (C40_document_order c' d' c d).mp h1 with h2 | ⟨h2, h3⟩
            · exact .inl h2
            · exact .inr ⟨h2, Int64.le_of_lt h3⟩
          · obtain ⟨rfl, rfl⟩ := documentKey_inj h1
            exact .inr ⟨rfl, Int64.le_refl _⟩
      · rw [dpx_next, List.append_assoc] at hpe
        exact absurd (coll_lt_meta _ hp) (List.not_lt.mpr hpe)
  have hdec : ∀ c d, decodeDocumentKey (documentKey c d) = .ok (c, d) :=
    fun c d => (C40_document_decode _ c d).mpr ⟨[], by simp⟩
  obtain ⟨e1, l1, hi1, hlo⟩ := hlo
  rcases hlo with ⟨c1, d1, hk1, hf⟩ | ⟨hp, hnone⟩
  · rcases hhi with ⟨hi2, hnone⟩ | ⟨e2, l2, c2, d2, hi2, hk2, hl⟩
    · have hw : (Doc.getDidRange x).wp t.env t.live (fun r _ => r = .ok (d1, 0)) := by
        unfold Doc.getDidRange
        simp only [wp_bind, wp_scanK, hi1, hi2, hk1, hdec, wp_ofRes, wp_pure]
      rw [wp_sound _ t _ hw]
      exact .before _ hf hnone
    · have hw : (Doc.getDidRange x).wp t.env t.live (fun r _ => r = .ok (d1, d2)) := by
        unfold Doc.getDidRange
        simp only [wp_bind, wp_scanK, hi1, hi2, hk1, hk2, hdec, wp_ofRes, wp_pure]
      rw [wp_sound _ t _ hw]
      exact .ok _ _ hf hl
  · have hw : (Doc.getDidRange x).wp t.env t.live (fun r _ => r = .err errInvalidKey) := by
      unfold Doc.getDidRange
      simp only [wp_bind, wp_scanK, hi1, decode_meta hp, wp_ofRes, wp_pure]
    rw [wp_sound _ t _ hw]
    exact .beyond hnone

end Mondis.Props
