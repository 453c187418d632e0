import Verif.Lemmas.StructHash
/-!
# List operations
-/
namespace Mondis.Structure
open Mondis.Memcomparable Mondis.Prog Mondis.Spec

theorem toInt_add {a b : Int64} (h : -2 ^ 63 ≤ a.toInt + b.toInt) (h' : a.toInt + b.toInt < 2 ^ 63) :
    (a + b).toInt = a.toInt + b.toInt := by
  rw [Int64.toInt_add]
  exact Int.bmod_eq_of_le (by omega) (by omega)

theorem toInt_sub {a b : Int64} (h : -2 ^ 63 ≤ a.toInt - b.toInt) (h' : a.toInt - b.toInt < 2 ^ 63) :
    (a - b).toInt = a.toInt - b.toInt := by
  rw [Int64.toInt_sub]
  exact Int.bmod_eq_of_le (by omega) (by omega)

theorem toInt_one : (1 : Int64).toInt = 1 := rfl

theorem listDataKey_inj {pfx key : Bytes} {i j : Int64} :
    listDataKey pfx key i = listDataKey pfx key j ↔ i = j := by
  simp [listDataKey_eq, skey_inj, idx_inj]
theorem listData_ne_meta {pfx key : Bytes} {i : Int64} :
    listDataKey pfx key i ≠ listMetaKey pfx key := by
  simp [listDataKey_eq, listMetaKey_eq, skey_inj]
theorem listMeta_ne_data {pfx key : Bytes} {i : Int64} :
    listMetaKey pfx key ≠ listDataKey pfx key i := fun h => listData_ne_meta h.symm

theorem bin8 (v : UInt64) : ∃ b0 b1 b2 b3 b4 b5 b6 b7, putUint64 v = [b0, b1, b2, b3, b4, b5, b6, b7] :=
  ⟨_, _, _, _, _, _, _, _, rfl⟩

theorem listMeta_parts (md : ListMetaData) : md.value.length = 16 ∧
    Numeric.decodeFromBinary (md.value.take 8) = .ok md.l.toUInt64 ∧
    Numeric.decodeFromBinary (md.value.drop 8) = .ok md.r.toUInt64 := by
  have h1 := bin_roundtrip md.l.toUInt64
  have h2 := bin_roundtrip md.r.toUInt64
  unfold ListMetaData.value
  simp only [Numeric.encode2Binary, List.nil_append] at *
  have hl : ∀ v, (putUint64 v).length = 8 := fun _ => rfl
  refine ⟨by simp [hl], ?_, ?_⟩
  · rw [List.take_append_of_le_length (by simp [hl]), List.take_of_length_le (by simp [hl])]; exact h1
  · rw [List.drop_append_of_le_length (by simp [hl]), List.drop_of_length_le (by simp [hl])]; exact h2

theorem loadListMeta_spec {env : Env} {pfx key : Bytes} {l : List Bytes} {m : DB} {L R : Int64}
    (hm : (m.get (listMetaKey pfx key)).map Val.value =
      (if l = [] then none else some (ListMetaData.value ⟨L, R⟩)))
    {β : Type} {f : Option ListMetaData → Prog β} {Q : Res β → DB → Prop}
    (hq : (f (if l = [] then none else some ⟨L, R⟩)).wp env m Q) :
    (loadListMeta (listMetaKey pfx key) >>= f).wp env m Q := by
  rw [wp_bind]
  unfold loadListMeta
  apply wp_getOpt_bind (listMetaKey_ne _ _)
  cases hg : m.get (listMetaKey pfx key) with
  | none =>
    rw [hg] at hm
    by_cases h0 : l = []
    · simpa [h0] using hq
    · simp [h0] at hm
  | some v =>
    rw [hg] at hm
    by_cases h0 : l = []
    · simp [h0] at hm
    · simp only [if_neg h0, Option.map_some, Option.some.injEq] at hm hq
      obtain ⟨h1, h2, h3⟩ := listMeta_parts ⟨L, R⟩
      simp only [hm, h1, ne_eq, not_true_eq_false, if_false]
      rw [wp_ofRes_bind, h2]
      simp only
      rw [wp_ofRes_bind, h3]
      simpa [int64_toUInt64_toInt64] using hq

/-- Effect of an operation on the list under `key`. -/
def ListEff (pfx : Bytes) (B : Int) (key : Bytes) (m : DB) (l' : List Bytes) (m' : DB) : Prop :=
  ListRep pfx B key l' m' ∧ SameBut (LKey pfx key) m m' ∧ (Clean pfx m → Clean pfx m')

theorem ListEff.refl {pfx key : Bytes} {B : Int} {m : DB} {l : List Bytes}
    (hr : ListRep pfx B key l m) : ListEff pfx B key m l m := ⟨hr, SameBut.refl _ _, id⟩

/-- Pushing on the left: loop. -/
theorem pushLeft_spec {env : Env} {pfx key : Bytes} (vs : List Bytes) (md : ListMetaData)
    (l : List Bytes) (m : DB) (hd : ListElems pfx key md.l.toInt l m)
    (hb : -2 ^ 63 ≤ md.l.toInt - vs.length) (Q : Res ListMetaData → DB → Prop)
    (hQ : ∀ (md' : ListMetaData) (m' : DB), md'.r = md.r → md'.l.toInt = md.l.toInt - vs.length →
      ListElems pfx key md'.l.toInt (vs.reverse ++ l) m' →
      SameBut (fun k => ∃ i, k = listDataKey pfx key i) m m' → (Clean pfx m → Clean pfx m') →
      Q (.ok md') m') :
    (listPushLoop pfx key true vs md).wp env m (Post env (LKey pfx key) Q) := by
  induction vs generalizing md l m with
  | nil => exact .inr (hQ md m rfl (by simp) (by simpa using hd) (SameBut.refl _ _) id)
  | cons v vs ih =>
    unfold listPushLoop
    simp only [if_true]
    apply wp_set_bind (.inr ⟨_, rfl⟩)
    simp only [List.length_cons] at hb
    have hLlt := md.l.toInt_lt
    have hl' : (md.l - 1).toInt = md.l.toInt - 1 := by
      rw [toInt_sub] <;> rw [toInt_one] <;> omega
    refine ih { md with l := md.l - 1 } (v :: l) _ ?_ (by show _ ≤ (md.l - 1).toInt - _; omega) ?_
    · intro i
      simp only [OMap.get_set, listDataKey_inj, hl']
      by_cases hi : md.l - 1 = i
      · subst hi
        simp [hl']
      · have hne : i.toInt ≠ md.l.toInt - 1 := by
          intro e; apply hi; apply Int64.toInt_inj.mp; rw [hl', e]
        simp only [if_neg hi]
        rw [hd i]
        by_cases hle : md.l.toInt ≤ i.toInt
        · rw [if_pos hle, if_pos (by omega)]
          have : (i.toInt - (md.l.toInt - 1)).toNat = (i.toInt - md.l.toInt).toNat + 1 := by omega
          rw [this]; simp
        · rw [if_neg hle, if_neg (by omega)]
    · intro md' m' h1 h2 h3 h4 h5
      refine hQ md' m' h1 ?_ ?_ ?_ ?_
      · rw [h2]; show (md.l - 1).toInt - _ = _; rw [hl']; simp; omega
      · simpa using h3
      · exact (SameBut.set ⟨_, rfl⟩).trans h4
      · exact fun hc => h5 (hc.set (kind_ldata _ _ _))

/-- Pushing on the right: loop. -/
theorem pushRight_spec {env : Env} {pfx key : Bytes} (vs : List Bytes) (md : ListMetaData)
    (l : List Bytes) (m : DB) (hd : ListElems pfx key md.l.toInt l m)
    (hlen : md.r.toInt - md.l.toInt = l.length)
    (hb : md.r.toInt + vs.length < 2 ^ 63) (Q : Res ListMetaData → DB → Prop)
    (hQ : ∀ (md' : ListMetaData) (m' : DB), md'.l = md.l → md'.r.toInt = md.r.toInt + vs.length →
      ListElems pfx key md'.l.toInt (l ++ vs) m' →
      SameBut (fun k => ∃ i, k = listDataKey pfx key i) m m' → (Clean pfx m → Clean pfx m') →
      Q (.ok md') m') :
    (listPushLoop pfx key false vs md).wp env m (Post env (LKey pfx key) Q) := by
  induction vs generalizing md l m with
  | nil => exact .inr (hQ md m rfl (by simp) (by simpa using hd) (SameBut.refl _ _) id)
  | cons v vs ih =>
    unfold listPushLoop
    simp only [Bool.false_eq_true, if_false]
    apply wp_set_bind (.inr ⟨_, rfl⟩)
    simp only [List.length_cons] at hb
    have hge := md.r.le_toInt
    have hr' : (md.r + 1).toInt = md.r.toInt + 1 := by
      rw [toInt_add] <;> rw [toInt_one] <;> omega
    refine ih { md with r := md.r + 1 } (l ++ [v]) _ ?_ ?_ (by show (md.r + 1).toInt + _ < _; omega) ?_
    · intro i
      simp only [OMap.get_set, listDataKey_inj]
      by_cases hi : md.r = i
      · subst hi
        rw [if_pos rfl, if_pos (by omega), hlen]
        simp
      · have hne : i.toInt ≠ md.r.toInt := by
          intro e; apply hi; apply Int64.toInt_inj.mp; exact e.symm
        simp only [if_neg hi]
        rw [hd i]
        by_cases hle : md.l.toInt ≤ i.toInt
        · rw [if_pos hle, if_pos hle]
          by_cases hlt : i.toInt < md.r.toInt
          · rw [List.getElem?_append_left (by omega)]
          · rw [List.getElem?_eq_none (by omega), List.getElem?_eq_none]
            simp; omega
        · rw [if_neg hle, if_neg hle]
    · show (md.r + 1).toInt - md.l.toInt = _
      rw [hr']; simp; omega
    · intro md' m' h1 h2 h3 h4 h5
      refine hQ md' m' h1 ?_ ?_ ?_ ?_
      · rw [h2]; show (md.r + 1).toInt + _ = _; rw [hr']; simp; omega
      · simpa using h3
      · exact (SameBut.set ⟨_, rfl⟩).trans h4
      · exact fun hc => h5 (hc.set (kind_ldata _ _ _))

theorem listPush_spec {env : Env} {pfx key : Bytes} {B : Int} (left : Bool) (vs : List Bytes)
    {l : List Bytes} {m : DB} (hr : ListRep pfx B key l m) (hB : B + vs.length < 2 ^ 63) :
    (listPush pfx key left vs).wp env m (Post env (LKey pfx key) (fun r m' => r = .ok () ∧
      ListEff pfx (B + vs.length) key m (if left then vs.reverse ++ l else l ++ vs) m')) := by
  unfold listPush
  by_cases hvs : vs = []
  · subst hvs
    simp only [if_true]
    refine .inr ⟨rfl, ?_⟩
    have := ListEff.refl (hr.mono (B' := B + 0) (by omega))
    cases left <;> simpa using this
  · rw [if_neg hvs]
    obtain ⟨L, R, h1, h2, h3, h4, h5, h6⟩ := hr
    apply loadListMeta_spec h5
    have hmd : (if l = [] then none else some (⟨L, R⟩ : ListMetaData)).getD {} = ⟨L, R⟩ := by
      by_cases h0 : l = []
      · obtain ⟨rfl, rfl⟩ := h4 h0
        simp [h0]
      · simp [h0]
    rw [hmd]
    have hvl : 0 < vs.length := List.length_pos_iff.mpr hvs
    rw [wp_bind]
    cases left with
    | true =>
      refine wp_mono (pushLeft_spec vs ⟨L, R⟩ l m h6 (by show _ ≤ L.toInt - _; omega)
        (fun r m' => ∃ md' : ListMetaData, r = .ok md' ∧ md'.r = R ∧ md'.l.toInt = L.toInt - vs.length ∧
          ListElems pfx key md'.l.toInt (vs.reverse ++ l) m' ∧
          SameBut (fun k => ∃ i, k = listDataKey pfx key i) m m' ∧ (Clean pfx m → Clean pfx m'))
        (fun md' m' a b c d e => ⟨md', rfl, a, b, c, d, e⟩)) ?_
      rintro r m' (⟨k, e, hk, he, rfl⟩ | ⟨md', rfl, a, b, c, d, e⟩)
      · exact .inl ⟨k, e, hk, he, rfl⟩
      · simp only [if_true]
        apply wp_set_last (.inl rfl)
        refine ⟨rfl, ⟨md'.l, md'.r, by omega, by rw [a]; omega, ?_, ?_, ?_, ?_⟩, ?_, ?_⟩
        · rw [a, b]; simp; omega
        · intro h; simp at h; exact absurd h.1 hvs
        · simp [hvs]
        · intro i
          simp only [OMap.get_set, listMeta_ne_data, if_false]
          exact c i
        · refine SameBut.trans ?_ (SameBut.set (.inl rfl))
          exact fun k hk => d k (fun ⟨i, hi⟩ => hk (.inr ⟨i, hi⟩))
        · exact fun hc => (e hc).set (kind_lmeta _ _)
    | false =>
      refine wp_mono (pushRight_spec vs ⟨L, R⟩ l m h6 h3 (by show R.toInt + _ < _; omega)
        (fun r m' => ∃ md' : ListMetaData, r = .ok md' ∧ md'.l = L ∧ md'.r.toInt = R.toInt + vs.length ∧
          ListElems pfx key md'.l.toInt (l ++ vs) m' ∧
          SameBut (fun k => ∃ i, k = listDataKey pfx key i) m m' ∧ (Clean pfx m → Clean pfx m'))
        (fun md' m' a b c d e => ⟨md', rfl, a, b, c, d, e⟩)) ?_
      rintro r m' (⟨k, e, hk, he, rfl⟩ | ⟨md', rfl, a, b, c, d, e⟩)
      · exact .inl ⟨k, e, hk, he, rfl⟩
      · simp only [Bool.false_eq_true, if_false]
        apply wp_set_last (.inl rfl)
        refine ⟨rfl, ⟨md'.l, md'.r, by rw [a]; omega, by omega, ?_, ?_, ?_, ?_⟩, ?_, ?_⟩
        · rw [a, b]; simp; omega
        · intro h; simp at h; exact absurd h.2 hvs
        · simp [hvs]
        · intro i
          simp only [OMap.get_set, listMeta_ne_data, if_false]
          exact c i
        · refine SameBut.trans ?_ (SameBut.set (.inl rfl))
          exact fun k hk => d k (fun ⟨i, hi⟩ => hk (.inr ⟨i, hi⟩))
        · exact fun hc => (e hc).set (kind_lmeta _ _)

theorem lelem {pfx key : Bytes} {L : Int} {l : List Bytes} {m : DB} (hd : ListElems pfx key L l m)
    {i : Int64} {x : Bytes} (h : L ≤ i.toInt) (hx : l[(i.toInt - L).toNat]? = some x) :
    ∃ v, m.get (listDataKey pfx key i) = some v ∧ v.value = x := by
  have := hd i
  rw [if_pos h, hx] at this
  cases hg : m.get (listDataKey pfx key i) with
  | none => rw [hg] at this; simp at this
  | some v => rw [hg] at this; exact ⟨v, rfl, by simpa using this⟩

theorem lpop_spec {env : Env} {pfx key : Bytes} {B : Int} {l : List Bytes} {m : DB}
    (hr : ListRep pfx B key l m) (hB : B < 2 ^ 63) :
    (lpop pfx key).wp env m (Post env (LKey pfx key) (fun r m' => match l with
      | [] => r = .err .keyNotFound ∧ m' = m
      | x :: l' => r = .ok x ∧ ListEff pfx B key m l' m')) := by
  unfold lpop listPop
  obtain ⟨L, R, h1, h2, h3, h4, h5, h6⟩ := hr
  apply loadListMeta_spec h5
  cases l with
  | nil => simp only [if_true]; exact .inr ⟨rfl, rfl⟩
  | cons x l' =>
    simp only [List.cons_ne_nil, if_false, if_true]
    simp only [List.length_cons] at h3
    obtain ⟨v, hv, hvx⟩ := lelem h6 (i := L) (x := x) (by omega) (by simp)
    apply wp_getK_bind (listDataKey_ne _ _ _) hv
    apply wp_del_bind (.inr ⟨_, rfl⟩)
    have hL' : (L + 1).toInt = L.toInt + 1 := by
      rw [toInt_add] <;> rw [toInt_one] <;> omega
    have hemp : ListMetaData.isEmpty ⟨L + 1, R⟩ = true ↔ l' = [] := by
      simp only [ListMetaData.isEmpty, decide_eq_true_iff, ge_iff_le, Int64.le_iff_toInt_le, hL']
      rw [← List.length_eq_zero_iff]; omega
    have helems : ListElems pfx key (L + 1).toInt l' (m.del (listDataKey pfx key L)) := by
      intro i
      simp only [OMap.get_del, listDataKey_inj]
      by_cases hi : L = i
      · subst hi
        rw [if_pos rfl, if_neg (by omega)]; rfl
      · have hne : i.toInt ≠ L.toInt := by
          intro e; apply hi; apply Int64.toInt_inj.mp; exact e.symm
        rw [if_neg hi, h6 i]
        by_cases hle : L.toInt ≤ i.toInt
        · rw [if_pos hle, if_pos (by omega)]
          have : (i.toInt - L.toInt).toNat = (i.toInt - (L + 1).toInt).toNat + 1 := by omega
          rw [this]; simp
        · rw [if_neg hle, if_neg (by omega)]
    have hsame : SameBut (LKey pfx key) m (m.del (listDataKey pfx key L)) := SameBut.del (.inr ⟨_, rfl⟩)
    cases hle : ListMetaData.isEmpty ⟨L + 1, R⟩ with
    | false =>
      have hne : l' ≠ [] := fun h => by rw [hemp.mpr h] at hle; cases hle
      simp only [Bool.not_false, if_true]
      apply wp_set_bind (.inl rfl)
      refine .inr ⟨by rw [hvx], ⟨L + 1, R, by omega, h2, by omega, fun h => absurd h hne, ?_, ?_⟩, ?_, ?_⟩
      · simp [hne]
      · intro i; simp only [OMap.get_set, listMeta_ne_data, if_false]; exact helems i
      · exact hsame.trans (SameBut.set (.inl rfl))
      · exact fun hc => hc.del.set (kind_lmeta _ _)
    | true =>
      have he := hemp.mp hle
      subst he
      simp only [Bool.not_true, Bool.false_eq_true, if_false]
      apply wp_del_bind (.inl rfl)
      refine .inr ⟨by rw [hvx], ⟨0, 0, by simp; omega, by simp; omega, by simp, by simp, by simp, ?_⟩, ?_, ?_⟩
      · intro i; simp only [OMap.get_del, listMeta_ne_data, if_false]
        have := helems i
        simp only [OMap.get_del] at this
        simpa using this
      · exact hsame.trans (SameBut.del (.inl rfl))
      · exact fun hc => hc.del.del

theorem rpop_spec {env : Env} {pfx key : Bytes} {B : Int} {l : List Bytes} {m : DB}
    (hr : ListRep pfx B key l m) (hB : B < 2 ^ 63) :
    (rpop pfx key).wp env m (Post env (LKey pfx key) (fun r m' => match l.getLast? with
      | none => r = .err .keyNotFound ∧ m' = m
      | some x => r = .ok x ∧ ListEff pfx B key m l.dropLast m')) := by
  unfold rpop listPop
  obtain ⟨L, R, h1, h2, h3, h4, h5, h6⟩ := hr
  apply loadListMeta_spec h5
  by_cases hl : l = []
  · subst hl; simp only [if_true]; exact .inr ⟨rfl, rfl⟩
  · have hpos : 0 < l.length := List.length_pos_iff.mpr hl
    rw [List.getLast?_eq_getElem?, List.getElem?_eq_getElem (by omega)]
    simp only [if_neg hl, Bool.false_eq_true, if_false]
    have hR' : (R - 1).toInt = R.toInt - 1 := by
      rw [toInt_sub] <;> rw [toInt_one] <;> omega
    obtain ⟨v, hv, hvx⟩ := lelem h6 (i := R - 1) (x := l[l.length - 1]) (by omega) (by
      have : ((R - 1).toInt - L.toInt).toNat = l.length - 1 := by omega
      rw [this, List.getElem?_eq_getElem])
    apply wp_getK_bind (listDataKey_ne _ _ _) hv
    apply wp_del_bind (.inr ⟨_, rfl⟩)
    have hdl : l.dropLast.length = l.length - 1 := List.length_dropLast
    have hemp : ListMetaData.isEmpty ⟨L, R - 1⟩ = true ↔ l.dropLast = [] := by
      simp only [ListMetaData.isEmpty, decide_eq_true_iff, ge_iff_le, Int64.le_iff_toInt_le, hR']
      rw [← List.length_eq_zero_iff]; omega
    have helems : ListElems pfx key L.toInt l.dropLast (m.del (listDataKey pfx key (R - 1))) := by
      intro i
      simp only [OMap.get_del, listDataKey_inj]
      by_cases hi : R - 1 = i
      · subst hi
        rw [if_pos rfl, if_pos (by omega), List.getElem?_eq_none (by omega)]; rfl
      · have hne : i.toInt ≠ R.toInt - 1 := by
          intro e; apply hi; apply Int64.toInt_inj.mp; rw [hR', e]
        rw [if_neg hi, h6 i]
        by_cases hle : L.toInt ≤ i.toInt
        · rw [if_pos hle, if_pos hle]
          by_cases hlt : i.toInt < R.toInt - 1
          · rw [List.getElem?_dropLast, if_pos (by omega)]
          · rw [List.getElem?_eq_none (by omega), List.getElem?_eq_none (by omega)]
        · rw [if_neg hle, if_neg hle]
    have hsame : SameBut (LKey pfx key) m (m.del (listDataKey pfx key (R - 1))) :=
      SameBut.del (.inr ⟨_, rfl⟩)
    cases hle : ListMetaData.isEmpty ⟨L, R - 1⟩ with
    | false =>
      have hne : l.dropLast ≠ [] := fun h => by rw [hemp.mpr h] at hle; cases hle
      simp only [Bool.not_false, if_true]
      apply wp_set_bind (.inl rfl)
      refine .inr ⟨by rw [hvx], ⟨L, R - 1, h1, by omega, by omega, fun h => absurd h hne, ?_, ?_⟩, ?_, ?_⟩
      · rw [if_neg hne]; simp
      · intro i; simp only [OMap.get_set, listMeta_ne_data, if_false]; exact helems i
      · exact hsame.trans (SameBut.set (.inl rfl))
      · exact fun hc => hc.del.set (kind_lmeta _ _)
    | true =>
      have he := hemp.mp hle
      simp only [Bool.not_true, Bool.false_eq_true, if_false]
      apply wp_del_bind (.inl rfl)
      rw [he] at helems ⊢
      refine .inr ⟨by rw [hvx], ⟨0, 0, by simp; omega, by simp; omega, by simp, by simp, by simp, ?_⟩, ?_, ?_⟩
      · intro i; simp only [OMap.get_del, listMeta_ne_data, if_false]
        have := helems i
        simp only [OMap.get_del] at this
        simpa using this
      · exact hsame.trans (SameBut.del (.inl rfl))
      · exact fun hc => hc.del.del

theorem llen_spec {env : Env} {pfx key : Bytes} {B : Int} {l : List Bytes} {m : DB}
    (hr : ListRep pfx B key l m) :
    (llen pfx key).wp env m (fun r m' => m' = m ∧ r = .ok (Int64.ofNat l.length)) := by
  unfold llen
  obtain ⟨L, R, h1, h2, h3, h4, h5, h6⟩ := hr
  apply loadListMeta_spec h5
  by_cases hl : l = []
  · subst hl; simp only [if_true]; exact ⟨rfl, rfl⟩
  · simp only [if_neg hl]
    refine ⟨rfl, ?_⟩
    congr 1
    apply Int64.toInt_inj.mp
    rw [Int64.toInt_sub, h3, Int64.toInt_ofNat']

theorem lgetAllLoop_spec {env : Env} {pfx key : Bytes} {L : Int} {l : List Bytes} {m : DB}
    (hd : ListElems pfx key L l m) (n : Nat) (hn : n ≤ l.length) (i : Int64)
    (hi : i.toInt = L + n - 1) (hL : -2 ^ 63 < L) (Q : Res (List Bytes) → DB → Prop)
    (hQ : Q (.ok (l.take n).reverse) m) :
    (lgetAllLoop pfx key n i).wp env m Q := by
  induction n generalizing i Q with
  | zero => simpa [lgetAllLoop] using hQ
  | succ n ih =>
    unfold lgetAllLoop
    obtain ⟨v, hv, hvx⟩ := lelem hd (i := i) (x := l[n]) (by omega) (by
      have : (i.toInt - L).toNat = n := by omega
      rw [this, List.getElem?_eq_getElem])
    apply wp_getK_bind (listDataKey_ne _ _ _) hv
    rw [wp_bind]
    have hlt := i.toInt_lt
    have hi' : (i - 1).toInt = i.toInt - 1 := by
      rw [toInt_sub] <;> rw [toInt_one] <;> omega
    apply ih (by omega) (i - 1) (by omega)
    simp only
    show Q _ _
    have he : (l.take (n + 1)).reverse = l[n] :: (l.take n).reverse := by
      rw [List.take_add_one, List.getElem?_eq_getElem (by omega : n < l.length)]
      simp
    rw [he] at hQ
    rw [hvx]
    exact hQ

theorem lgetAll_spec {env : Env} {pfx key : Bytes} {B : Int} {l : List Bytes} {m : DB}
    (hr : ListRep pfx B key l m) (hn : (l.length : Int) ≤ B) (hB : B < 2 ^ 63) :
    (lgetAll pfx key).wp env m (fun r m' => m' = m ∧ r = .ok l.reverse) := by
  unfold lgetAll
  obtain ⟨L, R, h1, h2, h3, h4, h5, h6⟩ := hr
  apply loadListMeta_spec h5
  by_cases hl : l = []
  · subst hl; simp only [if_true]; exact ⟨rfl, rfl⟩
  · have hpos : 0 < l.length := List.length_pos_iff.mpr hl
    simp only [if_neg hl]
    have hR' : (R - 1).toInt = R.toInt - 1 := by
      rw [toInt_sub] <;> rw [toInt_one] <;> omega
    have hpos' : ¬ R - L < 0 := by
      rw [Int64.lt_iff_toInt_lt, toInt_sub (by omega) (by omega)]
      show ¬ R.toInt - L.toInt < 0
      omega
    rw [if_neg hpos']
    refine lgetAllLoop_spec h6 _ (by omega) _ (by omega) (by omega) _ ?_
    refine ⟨rfl, ?_⟩
    rw [List.take_of_length_le (by omega)]

theorem adjust_spec {L R i : Int64} {B : Int} {n : Nat} (h1 : -B ≤ L.toInt) (h2 : R.toInt ≤ B)
    (h3 : R.toInt - L.toInt = n) (hB : B < 2 ^ 63) :
    let p : Int := if 0 ≤ i.toInt then i.toInt else n + i.toInt
    (L ≤ adjustIndex i L R ∧ adjustIndex i L R < R ↔ 0 ≤ p ∧ p < n) ∧
    (0 ≤ p ∧ p < n → (adjustIndex i L R).toInt = L.toInt + p) := by
  intro p
  have hil := i.le_toInt
  have hih := i.toInt_lt
  simp only [Int64.le_iff_toInt_le, Int64.lt_iff_toInt_lt]
  unfold adjustIndex
  by_cases hi : 0 ≤ i.toInt
  · have hp : p = i.toInt := if_pos hi
    have : i ≥ 0 := by
      show 0 ≤ i
      rw [Int64.le_iff_toInt_le]; simpa using hi
    rw [if_pos this, hp, Int64.toInt_add]
    by_cases ho : i.toInt + L.toInt < 2 ^ 63
    · rw [Int.bmod_eq_of_le (by omega) (by omega)]
      omega
    · rw [Int.bmod_def]
      omega
  · have hp : p = n + i.toInt := if_neg hi
    have : ¬ i ≥ 0 := by
      show ¬ 0 ≤ i
      rw [Int64.le_iff_toInt_le]; simpa using hi
    rw [if_neg this, hp, Int64.toInt_add]
    by_cases ho : -2 ^ 63 ≤ i.toInt + R.toInt
    · rw [Int.bmod_eq_of_le (by omega) (by omega)]
      omega
    · rw [Int.bmod_def]
      omega

theorem lindex_spec {env : Env} {pfx key : Bytes} {B : Int} {l : List Bytes} {m : DB} (i : Int64)
    (hr : ListRep pfx B key l m) (hB : B < 2 ^ 63) :
    (lindex pfx key i).wp env m (fun r m' => m' = m ∧
      r = if l = [] then .err .keyNotFound
        else if 0 ≤ position l i ∧ position l i < l.length then
          .ok (l[(position l i).toNat]?.getD [])
        else .ok []) := by
  unfold lindex
  obtain ⟨L, R, h1, h2, h3, h4, h5, h6⟩ := hr
  apply loadListMeta_spec h5
  by_cases hl : l = []
  · subst hl; simp only [if_true]; exact ⟨rfl, rfl⟩
  · simp only [if_neg hl]
    obtain ⟨ha, hb⟩ := adjust_spec (i := i) h1 h2 h3 hB
    by_cases hp : 0 ≤ position l i ∧ position l i < l.length
    · rw [if_pos (ha.mpr hp)]
      rw [if_pos hp]
      have hidx := hb hp
      change (adjustIndex i L R).toInt = L.toInt + position l i at hidx
      obtain ⟨v, hv, hvx⟩ := lelem h6 (i := adjustIndex i L R) (x := l[(position l i).toNat]'(by omega))
        (by omega) (by
          have : ((adjustIndex i L R).toInt - L.toInt).toNat = (position l i).toNat := by omega
          rw [this, List.getElem?_eq_getElem])
      apply wp_getK_bind (listDataKey_ne _ _ _) hv
      refine ⟨rfl, ?_⟩
      rw [List.getElem?_eq_getElem (by omega), hvx]; rfl
    · rw [if_neg (fun h => hp (ha.mp h)), if_neg hp]
      exact ⟨rfl, rfl⟩

theorem lset_spec {env : Env} {pfx key : Bytes} {B : Int} {l : List Bytes} {m : DB} (i : Int64)
    (x : Bytes) (hr : ListRep pfx B key l m) (hB : B < 2 ^ 63) :
    (lset pfx key i x).wp env m (Post env (LKey pfx key) (fun r m' =>
      if 0 ≤ position l i ∧ position l i < l.length then
        r = .ok () ∧ ListEff pfx B key m (l.set (position l i).toNat x) m'
      else r = .err .keyNotFound ∧ m' = m)) := by
  unfold lset
  have hr0 := hr
  obtain ⟨L, R, h1, h2, h3, h4, h5, h6⟩ := hr
  apply loadListMeta_spec h5
  by_cases hl : l = []
  · subst hl
    simp only [if_true]
    refine .inr ?_
    show (if _ then _ else _)
    rw [if_neg (by simp only [List.length_nil]; omega)]
    exact ⟨rfl, rfl⟩
  · simp only [if_neg hl]
    obtain ⟨ha, hb⟩ := adjust_spec (i := i) h1 h2 h3 hB
    by_cases hp : 0 ≤ position l i ∧ position l i < l.length
    · rw [if_pos (ha.mpr hp)]
      have hidx := hb hp
      change (adjustIndex i L R).toInt = L.toInt + position l i at hidx
      apply wp_set_last (.inr ⟨_, rfl⟩)
      rw [if_pos hp]
      refine ⟨rfl, ⟨L, R, h1, h2, by simpa using h3, ?_, ?_, ?_⟩, SameBut.set (.inr ⟨_, rfl⟩),
        fun hc => hc.set (kind_ldata _ _ _)⟩
      · intro h; simp at h; exact absurd h hl
      · simp [hl, listData_ne_meta, h5]
      · intro j
        simp only [OMap.get_set, listDataKey_inj]
        by_cases hj : adjustIndex i L R = j
        · subst hj
          rw [if_pos rfl, if_pos (by omega)]
          have : ((adjustIndex i L R).toInt - L.toInt).toNat = (position l i).toNat := by omega
          rw [this, List.getElem?_set_self (by omega)]; rfl
        · rw [if_neg hj, h6 j]
          have hne : j.toInt ≠ (adjustIndex i L R).toInt := fun e => hj (Int64.toInt_inj.mp e.symm)
          by_cases hle : L.toInt ≤ j.toInt
          · rw [if_pos hle, if_pos hle, List.getElem?_set_ne (by omega)]
          · rw [if_neg hle, if_neg hle]
    · rw [if_neg (fun h => hp (ha.mp h))]
      refine .inr ?_
      show (if _ then _ else _)
      rw [if_neg hp]
      exact ⟨rfl, rfl⟩

theorem lclearLoop_spec {env : Env} {pfx key : Bytes} (n : Nat) (i : Int64) (m : DB)
    (hb : i.toInt + n < 2 ^ 63) (Q : Res Unit → DB → Prop)
    (hQ : ∀ m', (∀ j : Int64, i.toInt ≤ j.toInt → j.toInt < i.toInt + n →
        m'.get (listDataKey pfx key j) = none) →
      (∀ k, m'.get k = m.get k ∨ m'.get k = none) →
      SameBut (fun k => ∃ i, k = listDataKey pfx key i) m m' → (Clean pfx m → Clean pfx m') →
      Q (.ok ()) m') :
    (lclearLoop pfx key n i).wp env m (Post env (LKey pfx key) Q) := by
  induction n generalizing i m with
  | zero =>
    refine .inr (hQ m (fun j h h' => ?_) (fun _ => .inl rfl) (SameBut.refl _ _) id)
    simp at h'; omega
  | succ n ih =>
    unfold lclearLoop
    apply wp_del_bind (.inr ⟨_, rfl⟩)
    have hge := i.le_toInt
    by_cases hn : n = 0
    · subst hn
      refine .inr (hQ _ ?_ ?_ (SameBut.del ⟨_, rfl⟩) (fun hc => hc.del))
      · intro j h h'
        have : j = i := by apply Int64.toInt_inj.mp; simp at h'; omega
        subst this; simp
      · intro k; rw [OMap.get_del]; split
        · exact .inr rfl
        · exact .inl rfl
    have hi' : (i + 1).toInt = i.toInt + 1 := by
      rw [toInt_add] <;> rw [toInt_one] <;> omega
    refine ih (i + 1) _ (by omega) ?_
    intro m' h1 h2 h3 h4
    refine hQ m' ?_ ?_ ((SameBut.del ⟨_, rfl⟩).trans h3) (fun hc => h4 hc.del)
    · intro j hj hj'
      by_cases he : j.toInt = i.toInt
      · have : j = i := Int64.toInt_inj.mp he
        subst this
        rcases h2 (listDataKey pfx key j) with h | h
        · rw [h]; simp
        · exact h
      · exact h1 j (by omega) (by omega)
    · intro k
      rcases h2 k with h | h
      · rw [h, OMap.get_del]; split
        · exact .inr rfl
        · exact .inl rfl
      · exact .inr h

theorem lclear_spec {env : Env} {pfx key : Bytes} {B : Int} {l : List Bytes} {m : DB}
    (hr : ListRep pfx B key l m) (hB : B < 2 ^ 63) :
    (lclear pfx key).wp env m (Post env (LKey pfx key) (fun r m' =>
      r = .ok () ∧ ListEff pfx B key m [] m' ∧ ∀ k, LKey pfx key k → m'.get k = none)) := by
  unfold lclear
  have hr0 := hr
  obtain ⟨L, R, h1, h2, h3, h4, h5, h6⟩ := hr
  apply loadListMeta_spec h5
  by_cases hl : l = []
  · subst hl; simp only [if_true]
    refine .inr ⟨rfl, ListEff.refl hr0, ?_⟩
    rintro k (rfl | ⟨i, rfl⟩)
    · simp at h5; exact h5
    · have := h6 i
      simp at this; exact this
  · simp only [if_neg hl]
    rw [wp_bind]
    refine wp_mono (lclearLoop_spec _ L m (by omega) (fun r m' => r = .ok () ∧
      (∀ j : Int64, L.toInt ≤ j.toInt → j.toInt < L.toInt + (R.toInt - L.toInt).toNat →
        m'.get (listDataKey pfx key j) = none) ∧
      (∀ k, m'.get k = m.get k ∨ m'.get k = none) ∧
      SameBut (fun k => ∃ i, k = listDataKey pfx key i) m m' ∧ (Clean pfx m → Clean pfx m'))
      (fun m' a b c d => ⟨rfl, a, b, c, d⟩)) ?_
    rintro r m' (⟨k, e, hk, he, rfl⟩ | ⟨rfl, a, b, c, d⟩)
    · exact .inl ⟨k, e, hk, he, rfl⟩
    · simp only
      apply wp_del_last (.inl rfl)
      have hall : ∀ k, LKey pfx key k → (m'.del (listMetaKey pfx key)).get k = none := by
        rintro k (rfl | ⟨j, rfl⟩)
        · simp
        · rw [OMap.get_del, if_neg listMeta_ne_data]
          have hj := h6 j
          by_cases hle : L.toInt ≤ j.toInt
          · by_cases hlt : j.toInt < R.toInt
            · exact a j hle (by omega)
            · rw [if_pos hle, List.getElem?_eq_none (by omega)] at hj
              rcases b (listDataKey pfx key j) with h | h
              · rw [h]; exact Option.map_eq_none_iff.mp hj
              · exact h
          · rw [if_neg hle] at hj
            rcases b (listDataKey pfx key j) with h | h
            · rw [h]; exact Option.map_eq_none_iff.mp hj
            · exact h
      refine ⟨rfl, ⟨⟨0, 0, by simp; omega, by simp; omega, by simp, by simp, ?_, ?_⟩, ?_,
        fun hc => (d hc).del⟩, hall⟩
      · rw [hall _ (.inl rfl)]; rfl
      · intro i; rw [hall _ (.inr ⟨i, rfl⟩)]; simp
      · refine SameBut.trans ?_ (SameBut.del (.inl rfl))
        exact fun k hk => c k (fun ⟨i, hi⟩ => hk (.inr ⟨i, hi⟩))

end Mondis.Structure
