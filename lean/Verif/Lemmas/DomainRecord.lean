import Verif.Lemmas.DomainCourse
/-!
# The document process: what the record says
-/
namespace Mondis.Props
open Mondis Prog Spec Schema Doc Domain Ddl

variable {D : Type} {norm : D → Res D} {S S' : Site D} {e : Domain.Ev D} {a : Domain.Answer D}
variable {J : Json} {C : Codec D} {K : Nat} {R : Tape D} {w : Domain.World} {es : List (Domain.Ev D)} {as : List (Domain.Answer D)} {g g' : Ghost D}

theorem vis_same (h : S'.visits = S.visits) (j : Nat) : S'.visit j = S.visit j := by unfold Site.visit; rw [h]

theorem vis_put {k : Nat} {v v' : Visit D} (hv : S.visit k = some v) (h : S'.visits = (S.put k v').visits) (j : Nat) :
    S'.visit j = if k = j then some v' else S.visit j := by
  rw [vis_same h]; exact Site.visit_put hv

theorem vis_begin {x : Option (Visit D)} (h : S'.visits = S.visits ++ [x]) (j : Nat) : S'.visit j = if j = S.visits.length then x else S.visit j := by
  rw [vis_same (S := { S with visits := S.visits ++ [x] }) h]; exact visit_append _ _ _

theorem vis_crash (h : S'.visits = S.visits.map (fun _ => none)) (j : Nat) : S'.visit j = none := by
  unfold Site.visit; rw [h]; exact visit_dead _ _

theorem vis_lt {k : Nat} {v : Visit D} (hv : S.visit k = some v) : k < S.visits.length := by
  unfold Site.visit at hv
  cases Nat.lt_or_ge k S.visits.length with
  | inl h => exact h
  | inr h => rw [List.getElem?_eq_none h] at hv; cases hv

theorem Effect.kept {k : Nat} {v v' : Visit D} {q : Said D} {x : Option Int64} {more : List (Int64 × Int64)} (h : Effect norm S k v e q v' x more) :
    v'.phase = v.phase ∧ v'.schema = v.schema ∧ v'.update = v.update := by
  cases h with
  | idle => exact ⟨rfl, rfl, rfl⟩
  | refused => exact ⟨rfl, rfl, rfl⟩
  | does => exact ⟨by assumption, by assumption, by assumption⟩

theorem notes_length (h : Notes norm S e a S' g g') : S.visits.length ≤ S'.visits.length := by
  cases h with
  | quiet _ _ h => rw [h]; exact Nat.le_refl _
  | crash _ _ _ h => rw [h, List.length_map]; exact Nat.le_refl _
  | begin _ _ _ _ _ h => rw [h, List.length_append]; omega
  | snapshot _ _ _ _ _ _ _ h => rw [h, put_visits_length]; exact Nat.le_refl _
  | phase _ _ _ _ _ _ _ _ _ _ _ _ _ _ _ _ h => rw [h, put_visits_length]; exact Nat.le_refl _
  | call _ _ _ _ _ _ _ _ _ _ _ _ h => rw [h, put_visits_length]; exact Nat.le_refl _
  | finish _ _ _ _ _ _ _ _ _ h => rw [h, put_visits_length]; exact Nat.le_refl _

/-- Nothing is recorded before the snapshot. -/
theorem Course.blank (h : Course J C K R es as S w g) (k : Nat) :
    (S.visits.length ≤ k → g k = {}) ∧ ∀ v, S.visit k = some v → v.phase = .fresh → g k = {} := by
  induction h with
  | nil => exact ⟨fun _ => rfl, fun _ _ _ => rfl⟩
  | @snoc es as S w g e a S' w' g' hc hst hrun hs hm hn ih =>
    have hl := notes_length hn
    obtain ⟨i1, i2⟩ := ih
    cases hn with
    | quiet _ _ h => exact ⟨fun hk => i1 (by omega), fun v hv => i2 v (by rwa [vis_same h] at hv)⟩
    | crash _ _ _ h => exact ⟨fun hk => i1 (by omega), fun v hv => by rw [vis_crash h] at hv; cases hv⟩
    | begin _ _ _ _ _ h =>
      refine ⟨fun hk => i1 (by omega), fun v hv hp => ?_⟩
      rw [vis_begin h] at hv
      split at hv
      · exact i1 (by omega)
      · exact i2 v hv hp
    | snapshot j u _ _ _ hu hp h =>
      have := vis_lt hu
      refine ⟨fun hk => ?_, fun v hv hf => ?_⟩
      · rw [Ghost.put_ne _ (by omega)]; exact i1 (by omega)
      · rw [vis_put hu h] at hv
        split at hv
        · cases hv; cases hf
        · rename_i hne; rw [Ghost.put_ne _ (Ne.symm hne)]; exact i2 v hv hf
    | phase j u u' _ _ _ hu hp _ _ _ _ hp' _ _ _ h =>
      refine ⟨fun hk => i1 (by omega), fun v hv hf => ?_⟩
      rw [vis_put hu h] at hv
      split at hv
      · cases hv; exact absurd hf hp'
      · exact i2 v hv hf
    | call j u u' q x more _ _ _ hu hp he h =>
      have := vis_lt hu
      refine ⟨fun hk => ?_, fun v hv hf => ?_⟩
      · rw [Ghost.put_ne _ (by omega)]; exact i1 (by omega)
      · rw [vis_put hu h] at hv
        split at hv
        · cases hv; rw [he.kept.1, hp] at hf; cases hf
        · rename_i hne; rw [Ghost.put_ne _ (Ne.symm hne)]; exact i2 v hv hf
    | finish j u f _ _ _ _ hu hp h =>
      refine ⟨fun hk => i1 (by omega), fun v hv hf => ?_⟩
      rw [vis_put hu h] at hv
      split at hv
      · cases hv; cases hf
      · exact i2 v hv hf

theorem said_snoc (hl : as.length = es.length) (k : Nat) : saidIn k (es ++ [e]) (as ++ [a]) = saidIn k es as ++ (saidOf k (e, a)).toList := by
  unfold saidIn
  rw [zip_snoc hl, List.filterMap_append]
  congr 1

/-- The record has all the calls. -/
theorem Course.log (h : Course J C K R es as S w g) (k : Nat) : (g k).recs.map Prod.fst = saidIn k es as := by
  induction h with
  | nil => rfl
  | @snoc es as S w g e a S' w' g' hc hst hrun hs hm hn ih =>
    rw [said_snoc hc.length]
    have mute : ∀ {e : Domain.Ev D} {a : Domain.Answer D}, Mute e a → ∀ l : List (Said D), l ++ (saidOf k (e, a)).toList = l := by
      intro e a hq l; rw [hq k]; exact List.append_nil _
    cases hn with
    | quiet hq => rw [mute hq]; exact ih
    | crash hq => rw [mute hq]; exact ih
    | begin _ _ hq => rw [mute hq]; exact ih
    | snapshot j u hq _ _ hu hp h =>
      rw [mute hq]
      by_cases hj : k = j
      · subst hj
        have := (hc.blank k).2 u hu hp
        rw [this] at ih
        rw [Ghost.put_same]; exact ih
      · rw [Ghost.put_ne _ hj]; exact ih
    | phase _ _ _ hq => rw [mute hq]; exact ih
    | call j u u' q x more hq _ _ hu hp he h =>
      rw [hq k]
      by_cases hj : k = j
      · subst hj
        rw [Ghost.put_same, if_pos rfl, List.map_append, ih]; rfl
      · rw [Ghost.put_ne _ hj, if_neg hj, ih]; exact (List.append_nil _).symm
    | finish _ _ _ hq => rw [mute hq]; exact ih

theorem untouched_all {op : DocOp D} {s : IMap D} (h : op.touches norm s = []) : (op.sem norm s).2 = s :=
  IMap.ext (fun i => untouched op s (by rw [h]; nofun))

/-- What open transactions have done. -/
structure Doing (norm : D → Res D) (t : Trace D) (v : Visit D) : Prop where
  upd : t.upd = v.update
  tale : v.update = true → Tale norm v t.recs t.looked t.base
  ro : v.update = false → v.docs = t.base ∧ v.touched = []
  checked : v.phase = .checked → v.update = true

theorem tale_congr {v v' : Visit D} (hd : v'.docs = v.docs) (ht : v'.touched = v.touched) {recs : List (Rec D)} {looked : List (Int64 × Int64)} {base : Docs D}
    (h : Tale norm v recs looked base) : Tale norm v' recs looked base where
  own := by rw [hd]; exact h.own
  rep := by rw [hd, ht]; exact h.rep
  touch := by rw [ht]; exact h.touch
  wrote := by rw [ht]; exact h.wrote

theorem Doing.congr {t : Trace D} {v v' : Visit D} (h : Doing norm t v) (hd : v'.docs = v.docs) (ht : v'.touched = v.touched)
    (hu : v'.update = v.update) (hc : v'.phase = .checked → v.update = true) : Doing norm t v' where
  upd := by rw [hu]; exact h.upd
  tale := fun hx => tale_congr hd ht (h.tale (hu ▸ hx))
  ro := fun hx => by rw [hd, ht]; exact h.ro (hu ▸ hx)
  checked := fun hx => hu ▸ hc hx

theorem Doing.call {t : Trace D} {k : Nat} {v v' : Visit D} {q : Said D} {x : Option Int64} {more : List (Int64 × Int64)} (h : Doing norm t v)
    (he : Effect norm S k v e q v' x more) :
    Doing norm { t with recs := t.recs ++ [(q, x)], looked := t.looked ++ more } v' ∧
      (v.update = false → Heard norm t.base (q, x)) := by
  cases he with
  | idle h1 h2 =>
    refine ⟨⟨h.upd, fun hu => ?_, h.ro, h.checked⟩, fun hu => ?_⟩
    · show Tale norm v (t.recs ++ _) (t.looked ++ []) t.base
      rw [List.append_nil]
      exact (h.tale hu).idle q h2
    · left; rfl
  | refused x h1 h2 h3 h4 =>
    refine ⟨⟨h.upd, fun hu => ?_, h.ro, h.checked⟩, fun hu => .inr ⟨h4, h3⟩⟩
    rw [h1] at hu; cases hu
  | does x op _ h1 h2 h3 h4 h5 h6 h7 h8 h9 h10 h11 h12 h13 =>
    refine ⟨⟨h.upd.trans h12.symm, fun hu => ?_, fun hu => ?_, ?_⟩, fun hu => ?_⟩
    · refine (h.tale (h12 ▸ hu)).next h4 h5 h6 h7 h8 h9 ?_
      intro i hi hn
      exact List.mem_map.mpr ⟨i, List.mem_filter.mpr ⟨hi, by simpa using hn⟩, rfl⟩
    · rw [h12] at hu
      have ht := h1.resolve_left (by rw [hu]; nofun)
      obtain ⟨r1, r2⟩ := h.ro hu
      rw [h8, h9, ht, untouched_all ht, Docs.upd_same]
      exact ⟨r1, by rw [r2]; rfl⟩
    · rw [h10, h12]; exact h.checked
    · left
      obtain ⟨r1, r2⟩ := h.ro hu
      simp only [rerun]
      rw [h6, h4, r1]

theorem Course.doing (h : Course J C K R es as S w g) (k : Nat) : ∀ v, S.visit k = some v → v.phase ≠ .fresh → Doing C.norm (g k) v := by
  induction h with
  | nil => intro v hv; have hv : ((([] : List (Option (Visit D)))[k]?).join) = some v := hv; simp at hv
  | @snoc es as S w g e a S' w' g' hc hst hrun hs hm hn ih =>
    intro v hv hp
    cases hn with
    | quiet _ _ h => exact ih v (by rwa [vis_same h] at hv) hp
    | crash _ _ _ h => rw [vis_crash h] at hv; cases hv
    | begin _ _ _ _ _ h =>
      rw [vis_begin h] at hv
      split at hv
      · cases hv; exact absurd rfl hp
      · exact ih v hv hp
    | snapshot j u _ _ _ hu hf h =>
      rw [vis_put hu h] at hv
      split at hv
      · rename_i hj
        subst hj
        cases hv
        rw [Ghost.put_same]
        have htn : u.touched = [] := by
          cases hs : w.session j with
          | none => rw [(hc.matches.gone j).mpr hs] at hu; cases hu
          | some s => exact (hc.matches.visits j u s hu hs).fresh hf
        exact ⟨rfl, fun _ => tale_start { u with docs := S.docs } htn .ready, fun _ => ⟨rfl, htn⟩, nofun⟩
      · rename_i hne
        rw [Ghost.put_ne _ (Ne.symm hne)]
        exact ih v hv hp
    | phase j u u' _ _ _ hu hf h1 h2 h3 h4 h5 h6 h7 h8 h =>
      rw [vis_put hu h] at hv
      split at hv
      · rename_i hj
        subst hj
        cases hv
        exact (ih u hu hf).congr h1 h2 h3 h8
      · exact ih v hv hp
    | call j u u' q x more _ _ _ hu hf he h =>
      rw [vis_put hu h] at hv
      split at hv
      · rename_i hj
        subst hj
        cases hv
        rw [Ghost.put_same]
        exact ((ih u hu (by rw [hf]; nofun)).call he).1
      · rename_i hne
        rw [Ghost.put_ne _ (Ne.symm hne)]
        exact ih v hv hp
    | finish j u f _ _ _ _ hu hf h =>
      rw [vis_put hu h] at hv
      split at hv
      · rename_i hj
        subst hj
        cases hv
        exact (ih u hu (by rw [hf]; nofun)).congr rfl rfl rfl nofun
      · exact ih v hv hp

/-- What every transaction was told, also when its process died. -/
theorem Course.told (h : Course J C K R es as S w g) (k : Nat) :
    ((g k).upd = true → (reruns C.norm (g k).base (g k).recs).1 = answersOf (g k).recs) ∧
    ((g k).upd = false → ∀ q ∈ (g k).recs, Heard C.norm (g k).base q) := by
  induction h with
  | nil => exact ⟨fun _ => rfl, fun _ => nofun⟩
  | @snoc es as S w g e a S' w' g' hc hst hrun hs hm hn ih =>
    cases hn with
    | quiet => exact ih
    | crash => exact ih
    | begin => exact ih
    | snapshot j u =>
      by_cases hj : k = j
      · subst hj; rw [Ghost.put_same]; exact ⟨fun _ => rfl, fun _ => nofun⟩
      · rw [Ghost.put_ne _ hj]; exact ih
    | phase => exact ih
    | call j u u' q x more _ _ _ hu hf he h =>
      by_cases hj : k = j
      · subst hj
        rw [Ghost.put_same]
        have hd := hc.doing k u hu (by rw [hf]; nofun)
        obtain ⟨h1, h2⟩ := hd.call he
        refine ⟨fun hx => ?_, fun hx r hr => ?_⟩
        · have := (h1.tale (h1.upd.symm.trans hx)).own
          exact congrArg Prod.fst this
        · rcases List.mem_append.mp hr with hr | hr
          · exact ih.2 hx r hr
          · rw [List.mem_singleton.mp hr]; exact h2 (hd.upd.symm.trans hx)
      · rw [Ghost.put_ne _ hj]; exact ih
    | finish => exact ih

/-! ### Collections -/

theorem Course.dbs (h : Course J C K R es as S w g) (k : Nat) : ∃ l, S.proc.state.dbs = (g k).dbs ++ l := by
  induction h with
  | nil => exact ⟨_, rfl⟩
  | @snoc es as S w g e a S' w' g' hc hst hrun hs hm hn ih =>
    have ih : ∃ l, S'.proc.state.dbs = (g k).dbs ++ l := by
      obtain ⟨l, h1⟩ := ih
      obtain ⟨l', h2⟩ := site_dbs_grow hs
      exact ⟨l ++ l', by rw [h2, h1, List.append_assoc]⟩
    cases hn with
    | snapshot j u =>
      by_cases hj : k = j
      · subst hj; rw [Ghost.put_same]; exact site_dbs_grow hs
      · rw [Ghost.put_ne _ hj]; exact ih
    | call j u u' q x more _ _ _ hu hf he h =>
      by_cases hj : k = j
      · subst hj; rw [Ghost.put_same]; exact ih
      · rw [Ghost.put_ne _ hj]; exact ih
    | _ => exact ih

theorem Course.schema (h : Course J C K R es as S w g) (k : Nat) :
    ∀ v, S.visit k = some v → v.phase ≠ .fresh → v.schema.getD 0 ≤ (g k).dbs.length := by
  induction h with
  | nil => intro v hv; have hv : ((([] : List (Option (Visit D)))[k]?).join) = some v := hv; simp at hv
  | @snoc es as S w g e a S' w' g' hc hst hrun hs hm hn ih =>
    intro v hv hp
    cases hn with
    | quiet _ _ h => exact ih v (by rwa [vis_same h] at hv) hp
    | crash _ _ _ h => rw [vis_crash h] at hv; cases hv
    | begin _ _ _ _ _ h =>
      rw [vis_begin h] at hv
      split at hv
      · cases hv; exact absurd rfl hp
      · exact ih v hv hp
    | snapshot j u _ _ _ hu hf h =>
      rw [vis_put hu h] at hv
      split at hv
      · rename_i hj
        subst hj
        cases hv
        rw [Ghost.put_same]
        exact Nat.le_trans (hc.known.visits j u hu).1 hc.known.schema
      · rename_i hne
        rw [Ghost.put_ne _ (Ne.symm hne)]
        exact ih v hv hp
    | phase j u u' _ _ _ hu hf h1 h2 h3 h4 h5 h6 h7 h8 h =>
      rw [vis_put hu h] at hv
      split at hv
      · rename_i hj
        subst hj
        cases hv
        rw [h4]
        exact ih u hu hf
      · exact ih v hv hp
    | call j u u' q x more _ _ _ hu hf he h =>
      rw [vis_put hu h] at hv
      split at hv
      · rename_i hj
        subst hj
        cases hv
        rw [Ghost.put_same, he.kept.2.1]
        exact ih u hu (by rw [hf]; nofun)
      · rename_i hne
        rw [Ghost.put_ne _ (Ne.symm hne)]
        exact ih v hv hp
    | finish j u f _ _ _ _ hu hf h =>
      rw [vis_put hu h] at hv
      split at hv
      · rename_i hj
        subst hj
        cases hv
        exact ih u hu (by rw [hf]; nofun)
      · exact ih v hv hp

theorem collectionIn_early {dbs l : List DBInfo} {n : Option Nat} {db coll : Bytes} (h : n.getD 0 ≤ dbs.length) :
    collectionIn (dbs ++ l) n db coll = collectionIn dbs n db coll := by
  cases n with
  | none => rfl
  | some n =>
    unfold collectionIn
    simp only [Option.bind_some]
    have h : n ≤ dbs.length := h
    rw [List.take_append_of_le_length h]

/-- The number of a collection in the record is what it is called at the snapshot. -/
theorem Course.ids (h : Course J C K R es as S w g) (k : Nat) : ∀ q ∈ (g k).recs,
    (∀ x, q.2 = some x → collectionIn (g k).dbs (some (g k).dbs.length) q.1.db q.1.coll = some x) ∧
    (q.2 = none → (∀ s, q.1.call.sem C.norm s = (q.1.answer, s)) ∧ q.1.wrote = false) := by
  induction h with
  | nil => nofun
  | @snoc es as S w g e a S' w' g' hc hst hrun hs hm hn ih =>
    cases hn with
    | snapshot j u =>
      by_cases hj : k = j
      · subst hj; rw [Ghost.put_same]; nofun
      · rw [Ghost.put_ne _ hj]; exact ih
    | call j u u' q x more _ _ _ hu hf he h =>
      by_cases hj : k = j
      · subst hj
        rw [Ghost.put_same]
        intro r hr
        rcases List.mem_append.mp hr with hr | hr
        · exact ih r hr
        · rw [List.mem_singleton.mp hr]
          have hsch := hc.schema k u hu (by rw [hf]; nofun)
          obtain ⟨l, hl⟩ := hc.dbs k
          have key : ∀ y, collectionIn S.proc.state.dbs u.schema q.db q.coll = some y →
              collectionIn (g k).dbs (some (g k).dbs.length) q.db q.coll = some y := by
            intro y hy
            rw [hl, collectionIn_early hsch] at hy
            have := collectionIn_all (l := []) hy
            rwa [List.append_nil] at this
          cases he with
          | idle h1 h2 => exact ⟨fun y hy => (nomatch hy), fun _ => ⟨h1, h2⟩⟩
          | refused y h1 h2 => exact ⟨fun z hz => by cases hz; exact key y h2, fun hz => by cases hz⟩
          | does y op _ h1 h2 => exact ⟨fun z hz => by cases hz; exact key y h2, fun hz => by cases hz⟩
      · rw [Ghost.put_ne _ hj]; exact ih
    | _ => exact ih

end Mondis.Props
