import Verif.Lemmas.DomainReads
/-!
# The document process: the transactions that wrote, one after the other
-/
namespace Mondis.Props
open Mondis Prog Spec Schema Doc Domain Ddl

variable {D : Type} {norm : D → Res D} {S S' : Site D} {e : Domain.Ev D} {a : Domain.Answer D}
variable {J : Json} {C : Codec D} {K : Nat} {R : Tape D} {w : Domain.World} {es : List (Domain.Ev D)} {as : List (Domain.Answer D)} {g g' : Ghost D}

/-- What is recorded of a snapshot. -/
structure Since (J : Json) (C : Codec D) (K : Nat) (w₁ : Domain.World) (s₀ : Session) (t : Trace D) (k : Nat) (S : Site D) : Prop where
  at_ : ∃ S₁ : Site D, Match J C K (2 ^ 62) S₁ w₁ ∧ t.base = S₁.docs ∧ t.dbs = S₁.proc.state.dbs
  upd : t.upd = s₀.txn.update
  lt : k < S.visits.length
  later : ∀ v, S.visit k = some v → v.phase ≠ .fresh

theorem Course.since (h : Course J C K R es as S w g) (k : Nat) : ∀ l₁ l₂ s₀, es = l₁ ++ .snapshot k :: l₂ →
    (R l₁).2.session k = some s₀ → s₀.phase = .fresh → Since J C K (R l₁).2 s₀ (g k) k S := by
  induction h with
  | nil => intro l₁ l₂ s₀ he; exact absurd he.symm (by simp)
  | @snoc es as S w g e a S' w' g' hc hst hrun hs hm hn ih =>
    intro l₁ l₂ s₀ he hs₀ hf
    rcases List.eq_nil_or_concat l₂ with rfl | ⟨l₂, x, rfl⟩
    · obtain ⟨e1, e2⟩ := List.append_inj' he rfl
      subst e1
      cases e2
      rw [hc.run] at hs₀ ⊢
      obtain ⟨u, hu⟩ := hc.matches.session hs₀
      have hp : u.phase = .fresh := (hc.matches.visits k u s₀ hu hs₀).phase.symm.trans hf
      cases hn with
      | quiet _ _ _ _ hq => exact absurd hp (hq k u rfl hu)
      | crash _ _ hq => cases hq
      | begin _ _ _ _ hq => cases hq
      | snapshot j u' _ _ hq hu' hp' h =>
        cases hq
        rw [hu] at hu'; cases hu'
        rw [Ghost.put_same]
        refine ⟨⟨S, hc.matches, rfl, rfl⟩, (hc.matches.visits k u s₀ hu hs₀).update.symm, ?_, ?_⟩
        · rw [h, put_visits_length]; exact vis_lt hu
        · intro v hv
          rw [vis_put hu h, if_pos rfl] at hv
          cases hv; nofun
      | phase _ _ _ _ _ hq => rcases hq with hq | hq | ⟨_, hq⟩ <;> cases hq
      | call _ _ _ _ _ _ _ _ hq => rcases hq with ⟨_, _, _, _, hq⟩ | ⟨_, _, _, _, _, hq⟩ <;> cases hq
      | finish _ _ _ _ _ hq => cases hq
    · rw [List.concat_eq_append, ← List.cons_append, ← List.append_assoc] at he
      obtain ⟨i1, i2, i3, i4⟩ := ih l₁ l₂ s₀ (List.append_inj_left' he rfl) hs₀ hf
      have hl := notes_length hn
      cases hn with
      | quiet _ _ h => exact ⟨i1, i2, by omega, fun v hv => i4 v (by rwa [vis_same h] at hv)⟩
      | crash _ _ _ h => exact ⟨i1, i2, by omega, fun v hv => by rw [vis_crash h] at hv; cases hv⟩
      | begin _ _ _ _ _ h =>
        refine ⟨i1, i2, by omega, fun v hv => ?_⟩
        rw [vis_begin h, if_neg (by omega)] at hv
        exact i4 v hv
      | snapshot j u _ _ _ hu hp h =>
        have hne : k ≠ j := by rintro rfl; exact i4 u hu hp
        rw [Ghost.put_ne _ hne]
        refine ⟨i1, i2, by omega, fun v hv => ?_⟩
        rw [vis_put hu h, if_neg (Ne.symm hne)] at hv
        exact i4 v hv
      | phase j u u' _ _ _ hu hf h1 h2 h3 h4 h5 h6 h7 h8 h =>
        refine ⟨i1, i2, by omega, fun v hv => ?_⟩
        rw [vis_put hu h] at hv
        split at hv
        · cases hv; exact h5
        · exact i4 v hv
      | call j u u' q x more _ _ _ hu hf he h =>
        by_cases hj : k = j
        · subst hj
          rw [Ghost.put_same]
          refine ⟨i1, i2, by omega, fun v hv => ?_⟩
          rw [vis_put hu h, if_pos rfl] at hv
          cases hv
          rw [he.kept.1, hf]; nofun
        · rw [Ghost.put_ne _ hj]
          refine ⟨i1, i2, by omega, fun v hv => ?_⟩
          rw [vis_put hu h, if_neg (Ne.symm hj)] at hv
          exact i4 v hv
      | finish j u f _ _ _ _ hu hf h =>
        refine ⟨i1, i2, by omega, fun v hv => ?_⟩
        rw [vis_put hu h] at hv
        split at hv
        · cases hv; nofun
        · exact i4 v hv

/-- A transaction that can be used has taken its snapshot. -/
theorem Course.opened (h : Course J C K R es as S w g) (k : Nat) : ∀ v, S.visit k = some v → v.phase ≠ .fresh →
    ∃ l₁ l₂ s₀, es = l₁ ++ .snapshot k :: l₂ ∧ (R l₁).2.session k = some s₀ ∧ s₀.phase = .fresh := by
  induction h with
  | nil => intro v hv; have hv : ((([] : List (Option (Visit D)))[k]?).join) = some v := hv; simp at hv
  | @snoc es as S w g e a S' w' g' hc hst hrun hs hm hn ih =>
    intro v hv hp
    have old : ∀ u, S.visit k = some u → u.phase ≠ .fresh →
        ∃ l₁ l₂ s₀, es ++ [e] = l₁ ++ .snapshot k :: l₂ ∧ (R l₁).2.session k = some s₀ ∧ s₀.phase = .fresh := by
      intro u hu hf
      obtain ⟨l₁, l₂, s₀, h1, h2⟩ := ih u hu hf
      exact ⟨l₁, l₂ ++ [e], s₀, by rw [h1]; simp, h2⟩
    cases hn with
    | quiet _ _ h => exact old v (by rwa [vis_same h] at hv) hp
    | crash _ _ _ h => rw [vis_crash h] at hv; cases hv
    | begin _ _ _ _ _ h =>
      rw [vis_begin h] at hv
      split at hv
      · cases hv; exact absurd rfl hp
      · exact old v hv hp
    | snapshot j u _ _ he hu hf h =>
      rw [vis_put hu h] at hv
      split at hv
      · rename_i hj
        subst hj
        cases hss : w.session j with
        | none => rw [(hc.matches.gone j).mpr hss] at hu; cases hu
        | some s₀ =>
          exact ⟨es, [], s₀, by rw [he], by rw [hc.run]; exact hss, (hc.matches.visits j u s₀ hu hss).phase.trans hf⟩
      · exact old v hv hp
    | phase j u u' _ _ _ hu hf h1 h2 h3 h4 h5 h6 h7 h8 h =>
      rw [vis_put hu h] at hv
      split at hv
      · rename_i hj; subst hj; exact old u hu hf
      · exact old v hv hp
    | call j u u' q x more _ _ _ hu hf he h =>
      rw [vis_put hu h] at hv
      split at hv
      · rename_i hj; subst hj; exact old u hu (by rw [hf]; nofun)
      · exact old v hv hp
    | finish j u f _ _ _ _ hu hf h =>
      rw [vis_put hu h] at hv
      split at hv
      · rename_i hj; subst hj; exact old u hu (by rw [hf]; nofun)
      · exact old v hv hp

theorem Course.recs_grow (h : Course J C K R es as S w g) (hn : Notes norm S e a S' g g') (k : Nat) : ∃ l, (g' k).recs = (g k).recs ++ l := by
  cases hn with
  | snapshot j u _ _ _ hu hp =>
    by_cases hj : k = j
    · subst hj; rw [(h.blank k).2 u hu hp, Ghost.put_same]; exact ⟨[], rfl⟩
    · rw [Ghost.put_ne _ hj]; exact ⟨[], (List.append_nil _).symm⟩
  | call j u u' q x more _ _ _ hu hf he h =>
    by_cases hj : k = j
    · subst hj; rw [Ghost.put_same]; exact ⟨_, rfl⟩
    · rw [Ghost.put_ne _ hj]; exact ⟨[], (List.append_nil _).symm⟩
  | _ => exact ⟨[], (List.append_nil _).symm⟩

/-- A transaction committed after `k`'s snapshot has written this document. -/
def Dirty (J : Json) (C : Codec D) (R : Tape D) (g : Ghost D) (es : List (Domain.Ev D)) (k : Nat) (c i : Int64) : Prop :=
  ∃ l₁ l₂ j f l₃ s₀ sj, es = l₁ ++ .snapshot k :: (l₂ ++ .finish j f :: l₃) ∧
    (R l₁).2.session k = some s₀ ∧ s₀.phase = .fresh ∧
    (R (l₁ ++ .snapshot k :: l₂)).2.session j = some sj ∧
    ((R (l₁ ++ .snapshot k :: l₂)).2.step J C (.finish j f)).1 = .committed (.ok ()) ∧
    documentKey c i ∈ sj.txn.kv.writes.map Prod.fst ∧ ∃ q ∈ (g j).recs, q.2 = some c ∧ q.1.wrote = true

theorem Dirty.mono {k : Nat} {c i : Int64} (h : Dirty J C R g es k c i) (e : Domain.Ev D) (hg : ∀ j, ∃ l, (g' j).recs = (g j).recs ++ l) :
    Dirty J C R g' (es ++ [e]) k c i := by
  obtain ⟨l₁, l₂, j, f, l₃, s₀, sj, h1, h2, h3, h4, h5, h6, q, h7, h8⟩ := h
  refine ⟨l₁, l₂, j, f, l₃ ++ [e], s₀, sj, by rw [h1]; simp, h2, h3, h4, h5, h6, q, ?_, h8⟩
  obtain ⟨l, hl⟩ := hg j
  rw [hl]; exact List.mem_append_left _ h7

/-- What has changed since the snapshot of an open transaction. -/
theorem Course.stale (h : Course J C K R es as S w g) (k : Nat) : ∀ v, S.visit k = some v → v.phase = .ready ∨ v.phase = .checked →
    ∀ c i, (S.docs c).get i ≠ ((g k).base c).get i → Dirty J C R g es k c i := by
  induction h with
  | nil => intro v hv; have hv : ((([] : List (Option (Visit D)))[k]?).join) = some v := hv; simp at hv
  | @snoc es as S w g e a S' w' g' hc hst hrun hs hm hn ih =>
    intro v hv hp c i hne
    have hgrow := fun j => hc.recs_grow hn j
    have old : ∀ u, S.visit k = some u → u.phase = .ready ∨ u.phase = .checked → (S.docs c).get i ≠ ((g k).base c).get i →
        Dirty J C R g' (es ++ [e]) k c i := fun u hu hp hne => (ih u hu hp c i hne).mono e hgrow
    cases hn with
    | quiet _ _ h hd => exact old v (by rwa [vis_same h] at hv) hp (by rwa [hd] at hne)
    | crash _ _ _ h => rw [vis_crash h] at hv; cases hv
    | begin _ _ _ _ _ h hd =>
      rw [hd] at hne
      rw [vis_begin h] at hv
      split at hv
      · cases hv; rcases hp with hp | hp <;> cases hp
      · exact old v hv hp hne
    | snapshot j u _ _ he hu hf h hd =>
      rw [hd] at hne
      rw [vis_put hu h] at hv
      split at hv
      · rename_i hj
        subst hj
        rw [Ghost.put_same] at hne
        exact absurd rfl hne
      · rename_i hj
        rw [Ghost.put_ne _ (Ne.symm hj)] at hne
        exact old v hv hp hne
    | phase j u u' _ _ _ hu hf h1 h2 h3 h4 h5 h6 h7 h8 h hd =>
      rw [hd] at hne
      rw [vis_put hu h] at hv
      split at hv
      · rename_i hj; subst hj
        cases hv
        refine old u hu ?_ hne
        rcases hp with hp | hp
        · exact .inl (h7 hp)
        · cases hph : u.phase with
          | fresh => exact absurd hph hf
          | ready => exact .inl rfl
          | checked => exact .inr rfl
          | over => rw [h6 hph] at hp; cases hp
      · exact old v hv hp hne
    | call j u u' q x more _ _ _ hu hf he h hd =>
      rw [hd] at hne
      rw [vis_put hu h] at hv
      split at hv
      · rename_i hj; subst hj
        rw [Ghost.put_same] at hne
        exact old u hu (.inl hf) hne
      · rename_i hj
        rw [Ghost.put_ne _ (Ne.symm hj)] at hne
        exact old v hv hp hne
    | finish j u f _ _ he ha hu hf h hd =>
      rw [vis_put hu h] at hv
      split at hv
      · cases hv; rcases hp with hp | hp <;> cases hp
      · rw [hd c i] at hne
        split at hne
        · rename_i hx
          obtain ⟨l₁, l₂, s₀, h1, h2, h3⟩ := hc.opened k v hv (by rcases hp with hp | hp <;> rw [hp] <;> nofun)
          cases hss : w.session j with
          | none => rw [(hc.matches.gone j).mpr hss] at hu; cases hu
          | some sj =>
            subst he
            have hvm := hc.matches.visits j u sj hu hss
            have hdo := hc.doing j u hu (by rw [hf]; nofun)
            refine ⟨l₁, l₂, j, f, [], s₀, sj, by rw [h1]; simp, h2, h3, ?_, ?_, ?_, ?_⟩
            · rw [← h1, hc.run]; exact hss
            · rw [← h1, hc.run]; exact (hst.answer (by nofun)).symm.trans ha
            · rw [hvm.keys]; exact List.mem_map.mpr ⟨(c, i), hx, rfl⟩
            · exact (hdo.tale (hdo.checked hf)).touch (c, i) hx
        · exact old v hv hp hne

/-- A transaction that has committed stays as it is. -/
theorem Course.done (h : Course J C K R es as S w g) (k : Nat) : k ∈ committedIn es as →
    k < S.visits.length ∧ ∀ v, S.visit k = some v → v.phase = .over := by
  induction h with
  | nil => nofun
  | @snoc es as S w g e a S' w' g' hc hst hrun hs hm hn ih =>
    rw [(logs_snoc hc.length e _).2.1]
    intro hk
    have hl := notes_length hn
    have dull : committedIn [e] [a] = [] → k < S.visits.length ∧ ∀ v, S.visit k = some v → v.phase = .over := by
      intro h; rw [h, List.append_nil] at hk; exact ih hk
    cases hn with
    | quiet _ hq h =>
      obtain ⟨i1, i2⟩ := dull hq
      exact ⟨by omega, fun v hv => i2 v (by rwa [vis_same h] at hv)⟩
    | crash _ hq _ h =>
      obtain ⟨i1, i2⟩ := dull hq
      exact ⟨by omega, fun v hv => by rw [vis_crash h] at hv; cases hv⟩
    | begin _ _ _ hq _ h =>
      obtain ⟨i1, i2⟩ := dull hq
      refine ⟨by omega, fun v hv => ?_⟩
      rw [vis_begin h, if_neg (by omega)] at hv
      exact i2 v hv
    | snapshot j u _ hq _ hu hp h =>
      obtain ⟨i1, i2⟩ := dull hq
      have hne : j ≠ k := by rintro rfl; rw [i2 u hu] at hp; cases hp
      refine ⟨by omega, fun v hv => ?_⟩
      rw [vis_put hu h, if_neg hne] at hv
      exact i2 v hv
    | phase j u u' _ hq _ hu hf h1 h2 h3 h4 h5 h6 h7 h8 h =>
      obtain ⟨i1, i2⟩ := dull hq
      refine ⟨by omega, fun v hv => ?_⟩
      rw [vis_put hu h] at hv
      split at hv
      · rename_i hj; subst hj
        cases hv
        exact h6 (i2 u hu)
      · exact i2 v hv
    | call j u u' q x more _ hq _ hu hf he h =>
      obtain ⟨i1, i2⟩ := dull hq
      have hne : j ≠ k := by rintro rfl; rw [i2 u hu] at hf; cases hf
      refine ⟨by omega, fun v hv => ?_⟩
      rw [vis_put hu h, if_neg hne] at hv
      exact i2 v hv
    | finish j u f _ hq he ha hu hf h =>
      rw [hq] at hk
      by_cases hj : j = k
      · subst hj
        refine ⟨by have := vis_lt hu; omega, fun v hv => ?_⟩
        rw [vis_put hu h, if_pos rfl] at hv
        cases hv; rfl
      · obtain ⟨i1, i2⟩ := ih (by
          rcases List.mem_append.mp hk with hk | hk
          · exact hk
          · exact absurd (List.mem_singleton.mp hk).symm hj)
        refine ⟨by omega, fun v hv => ?_⟩
        rw [vis_put hu h, if_neg hj] at hv
        exact i2 v hv

theorem Course.frozen (h : Course J C K R es as S w g) (hn : Notes norm S e a S' g g') {k : Nat} (hk : k ∈ committedIn es as) : g' k = g k := by
  obtain ⟨-, hd⟩ := h.done k hk
  cases hn with
  | snapshot j u _ _ _ hu hp =>
    refine Ghost.put_ne _ ?_ _
    rintro rfl; rw [hd u hu] at hp; cases hp
  | call j u u' q x more _ _ _ hu hf he h =>
    refine Ghost.put_ne _ ?_ _
    rintro rfl; rw [hd u hu] at hf; cases hf
  | _ => rfl

/-! ### Collections have one name -/

theorem collectionIn_mem {dbs : List DBInfo} {n : Nat} {db coll : Bytes} {x : Int64} (h : collectionIn dbs (some n) db coll = some x) :
    ∃ d ∈ dbs, d.name = db ∧ ∃ ci, (coll, ci) ∈ d.collections.ents ∧ ci.id = x := by
  unfold collectionIn at h
  simp only [Option.bind_some] at h
  cases hf : (dbs.take n).find? (fun d => decide (d.name = db)) with
  | none => rw [hf] at h; cases h
  | some d =>
    rw [hf] at h
    simp only [Option.bind_some] at h
    cases hc : d.collections.get coll with
    | none => rw [hc] at h; cases h
    | some ci =>
      rw [hc] at h
      simp only [Option.map_some, Option.some.injEq] at h
      exact ⟨d, List.mem_of_mem_take (List.mem_of_find?_eq_some hf), of_decide_eq_true (List.find?_some (p := fun d : DBInfo => decide (d.name = db)) hf),
        ci, (OMap.get_eq_some_iff _ _ _).mp hc, h⟩

theorem nodup_map_inj {α β : Type} {f : α → β} {l : List α} (h : (l.map f).Nodup) {x y : α} (hx : x ∈ l) (hy : y ∈ l) (he : f x = f y) : x = y := by
  induction l with
  | nil => cases hx
  | cons z l ih =>
    rw [List.map_cons, List.nodup_cons] at h
    rcases List.mem_cons.mp hx with e1 | hx <;> rcases List.mem_cons.mp hy with e2 | hy
    · rw [e1, e2]
    · exact absurd (List.mem_map.mpr ⟨y, hy, by rw [← he, e1]⟩) h.1
    · exact absurd (List.mem_map.mpr ⟨x, hx, by rw [he, e2]⟩) h.1
    · exact ih h.2 hx hy

theorem nodup_flatMap_mem {α β : Type} {f : α → List β} {l : List α} (h : (l.flatMap f).Nodup) {x : α} (hx : x ∈ l) : (f x).Nodup := by
  induction l with
  | nil => cases hx
  | cons z l ih =>
    rw [List.flatMap_cons, List.nodup_append] at h
    rcases List.mem_cons.mp hx with rfl | hx
    · exact h.1
    · exact ih h.2.1 hx

theorem collectionIn_inj {A : DState} (hs : A.Sane) {n m : Nat} {db coll db' coll' : Bytes} {x : Int64}
    (h : collectionIn A.dbs (some n) db coll = some x) (h' : collectionIn A.dbs (some m) db' coll' = some x) : db = db' ∧ coll = coll' := by
  obtain ⟨d, h1, rfl, ci, h2, h3⟩ := collectionIn_mem h
  obtain ⟨d', h1', rfl, ci', h2', h3'⟩ := collectionIn_mem h'
  have hn := idsOf_dbs_nodup hs
  have key : ∀ (d : DBInfo) (c : Bytes) (ci : CollectionInfo), (c, ci) ∈ d.collections.ents → ci.id = x → x ∈ DState.idsOf d := by
    intro d c ci h1 h2
    exact List.mem_cons_of_mem _ (List.mem_map.mpr ⟨(c, ci), h1, h2⟩)
  have hd := collIDs_disjoint hn h1 h1' (key d coll ci h2 h3) (key d' coll' ci' h2' h3')
  subst hd
  refine ⟨rfl, ?_⟩
  have hn' := nodup_flatMap_mem hn h1
  unfold DState.idsOf at hn'
  have := nodup_map_inj (List.nodup_cons.mp hn').2 h2 h2' (by rw [h3, h3'])
  exact congrArg Prod.fst this

/-! ### The chain -/

/-- Transactions one after the other, by number. -/
def Chain (norm : D → Res D) : Docs D → List (List (Rec D)) → Docs D → Prop
  | A, [], A' => A' = A
  | A, t :: ts, A' => (reruns norm A t).1 = answersOf t ∧ Chain norm (reruns norm A t).2 ts A'

theorem Chain.snoc {A A' : Docs D} {ts : List (List (Rec D))} {t : List (Rec D)} (h : Chain norm A ts A') (ht : (reruns norm A' t).1 = answersOf t) :
    Chain norm A (ts ++ [t]) (reruns norm A' t).2 := by
  induction ts generalizing A with
  | nil => cases h; exact ⟨ht, rfl⟩
  | cons u ts ih => exact ⟨h.1, ih h.2⟩

theorem overlap_mono {j k : Nat} {sj sk : Session} (h : OverlapOn J C R es j k sj sk) (l : List (Domain.Ev D)) :
    OverlapOn J C R (es ++ l) j k sj sk := by
  obtain ⟨l₁, l₂, f, l₃, g, l₄, s₀, h1, h2⟩ := h
  exact ⟨l₁, l₂, f, l₃, g, l₄ ++ l, s₀, by rw [h1]; simp, h2⟩

theorem detects_left {l : List (Domain.Ev D)} (h : DetectsOn J C R (es ++ l)) : DetectsOn J C R es :=
  fun j k sj sk ho => h j k sj sk (overlap_mono ho l)

theorem said_sub {l : List (Domain.Ev D)} {bs : List (Domain.Answer D)} (hr : (R (es ++ l)).1 = (R es).1 ++ bs) (hl : (R es).1.length = es.length)
    {k : Nat} {q : Said D} (h : q ∈ saidIn k es (R es).1) : q ∈ saidIn k (es ++ l) (R (es ++ l)).1 := by
  rw [hr]
  unfold saidIn at h ⊢
  rw [List.zip_append hl.symm, List.filterMap_append]
  exact List.mem_append_left _ h

theorem undisturbed_left {l : List (Domain.Ev D)} {bs : List (Domain.Answer D)} (hr : (R (es ++ l)).1 = (R es).1 ++ bs)
    (hl : (R es).1.length = es.length) (h : UndisturbedOn J C R (es ++ l)) : UndisturbedOn J C R es := by
  intro j k sj sk ho hw q hq hp r hr'
  refine h j k sj sk (overlap_mono ho l) ?_ q (said_sub hr hl hq) hp r (said_sub hr hl hr')
  obtain ⟨x, hx, hx'⟩ := List.any_eq_true.mp hw
  exact List.any_eq_true.mpr ⟨x, said_sub hr hl hx, hx'⟩

theorem recs_wrote (l : List (Rec D)) : (l.map Prod.fst).any Said.wrote = true ↔ ∃ q ∈ l, q.1.wrote = true := by
  rw [List.any_eq_true]
  constructor
  · rintro ⟨x, hx, hw⟩
    obtain ⟨q, hq, rfl⟩ := List.mem_map.mp hx
    exact ⟨q, hq, hw⟩
  · rintro ⟨q, hq, hw⟩
    exact ⟨q.1, List.mem_map.mpr ⟨q, hq, rfl⟩, hw⟩

theorem Course.chain (h : Course J C K R es as S w g) : DetectsOn J C R es → UndisturbedOn J C R es →
    Chain C.norm Docs.init ((writersIn es as).map (fun k => (g k).recs)) S.docs := by
  induction h with
  | nil => exact fun _ _ => rfl
  | @snoc es as S w g e a S' w' g' hc hst hrun hs hm hn ih =>
    intro hd hu
    have ih := ih (detects_left hd) (undisturbed_left (bs := [a]) (by rw [hrun, hc.run]) (by rw [hc.run]; exact hc.length) hu)
    have hnext := hc.snoc hst hrun hs hm hn
    -- the writers so far
    have hold : ((committedIn es as).filter (fun k => (saidIn k (es ++ [e]) (as ++ [a])).any Said.wrote)) = writersIn es as := by
      unfold writersIn
      refine List.filter_congr (fun k hk => ?_)
      rw [← hnext.log, ← hc.log, hc.frozen hn hk]
    have hmap : (writersIn es as).map (fun k => (g' k).recs) = (writersIn es as).map (fun k => (g k).recs) := by
      refine List.map_congr_left (fun k hk => ?_)
      rw [hc.frozen hn (List.mem_filter.mp hk).1]
    have hdull : committedIn [e] [a] = [] → S'.docs = S.docs →
        Chain C.norm Docs.init ((writersIn (es ++ [e]) (as ++ [a])).map (fun k => (g' k).recs)) S'.docs := by
      intro h1 h2
      have : writersIn (es ++ [e]) (as ++ [a]) = writersIn es as := by
        rw [← hold]
        show List.filter _ (committedIn (es ++ [e]) (as ++ [_])) = _
        rw [(logs_snoc hc.length e _).2.1, h1, List.append_nil]
      rw [this, hmap, h2]
      exact ih
    cases hn with
    | quiet _ hq _ h => exact hdull hq h
    | crash _ hq _ _ h => exact hdull hq h
    | begin _ _ _ hq _ _ h => exact hdull hq h
    | snapshot _ _ _ hq _ _ _ _ h => exact hdull hq h
    | phase _ _ _ _ hq _ _ _ _ _ _ _ _ _ _ _ _ h => exact hdull hq h
    | call _ _ _ _ _ _ _ hq _ _ _ _ _ h => exact hdull hq h
    | finish k v f _ hq he ha hv hf h hmg =>
      have hdo := hc.doing k v hv (by rw [hf]; nofun)
      have ht := hdo.tale (hdo.checked hf)
      have hw : writersIn (es ++ [e]) (as ++ [a]) = writersIn es as ++ (if ∃ q ∈ (g k).recs, q.1.wrote = true then [k] else []) := by
        rw [← hold]
        show List.filter _ (committedIn (es ++ [e]) (as ++ [_])) = _
        rw [(logs_snoc hc.length e _).2.1, hq, List.filter_append]
        congr 1
        rw [List.filter_cons, ← hnext.log, List.filter_nil]
        by_cases hx : ∃ q ∈ (g k).recs, q.1.wrote = true
        · rw [if_pos ((recs_wrote _).mpr hx), if_pos hx]
        · rw [if_neg (fun hy => hx ((recs_wrote _).mp hy)), if_neg hx]
      rw [hw]
      by_cases hx : ∃ q ∈ (g k).recs, q.1.wrote = true
      · rw [if_pos hx, List.map_append]
        obtain ⟨q₀, hq₀, hw₀⟩ := hx
        have hnt := ht.wrote q₀ hq₀ hw₀
        cases hss : w.session k with
        | none => rw [(hc.matches.gone k).mpr hss] at hv; cases hv
        | some sk =>
        have hvm := hc.matches.visits k v sk hv hss
        have over : ∀ c i, (S.docs c).get i ≠ ((g k).base c).get i → ∃ j sj, OverlapOn J C R (es ++ [e]) j k sj sk ∧
            documentKey c i ∈ sj.txn.kv.writes.map Prod.fst ∧ ∃ q ∈ (g j).recs, q.2 = some c ∧ q.1.wrote = true := by
          intro c i hne
          obtain ⟨l₁, l₂, j, f', l₃, s₀, sj, h1, h2, h3, h4, h5, h6, h7⟩ := hc.stale k v hv (.inr hf) c i hne
          refine ⟨j, sj, ⟨l₁, l₂, f', l₃, f, [], s₀, by rw [h1, he]; simp, h2, h3, h4, h5, ?_, ?_⟩, h6, h7⟩
          · rw [← h1, hc.run]; exact hss
          · rw [← h1, hc.run, ← he]; exact (hst.answer (by rw [he]; nofun)).symm.trans ha
        have hkw : sk.txn.kv.writes ≠ [] := by
          intro hnil
          have := hvm.keys
          rw [hnil] at this
          exact hnt (List.map_eq_nil_iff.mp this.symm)
        obtain ⟨r1, r2⟩ := ht.rep S.docs (by
            intro p hp
            apply Classical.byContradiction
            intro hne
            obtain ⟨j, sj, ho, hkey, -⟩ := over p.1 p.2 hne
            exact hd j k sj sk ho hkw _ (hc.reads k v sk hv hss (by rw [hf]; nofun) p hp) hkey) (by
            intro q hq' hpt x hqx
            refine IMap.ext (fun i => ?_)
            apply Classical.byContradiction
            intro hne
            obtain ⟨j, sj, ho, -, r, hr, hrx, hrw⟩ := over x i hne
            have hmem : ∀ k' q', q' ∈ (g k').recs → q'.1 ∈ saidIn k' (es ++ [e]) (R (es ++ [e])).1 := by
              intro k' q' hq'
              rw [hrun, ← hnext.log]
              exact List.mem_map.mpr ⟨q', hq', rfl⟩
            refine hu j k sj sk ho ?_ q.1 (hmem k q hq') hpt r.1 (hmem j r hr) hrw ?_
            · exact List.any_eq_true.mpr ⟨q₀.1, hmem k q₀ hq₀, hw₀⟩
            · obtain ⟨l, hl⟩ := hc.dbs k
              obtain ⟨l', hl'⟩ := hc.dbs j
              have i1 := collectionIn_all (l := l) ((hc.ids k q hq').1 x hqx)
              have i2 := collectionIn_all (l := l') ((hc.ids j r hr).1 x hrx)
              rw [← hl] at i1
              rw [← hl'] at i2
              exact collectionIn_inj hc.matches.serves.sane i2 i1)
        have hdocs : S'.docs = (reruns C.norm S.docs (g k).recs).2 := by
          funext c
          refine IMap.ext (fun i => ?_)
          rw [hmg c i, r2 c i]
        rw [hdocs, hmap]
        exact ih.snoc r1
      · rw [if_neg hx, List.append_nil, hmap]
        have htn : v.touched = [] := by
          cases htv : v.touched with
          | nil => rfl
          | cons p l =>
            obtain ⟨q, h1, -, h2⟩ := ht.touch p (by rw [htv]; simp)
            exact absurd ⟨q, h1, h2⟩ hx
        have hdocs : S'.docs = S.docs := by
          funext c
          refine IMap.ext (fun i => ?_)
          rw [hmg c i, htn, if_neg (by simp)]
        rw [hdocs]
        exact ih

end Mondis.Props
