import Verif.Lemmas.DocDBEvents
/-!
# Package document: histories
-/
namespace Mondis.DocDB
open Mondis Prog Doc Spec Props

variable {D : Type} {C : Codec D} {IC : IndexCodec} {w w' w'' : World} {g g' : Ghost D} {b : Nat} {es : List (Ev D)} {db : DB}

/-! ### What comes after -/

/-- The later world. -/
structure After (w w' : World) : Prop where
  store : StoreLe w.store w'.store
  sess : ∀ (k : Nat) s, w.sessions[k]? = some s → ∃ s', w'.sessions[k]? = some s' ∧ s'.v = s.v ∧ s'.txn.env = s.txn.env ∧ (s.phase ≠ .live → s' = s)

theorem After.refl (w : World) : After w w := ⟨.refl _, fun _ s h => ⟨s, h, rfl, rfl, fun _ => rfl⟩⟩

theorem After.trans (h : After w w') (h' : After w' w'') : After w w'' where
  store := h.store.trans h'.store
  sess := fun k s hk => by
    obtain ⟨s', a1, a2, a3, a4⟩ := h.sess k s hk
    obtain ⟨s'', b1, b2, b3, b4⟩ := h'.sess k s' a1
    refine ⟨s'', b1, b2.trans a2, b3.trans a3, fun hp => ?_⟩
    have := a4 hp
    subst this
    exact b4 hp

theorem After.of (hs : StoreLe w.store w'.store) (h : w'.sessions = w.sessions) : After w w' :=
  ⟨hs, fun _ s hk => ⟨s, by rw [h]; exact hk, rfl, rfl, fun _ => rfl⟩⟩

theorem After.putSession (h : After w w') {k : Nat} {s s' : Session} (hk : w'.sessions[k]? = some s) (hl : s.phase = .live) (hv : s'.v = s.v)
    (he : s'.txn.env = s.txn.env) : After w (w'.putSession k s') := by
  refine h.trans ⟨.refl _, fun j t hj => ?_⟩
  show ∃ t', (w'.sessions.set k s')[j]? = some t' ∧ _
  by_cases e : k = j
  · subst e
    rw [hk] at hj
    cases hj
    obtain ⟨hlt, -⟩ := List.getElem?_eq_some_iff.mp hk
    exact ⟨s', by rw [List.getElem?_set_self hlt], hv, he, fun hp => absurd hl hp⟩
  · exact ⟨t, by rw [List.getElem?_set_ne e]; exact hj, rfl, rfl, fun _ => rfl⟩

theorem draw_after {p : Nat} {c : Turn} {r : Res UInt64} (h : w.draw p c = some (r, w')) : After w w' ∧ w'.sessions = w.sessions := by
  unfold World.draw at h
  split at h
  · cases h
  split at h
  · cases h
    refine ⟨.of ?_ rfl, rfl⟩
    dsimp only
    split
    · split
      · exact .push _ _ _
      · exact .refl _
    · exact .refl _
  · cases h

theorem newSequence_after {k : Bytes} {bw : UInt64} {c : Turn} {r : Res Unit} (h : w.newSequence k bw c = some (r, w')) : After w w' := by
  unfold World.newSequence at h
  split at h
  · cases h
    refine .of ?_ rfl
    dsimp only
    split
    · exact .push _ _ _
    · exact .refl _
  · cases h

theorem commit_le (S : Store) (t : Txn) (v : Nat) (f : Option Err) : StoreLe S (S.commit t v f).2 := by
  rcases commit_cases S t v f with ⟨c1, -⟩ | ⟨-, -, c3⟩
  · rw [c1]; exact .refl _
  · rw [c3]; exact .push _ _ _

theorem commit_le' {S S' : Store} {t : Txn} {v : Nat} {f : Option Err} {r : Res Unit} (h : S.commit t v f = (r, S')) : StoreLe S S' := by
  have := commit_le S t v f
  rw [h] at this; exact this

theorem remember_after (w : World) (i : Nat) (name : Bytes) (f : OMap IndexDef → OMap IndexDef) : After w (w.remember i name f) := by
  unfold World.remember
  repeat' split
  all_goals exact .of (.refl _) rfl

theorem release_after (env : Env) (p : Nat) (w : World) : After w (w.release env p) := by
  unfold World.release
  split
  · exact .refl _
  · exact .of (.refl _) rfl

theorem releases_after (env : Env) (l : List Nat) (w : World) : After w (l.foldl (fun w p => w.release env p) w) := by
  induction l generalizing w with
  | nil => exact .refl _
  | cons p l ih => exact (release_after env p w).trans (ih _)

theorem step_after (C : Codec D) (IC : IndexCodec) (w : World) (e : Ev D) : After w (w.step C IC e).2 := by
  have obj : ∀ {w' : World} {i o}, After w w' → After w (w'.putObj i o) := fun h => h.trans (.of (.refl _) rfl)
  cases e with
  | newDB c =>
    simp only [World.step]
    split
    · exact .refl _
    · rename_i h; exact (newSequence_after h).trans (.of (.refl _) rfl)
  | newDB2 i c =>
    simp only [World.step]
    repeat' split
    all_goals first | exact .refl _ | (rename_i h; exact obj (newSequence_after h))
  | lookup i name how v env c =>
    simp only [World.step, World.lookup]
    repeat' split
    all_goals first | exact .refl _ | exact obj (.refl _) | (rename_i h; exact obj (draw_after h).1) | (rename_i h; exact (draw_after h).1)
  | register i fail =>
    simp only [World.step, World.register]
    repeat' split
    all_goals first
      | exact .refl _
      | exact obj (.refl _)
      | (rename_i h; exact obj (.of (commit_le' h) rfl))
  | sequence i c =>
    simp only [World.step, World.sequence]
    repeat' split
    all_goals first | exact .refl _ | (rename_i h; exact obj (newSequence_after h))
  | indexes i env =>
    simp only [World.step, World.indexes]
    repeat' split
    all_goals first | exact .refl _ | exact obj (.refl _)
  | begin env =>
    refine ⟨.refl _, fun k s hk => ⟨s, ?_, rfl, rfl, fun _ => rfl⟩⟩
    show (w.sessions ++ _)[k]? = some s
    rw [List.getElem?_append_left (List.getElem?_eq_some_iff.mp hk).1]; exact hk
  | insert k i name doc how c =>
    simp only [World.step]
    split
    case h_2 => exact .refl _
    rename_i s _ cl r hs _
    split
    case isFalse => exact .refl _
    rename_i hl
    split
    all_goals try exact .refl _
    unfold World.insert
    split
    · exact .refl _
    · rename_i h; exact (draw_after h).1
    · rename_i h; exact (draw_after h).1
    · rename_i u w' h
      obtain ⟨h1, h2⟩ := draw_after h
      exact h1.putSession (s := s) (by rw [h2]; exact hs) hl rfl (Prog.run_env _ _)
  | op k i name o how =>
    simp only [World.step]
    split
    case h_2 => exact .refl _
    rename_i s _ cl r hs _
    split
    case isFalse => exact .refl _
    rename_i hl
    split
    all_goals try exact .refl _
    exact (After.refl w).putSession hs hl.1 rfl (Prog.run_env _ _)
  | commit k fail =>
    simp only [World.step]
    split
    case h_2 => exact .refl _
    rename_i s hs
    split
    case isFalse => exact .refl _
    rename_i hl
    exact (After.of (w' := { w with store := (w.store.commit s.txn s.v fail).2 }) (commit_le _ _ _ _) rfl).putSession hs hl rfl rfl
  | discard k =>
    simp only [World.step]
    split
    case h_2 => exact .refl _
    rename_i s hs
    split
    case isFalse => exact .refl _
    rename_i hl
    exact (After.refl w).putSession hs hl rfl rfl
  | createIndex i name d how v env c =>
    simp only [World.step, World.createIndex]
    repeat' split
    all_goals first
      | exact .refl _
      | (rename_i h; exact (draw_after h).1)
      | (rename_i h _ _ _ _ _; exact (draw_after h).1)
      | (rename_i h _ _ _ _; exact (draw_after h).1)
      | (rename_i h _ _ _; exact (draw_after h).1)
      | (rename_i h _ _ _ _ _; exact (draw_after h).1.trans (.of (.refl _) rfl))
      | (rename_i h _ _ _ _; exact (draw_after h).1.trans (.of (.refl _) rfl))
      | (rename_i h _ _ _; exact (draw_after h).1.trans (.of (.refl _) rfl))
  | writeIndex p fail =>
    simp only [World.step, World.writeIndex]
    repeat' split
    all_goals first
      | exact .refl _
      | (rename_i h; exact .of (commit_le' h) rfl)
  | finish p =>
    simp only [World.step, World.finish]
    repeat' split
    all_goals first
      | exact .refl _
      | exact (After.of (w := w) (w' := { w with pending := w.pending.set p none }) (.refl _) rfl).trans (by dsimp only; exact remember_after _ _ _ _)
  | getIndexes i name =>
    simp only [World.step]
    repeat' split
    all_goals exact .refl _
  | dropIndex i name iname how c =>
    simp only [World.step, World.dropIndex]
    repeat' split
    all_goals first
      | exact .refl _
      | (rename_i h; exact .of (commit_le' h) rfl)
  | close i =>
    simp only [World.step]
    repeat' split
    all_goals first | exact .refl _ | exact obj (.refl _)
  | closed i env =>
    simp only [World.step]
    repeat' split
    all_goals first | exact .refl _ | exact obj (releases_after _ _ _)
  | crash i => exact .of (.refl _) rfl

theorem run_append (C : Codec D) (IC : IndexCodec) (es es' : List (Ev D)) (w : World) :
    run C IC (es ++ es') w = ((run C IC es w).1 ++ (run C IC es' (run C IC es w).2).1, (run C IC es' (run C IC es w).2).2) := by
  induction es generalizing w with
  | nil => rfl
  | cons e es ih => simp only [List.cons_append, run, ih]

theorem run_length (C : Codec D) (IC : IndexCodec) (es : List (Ev D)) (w : World) : (run C IC es w).1.length = es.length := by
  induction es generalizing w with
  | nil => rfl
  | cons e es ih => simp only [run, List.length_cons, ih]

theorem run_after (C : Codec D) (IC : IndexCodec) (es : List (Ev D)) (w : World) : After w (run C IC es w).2 := by
  induction es generalizing w with
  | nil => exact .refl _
  | cons e es ih => exact (step_after C IC w e).trans (ih _)

/-! ### The beginning -/

theorem Kept.start (C : Codec D) (h : Blank db) : Kept C (World.start db) { docs := fun _ => Docs.init } 0 := by
  have hm : ∀ k, IsPrefixOf metaPrefix k → db.get k = none := by
    intro k hk
    apply Classical.byContradiction
    exact fun hne => (h k hne).2 hk
  have hs : ∀ kw, db.get (metaSequenceKey kw) = none := fun kw => hm _ ⟨_, by unfold metaSequenceKey metaSequencePrefix; rw [List.append_assoc]⟩
  have hn : ∀ name, db.get (metaCollectionName2IDKey name) = none := by
    intro name
    refine hm _ ?_
    rw [cnameKey_eq]
    exact ⟨_, by unfold metaCName2IDPrefix; rw [List.append_assoc]⟩
  have hdoc : NoDocs db := by
    intro cid k hk
    apply Classical.byContradiction
    intro hne
    obtain ⟨t, rfl⟩ := hk
    refine (h _ hne).1 ?_
    rw [documentKeyPrefix_eq]
    exact ⟨_, by rw [List.append_assoc]⟩
  have h64 : ∀ kw, stored64 (metaSequenceKey kw) db = some 0 := fun kw => by unfold stored64; rw [hs]
  refine ⟨⟨?_, ?_, ?_, ?_, ?_, ?_, ?_⟩, ⟨?_, ?_, ?_⟩, ?_, ?_, ?_, ?_, ?_, ?_, ?_, ?_, ?_, ?_, ?_⟩
  · intro n hn; exact absurd hn (Nat.not_lt_zero _)
  · exact fun kw n _ => ⟨0, h64 kw⟩
  · intro kw n m c d _ _ h1 h2
    have h1 : stored64 (metaSequenceKey kw) db = some c := h1
    have h2 : stored64 (metaSequenceKey kw) db = some d := h2
    rw [h1] at h2; cases h2; exact UInt64.le_refl _
  · intro kw c hc
    have hc : stored64 (metaSequenceKey kw) db = some c := hc
    rw [h64] at hc; cases hc; exact Nat.le_refl _
  · intro p g hp; simp [World.start] at hp
  · intro p q g h _ hp; simp [World.start] at hp
  · intro kw u hu; cases hu
  · intro n _ name v hv
    have hv : db.get (metaCollectionName2IDKey name) = some v := hv
    rw [hn] at hv; cases hv
  · intro n m _ _ name v hv; exact hv
  · intro name name' v v' u hv
    have hv : db.get (metaCollectionName2IDKey name) = some v := hv
    rw [hn] at hv; cases hv
  · rintro i name t v u ⟨o, ho, -⟩; simp [World.start] at ho
  · rintro i j name t v u name' t' v' u' ⟨o, ho, -⟩; simp [World.start] at ho
  · intro i o ho; simp [World.start] at ho
  · intro n _; exact holdsDocs_init C hdoc
  · intro n _ x i hne; exact absurd (IMap.get_empty i) hne
  · intro k s hk; simp [World.start] at hk
  · exact fun _ _ => rfl
  · intro n hn; exact absurd hn (Nat.not_lt_zero _)
  · intro i name iid d t v hq; simp [World.start] at hq
  · intro k hk; cases hk
  · intro _; rfl

/-! ### Every history -/

/-- The invariant and the record, after a history. -/
structure Told (C : Codec D) (es : List (Ev D)) (as : List (Answer D)) (w : World) (g : Ghost D) : Prop where
  kept : Kept C w g (1000 * es.length)
  log : ∀ k, (g.tr k).recs.map Prod.fst = saidIn k es as
  commits : g.commits = (es.zip as).filterMap committedOf
  nodup : ∀ name, (idsIn name es as).Nodup
  ids : ∀ name, ∀ did ∈ idsIn name es as, ∃ u : UInt64, did = u.toInt64 ∧ (metaSequenceKey name, u) ∈ g.out
  inodup : (iidsIn es as).Nodup
  iids : ∀ iid ∈ iidsIn es as, ∃ u : UInt64, iid = u.toInt64 ∧ (indexSequenceKey, u) ∈ g.out

theorem Told.step {as : List (Answer D)} (h : Told C es as w g) (hl : as.length = es.length) (e : Ev D) (hb : 1000 * (es.length + 1) < 2 ^ 64)
    (hr : ∀ env, e = .begin env → Roomy env) : ∃ g', Told C (es ++ [e]) (as ++ [(w.step C IC e).1]) (w.step C IC e).2 g' := by
  obtain ⟨g', h1, h2⟩ := h.kept.step (IC := IC) (by omega) e hr
  have hz : (es ++ [e]).zip (as ++ [(w.step C IC e).1]) = es.zip as ++ [(e, (w.step C IC e).1)] := by
    rw [List.zip_append hl.symm]; rfl
  have hi : iidsIn (es ++ [e]) (as ++ [(w.step C IC e).1]) = iidsIn es as ++ (iidOf (e, (w.step C IC e).1)).toList := by
    unfold iidsIn
    rw [hz, List.filterMap_append, List.filterMap_cons, List.filterMap_nil]
    cases iidOf (e, (w.step C IC e).1) <;> rfl
  refine ⟨g', ?_, fun k => ?_, ?_, fun name => ?_, fun name => ?_, ?_, ?_⟩
  rotate_right 2
  · rw [hi]
    cases hx : iidOf (e, (w.step C IC e).1) with
    | none => rw [Option.toList_none, List.append_nil]; exact h.inodup
    | some iid =>
      obtain ⟨u, rfl, i1, i2⟩ := h2.iids iid hx
      refine List.nodup_append.mpr ⟨h.inodup, by simp, ?_⟩
      intro x hx y hy
      rw [Option.toList_some, List.mem_singleton] at hy
      subst hy
      rintro rfl
      obtain ⟨u', e1, e2⟩ := h.iids _ hx
      rw [Cid.toInt64_inj e1] at i2
      exact i2 e2
  · rw [hi]
    intro iid hm
    rcases List.mem_append.mp hm with hm | hm
    · exact (h.iids iid hm).imp (fun u hu => ⟨hu.1, h2.out _ hu.2⟩)
    · obtain ⟨u, e1, i1, -⟩ := h2.iids iid (by simpa using hm)
      exact ⟨u, e1, i1⟩
  · rw [List.length_append]; exact h1.weaken (by simp; omega)
  · unfold saidIn
    rw [h2.recs, h.log, hz, List.filterMap_append, List.filterMap_cons, List.filterMap_nil]
    cases saidOf k (e, (w.step C IC e).1) <;> rfl
  · rw [h2.commits, h.commits, hz, List.filterMap_append, List.filterMap_cons, List.filterMap_nil]
    cases committedOf (e, (w.step C IC e).1) <;> rfl
  all_goals
    have e' : idsIn name (es ++ [e]) (as ++ [(w.step C IC e).1]) = idsIn name es as ++ (idOf name (e, (w.step C IC e).1)).toList := by
      unfold idsIn
      rw [hz, List.filterMap_append, List.filterMap_cons, List.filterMap_nil]
      cases idOf name (e, (w.step C IC e).1) <;> rfl
    rw [e']
    cases hi : idOf name (e, (w.step C IC e).1) with
    | none =>
      simp only [Option.toList_none, List.append_nil]
      first
        | exact h.nodup name
        | exact fun did hd => (h.ids name did hd).imp (fun u hu => ⟨hu.1, h2.out _ hu.2⟩)
    | some did =>
      obtain ⟨u, rfl, i1, i2⟩ := h2.ids name did hi
      first
        | (refine List.nodup_append.mpr ⟨h.nodup name, by simp, ?_⟩
           intro x hx y hy
           rw [Option.toList_some, List.mem_singleton] at hy
           subst hy
           rintro rfl
           obtain ⟨u', e1, e2⟩ := h.ids name _ hx
           rw [Cid.toInt64_inj e1] at i2
           exact i2 e2)
        | (intro did hd
           rcases List.mem_append.mp hd with hd | hd
           · exact (h.ids name did hd).imp (fun u hu => ⟨hu.1, h2.out _ hu.2⟩)
           · rw [Option.toList_some, List.mem_singleton] at hd
             exact ⟨u, hd, i1⟩)

theorem told (IC : IndexCodec) (hdb : Blank db) (es : List (Ev D)) (hb : 1000 * es.length < 2 ^ 64) (hr : ∀ env, .begin env ∈ es → Roomy env) :
    ∃ g, Told C es (run C IC es (World.start db)).1 (run C IC es (World.start db)).2 g := by
  suffices H : ∀ l l' : List (Ev D), es = l ++ l' → ∃ g, Told C l (run C IC l (World.start db)).1 (run C IC l (World.start db)).2 g from
    H es [] (by simp)
  intro l
  induction h : l.length generalizing l with
  | zero =>
    intro l' _
    cases l with
    | nil => exact ⟨_, Kept.start C hdb, fun _ => rfl, rfl, fun _ => List.nodup_nil, (fun _ did hd => nomatch hd), List.nodup_nil, (fun did hd => nomatch hd)⟩
    | cons _ _ => cases h
  | succ n ih =>
    intro l' he
    obtain ⟨l₀, e, rfl⟩ : ∃ l₀ e, l = l₀ ++ [e] := by
      refine ⟨l.dropLast, l.getLast (by rintro rfl; cases h), (List.dropLast_concat_getLast _).symm⟩
    rw [List.length_append] at h
    obtain ⟨g, hg⟩ := ih l₀ (by simpa using h) (e :: l') (by rw [he]; simp)
    have hlen : 1000 * (l₀.length + 1) ≤ 1000 * es.length := by
      rw [he]; simp only [List.length_append, List.length_cons, List.length_nil]; omega
    obtain ⟨g', hg'⟩ := hg.step (IC := IC) (run_length C IC l₀ _) e (by omega) (fun env hx => hr env (by rw [he, hx]; simp))
    rw [run_append]
    exact ⟨g', hg'⟩

end Mondis.DocDB
