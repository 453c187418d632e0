import Verif.Lemmas.DomainGrow
/-!
# The document process: no id is given to two transactions
-/
namespace Mondis.Props
open Mondis Spec Schema Meta Ddl Domain Doc

variable {D : Type} {norm : D → Res D} {S S' R : Site D} {e : Domain.Ev D} {a : Domain.Answer D}

/-- An id held by a transaction. -/
structure Held where
  txn : Nat
  db : Bytes
  coll : Bytes
  cid : Int64
  did : Int64

/-- The ids of a collection that are held. -/
def idsHeld (G : List Held) (x : Int64) : List Int64 := (G.filter (fun g => decide (g.cid = x))).map (·.did)

/-- The ids of a collection known: given back, or held. -/
def Apart (S : Site D) (G : List Held) : Prop :=
  ∀ x, (S.pool x ++ idsHeld G x).Nodup ∧ (∀ v ∈ S.pool x ++ idsHeld G x, 0 < v.toInt ∧ v.toInt ≤ S.proc.last x) ∧ 0 ≤ S.proc.last x

theorem idsHeld_append (G : List Held) (g : Held) (x : Int64) :
    idsHeld (G ++ [g]) x = idsHeld G x ++ if g.cid = x then [g.did] else [] := by
  unfold idsHeld
  rw [List.filter_append, List.map_append]
  by_cases h : g.cid = x <;> simp [h]

/-- Drawing an id. -/
theorem Apart.draws {G : List Held} (h : Apart S G) {x v : Int64} (hd : S.Draws x v S') :
    Apart S' G ∧ v ∉ S'.pool x ++ idsHeld G x ∧ 0 < v.toInt ∧ v.toInt ≤ S'.proc.last x := by
  cases hd with
  | back p hp =>
    obtain ⟨h1, h2, h3⟩ := h x
    rw [hp] at h1 h2
    have hperm : (p ++ [v] ++ idsHeld G x).Perm (v :: (p ++ idsHeld G x)) := by
      rw [List.append_assoc]
      exact List.perm_middle
    have h4 := (hperm.nodup_iff).mp h1
    rw [List.nodup_cons] at h4
    have h5 := h2 v (hperm.mem_iff.mpr List.mem_cons_self)
    refine ⟨fun y => ?_, ?_, h5.1, h5.2⟩
    · by_cases e : y = x
      · subst e
        show ((if y = y then p else S.pool y) ++ idsHeld G y).Nodup ∧ (∀ v ∈ (if y = y then p else S.pool y) ++ idsHeld G y, _) ∧ _
        rw [if_pos rfl]
        exact ⟨h4.2, fun v hv => h2 v (hperm.mem_iff.mpr (List.mem_cons_of_mem _ hv)), h3⟩
      · show ((if y = x then p else S.pool y) ++ idsHeld G y).Nodup ∧ (∀ v ∈ (if y = x then p else S.pool y) ++ idsHeld G y, _) ∧ _
        rw [if_neg e]
        exact h y
    · show v ∉ (if x = x then p else S.pool x) ++ idsHeld G x
      rw [if_pos rfl]
      exact h4.1
  | fresh hp hl =>
    obtain ⟨h1, h2, h3⟩ := h x
    refine ⟨fun y => ?_, ?_, by omega, ?_⟩
    · by_cases e : y = x
      · subst e
        show (S.pool y ++ idsHeld G y).Nodup ∧ (∀ u ∈ S.pool y ++ idsHeld G y, 0 < u.toInt ∧ u.toInt ≤ (if y = y then v.toInt else S.proc.last y)) ∧
          0 ≤ (if y = y then v.toInt else S.proc.last y)
        rw [if_pos rfl]
        exact ⟨h1, fun u hu => ⟨(h2 u hu).1, by have := (h2 u hu).2; omega⟩, by omega⟩
      · show (S.pool y ++ idsHeld G y).Nodup ∧ (∀ u ∈ S.pool y ++ idsHeld G y, 0 < u.toInt ∧ u.toInt ≤ (if y = x then v.toInt else S.proc.last y)) ∧
          0 ≤ (if y = x then v.toInt else S.proc.last y)
        rw [if_neg e]
        exact h y
    · show v ∉ S.pool x ++ idsHeld G x
      intro hv
      have := (h2 v hv).2
      omega
    · show v.toInt ≤ (if x = x then v.toInt else S.proc.last x)
      rw [if_pos rfl]
      exact Int.le_refl _

/-- A drawn id is held. -/
theorem Apart.hold {G : List Held} (h : Apart S G) {g : Held} (h1 : g.did ∉ S.pool g.cid ++ idsHeld G g.cid)
    (h2 : 0 < g.did.toInt ∧ g.did.toInt ≤ S.proc.last g.cid) : Apart S (G ++ [g]) := by
  intro x
  obtain ⟨a1, a2, a3⟩ := h x
  rw [idsHeld_append]
  by_cases e : g.cid = x
  · subst e
    rw [if_pos rfl, ← List.append_assoc]
    refine ⟨List.nodup_append.mpr ⟨a1, by simp, ?_⟩, ?_, a3⟩
    · intro a ha b hb
      rw [List.mem_singleton] at hb
      subst hb
      rintro rfl
      exact h1 ha
    · intro v hv
      rcases List.mem_append.mp hv with hv | hv
      · exact a2 v hv
      · rw [List.mem_singleton.mp hv]; exact h2
  · rw [if_neg e, List.append_nil]
    exact ⟨a1, a2, a3⟩

/-- The ids of a transaction are given back. -/
theorem Apart.giveBack {G : List Held} (h : Apart S G) {k : Nat} {l : List (Int64 × Int64)}
    (hl : l = (G.filter (fun g => decide (g.txn = k))).map (fun g => (g.cid, g.did))) :
    Apart (S.giveBack l) (G.filter (fun g => !decide (g.txn = k))) := by
  intro x
  obtain ⟨a1, a2, a3⟩ := h x
  have hperm : ((S.giveBack l).pool x ++ idsHeld (G.filter (fun g => !decide (g.txn = k))) x).Perm (S.pool x ++ idsHeld G x) := by
    show ((S.pool x ++ (l.filter (fun p => decide (p.1 = x))).map Prod.snd) ++ _).Perm _
    rw [List.append_assoc]
    refine List.Perm.append_left _ ?_
    unfold idsHeld
    rw [hl, List.filter_map, List.map_map]
    have key := ((List.filter_append_perm (fun g : Held => decide (g.txn = k)) G).filter (fun g => decide (g.cid = x))).map (·.did)
    rw [List.filter_append, List.map_append] at key
    exact key
  refine ⟨hperm.nodup_iff.mpr a1, fun v hv => a2 v (hperm.mem_iff.mp hv), a3⟩

/-! ### Insertions and the ids held -/

theorem zip_snoc {es : List (Domain.Ev D)} {as : List (Domain.Answer D)} (h : as.length = es.length) (e : Domain.Ev D) (a : Domain.Answer D) :
    (es ++ [e]).zip (as ++ [a]) = es.zip as ++ [(e, a)] := by
  rw [List.zip_append h.symm]; rfl

/-- A collection that is found in a part is found in all. -/
theorem collectionIn_all {dbs l : List DBInfo} {n : Option Nat} {db coll : Bytes} {x : Int64} (h : collectionIn dbs n db coll = some x) :
    collectionIn (dbs ++ l) (some (dbs ++ l).length) db coll = some x := by
  cases n with
  | none => cases h
  | some n =>
    unfold collectionIn at h ⊢
    simp only [Option.bind_some] at h ⊢
    have e : (dbs ++ l).take (dbs ++ l).length = dbs.take n ++ (dbs.drop n ++ l) := by
      rw [List.take_length, ← List.append_assoc, List.take_append_drop]
    rw [e, List.find?_append]
    cases hf : (dbs.take n).find? (fun d => decide (d.name = db)) with
    | none => rw [hf] at h; cases h
    | some d => rw [hf] at h; exact h

/-- The invariant: `G` are the ids held, by transactions that may commit, have committed, or died. -/
structure Keeping (S : Site D) (es : List (Domain.Ev D)) (as : List (Domain.Answer D)) (G : List Held) : Prop where
  len : as.length = es.length
  known : Known S
  apart : Apart S G
  drawn : ∀ k v, S.visit k = some v → v.drawn = (G.filter (fun g => decide (g.txn = k))).map (fun g => (g.cid, g.did))
  log : (insertions es as).filter (fun i => !decide (i.txn ∈ failedIn es as)) =
    (G.filter (fun g => !decide (g.txn ∈ failedIn es as))).map (fun g => ⟨g.txn, g.db, g.coll, g.did⟩)
  found : ∀ g ∈ G, collectionIn S.proc.state.dbs (some S.proc.state.dbs.length) g.db g.coll = some g.cid
  begun : (∀ g ∈ G, g.txn < S.visits.length) ∧ (∀ k ∈ failedIn es as, k < S.visits.length) ∧ ∀ k ∈ committedIn es as, k < S.visits.length
  failed : ∀ k ∈ failedIn es as, ∀ v, S.visit k = some v →
    v.phase = .over ∨ v.phase = .ready ∧ v.update = true ∧ recent v.schema S.schema = false
  finished : ∀ k ∈ committedIn es as, (∃ f, .finish k f ∈ es) ∧ ∀ v, S.visit k = some v → v.phase = .over
  disjoint : ∀ k ∈ committedIn es as, k ∉ failedIn es as

theorem keeping_start : Keeping ({} : Site D) [] [] [] where
  len := rfl
  known := known_start
  apart := fun x => ⟨List.nodup_nil, nofun, Int.le_refl _⟩
  drawn := by
    intro k v h
    have : ((([] : List (Option (Visit D)))[k]?).join) = some v := h
    simp at this
  log := rfl
  found := nofun
  begun := ⟨nofun, nofun, nofun⟩
  failed := nofun
  finished := nofun
  disjoint := nofun

/-- An event that is neither an insertion nor the end of a Commit. -/
structure Dull (e : Domain.Ev D) (a : Domain.Answer D) : Prop where
  ins : insertionOf (e, a) = none
  com : committedIn [e] [a] = []
  fail : failedIn [e] [a] = []

theorem logs_snoc {es : List (Domain.Ev D)} {as : List (Domain.Answer D)} (h : as.length = es.length) (e : Domain.Ev D) (a : Domain.Answer D) :
    insertions (es ++ [e]) (as ++ [a]) = insertions es as ++ insertions [e] [a] ∧
    committedIn (es ++ [e]) (as ++ [a]) = committedIn es as ++ committedIn [e] [a] ∧
    failedIn (es ++ [e]) (as ++ [a]) = failedIn es as ++ failedIn [e] [a] := by
  unfold insertions committedIn failedIn
  rw [zip_snoc h]
  simp only [List.filterMap_append]
  exact ⟨rfl, rfl, rfl⟩

theorem Dull.logs (h : Dull e a) {es : List (Domain.Ev D)} {as : List (Domain.Answer D)} (hl : as.length = es.length) :
    insertions (es ++ [e]) (as ++ [a]) = insertions es as ∧ committedIn (es ++ [e]) (as ++ [a]) = committedIn es as ∧
    failedIn (es ++ [e]) (as ++ [a]) = failedIn es as := by
  obtain ⟨h1, h2, h3⟩ := logs_snoc hl e a
  have : insertions [e] [a] = [] := by
    show List.filterMap insertionOf [(e, a)] = []
    rw [List.filterMap_cons, h.ins]; rfl
  rw [h1, h2, h3, this, h.com, h.fail]
  simp

variable {es : List (Domain.Ev D)} {as : List (Domain.Answer D)} {G : List Held}

/-- The logs stay; the state changes a little. -/
theorem Keeping.dull (h : Keeping S es as G) (hd : Dull e a) (hs : S.Walk norm e a S') (ha : Apart S' G)
    (hdr : ∀ k v, S'.visit k = some v → v.drawn = (G.filter (fun g => decide (g.txn = k))).map (fun g => (g.cid, g.did)))
    (hlen : S.visits.length ≤ S'.visits.length)
    (hf : ∀ k ∈ failedIn es as, ∀ v, S'.visit k = some v → v.phase = .over ∨ v.phase = .ready ∧ v.update = true ∧ recent v.schema S'.schema = false)
    (hfin : ∀ k ∈ committedIn es as, ∀ v, S'.visit k = some v → v.phase = .over) : Keeping S' (es ++ [e]) (as ++ [a]) G := by
  obtain ⟨l1, l2, l3⟩ := hd.logs h.len
  obtain ⟨l, hl⟩ := site_dbs_grow hs
  exact
  { len := by simp [h.len]
    known := h.known.step hs
    apart := ha
    drawn := hdr
    log := by rw [l1, l3]; exact h.log
    found := fun g hg => by rw [hl]; exact collectionIn_all (h.found g hg)
    begun := ⟨fun g hg => Nat.lt_of_lt_of_le (h.begun.1 g hg) hlen, fun k hk => by rw [l3] at hk; exact Nat.lt_of_lt_of_le (h.begun.2.1 k hk) hlen,
      fun k hk => by rw [l2] at hk; exact Nat.lt_of_lt_of_le (h.begun.2.2 k hk) hlen⟩
    failed := by rw [l3]; exact hf
    finished := by
      rw [l2]
      intro k hk
      obtain ⟨⟨f, h1⟩, -⟩ := h.finished k hk
      exact ⟨⟨f, List.mem_append_left _ h1⟩, hfin k hk⟩
    disjoint := by rw [l2, l3]; exact h.disjoint }

/-- Nothing changes. -/
theorem Keeping.same (h : Keeping S es as G) (hd : Dull e a) (hs : S.Walk norm e a S) : Keeping S (es ++ [e]) (as ++ [a]) G :=
  h.dull hd hs h.apart h.drawn (Nat.le_refl _) h.failed (fun k hk => (h.finished k hk).2)

theorem put_visits_length (S : Site D) (k : Nat) (v : Visit D) : (S.put k v).visits.length = S.visits.length := by
  show (S.visits.set k _).length = _
  rw [List.length_set]

/-- A transaction changes, but not in what it holds. -/
theorem Keeping.put (h : Keeping S es as G) (hd : Dull e a) {k : Nat} {v v' : Visit D} (hv : S.visit k = some v) (hs : S.Walk norm e a (S.put k v'))
    (h1 : v'.drawn = v.drawn)
    (h2 : k ∈ failedIn es as → v'.phase = .over ∨ v'.phase = .ready ∧ v'.update = true ∧ recent v'.schema S.schema = false)
    (h3 : k ∈ committedIn es as → v'.phase = .over) : Keeping (S.put k v') (es ++ [e]) (as ++ [a]) G := by
  refine h.dull hd hs h.apart ?_ (Nat.le_of_eq (put_visits_length S k v').symm) ?_ ?_
  · intro j u hu
    rw [Site.visit_put hv] at hu
    by_cases ej : k = j
    · subst ej; rw [if_pos rfl] at hu; cases hu; rw [h1]; exact h.drawn k v hv
    · rw [if_neg ej] at hu; exact h.drawn j u hu
  · intro j hj u hu
    rw [Site.visit_put hv] at hu
    by_cases ej : k = j
    · subst ej; rw [if_pos rfl] at hu; cases hu; exact h2 hj
    · rw [if_neg ej] at hu; exact h.failed j hj u hu
  · intro j hj u hu
    rw [Site.visit_put hv] at hu
    by_cases ej : k = j
    · subst ej; rw [if_pos rfl] at hu; cases hu; exact h3 hj
    · rw [if_neg ej] at hu; exact (h.finished j hj).2 u hu

/-- A Commit fails: the ids of the transaction are given back. -/
theorem Keeping.cancel (h : Keeping S es as G) {k : Nat} {v v' : Visit D} (hv : S.visit k = some v)
    (hi : insertions [e] [a] = []) (hc : committedIn [e] [a] = []) (hf : failedIn [e] [a] = [k])
    (hs : S.Walk norm e a ((S.giveBack v.drawn).put k v')) (h1 : v'.drawn = [])
    (h2 : v'.phase = .over ∨ v'.phase = .ready ∧ v'.update = true ∧ recent v'.schema S.schema = false)
    (h3 : k ∉ committedIn es as) :
    Keeping ((S.giveBack v.drawn).put k v') (es ++ [e]) (as ++ [a]) (G.filter (fun g => !decide (g.txn = k))) := by
  obtain ⟨l1, l2, l3⟩ := logs_snoc h.len e a
  rw [hi, List.append_nil] at l1
  rw [hc, List.append_nil] at l2
  rw [hf] at l3
  obtain ⟨l, hl⟩ := site_dbs_grow hs
  have hvis : ∀ j, ((S.giveBack v.drawn).put k v').visit j = if k = j then some v' else S.visit j :=
    fun j => Site.visit_put ((site_visit_giveBack _ _).trans hv)
  have hvl : ((S.giveBack v.drawn).put k v').visits.length = S.visits.length := put_visits_length _ _ _
  have hkl : k < S.visits.length := by
    unfold Site.visit at hv
    by_cases hk : k < S.visits.length
    · exact hk
    · rw [List.getElem?_eq_none (by omega)] at hv; cases hv
  exact
  { len := by simp [h.len]
    known := h.known.step hs
    apart := h.apart.giveBack (h.drawn k v hv)
    drawn := by
      intro j u hu
      rw [hvis] at hu
      by_cases ej : k = j
      · subst ej; rw [if_pos rfl] at hu; cases hu
        rw [h1, List.filter_filter, List.filter_eq_nil_iff.mpr]
        · rfl
        · intro g _; simp
      · rw [if_neg ej] at hu
        rw [h.drawn j u hu, List.filter_filter]
        congr 1
        refine List.filter_congr fun g _ => ?_
        by_cases hg : g.txn = j
        · have : ¬ g.txn = k := fun x => ej (x.symm.trans hg)
          simp [hg, this]
          intro x; exact ej x.symm
        · simp [hg]
    log := by
      rw [l1, l3]
      have hl := congrArg (fun l => l.filter (fun i => !decide (i.txn = k))) h.log
      simp only [List.filter_map, List.filter_filter] at hl ⊢
      have q1 : (insertions es as).filter (fun i => !decide (i.txn ∈ failedIn es as ++ [k])) =
          (insertions es as).filter (fun i => !decide (i.txn = k) && !decide (i.txn ∈ failedIn es as)) := by
        refine List.filter_congr fun i _ => ?_
        by_cases x : i.txn = k <;> by_cases y : i.txn ∈ failedIn es as <;> simp [x, y]
      rw [q1, hl]
      congr 1
      refine List.filter_congr fun g _ => ?_
      show (!decide (g.txn = k) && !decide (g.txn ∈ failedIn es as)) = _
      by_cases x : g.txn = k <;> by_cases y : g.txn ∈ failedIn es as <;> simp [x, y]
    found := fun g hg => by rw [hl]; exact collectionIn_all (h.found g ((List.mem_filter.mp hg).1))
    begun := by
      rw [hvl, l2, l3]
      refine ⟨fun g hg => h.begun.1 g ((List.mem_filter.mp hg).1), fun j hj => ?_, h.begun.2.2⟩
      rcases List.mem_append.mp hj with hj | hj
      · exact h.begun.2.1 j hj
      · rw [List.mem_singleton.mp hj]; exact hkl
    failed := by
      intro j hj u hu
      rw [hvis] at hu
      by_cases ej : k = j
      · subst ej; rw [if_pos rfl] at hu; cases hu; exact h2
      · rw [if_neg ej] at hu
        rw [l3] at hj
        rcases List.mem_append.mp hj with hj | hj
        · exact h.failed j hj u hu
        · exact absurd (List.mem_singleton.mp hj).symm ej
    finished := by
      rw [l2]
      intro j hj
      obtain ⟨⟨f, g1⟩, g2⟩ := h.finished j hj
      refine ⟨⟨f, List.mem_append_left _ g1⟩, fun u hu => ?_⟩
      rw [hvis] at hu
      by_cases ej : k = j
      · subst ej; exact absurd hj h3
      · rw [if_neg ej] at hu; exact g2 u hu
    disjoint := by
      rw [l2, l3]
      intro j hj hj'
      rcases List.mem_append.mp hj' with hj' | hj'
      · exact h.disjoint j hj hj'
      · rw [List.mem_singleton.mp hj'] at hj; exact h3 hj }

/-- A Commit succeeds. -/
theorem Keeping.commits (h : Keeping S es as G) {k : Nat} {v v' : Visit D} {A : Docs D} (hv : S.visit k = some v) (hp : v.phase = .checked)
    (hi : insertions [e] [a] = []) (hc : committedIn [e] [a] = [k]) (hf : failedIn [e] [a] = []) (he : ∃ f, e = .finish k f)
    (hs : S.Walk norm e a ({ S with docs := A }.put k v')) (h1 : v'.drawn = v.drawn) (h2 : v'.phase = .over) :
    Keeping ({ S with docs := A }.put k v') (es ++ [e]) (as ++ [a]) G := by
  obtain ⟨l1, l2, l3⟩ := logs_snoc h.len e a
  rw [hi, List.append_nil] at l1
  rw [hc] at l2
  rw [hf, List.append_nil] at l3
  obtain ⟨l, hl⟩ := site_dbs_grow hs
  have hvis : ∀ j, ({ S with docs := A }.put k v' : Site D).visit j = if k = j then some v' else S.visit j :=
    fun j => Site.visit_put (S := { S with docs := A }) hv
  have hvl : ({ S with docs := A }.put k v' : Site D).visits.length = S.visits.length := put_visits_length _ _ _
  have hkl : k < S.visits.length := by
    unfold Site.visit at hv
    by_cases hk : k < S.visits.length
    · exact hk
    · rw [List.getElem?_eq_none (by omega)] at hv; cases hv
  have hnf : k ∉ failedIn es as := by
    intro hk
    rcases h.failed k hk v hv with x | ⟨x, -⟩ <;> rw [hp] at x <;> cases x
  exact
  { len := by simp [h.len]
    known := h.known.step hs
    apart := h.apart
    drawn := by
      intro j u hu
      rw [hvis] at hu
      by_cases ej : k = j
      · subst ej; rw [if_pos rfl] at hu; cases hu; rw [h1]; exact h.drawn k v hv
      · rw [if_neg ej] at hu; exact h.drawn j u hu
    log := by rw [l1, l3]; exact h.log
    found := fun g hg => by rw [hl]; exact collectionIn_all (h.found g hg)
    begun := by
      rw [hvl, l2, l3]
      refine ⟨h.begun.1, h.begun.2.1, fun j hj => ?_⟩
      rcases List.mem_append.mp hj with hj | hj
      · exact h.begun.2.2 j hj
      · rw [List.mem_singleton.mp hj]; exact hkl
    failed := by
      rw [l3]
      intro j hj u hu
      rw [hvis] at hu
      by_cases ej : k = j
      · subst ej; exact absurd hj hnf
      · rw [if_neg ej] at hu; exact h.failed j hj u hu
    finished := by
      rw [l2]
      intro j hj
      obtain ⟨f, he⟩ := he
      rcases List.mem_append.mp hj with hj | hj
      · obtain ⟨⟨f, g1⟩, g2⟩ := h.finished j hj
        refine ⟨⟨f, List.mem_append_left _ g1⟩, fun u hu => ?_⟩
        rw [hvis] at hu
        by_cases ej : k = j
        · rw [if_pos ej] at hu; cases hu; exact h2
        · rw [if_neg ej] at hu; exact g2 u hu
      · cases List.mem_singleton.mp hj
        refine ⟨⟨f, List.mem_append_right _ (by rw [he]; simp)⟩, fun u hu => ?_⟩
        rw [hvis, if_pos rfl] at hu; cases hu; exact h2
    disjoint := by
      rw [l2, l3]
      intro j hj
      rcases List.mem_append.mp hj with hj | hj
      · exact h.disjoint j hj
      · rw [List.mem_singleton.mp hj]; exact hnf }

/-- InsertOne gives an id. -/
theorem Keeping.inserts (h : Keeping S es as G) {k : Nat} {v v' : Visit D} (hv : S.visit k = some v) {db coll : Bytes} {x did : Int64} {S₁ : Site D}
    (hd : S.Draws x did S₁) (hx : collectionIn S.proc.state.dbs v.schema db coll = some x)
    (hi : did ≠ 0 → insertions [e] [a] = [⟨k, db, coll, did⟩]) (hc : committedIn [e] [a] = []) (hf : failedIn [e] [a] = [])
    (hs : S.Walk norm e a (S₁.put k v')) (h1 : v'.drawn = v.drawn ++ [(x, did)]) (h2 : v'.phase = v.phase ∧ v'.update = v.update ∧ v'.schema = v.schema) :
    Keeping (S₁.put k v') (es ++ [e]) (as ++ [a]) (G ++ [⟨k, db, coll, x, did⟩]) := by
  obtain ⟨a1, a2, a3⟩ := h.apart.draws hd
  have hne : did ≠ 0 := by rintro rfl; exact absurd a3.1 (by decide)
  obtain ⟨l1, l2, l3⟩ := logs_snoc h.len e a
  rw [hi hne] at l1
  rw [hc, List.append_nil] at l2
  rw [hf, List.append_nil] at l3
  obtain ⟨l, hl⟩ := site_dbs_grow hs
  have hvis : ∀ j, (S₁.put k v').visit j = if k = j then some v' else S.visit j := by
    intro j
    rw [Site.visit_put ((Draws.visit hd k).trans hv), Draws.visit hd j]
  have hvl : (S₁.put k v').visits.length = S.visits.length := by
    rw [put_visits_length]
    cases hd <;> rfl
  have hsch : (S₁.put k v').schema = S.schema := by cases hd <;> rfl
  have hkl : k < S.visits.length := by
    unfold Site.visit at hv
    by_cases hk : k < S.visits.length
    · exact hk
    · rw [List.getElem?_eq_none (by omega)] at hv; cases hv
  exact
  { len := by simp [h.len]
    known := h.known.step hs
    apart := (a1.hold (g := ⟨k, db, coll, x, did⟩) a2 a3 : Apart S₁ _)
    drawn := by
      intro j u hu
      rw [hvis] at hu
      rw [List.filter_append, List.map_append]
      by_cases ej : k = j
      · subst ej; rw [if_pos rfl] at hu; cases hu; rw [h1, h.drawn k v hv]; simp
      · rw [if_neg ej] at hu; rw [h.drawn j u hu]; simp [ej]
    log := by
      rw [l1, l3, List.filter_append, List.filter_append, List.map_append, h.log]
      congr 1
      by_cases y : k ∈ failedIn es as <;> simp [y]
    found := by
      intro g hg
      rw [hl]
      rcases List.mem_append.mp hg with hg | hg
      · exact collectionIn_all (h.found g hg)
      · rw [List.mem_singleton.mp hg]; exact collectionIn_all hx
    begun := by
      rw [hvl, l2, l3]
      refine ⟨fun g hg => ?_, h.begun.2⟩
      rcases List.mem_append.mp hg with hg | hg
      · exact h.begun.1 g hg
      · rw [List.mem_singleton.mp hg]; exact hkl
    failed := by
      rw [l3, hsch]
      intro j hj u hu
      rw [hvis] at hu
      by_cases ej : k = j
      · subst ej; rw [if_pos rfl] at hu; cases hu
        rw [h2.1, h2.2.1, h2.2.2]; exact h.failed k hj v hv
      · rw [if_neg ej] at hu; exact h.failed j hj u hu
    finished := by
      rw [l2]
      intro j hj
      obtain ⟨⟨f, g1⟩, g2⟩ := h.finished j hj
      refine ⟨⟨f, List.mem_append_left _ g1⟩, fun u hu => ?_⟩
      rw [hvis] at hu
      by_cases ej : k = j
      · subst ej; rw [if_pos rfl] at hu; cases hu; rw [h2.1]; exact g2 v hv
      · rw [if_neg ej] at hu; exact g2 u hu
    disjoint := by rw [l2, l3]; exact h.disjoint }

/-- One event. -/
theorem Keeping.step (h : Keeping S es as G) (hs : S.Walk norm e a S') (hr : ∀ k f, .finish k f ∈ es → e ≠ .commit k) :
    ∃ G, Keeping S' (es ++ [e]) (as ++ [a]) G := by
  have hs₀ := hs
  cases hs with
  | crash hp =>
    cases hp
    have hv : ∀ k, Site.visit ⟨{ state := S.proc.state, last := S.proc.last }, none, none, S.docs,
        S.visits.map (fun _ => (none : Option (Visit D))), fun _ => []⟩ k = none := by
      intro k
      show ((S.visits.map (fun _ => (none : Option (Visit D))))[k]?).join = none
      rw [List.getElem?_map]
      cases S.visits[k]? <;> rfl
    refine ⟨G, h.dull ⟨rfl, rfl, rfl⟩ hs₀ ?_ ?_ ?_ ?_ ?_⟩
    · intro x
      obtain ⟨a1, a2, a3⟩ := h.apart x
      exact ⟨(List.nodup_append.mp a1).2.1, fun v hv => a2 v (List.mem_append_right _ hv), a3⟩
    · intro k v h1; rw [hv k] at h1; cases h1
    · show S.visits.length ≤ (S.visits.map _).length
      rw [List.length_map]; exact Nat.le_refl _
    · intro k _ v h1; rw [hv k] at h1; cases h1
    · intro k _ v h1; rw [hv k] at h1; cases h1
  | ddl hd hc hp =>
    refine ⟨G, h.dull ⟨rfl, rfl, rfl⟩ hs₀ ?_ h.drawn (Nat.le_refl _) h.failed (fun k hk => (h.finished k hk).2)⟩
    intro x
    have := proc_last hp hd
    obtain ⟨a1, a2, a3⟩ := h.apart x
    refine ⟨a1, ?_, ?_⟩
    · show ∀ v ∈ _, _ ∧ _ ≤ Proc.last _ x
      rw [this]; exact a2
    · show 0 ≤ Proc.last _ x
      rw [this]; exact a3
  | ddlNot => exact ⟨G, h.same ⟨rfl, rfl, rfl⟩ hs₀⟩
  | drawNot => exact ⟨G, h.same ⟨rfl, rfl, rfl⟩ hs₀⟩
  | drawRefused => exact ⟨G, h.same ⟨rfl, rfl, rfl⟩ hs₀⟩
  | draw _ hd =>
    have hv := Draws.visit hd
    have h1 : S'.visits.length = S.visits.length ∧ S'.schema = S.schema := by cases hd <;> exact ⟨rfl, rfl⟩
    refine ⟨G, h.dull ⟨rfl, rfl, rfl⟩ hs₀ (h.apart.draws hd).1 ?_ (Nat.le_of_eq h1.1.symm) ?_ ?_⟩
    · intro k v hk; rw [hv] at hk; exact h.drawn k v hk
    · intro k hk v hu; rw [hv] at hu; rw [h1.2]; exact h.failed k hk v hu
    · intro k hk v hu; rw [hv] at hu; exact (h.finished k hk).2 v hu
  | reloadBusy => exact ⟨G, h.same ⟨rfl, rfl, rfl⟩ hs₀⟩
  | reloadSame => exact ⟨G, h.same ⟨rfl, rfl, rfl⟩ hs₀⟩
  | reload => exact ⟨G, h.dull ⟨rfl, rfl, rfl⟩ hs₀ h.apart h.drawn (Nat.le_refl _) h.failed (fun k hk => (h.finished k hk).2)⟩
  | publishNot => exact ⟨G, h.same ⟨rfl, rfl, rfl⟩ hs₀⟩
  | publish hl =>
    refine ⟨G, h.dull ⟨rfl, rfl, rfl⟩ hs₀ h.apart h.drawn (Nat.le_refl _) ?_ (fun k hk => (h.finished k hk).2)⟩
    intro k hk v hv
    rcases h.failed k hk v hv with x | ⟨x, y, z⟩
    · exact .inl x
    · exact .inr ⟨x, y, stale_stays (h.known.visits k v hv) (site_schema_grows h.known hs₀ nofun) z⟩
  | begin =>
    have hn : ∀ {p : Nat → Prop}, (∀ k, p k → k < S.visits.length) → ¬ p S.visits.length := fun q r => by have := q _ r; omega
    refine ⟨G, h.dull ⟨rfl, rfl, rfl⟩ hs₀ h.apart ?_ ?_ ?_ ?_⟩
    · intro k v hv
      rw [visit_append] at hv
      split at hv
      · cases hv
        subst_vars
        rw [List.filter_eq_nil_iff.mpr]
        · rfl
        · intro g hg e
          have := h.begun.1 g hg
          have := of_decide_eq_true e
          omega
      · exact h.drawn k v hv
    · show _ ≤ (S.visits ++ [_]).length
      rw [List.length_append]; omega
    · intro k hk v hv
      have := h.begun.2.1 k hk
      rw [visit_append, if_neg (by omega)] at hv
      exact h.failed k hk v hv
    · intro k hk v hv
      have := h.begun.2.2 k hk
      rw [visit_append, if_neg (by omega)] at hv
      exact (h.finished k hk).2 v hv
  | snapshot hv hp =>
    refine ⟨G, h.put ⟨rfl, rfl, rfl⟩ hv hs₀ rfl ?_ ?_⟩
    · intro hk; rcases h.failed _ hk _ hv with x | ⟨x, -⟩ <;> rw [hp] at x <;> cases x
    · intro hk; have := (h.finished _ hk).2 _ hv; rw [hp] at this; cases this
  | snapshotNot => exact ⟨G, h.same ⟨rfl, rfl, rfl⟩ hs₀⟩
  | insert hv hp hi =>
    cases hi with
    | ok d x did S₁ hn hx hh hd hu =>
      refine ⟨_, h.inserts hv hd hx ?_ rfl rfl hs₀ rfl ⟨rfl, rfl, rfl⟩⟩
      intro hne
      show List.filterMap insertionOf [_] = _
      rw [List.filterMap_cons]
      simp [insertionOf, hne]
    | readOnly d x did S₁ hn hx hh hd hu =>
      have hv := Draws.visit hd
      have h1 : S'.visits.length = S.visits.length ∧ S'.schema = S.schema := by cases hd <;> exact ⟨rfl, rfl⟩
      refine ⟨G, h.dull ⟨rfl, rfl, rfl⟩ hs₀ (h.apart.draws hd).1 ?_ (Nat.le_of_eq h1.1.symm) ?_ ?_⟩
      · intro k v hk; rw [hv] at hk; exact h.drawn k v hk
      · intro k hk v hu; rw [hv] at hu; rw [h1.2]; exact h.failed k hk v hu
      · intro k hk v hu; rw [hv] at hu; exact (h.finished k hk).2 v hu
    | nowhere => exact ⟨G, h.same ⟨rfl, rfl, rfl⟩ hs₀⟩
    | _ => exact ⟨G, h.same ⟨rfl, rfl, rfl⟩ hs₀⟩
  | insertNot => exact ⟨G, h.same ⟨rfl, rfl, rfl⟩ hs₀⟩
  | op hv hp =>
    obtain ⟨k1, k2, k3, k4⟩ := site_operate_keeps (S := S) (norm := norm) _ _ _ _
    refine ⟨G, h.put ⟨rfl, rfl, rfl⟩ hv hs₀ k2 ?_ ?_⟩
    · intro hk; rw [k1, k3, k4]; exact h.failed _ hk _ hv
    · intro hk; rw [k3]; exact (h.finished _ hk).2 _ hv
  | opNot => exact ⟨G, h.same ⟨rfl, rfl, rfl⟩ hs₀⟩
  | discard hv hp => exact ⟨G, h.put ⟨rfl, rfl, rfl⟩ hv hs₀ rfl (fun _ => .inl rfl) (fun _ => rfl)⟩
  | discardNot => exact ⟨G, h.same ⟨rfl, rfl, rfl⟩ hs₀⟩
  | commit hv hp =>
    rename_i k v
    have hnc : k ∉ committedIn es as := by
      intro hk
      obtain ⟨⟨f, h1⟩, -⟩ := h.finished k hk
      exact hr k f h1 rfl
    unfold Site.commits at hs₀ ⊢
    split at hs₀
    · rw [if_pos (by assumption)]
      exact ⟨G, h.same ⟨rfl, rfl, rfl⟩ hs₀⟩
    · rename_i hu
      rw [if_neg hu]
      split at hs₀
      · rename_i hrec
        rw [if_pos hrec]
        refine ⟨_, h.cancel hv rfl rfl rfl hs₀ rfl ?_ hnc⟩
        rcases hp with hp | hp
        · exact .inr ⟨hp, by cases hx : v.update with | true => rfl | false => exact absurd hx hu, hrec⟩
        · exact .inl hp
      · rename_i hrec
        rw [if_neg hrec]
        split at hs₀
        · rw [if_pos (by assumption)]
          exact ⟨G, h.same ⟨rfl, rfl, rfl⟩ hs₀⟩
        · rename_i ho
          rw [if_neg ho]
          refine ⟨G, h.put ⟨rfl, rfl, rfl⟩ hv hs₀ rfl ?_ (fun hk => absurd hk hnc)⟩
          intro hk
          rcases h.failed k hk v hv with x | ⟨-, -, x⟩
          · exact absurd x ho
          · exact absurd x hrec
  | commitNot => exact ⟨G, h.same ⟨rfl, rfl, rfl⟩ hs₀⟩
  | finish hv hp hf =>
    rename_i k v fail r
    cases hf with
    | nothing ht => exact ⟨G, h.commits (A := S.docs) hv hp rfl rfl rfl ⟨_, rfl⟩ hs₀ rfl rfl⟩
    | refused err ht hf =>
      refine ⟨_, h.cancel hv rfl rfl rfl hs₀ rfl (.inl rfl) ?_⟩
      intro hk; have := (h.finished _ hk).2 _ hv; rw [hp] at this; cases this
    | ok A ht hf hm => exact ⟨G, h.commits (A := A) hv hp rfl rfl rfl ⟨_, rfl⟩ hs₀ rfl rfl⟩
  | finishNot => exact ⟨G, h.same ⟨rfl, rfl, rfl⟩ hs₀⟩

theorem Keeping.steps {es' : List (Domain.Ev D)} {as' : List (Domain.Answer D)} (h : S.Walks norm es' as' R) :
    ∀ {es as G}, Keeping S es as G → NoRecommit (es ++ es') → ∃ G, Keeping R (es ++ es') (as ++ as') G := by
  induction h with
  | nil => intro es as G hk _; exact ⟨G, by rw [List.append_nil, List.append_nil]; exact hk⟩
  | cons h1 _ ih =>
    rename_i e a _ es' as' _ _
    intro es as G hk hr
    obtain ⟨G', h2⟩ := hk.step h1 (by
      intro k f hm he
      obtain ⟨l, r, hlr⟩ := List.append_of_mem hm
      refine hr l k f (r ++ e :: es') (by rw [hlr]; simp) ?_
      rw [he]; simp)
    have := ih h2 (by rw [List.append_assoc]; exact hr)
    rw [List.append_assoc, List.append_assoc] at this
    exact this

/-- The ids inserted by transactions that did not fail are different. -/
theorem Keeping.unique (h : Keeping S es as G) (db coll : Bytes) :
    (((insertions es as).filter (fun i => decide (i.db = db ∧ i.coll = coll ∧ i.txn ∉ failedIn es as))).map (·.did)).Nodup := by
  have e : (insertions es as).filter (fun i => decide (i.db = db ∧ i.coll = coll ∧ i.txn ∉ failedIn es as)) =
      ((G.filter (fun g => decide (g.db = db ∧ g.coll = coll))).filter (fun g => !decide (g.txn ∈ failedIn es as))).map
        (fun g => ⟨g.txn, g.db, g.coll, g.did⟩) := by
    have := congrArg (fun l => l.filter (fun i => decide (i.db = db ∧ i.coll = coll))) h.log
    simp only [List.filter_map, List.filter_filter] at this
    rw [List.filter_filter]
    refine Eq.trans ?_ (this.trans ?_)
    · refine List.filter_congr fun i _ => ?_
      by_cases x : i.db = db <;> by_cases y : i.coll = coll <;> by_cases z : i.txn ∈ failedIn es as <;> simp [x, y, z]
    · congr 1
      refine List.filter_congr fun g _ => ?_
      show (decide (g.db = db ∧ g.coll = coll) && !decide (g.txn ∈ failedIn es as)) = _
      rw [Bool.and_comm]
  rw [e, List.map_map]
  cases hx : collectionIn S.proc.state.dbs (some S.proc.state.dbs.length) db coll with
  | none =>
    have hnil : G.filter (fun g => decide (g.db = db ∧ g.coll = coll)) = [] := by
      refine List.filter_eq_nil_iff.mpr fun g hg hgx => ?_
      have h1 := of_decide_eq_true hgx
      have := h.found g hg
      rw [h1.1, h1.2, hx] at this
      cases this
    rw [hnil]
    exact List.nodup_nil
  | some x =>
    have h1 := (List.nodup_append.mp (h.apart x).1).2.1
    refine List.Nodup.sublist ?_ h1
    unfold idsHeld
    refine List.Sublist.map _ (List.Sublist.trans List.filter_sublist ?_)
    have : G.filter (fun g => decide (g.db = db ∧ g.coll = coll)) =
        (G.filter (fun g => decide (g.cid = x))).filter (fun g => decide (g.db = db ∧ g.coll = coll)) := by
      rw [List.filter_filter]
      refine List.filter_congr fun g hg => ?_
      by_cases y : g.db = db ∧ g.coll = coll
      · have := h.found g hg
        rw [y.1, y.2, hx] at this
        cases this
        simp
      · simp [y]
    rw [this]
    exact List.filter_sublist

end Mondis.Props
