import Verif.Spec.Domain
import Verif.Lemmas.DdlHistory
import Verif.Props.Schema
/-!
# The document process: what a loaded schema says
-/
namespace Mondis.Props
open Mondis Spec Schema Meta Ddl Domain

/-! ### Databases without states -/

theorem mapVals_mapVals {U V W : Type} (f : V → W) (g : U → V) (m : OMap U) : mapVals f (mapVals g m) = mapVals (fun x => f (g x)) m := by
  obtain ⟨l, hs⟩ := m
  simp [mapVals, List.map_map, Function.comp_def]

theorem mapVals_congr {V W : Type} {f g : V → W} (h : ∀ x, f x = g x) (m : OMap V) : mapVals f m = mapVals g m := by
  rw [show f = g from funext h]

theorem blankColl_public (c : CollectionInfo) : blankColl (publicColl c) = blankColl c := by
  unfold blankColl publicColl
  cases c.indices with
  | none => rfl
  | some m => simp only [Option.map_some, Option.getD_some, mapVals_mapVals]; rfl

theorem blankColl_clone (c : CollectionInfo) : blankColl c.clone = blankColl c := rfl

theorem blank_public (d : DBInfo) : blankDB (publicDB d) = blankDB d := by
  unfold blankDB publicDB
  simp only [mapVals_mapVals]
  rw [mapVals_congr blankColl_public]

theorem blank_clone (d : DBInfo) : blankDB d.clone = blankDB d := by
  unfold blankDB
  have : d.clone.collections = mapVals CollectionInfo.clone d.collections := rfl
  rw [this, mapVals_mapVals, mapVals_congr blankColl_clone]
  rfl

theorem blank_coll_id {d : DBInfo} (n : Bytes) : ((blankDB d).collections.get n).map (·.id) = (d.collections.get n).map (·.id) := by
  simp only [blankDB, get_mapVals]
  cases d.collections.get n <;> rfl

/-! ### Pictures -/

/-- The cache shows the first `n` databases, and records the creation of those after `v₀`. -/
structure Pic (dbs : List DBInfo) (v₀ n : Nat) (c : MetaCache) : Prop where
  pos : 0 < n
  le : n ≤ dbs.length
  low : v₀ ≤ n
  version : c.version = n
  log : ∃ log, Sch.Win v₀ log c ∧ ∀ (i : Nat) (d : SchemaDiff), log[i]? = some d →
    ∃ x, dbs[v₀ + i]? = some x ∧ d.collectionIDs.Perm (x.collections.ents.map (fun e => e.2.id))
  dbs : ∀ name, (c.db name).map blankDB = ((dbs.take n).find? (fun d => decide (d.name = name))).map blankDB

theorem Pic.append {dbs : List DBInfo} {v₀ n : Nat} {c : MetaCache} (h : Pic dbs v₀ n c) (l : List DBInfo) :
    Pic (dbs ++ l) v₀ n c where
  pos := h.pos
  le := by have := h.le; simp only [List.length_append]; omega
  low := h.low
  version := h.version
  log := by
    obtain ⟨log, hw, hl⟩ := h.log
    refine ⟨log, hw, fun i d hi => ?_⟩
    obtain ⟨x, h1, h2⟩ := hl i d hi
    refine ⟨x, ?_, h2⟩
    rw [List.getElem?_append_left (List.getElem?_eq_some_iff.mp h1).1]
    exact h1
  dbs := by
    intro name
    rw [h.dbs name, List.take_append_of_le_length h.le]

/-- A collection is found in the cache as in the databases it shows. -/
theorem Pic.collection {dbs : List DBInfo} {v₀ n : Nat} {c : MetaCache} (h : Pic dbs v₀ n c) (db coll : Bytes) :
    (MetaCache.collectionInfo (some c) db coll).map (·.id) = collectionIn dbs (some n) db coll := by
  have hd := h.dbs db
  unfold collectionIn MetaCache.collectionInfo
  simp only [Option.bind_some]
  cases h1 : c.db db with
  | none =>
    cases h2 : (dbs.take n).find? (fun d => decide (d.name = db)) with
    | none => rfl
    | some y => rw [h1, h2] at hd; cases hd
  | some x =>
    cases h2 : (dbs.take n).find? (fun d => decide (d.name = db)) with
    | none => rw [h1, h2] at hd; cases hd
    | some y =>
      rw [h1, h2] at hd
      simp only [Option.map_some, Option.some.injEq] at hd
      simp only [Option.bind_some]
      rw [← blank_coll_id (d := x), hd, blank_coll_id]

/-- The same for a database. -/
theorem Pic.found {dbs : List DBInfo} {v₀ n : Nat} {c : MetaCache} (h : Pic dbs v₀ n c) (name : Bytes) :
    (c.db name).isSome = true ↔ ∃ d ∈ dbs.take n, d.name = name := by
  have hd := congrArg Option.isSome (h.dbs name)
  simp only [Option.isSome_map] at hd
  rw [hd, List.find?_isSome]
  simp

/-! ### Loading -/

variable {A : DState} {M : MState}

theorem from_map {v : Nat} {ds : List StoredDiff}
    (h : ∀ (i : Nat) (d : StoredDiff), ds[i]? = some d → d.version = Int64.ofNat (v + i + 1)) (hb : v + ds.length < 2 ^ 63) :
    Sch.From (v + 1) (ds.map StoredDiff.toDiff) := by
  intro i d hi
  rw [List.getElem?_map] at hi
  cases hd : ds[i]? with
  | none => rw [hd] at hi; cases hi
  | some x =>
    rw [hd] at hi
    have hlt := (List.getElem?_eq_some_iff.mp hd).1
    cases hi
    show x.version.toInt = _
    rw [h i x hd, Int64.toInt_ofNat_of_lt (by omega)]
    omega

theorem acceptable_of (xs : List DBInfo) (ds : List SchemaDiff) (names : Bytes → Bool) (hl : ds.length = xs.length)
    (h : ∀ (i : Nat) (d : SchemaDiff) (x : DBInfo), ds[i]? = some d → xs[i]? = some x → d.type = .createSchema ∧ d.arg = some x)
    (hn : ∀ x ∈ xs, names x.name = false) (hd : (xs.map (·.name)).Nodup) : Sch.Acceptable names ds := by
  induction xs generalizing ds names with
  | nil => cases ds with
    | nil => trivial
    | cons _ _ => cases hl
  | cons x xs ih => cases ds with
    | nil => cases hl
    | cons d ds =>
      obtain ⟨h1, h2⟩ := h 0 d x rfl rfl
      rw [List.map_cons, List.nodup_cons] at hd
      refine ⟨h1, x, h2, hn x (by simp), ih ds _ (by simpa using hl) (fun i d x hd hx => h (i + 1) d x hd hx) ?_ hd.2⟩
      intro y hy
      rw [Bool.or_eq_false_iff]
      refine ⟨hn y (by simp [hy]), decide_eq_false ?_⟩
      intro e
      exact hd.1 (by rw [← e]; exact List.mem_map_of_mem hy)

theorem addDBs_of (xs : List DBInfo) (ds : List SchemaDiff) (f : Bytes → Option DBInfo) (hl : ds.length = xs.length)
    (h : ∀ (i : Nat) (d : SchemaDiff) (x : DBInfo), ds[i]? = some d → xs[i]? = some x → d.arg = some x)
    (hd : (xs.map (·.name)).Nodup) (n : Bytes) :
    Sch.addDBs f ds n = ((xs.find? (fun d => decide (d.name = n))).or (f n)) := by
  induction xs generalizing ds f with
  | nil => cases ds with
    | nil => rfl
    | cons _ _ => cases hl
  | cons x xs ih => cases ds with
    | nil => cases hl
    | cons d ds =>
      have h2 := h 0 d x rfl rfl
      rw [List.map_cons, List.nodup_cons] at hd
      simp only [Sch.addDBs, h2]
      rw [ih ds _ (by simpa using hl) (fun i d x hd hx => h (i + 1) d x hd hx) hd.2]
      by_cases e : x.name = n
      · rw [if_pos e.symm, List.find?_cons_of_pos (by simp [e])]
        have : xs.find? (fun d => decide (d.name = n)) = none := by
          rw [List.find?_eq_none]
          intro y hy he
          exact hd.1 (by rw [e, ← of_decide_eq_true he]; exact List.mem_map_of_mem hy)
        rw [this]; rfl
      · rw [if_neg (fun h => e h.symm), List.find?_cons_of_neg (by simp [e])]

theorem runs_loadDiffs (h : A.Holds M) (k v : Nat) (hk : v + k ≤ A.dbs.length) :
    ∃ ds, Runs (loadDiffs k (Int64.ofNat v)) M k (.ok (some ds)) M ∧ ds.length = k ∧
      ∀ (i : Nat) (d : StoredDiff), ds[i]? = some d → ∃ x ids, A.dbs[v + i]? = some x ∧
        ids.Perm (x.collections.ents.map (fun e => e.2.id)) ∧ d = ⟨Int64.ofNat (v + i + 1), .createSchema, ids, .db x⟩ := by
  induction k generalizing v with
  | zero => exact ⟨[], Runs.pure _ _, rfl, by simp⟩
  | succ k ih =>
    have hlt : v < A.dbs.length := by omega
    obtain ⟨ids, hp, hd⟩ := h.diff v _ (List.getElem?_eq_getElem hlt)
    obtain ⟨ds, h1, h2, h3⟩ := ih (v + 1) (by omega)
    have hone : Runs (Client.one (.getSchemaDiff (Int64.ofNat v + 1))) M 1
        (.ok (some ⟨Int64.ofNat (v + 1), .createSchema, ids, .db A.dbs[v]⟩)) M := by
      refine Runs.one trivial ?_
      rw [show Int64.ofNat v + 1 = Int64.ofNat (v + 1) from (Int64.ofNat_add v 1).symm]
      simp only [MetaCall.sem, hd]
    refine ⟨⟨Int64.ofNat (v + 1), .createSchema, ids, .db A.dbs[v]⟩ :: ds, ?_, by simp [h2], ?_⟩
    · unfold loadDiffs
      rw [← show Int64.ofNat v + 1 = Int64.ofNat (v + 1) from (Int64.ofNat_add v 1).symm] at h1
      refine Runs.mono (Runs.bind hone (Runs.bind (n := k) (m := 0) (a := some ds) h1 (Runs.pure _ _))) (by omega)
    · intro i d hi
      cases i with
      | zero =>
        simp only [List.getElem?_cons_zero, Option.some.injEq] at hi
        exact ⟨_, ids, List.getElem?_eq_getElem hlt, hp, hi.symm⟩
      | succ i =>
        obtain ⟨x, ids, e1, e2, e3⟩ := h3 i d (by simpa using hi)
        exact ⟨x, ids, by rw [← e1]; congr 1; omega, e2, by rw [e3]; congr 2; omega⟩

theorem same_name {l : List DBInfo} (hn : (l.map (·.name)).Nodup) {d x : DBInfo} (hd : d ∈ l) (hx : x ∈ l) (e : d.name = x.name) :
    d = x := by
  induction l with
  | nil => cases hd
  | cons a l ih =>
    rw [List.map_cons, List.nodup_cons] at hn
    rcases List.mem_cons.mp hd with rfl | hd
    · rcases List.mem_cons.mp hx with rfl | hx
      · rfl
      · exact absurd (by rw [e]; exact List.mem_map_of_mem hx) hn.1
    · rcases List.mem_cons.mp hx with hx | hx
      · exact absurd (by rw [← hx, ← e]; exact List.mem_map_of_mem (by assumption)) hn.1
      · exact ih hn.2 (by assumption) hx

/-- A full load. -/
theorem pic_new (hs : A.Sane) (h : A.Holds M) (hpos : 0 < A.dbs.length) :
    Pic A.dbs A.dbs.length A.dbs.length (MetaCache.new (A.dbs.length : Int) (M.dbs.ents.map Prod.snd)) where
  pos := hpos
  le := Nat.le_refl _
  low := Nat.le_refl _
  version := rfl
  log := ⟨[], Sch.Win.new _ _, by simp⟩
  dbs := by
    intro name
    rw [List.take_length]
    have key : ∀ (l : List DBInfo) (m : OMap DBInfo), (l.map (·.name)).Nodup →
        (l.foldl (fun m d => m.set d.name d.clone) m).get name =
          ((l.find? (fun d => decide (d.name = name))).map DBInfo.clone).or (m.get name) := by
      intro l
      induction l with
      | nil => intro m _; rfl
      | cons x l ih =>
        intro m hd
        rw [List.map_cons, List.nodup_cons] at hd
        rw [List.foldl_cons, ih _ hd.2, OMap.get_set]
        by_cases e : x.name = name
        · rw [if_pos e, List.find?_cons_of_pos (by simp [e])]
          have : l.find? (fun d => decide (d.name = name)) = none := by
            rw [List.find?_eq_none]
            intro y hy he
            exact hd.1 (by rw [e, ← of_decide_eq_true he]; exact List.mem_map_of_mem hy)
          rw [this]; rfl
        · rw [if_neg e, List.find?_cons_of_neg (by simp [e])]
    have hnd : ((M.dbs.ents.map Prod.snd).map (·.name)).Nodup := by
      have hp : (M.dbs.ents.map Prod.snd).Perm (A.dbs.map publicDB) := by
        apply (List.perm_ext_iff_of_nodup _ _).mpr
        · intro p
          rw [mem_listing h, List.mem_map]
          constructor
          · rintro ⟨d, hd, rfl⟩; exact ⟨d, hd, rfl⟩
          · rintro ⟨d, hd, rfl⟩; exact ⟨d, hd, rfl⟩
        · rw [List.Nodup, List.pairwise_map]
          have hkeys := M.dbs.sorted
          refine hkeys.imp_of_mem ?_
          intro a b ha hb hlt e
          obtain ⟨d, hd, e1, e2⟩ := (h.dbs a.1 a.2).mp (OMap.mem_get ha)
          obtain ⟨d', hd', e1', e2'⟩ := (h.dbs b.1 b.2).mp (OMap.mem_get hb)
          have : d.id = d'.id := by
            have e3 : (openDB d).id = (openDB d').id := by rw [← e2, ← e2', e]
            exact e3
          rw [e1, e1', this] at hlt
          exact List.lt_irrefl _ hlt
        · have : ((A.dbs.map publicDB).map (·.name)).Nodup := by
            rw [List.map_map]; exact hs.names
          rw [List.Nodup, List.pairwise_map] at this
          exact this.imp (fun h e => h (by rw [e]))
      have := hp.map (·.name)
      refine this.nodup_iff.mpr ?_
      rw [List.map_map]; exact hs.names
    show Option.map blankDB (((M.dbs.ents.map Prod.snd).foldl (fun m d => m.set d.name d.clone) OMap.empty).get name) = _
    rw [key _ _ hnd, OMap.get_empty, Option.or_none]
    have hf : (M.dbs.ents.map Prod.snd).find? (fun d => decide (d.name = name)) =
        (A.dbs.find? (fun d => decide (d.name = name))).map publicDB := by
      cases hx : A.dbs.find? (fun d => decide (d.name = name)) with
      | none =>
        rw [List.find?_eq_none] at hx
        rw [Option.map_none, List.find?_eq_none]
        intro p hp
        obtain ⟨d, hd, rfl⟩ := (mem_listing h p).mp hp
        exact hx d hd
      | some x =>
        have hm := List.mem_of_find?_eq_some hx
        have hxn : x.name = name := of_decide_eq_true (List.find?_some (p := fun d : DBInfo => decide (d.name = name)) hx)
        rw [Option.map_some]
        cases hy : (M.dbs.ents.map Prod.snd).find? (fun d => decide (d.name = name)) with
        | none =>
          rw [List.find?_eq_none] at hy
          exact absurd (decide_eq_true (p := (publicDB x).name = name) hxn) (hy _ ((mem_listing h _).mpr ⟨x, hm, rfl⟩))
        | some y =>
          obtain ⟨d, hd, rfl⟩ := (mem_listing h y).mp (List.mem_of_find?_eq_some hy)
          have hyn : (publicDB d).name = name := of_decide_eq_true (List.find?_some (p := fun d : DBInfo => decide (d.name = name)) hy)
          have : d = x := same_name hs.names hd hm (hyn.trans hxn.symm)
          rw [this]
    rw [hf]
    cases A.dbs.find? (fun d => decide (d.name = name)) with
    | none => rfl
    | some x => simp [blank_clone, blank_public]

/-- Diffs applied. -/
theorem pic_apply (hs : A.Sane) {v₀ n : Nat} {c : MetaCache} (hp : Pic A.dbs v₀ n c) (hlen : A.dbs.length < 2 ^ 63)
    (hlt : n < A.dbs.length) {ds : List StoredDiff} (hl : ds.length = A.dbs.length - n)
    (hd : ∀ (i : Nat) (d : StoredDiff), ds[i]? = some d → ∃ x ids, A.dbs[n + i]? = some x ∧
      ids.Perm (x.collections.ents.map (fun e => e.2.id)) ∧ d = ⟨Int64.ofNat (n + i + 1), .createSchema, ids, .db x⟩) :
    ∃ c', (MetaCache.clone (some c)).applyDiffs (ds.map StoredDiff.toDiff) = .ok c' ∧ Pic A.dbs v₀ A.dbs.length c' := by
  obtain ⟨log, hw, hlog⟩ := hp.log
  have hwc := hw.clone
  have hll : (log.length : Int) = n - v₀ := by have := hw.version; rw [hp.version] at this; omega
  have hnext : (MetaCache.clone (some c)).diffStartVersion + (MetaCache.clone (some c)).schemaDiffs.length = (n : Int) + 1 := by
    rw [hwc.next]; omega
  have hfrom : Sch.From ((MetaCache.clone (some c)).diffStartVersion + (MetaCache.clone (some c)).schemaDiffs.length)
      (ds.map StoredDiff.toDiff) := by
    rw [hnext]
    refine from_map (fun i d hi => ?_) (by omega)
    obtain ⟨x, ids, -, -, rfl⟩ := hd i d hi; rfl
  have hxs : ∀ (i : Nat) (d : SchemaDiff) (x : DBInfo), (ds.map StoredDiff.toDiff)[i]? = some d → (A.dbs.drop n)[i]? = some x →
      d.type = .createSchema ∧ d.arg = some x ∧ d.collectionIDs.Perm (x.collections.ents.map (fun e => e.2.id)) := by
    intro i d x h1 h2
    rw [List.getElem?_map] at h1
    cases hi : ds[i]? with
    | none => rw [hi] at h1; cases h1
    | some y =>
      rw [hi] at h1; cases h1
      obtain ⟨x', ids, e1, e2, rfl⟩ := hd i y hi
      rw [List.getElem?_drop, e1] at h2
      cases h2
      exact ⟨rfl, rfl, e2⟩
  have hnd : ((A.dbs.take n ++ A.dbs.drop n).map (·.name)).Nodup := by rw [List.take_append_drop]; exact hs.names
  rw [List.map_append, List.nodup_append] at hnd
  have hacc : Sch.Acceptable (fun nm => ((MetaCache.clone (some c)).db nm).isSome) (ds.map StoredDiff.toDiff) := by
    refine acceptable_of (A.dbs.drop n) _ _ (by simp [hl]) (fun i d x h1 h2 => ⟨(hxs i d x h1 h2).1, (hxs i d x h1 h2).2.1⟩) ?_ hnd.2.1
    intro x hx
    rw [Sch.clone_db, Option.isSome_map, Bool.eq_false_iff]
    intro hso
    obtain ⟨d, hd1, hd2⟩ := (hp.found x.name).mp hso
    exact hnd.2.2 _ (List.mem_map_of_mem hd1) _ (List.mem_map_of_mem hx) hd2
  have hne : ds.map StoredDiff.toDiff ≠ [] := by
    intro e
    rw [List.map_eq_nil_iff] at e
    rw [e] at hl; simp at hl; omega
  obtain ⟨c', hc'⟩ := (Sch.apply_ok_iff _ _ hwc.dbs).mpr ⟨hne, hfrom, hacc⟩
  refine ⟨c', hc', ?_⟩
  have hw' := hwc.apply hc'
  refine ⟨by omega, Nat.le_refl _, by have := hp.low; omega, ?_, ⟨_, hw', ?_⟩, ?_⟩
  · rw [hw'.version, List.length_append, List.length_map, hl]; omega
  · intro i d hi
    rw [List.getElem?_append] at hi
    split at hi
    · exact hlog i d hi
    · rename_i hge
      have hi' : i - log.length < ds.length := by
        have := (List.getElem?_eq_some_iff.mp hi).1; simpa using this
      have hi2 : i - log.length < (A.dbs.drop n).length := by simp; omega
      have e1 := List.getElem?_eq_getElem hi2
      obtain ⟨-, -, h3⟩ := hxs _ d _ hi e1
      refine ⟨_, ?_, h3⟩
      rw [← e1, List.getElem?_drop]
      congr 1
      omega
  · intro name
    rw [List.take_length, Sch.C50_databases _ _ _ hwc.dbs hc' name,
      addDBs_of (A.dbs.drop n) _ _ (by simp [hl]) (fun i d x h1 h2 => (hxs i d x h1 h2).2.1) hnd.2.1]
    have hsplit : A.dbs.find? (fun d => decide (d.name = name)) =
        ((A.dbs.take n).find? (fun d => decide (d.name = name))).or ((A.dbs.drop n).find? (fun d => decide (d.name = name))) := by
      rw [← List.find?_append, List.take_append_drop]
    have hcl : ((MetaCache.clone (some c)).db name).map blankDB =
        ((A.dbs.take n).find? (fun d => decide (d.name = name))).map blankDB := by
      rw [Sch.clone_db, ← hp.dbs name]
      cases c.db name with
      | none => rfl
      | some x => simp [blank_clone]
    rw [hsplit]
    cases h1 : (A.dbs.take n).find? (fun d => decide (d.name = name)) with
    | none =>
      rw [h1] at hcl
      have : (MetaCache.clone (some c)).db name = none := by
        cases hx : (MetaCache.clone (some c)).db name with
        | none => rfl
        | some x => rw [hx] at hcl; cases hcl
      rw [this]; simp
    | some x =>
      have h2 : (A.dbs.drop n).find? (fun d => decide (d.name = name)) = none := by
        rw [List.find?_eq_none]
        intro y hy he
        have hxn : x.name = name := of_decide_eq_true (List.find?_some (p := fun d : DBInfo => decide (d.name = name)) h1)
        exact hnd.2.2 _ (List.mem_map_of_mem (List.mem_of_find?_eq_some h1)) _ (List.mem_map_of_mem hy)
          (hxn.trans (of_decide_eq_true (p := y.name = name) he).symm)
      rw [h2, Option.none_or, hcl, h1, Option.or_none]
/-! ### Reloading -/

theorem version_eq {a b : Nat} (ha : a < 2 ^ 63) (hb : b < 2 ^ 63) : Int64.ofNat a = Int64.ofNat b ↔ a = b := by
  constructor
  · intro e
    have := congrArg Int64.toInt e
    rw [Int64.toInt_ofNat_of_lt ha, Int64.toInt_ofNat_of_lt hb] at this
    omega
  · rintro rfl; rfl

/-- A reload when no schema was loaded yet. -/
theorem runs_reload_none (hs : A.Sane) (h : A.Holds M) (hlen : A.dbs.length < 2 ^ 63) :
    (A.dbs.length = 0 ∧ Runs (reloadSchema none) M 102 (.ok none) M) ∨
    (0 < A.dbs.length ∧ ∃ c, Runs (reloadSchema none) M 102 (.ok (some c)) M ∧ Pic A.dbs A.dbs.length A.dbs.length c) := by
  have hv : Runs (Client.one .getSchemaVersion) M 1 (.ok (Int64.ofNat A.dbs.length)) M :=
    Runs.one trivial (by simp only [MetaCall.sem, h.version])
  have h0 : (0 : Int64) = Int64.ofNat 0 := rfl
  by_cases hz : A.dbs.length = 0
  · refine .inl ⟨hz, ?_⟩
    unfold reloadSchema
    refine Runs.mono (Runs.bind (m := 0) hv ?_) (by omega)
    rw [if_pos (by rw [hz]; rfl)]
    exact Runs.pure _ _
  · refine .inr ⟨by omega, _, ?_, pic_new hs h (by omega)⟩
    unfold reloadSchema
    have hl : Runs (Client.one .listDatabases) M 1 (.ok (M.dbs.ents.map Prod.snd)) M := Runs.one trivial rfl
    refine Runs.mono (Runs.bind (m := 1) hv ?_) (by omega)
    rw [if_neg (by rw [h0, version_eq (by omega) hlen]; omega)]
    refine Runs.mono (Runs.bind (n := 0) (m := 1) (a := none) (M' := M) ?_ ?_) (by omega)
    · unfold tryLoadSchemaDiff
      rw [if_pos (.inl rfl)]
      exact Runs.pure _ _
    · refine Runs.mono (Runs.bind (n := 1) (m := 0) hl ?_) (by omega)
      rw [Int64.toInt_ofNat_of_lt hlen]
      exact Runs.pure _ _

/-- A reload when a schema is published. -/
theorem runs_reload_some (hs : A.Sane) (h : A.Holds M) (hlen : A.dbs.length < 2 ^ 63) {v₀ n : Nat} {c₀ : MetaCache}
    (hp : Pic A.dbs v₀ n c₀) :
    (A.dbs.length = n ∧ Runs (reloadSchema (some c₀)) M 102 (.ok none) M) ∨
    (n < A.dbs.length ∧ ∃ c v₁, Runs (reloadSchema (some c₀)) M 102 (.ok (some c)) M ∧ Pic A.dbs v₁ A.dbs.length c ∧
      (v₁ = v₀ ∨ n + 100 < A.dbs.length)) := by
  have hv : Runs (Client.one .getSchemaVersion) M 1 (.ok (Int64.ofNat A.dbs.length)) M :=
    Runs.one trivial (by simp only [MetaCall.sem, h.version])
  have h0 : (0 : Int64) = Int64.ofNat 0 := rfl
  have hn := hp.le
  have hpos := hp.pos
  have hver : Int64.ofInt c₀.version = Int64.ofNat n := by rw [hp.version]; exact Int64.ofInt_eq_ofNat
  have hsub : (Int64.ofNat A.dbs.length - Int64.ofNat n).toInt = A.dbs.length - n := by
    rw [Structure.toInt_sub, Int64.toInt_ofNat_of_lt hlen, Int64.toInt_ofNat_of_lt (by omega)]
    all_goals rw [Int64.toInt_ofNat_of_lt hlen, Int64.toInt_ofNat_of_lt (by omega)]; omega
  by_cases hz : A.dbs.length = n
  · refine .inl ⟨hz, ?_⟩
    unfold reloadSchema
    refine Runs.mono (Runs.bind (m := 0) hv ?_) (by omega)
    rw [if_pos (by rw [hz]; exact hver)]
    exact Runs.pure _ _
  · refine .inr ⟨by omega, ?_⟩
    have hne : ¬ Int64.ofInt c₀.version = Int64.ofNat A.dbs.length := by
      rw [hver, version_eq (by omega) hlen]; omega
    by_cases hfar : n + 100 < A.dbs.length
    · refine ⟨_, _, ?_, pic_new hs h (by omega), .inr hfar⟩
      unfold reloadSchema
      have hl : Runs (Client.one .listDatabases) M 1 (.ok (M.dbs.ents.map Prod.snd)) M := Runs.one trivial rfl
      refine Runs.mono (Runs.bind (m := 1) hv ?_) (by omega)
      rw [if_neg hne]
      refine Runs.mono (Runs.bind (n := 0) (m := 1) (a := none) (M' := M) ?_ ?_) (by omega)
      · unfold tryLoadSchemaDiff
        have hgt : Int64.ofNat A.dbs.length - Int64.ofInt c₀.version > maxNumberOfDiffsToLoad := by
          show maxNumberOfDiffsToLoad < _
          rw [Int64.lt_iff_toInt_lt, hver, hsub]
          show (100 : Int) < _
          omega
        rw [if_pos (.inr hgt)]
        exact Runs.pure _ _
      · refine Runs.mono (Runs.bind (n := 1) (m := 0) hl ?_) (by omega)
        rw [Int64.toInt_ofNat_of_lt hlen]
        exact Runs.pure _ _
    · obtain ⟨ds, h1, h2, h3⟩ := runs_loadDiffs h (A.dbs.length - n) n (by omega)
      obtain ⟨c, hc, hpc⟩ := pic_apply hs hp hlen (by omega) h2 h3
      refine ⟨c, v₀, ?_, hpc, .inl rfl⟩
      unfold reloadSchema
      refine Runs.mono (Runs.bind (m := A.dbs.length - n) hv ?_) (by omega)
      rw [if_neg hne]
      refine Runs.mono (Runs.bind (n := A.dbs.length - n) (m := 0) (a := some ds) (M' := M) ?_ ?_) (by omega)
      · show Runs (tryLoadSchemaDiff (Int64.ofInt c₀.version) _) _ _ _ _
        unfold tryLoadSchemaDiff
        rw [if_neg, if_neg]
        · rw [Int64.toInt_ofNat_of_lt hlen, hver, Int64.toInt_ofNat_of_lt (by omega),
            show ((A.dbs.length : Int) - n).toNat = A.dbs.length - n by omega]
          exact h1
        · rw [Int64.lt_iff_toInt_lt, hver, hsub]
          show ¬ _ < (0 : Int)
          omega
        · rintro (e | e)
          · rw [hver, h0, version_eq (by omega) (by omega)] at e; omega
          · have e : maxNumberOfDiffsToLoad < _ := e
            rw [Int64.lt_iff_toInt_lt, hver, hsub] at e
            have e : (100 : Int) < _ := e
            omega
      · simp only [hc]
        exact Runs.pure _ _

theorem only_loadDiffs (n : Nat) (v : Int64) : (loadDiffs n v).Only (fun _ c => c.writes = false) := by
  induction n generalizing v with
  | zero => trivial
  | succ n ih =>
    unfold loadDiffs
    refine .bind (Client.only_one rfl) fun r => ?_
    cases r with
    | none => trivial
    | some d =>
      refine .bind (ih _) fun r => ?_
      cases r <;> trivial

theorem only_try (x kv : Int64) : (tryLoadSchemaDiff x kv).Only (fun _ c => c.writes = false) := by
  unfold tryLoadSchemaDiff
  by_cases h1 : x = 0 ∨ kv - x > maxNumberOfDiffsToLoad
  · rw [if_pos h1]; trivial
  · rw [if_neg h1]
    by_cases h2 : kv - x < 0
    · rw [if_pos h2]; trivial
    · rw [if_neg h2]; exact only_loadDiffs _ _

theorem only_reload (c : Option MetaCache) : (reloadSchema c).Only (fun _ c => c.writes = false) := by
  unfold reloadSchema
  refine .bind (Client.only_one rfl) fun kv => ?_
  by_cases hx : (match c with | some c => Int64.ofInt c.version | none => (0 : Int64)) = kv
  · exact cast (congrArg _ (if_pos hx).symm) (trivial : (pure none : Client (Option MetaCache)).Only (fun _ c => c.writes = false))
  · refine cast (congrArg _ (if_neg hx).symm) (?_ : Client.Only (fun _ c => c.writes = false) _)
    refine .bind (only_try _ _) fun r => ?_
    cases r with
    | none => exact .bind (Client.only_one rfl) fun _ => trivial
    | some ds =>
      dsimp only
      split <;> trivial

/-- What a reload reads. -/
theorem reload_reads (J : Json) {B : Nat} {db : DB} {c : Option MetaCache} {r : Res (Option MetaCache)} (h : Keeps J B M db)
    (hr : Runs (reloadSchema c) M 102 r M) (hB : B + 204 < 2 ^ 63) (env : Env) :
    ((⟨false, env, none, reloadSchema c⟩ : MetaTxn (Option MetaCache)).run J db).1 = r := by
  have := (txn_calm J ⟨false, env, none, reloadSchema c⟩ h hr.2.1 (by have := hr.2.2; show B + 2 * (reloadSchema c).calls M < _; omega)
    (.inr ⟨rfl, only_reload c⟩)).1
  rw [this]
  show ((reloadSchema c).sem M).1 = r
  rw [hr.1]

end Mondis.Props
