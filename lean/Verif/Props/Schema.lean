import Verif.Model.Schema
/-!
# C50, C51, C52: the schema cache and the commit-time check
-/
namespace Mondis.Props
open Mondis.Schema

namespace Sch
open MetaCache Handle

/-- What the domain does with each batch of diffs it loads: clone the published cache, apply, publish
(domain.go:132-140). -/
def applyAll : MetaCache → List (List SchemaDiff) → Res MetaCache
  | c, [] => .ok c
  | c, b :: bs => do
    let c ← (clone (some c)).applyDiffs b
    applyAll c bs

/-- The window of a cache that was loaded in full at version `v₀` and has applied `log` since. -/
structure Win (v₀ : Int) (log : List SchemaDiff) (c : MetaCache) : Prop where
  versions : ∀ (i : Nat) (d : SchemaDiff), log[i]? = some d → d.version = v₀ + 1 + i
  version : c.version = v₀ + log.length
  diffs : c.schemaDiffs = (log.drop (log.length - 100)).map SchemaDiff.collectionIDs
  start : c.diffStartVersion = c.version + 1 - c.schemaDiffs.length
  dbs : c.dbs ≠ none

theorem consecutive_iff (l : List SchemaDiff) :
    consecutive l = true ↔ ∀ (i : Nat) (a b : SchemaDiff), l[i]? = some a → l[i + 1]? = some b → a.version + 1 = b.version := by
  induction l with
  | nil => simp [consecutive]
  | cons a l ih =>
    cases l with
    | nil =>
      simp only [consecutive, true_iff]
      intro i x y h1 h2
      simp at h2
    | cons b l =>
      simp only [consecutive, Bool.and_eq_true, decide_eq_true_eq, ih]
      constructor
      · rintro ⟨h1, h2⟩ i x y hx hy
        cases i with
        | zero => simp at hx hy; subst hx; subst hy; exact h1
        | succ i => exact h2 i x y (by simpa using hx) (by simpa using hy)
      · intro h
        refine ⟨h 0 a b (by simp) (by simp), ?_⟩
        intro i x y hx hy
        exact h (i + 1) x y (by simpa using hx) (by simpa using hy)

/-- Consecutive diffs starting at `v`. -/
def From (v : Int) (l : List SchemaDiff) : Prop := ∀ (i : Nat) (d : SchemaDiff), l[i]? = some d → d.version = v + i

theorem from_iff (v : Int) (d : SchemaDiff) (l : List SchemaDiff) :
    From v (d :: l) ↔ d.version = v ∧ From (v + 1) l := by
  constructor
  · intro h
    refine ⟨by simpa using h 0 d (by simp), ?_⟩
    intro i x hx
    have := h (i + 1) x (by simpa using hx)
    rw [this]; push_cast; omega
  · rintro ⟨h1, h2⟩ i x hx
    cases i with
    | zero => simp at hx; subst hx; simpa using h1
    | succ i =>
      have := h2 i x (by simpa using hx)
      rw [this]; push_cast; omega

theorem validate_iff (c : MetaCache) (l : List SchemaDiff) :
    validateDiffs c l = .ok () ↔ l ≠ [] ∧ From (c.diffStartVersion + c.schemaDiffs.length) l := by
  unfold validateDiffs
  cases l with
  | nil => simp [consecutive]
  | cons d l =>
    by_cases hc : consecutive (d :: l) = true
    · rw [hc]
      simp only [Bool.true_eq_false, if_false, ne_eq, reduceCtorEq, not_false_eq_true, true_and]
      by_cases hd : d.version = c.diffStartVersion + c.schemaDiffs.length
      · rw [if_neg (by simpa using hd)]
        simp only [true_iff]
        rw [← hd]
        intro i x hx
        induction i generalizing x with
        | zero => simp at hx; subst hx; simp
        | succ i ih =>
          have hlt : i < (d :: l).length := by
            have := (List.getElem?_eq_some_iff.mp hx).1
            omega
          have h1 := ih ((d :: l)[i]) (List.getElem?_eq_getElem hlt)
          have h2 := (consecutive_iff _).mp hc i _ x (List.getElem?_eq_getElem hlt) hx
          rw [← h2, h1]; push_cast; omega
      · rw [if_pos (by simpa using hd)]
        simp only [reduceCtorEq, false_iff]
        intro h
        exact hd ((from_iff _ _ _).mp h).1
    · have hc' : consecutive (d :: l) = false := by simpa using hc
      rw [hc']
      simp only [if_true, reduceCtorEq, false_iff]
      rintro ⟨-, h⟩
      apply hc
      rw [consecutive_iff]
      intro i a b ha hb
      rw [h i a ha, h (i + 1) b hb]; push_cast; omega

/-- Which diffs the loop accepts. -/
def Acceptable (names : Bytes → Bool) : List SchemaDiff → Prop
  | [] => True
  | d :: ds => d.type = .createSchema ∧ ∃ info, d.arg = some info ∧ names info.name = false ∧
      Acceptable (fun n => names n || decide (n = info.name)) ds

/-- The databases after the diffs. -/
def addDBs (f : Bytes → Option DBInfo) : List SchemaDiff → Bytes → Option DBInfo
  | [], n => f n
  | d :: ds, n => addDBs (fun n => match d.arg with
      | some info => if n = info.name then some info else f n
      | none => f n) ds n

theorem addDBs_congr {f g : Bytes → Option DBInfo} (h : ∀ n, f n = g n) (ds : List SchemaDiff) (n : Bytes) :
    addDBs f ds n = addDBs g ds n := by
  have : f = g := funext h
  rw [this]

theorem acceptable_congr {f g : Bytes → Bool} (h : ∀ n, f n = g n) (ds : List SchemaDiff) :
    Acceptable f ds ↔ Acceptable g ds := by
  have : f = g := funext h
  rw [this]

theorem applyLoop_ok (ds : List SchemaDiff) (c : MetaCache) (hdbs : c.dbs ≠ none) :
    (∃ c', applyLoop c ds = .ok c') ↔ Acceptable (fun n => (c.db n).isSome) ds := by
  induction ds generalizing c with
  | nil => simp [applyLoop, Acceptable]
  | cons d ds ih =>
    simp only [applyLoop, Acceptable]
    cases ht : d.type with
    | createSchema =>
      simp only [true_and]
      cases ha : d.arg with
      | none =>
        simp [onCreateSchema, ha]
      | some info =>
        obtain ⟨m, hm⟩ := Option.ne_none_iff_exists'.mp hdbs
        have hdb : ∀ n, ({ c with schemaDiffs := c.schemaDiffs ++ [d.collectionIDs] } : MetaCache).db n =
          c.db n := fun n => rfl
        simp only [onCreateSchema, ha, hdb]
        by_cases hs : (c.db info.name).isSome = true
        · rw [if_pos hs]
          simp only [Res.err_bind, reduceCtorEq, exists_false, false_iff]
          rintro ⟨i', hi', hf, -⟩
          cases hi'
          rw [hs] at hf; cases hf
        · simp only [hs, Bool.false_eq_true, if_false, hm, Res.ok_bind]
          rw [ih _ (by simp)]
          have hc : Acceptable (fun n => (MetaCache.db ⟨d.version, some (m.set info.name info), c.schemaDiffs ++ [d.collectionIDs],
              c.diffStartVersion⟩ n).isSome) ds ↔
              Acceptable (fun n => (c.db n).isSome || decide (n = info.name)) ds := by
            apply acceptable_congr
            intro n
            simp only [MetaCache.db, hm, Option.bind_some, OMap.get_set]
            by_cases hn : n = info.name
            · subst hn; simp
            · simp [hn, Ne.symm hn]
          constructor
          · intro h
            exact ⟨info, rfl, by simpa using hs, hc.mp h⟩
          · rintro ⟨i', hi', -, h⟩
            cases hi'
            exact hc.mpr h
    | _ => simp

theorem applyLoop_spec (ds : List SchemaDiff) (c c' : MetaCache) (hdbs : c.dbs ≠ none) (h : applyLoop c ds = .ok c') :
    c'.schemaDiffs = c.schemaDiffs ++ ds.map SchemaDiff.collectionIDs ∧
    c'.diffStartVersion = c.diffStartVersion ∧
    c'.version = (match ds.getLast? with | some d => d.version | none => c.version) ∧ c'.dbs ≠ none ∧
    ∀ n, c'.db n = addDBs c.db ds n := by
  induction ds generalizing c with
  | nil => simp only [applyLoop, Res.ok.injEq] at h; subst h; simp [hdbs, addDBs]
  | cons d ds ih =>
    simp only [applyLoop] at h
    cases ht : d.type with
    | createSchema =>
      rw [ht] at h
      simp only at h
      cases ha : d.arg with
      | none => simp [onCreateSchema, ha] at h
      | some info =>
        obtain ⟨m, hm⟩ := Option.ne_none_iff_exists'.mp hdbs
        by_cases hs : (c.db info.name).isSome = true
        · have hs' : (({ c with schemaDiffs := c.schemaDiffs ++ [d.collectionIDs] } : MetaCache).db info.name).isSome = true := hs
          simp [onCreateSchema, ha, hs'] at h
        · have hs' : (({ c with schemaDiffs := c.schemaDiffs ++ [d.collectionIDs] } : MetaCache).db info.name).isSome = false := by
            show (c.db info.name).isSome = false
            simpa using hs
          simp only [onCreateSchema, ha, hs', Bool.false_eq_true, if_false] at h
          simp only [hm, Res.ok_bind] at h
          obtain ⟨h1, h2, h3, h4, h5⟩ := ih _ (by simp) h
          refine ⟨by rw [h1]; simp, h2, ?_, h4, ?_⟩
          · rw [h3]
            cases ds with
            | nil => simp
            | cons e ds =>
              rw [List.getLast?_cons_cons]
              cases hg : (e :: ds).getLast? with
              | none => simp at hg
              | some x => rfl
          · intro n
            rw [h5]
            simp only [addDBs, ha]
            apply addDBs_congr
            intro k
            simp only [MetaCache.db, hm, Option.bind_some, OMap.get_set, eq_comm]
    | _ => rw [ht] at h; simp at h

theorem trim_spec (c : MetaCache) :
    c.trim.schemaDiffs = c.schemaDiffs.drop (c.schemaDiffs.length - 100) ∧
    c.trim.diffStartVersion = c.diffStartVersion + (c.schemaDiffs.length - 100 : Nat) ∧
    c.trim.version = c.version ∧ c.trim.dbs = c.dbs := by
  unfold trim maxDiffs
  split
  · exact ⟨rfl, rfl, rfl, rfl⟩
  · rename_i h
    have : c.schemaDiffs.length - 100 = 0 := by omega
    simp [this]

/-- What Clone leaves alone. -/
theorem clone_spec (c : MetaCache) : (clone (some c)).version = c.version ∧
    (clone (some c)).schemaDiffs = c.schemaDiffs ∧ (clone (some c)).diffStartVersion = c.diffStartVersion ∧
    (clone (some c)).dbs ≠ none := by simp [clone]

theorem lookup_map {α β : Type} (f : α → β) (l : List (Bytes × α)) (n : Bytes) :
    OMap.lookup (l.map (fun e => (e.1, f e.2))) n = (OMap.lookup l n).map f := by
  induction l with
  | nil => rfl
  | cons a l ih =>
    simp only [List.map_cons, OMap.lookup]
    split
    · rfl
    · exact ih

theorem clone_db (c : MetaCache) (n : Bytes) : (clone (some c)).db n = (c.db n).map DBInfo.clone := by
  simp only [clone, MetaCache.db, Option.bind_some]
  show OMap.lookup _ n = _
  rw [lookup_map]
  cases c.dbs with
  | none => rfl
  | some m => rfl

/-- ApplyDiffs succeeds exactly on … -/
theorem apply_ok_iff (c : MetaCache) (l : List SchemaDiff) (hdbs : c.dbs ≠ none) :
    (∃ c', c.applyDiffs l = .ok c') ↔
      l ≠ [] ∧ From (c.diffStartVersion + c.schemaDiffs.length) l ∧ Acceptable (fun n => (c.db n).isSome) l := by
  rw [← and_assoc, ← validate_iff, ← applyLoop_ok l c hdbs]
  unfold applyDiffs
  constructor
  · rintro ⟨c', h⟩
    cases hv : validateDiffs c l with
    | ok u =>
      rw [hv] at h
      refine ⟨rfl, ?_⟩
      cases hl : applyLoop c l with
      | ok x => exact ⟨x, rfl⟩
      | err e => simp [hl] at h
      | panic => simp [hl] at h
    | err e => rw [hv] at h; simp at h
    | panic => rw [hv] at h; simp at h
  · rintro ⟨hv, x, hx⟩
    exact ⟨trim x, by rw [hv, hx]; rfl⟩

theorem apply_inv {c c' : MetaCache} {l : List SchemaDiff} (h : c.applyDiffs l = .ok c') :
    validateDiffs c l = .ok () ∧ ∃ x, applyLoop c l = .ok x ∧ c' = trim x := by
  unfold applyDiffs at h
  cases hv : validateDiffs c l with
  | ok u =>
    rw [hv] at h
    cases hl : applyLoop c l with
    | ok x => rw [hl] at h; simp at h; exact ⟨rfl, x, rfl, h.symm⟩
    | err e => rw [hl] at h; simp at h
    | panic => rw [hl] at h; simp at h
  | err e => rw [hv] at h; simp at h
  | panic => rw [hv] at h; simp at h

theorem Win.next {v₀ : Int} {log : List SchemaDiff} {c : MetaCache} (w : Win v₀ log c) :
    c.diffStartVersion + c.schemaDiffs.length = v₀ + 1 + log.length := by
  rw [w.start, w.version]; omega

theorem Win.clone {v₀ : Int} {log : List SchemaDiff} {c : MetaCache} (w : Win v₀ log c) :
    Win v₀ log (MetaCache.clone (some c)) := by
  obtain ⟨h1, h2, h3, h4⟩ := clone_spec c
  exact ⟨w.versions, by rw [h1, w.version], by rw [h2, w.diffs], by rw [h3, h1, h2, w.start], h4⟩

theorem Win.apply {v₀ : Int} {log l : List SchemaDiff} {c c' : MetaCache} (w : Win v₀ log c)
    (h : c.applyDiffs l = .ok c') : Win v₀ (log ++ l) c' := by
  obtain ⟨hv, x, hx, rfl⟩ := apply_inv h
  obtain ⟨hne, hfrom⟩ := (validate_iff c l).mp hv
  obtain ⟨s1, s2, s3, s4, -⟩ := applyLoop_spec l c x w.dbs hx
  obtain ⟨t1, t2, t3, t4⟩ := trim_spec x
  rw [w.next] at hfrom
  have hver : (trim x).version = v₀ + (log ++ l).length := by
    rw [t3, s3]
    cases hl : l.getLast? with
    | none => exact absurd (List.getLast?_eq_none_iff.mp hl) hne
    | some d =>
      simp only
      rw [List.getLast?_eq_getElem?] at hl
      rw [hfrom _ _ hl]
      have : 0 < l.length := List.length_pos_iff.mpr hne
      simp only [List.length_append]
      omega
  have hd : (trim x).schemaDiffs = ((log ++ l).drop ((log ++ l).length - 100)).map SchemaDiff.collectionIDs := by
    have hlen : c.schemaDiffs.length = min log.length 100 := by
      rw [w.diffs]; simp; omega
    rw [t1, s1, w.diffs, ← List.map_append, ← List.map_drop]
    refine congrArg (List.map SchemaDiff.collectionIDs) ?_
    simp only [List.length_map, List.length_append, List.length_drop]
    by_cases hlog : log.length ≤ 100
    · rw [show log.length - 100 = 0 by omega, List.drop_zero]
      simp
    · rw [show log.length - (log.length - 100) = 100 by omega]
      have hdd : ∀ (k : Nat), (log.drop (log.length - 100) ++ l).drop k =
          (log ++ l).drop (log.length - 100 + k) := by
        intro k
        rw [← List.drop_drop, List.drop_append_of_le_length (l₁ := log) (l₂ := l) (by omega)]
      rw [hdd]
      congr 1
      omega
  refine ⟨?_, hver, hd, ?_, by rw [t4]; exact s4⟩
  · intro i d hi
    rw [List.getElem?_append] at hi
    split at hi
    · exact w.versions i d hi
    · rename_i hge
      rw [hfrom _ _ hi]; omega
  · have e1 : (trim x).version = v₀ + log.length + l.length := by
      rw [hver]; simp only [List.length_append]; omega
    have hl1 : x.schemaDiffs.length = c.schemaDiffs.length + l.length := by rw [s1]; simp
    rw [t2, s2, t1, List.length_drop, hl1, e1]
    have := w.next
    omega

theorem Win.new (v₀ : Int) (dbs : List DBInfo) : Win v₀ [] (MetaCache.new v₀ dbs) :=
  ⟨by simp, by simp [MetaCache.new], by simp [MetaCache.new], by simp [MetaCache.new], by simp [MetaCache.new]⟩

theorem Win.all {v₀ : Int} (bs : List (List SchemaDiff)) {log : List SchemaDiff} {c c' : MetaCache} (w : Win v₀ log c)
    (h : applyAll c bs = .ok c') : Win v₀ (log ++ bs.flatten) c' := by
  induction bs generalizing c log with
  | nil => simp only [applyAll, Res.ok.injEq] at h; subst h; simpa using w
  | cons b bs ih =>
    simp only [applyAll] at h
    cases hb : (MetaCache.clone (some c)).applyDiffs b with
    | ok x =>
      rw [hb] at h
      have := ih (w.clone.apply hb) h
      simpa using this
    | err e => rw [hb] at h; simp at h
    | panic => rw [hb] at h; simp at h

/-- **C50**: a cache loaded in full at version `v₀` that then applied the batches `bs` has applied diffs with
the consecutive versions `v₀+1, v₀+2, …`; its version is the last of them, and it retains exactly the last
100 of them, the first retained one being the diff of `diffStartVersion`. -/
theorem C50_window (v₀ : Int) (dbs : List DBInfo) (bs : List (List SchemaDiff)) (c : MetaCache)
    (h : applyAll (MetaCache.new v₀ dbs) bs = .ok c) :
    (∀ (i : Nat) (d : SchemaDiff), bs.flatten[i]? = some d → d.version = v₀ + 1 + i) ∧
    c.version = v₀ + bs.flatten.length ∧
    c.schemaDiffs = (bs.flatten.drop (bs.flatten.length - 100)).map SchemaDiff.collectionIDs ∧
    c.diffStartVersion + c.schemaDiffs.length = c.version + 1 ∧
    c.schemaDiffs.length ≤ 100 := by
  have w := (Win.new v₀ dbs).all bs h
  rw [List.nil_append] at w
  refine ⟨w.versions, w.version, w.diffs, by rw [w.start]; omega, ?_⟩
  rw [w.diffs, List.length_map, List.length_drop]
  omega

/-- Exactly which further batches it accepts: non-empty ones that continue with the next version without a
gap and create databases that decode and whose names are new. -/
theorem C50_accepts (v₀ : Int) (dbs : List DBInfo) (bs : List (List SchemaDiff)) (c : MetaCache)
    (h : applyAll (MetaCache.new v₀ dbs) bs = .ok c) (b : List SchemaDiff) :
    (∃ c', c.applyDiffs b = .ok c') ↔
      b ≠ [] ∧ (∀ (i : Nat) (d : SchemaDiff), b[i]? = some d → d.version = c.version + 1 + i) ∧
      Acceptable (fun n => checkDBExists (some c) n) b := by
  have w := (Win.new v₀ dbs).all bs h
  rw [apply_ok_iff c b w.dbs, w.next, show v₀ + 1 + ((([] : List SchemaDiff) ++ bs.flatten).length : Int) = c.version + 1 by
    rw [w.version]; omega]
  rfl

/-- What the accepted diffs do to the databases known: their databases are added as they come, the others
are kept. -/
theorem C50_databases (c c' : MetaCache) (b : List SchemaDiff) (hdbs : c.dbs ≠ none) (h : c.applyDiffs b = .ok c')
    (n : Bytes) : c'.db n = addDBs c.db b n := by
  obtain ⟨-, x, hx, rfl⟩ := apply_inv h
  obtain ⟨-, -, -, -, h5⟩ := applyLoop_spec b c x hdbs hx
  rw [← h5 n]
  simp only [MetaCache.db, (trim_spec x).2.2.2]

/-! ### C51 -/

theorem loop_ok (c : MetaCache) (ref : Int64 → Bool) (n : Nat) (i : Int) :
    checkLoop c ref n i = .ok ↔ ∀ k : Nat, k < n → 0 ≤ i + k - c.diffStartVersion ∧
      ∃ ids, c.schemaDiffs[(i + k - c.diffStartVersion).toNat]? = some ids ∧ ids.any ref = false := by
  induction n generalizing i with
  | zero => simp [checkLoop]
  | succ n ih =>
    simp only [checkLoop]
    by_cases hd : i - c.diffStartVersion < 0
    · rw [if_pos hd]
      simp only [reduceCtorEq, false_iff]
      intro h
      have := (h 0 (by omega)).1
      simp at this; omega
    · rw [if_neg hd]
      cases hg : c.schemaDiffs[(i - c.diffStartVersion).toNat]? with
      | none =>
        simp only [reduceCtorEq, false_iff]
        intro h
        obtain ⟨-, ids, h2, -⟩ := h 0 (by omega)
        simp [hg] at h2
      | some ids =>
        simp only
        by_cases ha : ids.any ref = true
        · rw [if_pos ha]
          simp only [reduceCtorEq, false_iff]
          intro h
          obtain ⟨-, ids', h2, h3⟩ := h 0 (by omega)
          simp only [Int.natCast_zero, Int.add_zero, hg, Option.some.injEq] at h2
          subst h2; rw [ha] at h3; cases h3
        · rw [if_neg ha, ih]
          constructor
          · intro h k hk
            cases k with
            | zero => exact ⟨by simp; omega, ids, by simpa using hg, by simpa using ha⟩
            | succ k =>
              have := h k (by omega)
              rw [show i + ((k + 1 : Nat) : Int) = i + 1 + k by omega]
              exact this
          · intro h k hk
            have := h (k + 1) (by omega)
            rw [show i + ((k + 1 : Nat) : Int) = i + 1 + k by omega] at this
            exact this

theorem loop_no_crash (c : MetaCache) (ref : Int64 → Bool) (n : Nat) (i : Int)
    (h : i + n ≤ c.diffStartVersion + c.schemaDiffs.length) : checkLoop c ref n i ≠ .crash := by
  induction n generalizing i with
  | zero => simp [checkLoop]
  | succ n ih =>
    simp only [checkLoop]
    split
    · simp
    · rename_i hd
      rw [List.getElem?_eq_getElem (show (i - c.diffStartVersion).toNat < c.schemaDiffs.length by omega)]
      simp only
      split
      · simp
      · exact ih _ (by omega)

/-- Nothing the transaction referred to was changed after version `v`, as far as the applied diffs say. -/
def Untouched (log : List SchemaDiff) (v : Int) (referred : Int64 → Bool) : Prop :=
  ∀ d ∈ log, v < d.version → ∀ id ∈ d.collectionIDs, referred id = false

/-- The diff of a retained version. -/
theorem Win.at {v₀ : Int} {log : List SchemaDiff} {c : MetaCache} (w : Win v₀ log c) (v : Int) :
    (0 ≤ v - c.diffStartVersion ∧ (v - c.diffStartVersion).toNat < c.schemaDiffs.length) ↔
      v₀ < v ∧ c.version - v < 100 ∧ v ≤ c.version := by
  have h1 := w.start
  have h2 : c.schemaDiffs.length = min log.length 100 := by
          rw [w.diffs, List.length_map, List.length_drop]; omega
  have h3 := w.version
  omega

theorem Win.get {v₀ : Int} {log : List SchemaDiff} {c : MetaCache} (w : Win v₀ log c) (v : Int) (h1 : v₀ < v)
    (h2 : c.version - v < 100) (h3 : v ≤ c.version) :
    ∃ d, log[(v - v₀ - 1).toNat]? = some d ∧ d.version = v ∧
      c.schemaDiffs[(v - c.diffStartVersion).toNat]? = some d.collectionIDs := by
  have hv := w.version
  have hlt : (v - v₀ - 1).toNat < log.length := by omega
  have hd := w.versions _ _ (List.getElem?_eq_getElem hlt)
  refine ⟨_, List.getElem?_eq_getElem hlt, by rw [hd]; omega, ?_⟩
  have hs := w.start
  have hl : c.schemaDiffs.length = min log.length 100 := by
          rw [w.diffs, List.length_map, List.length_drop]; omega
  rw [w.diffs, List.getElem?_map, List.getElem?_drop,
    show log.length - 100 + (v - c.diffStartVersion).toNat = (v - v₀ - 1).toNat by omega,
    List.getElem?_eq_getElem hlt]
  rfl

theorem check_some {c s : MetaCache} (r : Nat) (ref : Int64 → Bool) {v₀ : Int} {log : List SchemaDiff} (w : Win v₀ log c) :
    (check ⟨some c, r⟩ (some s) ref = (.ok true, ⟨some c, r⟩) ∧
      v₀ ≤ s.version ∧ c.version - s.version ≤ 100 ∧ Untouched log s.version ref) ∨
    ((check ⟨some c, r⟩ (some s) ref).1 = .ok false ∧
      ¬ (v₀ ≤ s.version ∧ c.version - s.version ≤ 100 ∧ Untouched log s.version ref)) := by
  have hiff : checkLoop c ref (c.version - s.version).toNat (s.version + 1) = .ok ↔
      v₀ ≤ s.version ∧ c.version - s.version ≤ 100 ∧ Untouched log s.version ref := by
    rw [loop_ok]
    have hv := w.version
    constructor
    · intro h
      by_cases hle : c.version ≤ s.version
      · refine ⟨by omega, by omega, ?_⟩
        intro d hd hlt
        obtain ⟨i, hi, he⟩ := List.mem_iff_getElem.mp hd
        have := w.versions i d (by rw [List.getElem?_eq_getElem hi, he])
        omega
      · obtain ⟨h0, ids, h1, -⟩ := h 0 (by omega)
        have hb := (w.at (s.version + 1)).mp ⟨by simpa using h0, by
          have := (List.getElem?_eq_some_iff.mp h1).1
          simpa using this⟩
        refine ⟨by omega, by omega, ?_⟩
        intro d hd hlt id hid
        obtain ⟨i, hi, he⟩ := List.mem_iff_getElem.mp hd
        have hdv := w.versions i d (by rw [List.getElem?_eq_getElem hi, he])
        obtain ⟨-, ids', h3, h4⟩ := h (d.version - s.version - 1).toNat (by omega)
        rw [show s.version + 1 + ((d.version - s.version - 1).toNat : Int) = d.version by omega] at h3
        obtain ⟨d', g1, g2, g3⟩ := w.get d.version (by omega) (by omega) (by omega)
        have hdd : d' = d := by
          rw [show (d.version - v₀ - 1).toNat = i by omega, List.getElem?_eq_getElem hi, he] at g1
          exact (Option.some.inj g1).symm
        subst hdd
        rw [g3] at h3
        cases h3
        rw [List.any_eq_false] at h4
        simpa using h4 id hid
    · rintro ⟨h1, h2, h3⟩ k hk
      obtain ⟨d, g1, g2, g3⟩ := w.get (s.version + 1 + k) (by omega) (by omega) (by omega)
      refine ⟨((w.at (s.version + 1 + k)).mpr ⟨by omega, by omega, by omega⟩).1, _, g3, ?_⟩
      rw [List.any_eq_false]
      intro id hid
      have := h3 d (List.mem_of_getElem? g1) (by omega) id hid
      simp [this]
  have hnc : checkLoop c ref (c.version - s.version).toNat (s.version + 1) ≠ .crash := by
    by_cases hle : s.version ≤ c.version
    · exact loop_no_crash c ref (c.version - s.version).toNat (s.version + 1) (by
        have := w.next; have := w.version; omega)
    · rw [show (c.version - s.version).toNat = 0 by omega]; simp [checkLoop]
  by_cases hok : checkLoop c ref (c.version - s.version).toNat (s.version + 1) = .ok
  · left
    refine ⟨?_, hiff.mp hok⟩
    simp only [check, hok]
  · right
    refine ⟨?_, fun h => hok (hiff.mpr h)⟩
    simp only [check]
    cases hl : checkLoop c ref (c.version - s.version).toNat (s.version + 1) with
    | ok => exact absurd hl hok
    | stale => rfl
    | conflict => rfl
    | crash => exact absurd hl hnc

/-- **C51**: let the published cache have been loaded in full at version `v₀` and have applied the batches
`bs` since.  Check for a transaction that started with any cache `s` never panics, and accepts exactly if all
changes since `s.version` are on record — that version is not before `v₀` nor more than 100 versions back —
and none of them touched a collection the transaction referred to. -/
theorem C51_exact (v₀ : Int) (dbs : List DBInfo) (bs : List (List SchemaDiff)) (c s : MetaCache)
    (h : applyAll (MetaCache.new v₀ dbs) bs = .ok c) (readers : Nat) (referred : Int64 → Bool) :
    (∃ b, (check ⟨some c, readers⟩ (some s) referred).1 = .ok b) ∧
    ((check ⟨some c, readers⟩ (some s) referred).1 = .ok true ↔
      v₀ ≤ s.version ∧ c.version - s.version ≤ 100 ∧ Untouched bs.flatten s.version referred) := by
  have w := (Win.new v₀ dbs).all bs h
  rw [List.nil_append] at w
  rcases check_some (s := s) readers referred w with ⟨h1, h2⟩ | ⟨h1, h2⟩
  · rw [h1]; exact ⟨⟨true, rfl⟩, by simp [h2]⟩
  · rw [h1]; exact ⟨⟨false, rfl⟩, by simp [h2]⟩

/-- A transaction that started before any schema was loaded is refused once one is; if still none is, it is
accepted. -/
theorem C51_nil (readers : Nat) (referred : Int64 → Bool) :
    (check ⟨none, readers⟩ none referred).1 = .ok true ∧
    ∀ c, (check ⟨some c, readers⟩ none referred).1 = .ok false := ⟨rfl, fun _ => rfl⟩

/-! ### C52 -/

/-- A check that accepts, or that fails because the window does not reach back, gives its lock back. -/
theorem C52_released (v₀ : Int) (dbs : List DBInfo) (bs : List (List SchemaDiff)) (c s : MetaCache)
    (h : applyAll (MetaCache.new v₀ dbs) bs = .ok c) (readers : Nat) (referred : Int64 → Bool)
    (hs : (v₀ ≤ s.version ∧ c.version - s.version ≤ 100 ∧ Untouched bs.flatten s.version referred) ∨
      ¬ (v₀ ≤ s.version ∧ c.version - s.version ≤ 100)) :
    (check ⟨some c, readers⟩ (some s) referred).2 = ⟨some c, readers⟩ := by
  have w := (Win.new v₀ dbs).all bs h
  rw [List.nil_append] at w
  rcases check_some (s := s) readers referred w with ⟨h1, h2⟩ | ⟨h1, h2⟩
  · rw [h1]
  · rcases hs with hs | hs
    · exact absurd hs h2
    · have hv := w.version
      have hlt : s.version < c.version := by omega
      have hst : s.version + 1 - c.diffStartVersion < 0 := by
        have := w.start
        have : c.schemaDiffs.length = min bs.flatten.length 100 := by
          rw [w.diffs, List.length_map, List.length_drop]; omega
        omega
      obtain ⟨m, hm⟩ : ∃ m, (c.version - s.version).toNat = m + 1 := ⟨_, (Nat.succ_pred_eq_of_pos (by omega)).symm⟩
      simp only [check, hm, checkLoop, if_pos hst]

/-- Calls on the handle, by any goroutines, one after the other. -/
inductive Call where
  | check (start : Option MetaCache) (referred : Int64 → Bool)
  | update (c : MetaCache)

/-- What a call does; an Update that has to wait is retried by a later call, if at all. -/
def callOn (h : Handle) : Call → Handle
  | .check s r => (h.check s r).2
  | .update c => (h.update c).getD h

theorem callOn_stuck (h : Handle) (hr : 0 < h.readers) (call : Call) :
    0 < (callOn h call).readers ∧ (callOn h call).cache = h.cache := by
  cases call with
  | check s r =>
    simp only [callOn, check]
    split
    · exact ⟨hr, rfl⟩
    · exact ⟨hr, rfl⟩
    · exact ⟨by simp, rfl⟩
    · split
      · exact ⟨hr, rfl⟩
      · exact ⟨hr, rfl⟩
      · exact ⟨hr, rfl⟩
      · exact ⟨by simp, rfl⟩
  | update c =>
    simp only [callOn, update]
    rw [if_neg (by omega)]
    exact ⟨hr, rfl⟩

/-- **C52 is false**: as soon as a check finds a conflict, no call whatsoever on this handle ever publishes
a schema again: every later Update waits forever, and the cache stays what it is. -/
theorem C52_conflict_false (v₀ : Int) (dbs : List DBInfo) (bs : List (List SchemaDiff)) (c s : MetaCache)
    (h : applyAll (MetaCache.new v₀ dbs) bs = .ok c) (referred : Int64 → Bool)
    (hs : v₀ ≤ s.version ∧ c.version - s.version ≤ 100) (hc : ¬ Untouched bs.flatten s.version referred)
    (calls : List Call) :
    let after := calls.foldl callOn (check ⟨some c, 0⟩ (some s) referred).2
    after.cache = some c ∧ ∀ c', after.update c' = none := by
  have w := (Win.new v₀ dbs).all bs h
  rw [List.nil_append] at w
  have h1 : 0 < (check ⟨some c, 0⟩ (some s) referred).2.readers ∧
      (check ⟨some c, 0⟩ (some s) referred).2.cache = some c := by
    rcases check_some (s := s) 0 referred w with ⟨-, h2⟩ | ⟨h1, -⟩
    · exact absurd h2.2.2 hc
    · have key : checkLoop c referred (c.version - s.version).toNat (s.version + 1) ≠ .stale := by
        have hst := w.start
        have hl : c.schemaDiffs.length = min bs.flatten.length 100 := by
          rw [w.diffs, List.length_map, List.length_drop]; omega
        have hv := w.version
        have : ∀ (n : Nat) (i : Int), c.diffStartVersion ≤ i → checkLoop c referred n i ≠ .stale := by
          intro n
          induction n with
          | zero => intro i _; simp [checkLoop]
          | succ n ih =>
            intro i hi
            simp only [checkLoop]
            rw [if_neg (by omega)]
            split
            · simp
            · split
              · simp
              · exact ih _ (by omega)
        by_cases hlt : s.version < c.version
        · exact this _ _ (by omega)
        · rw [show (c.version - s.version).toNat = 0 by omega]; simp [checkLoop]
      simp only [check] at h1 ⊢
      cases hl : checkLoop c referred (c.version - s.version).toNat (s.version + 1) with
      | ok => rw [hl] at h1; cases h1
      | stale => exact absurd hl key
      | crash => rw [hl] at h1; cases h1
      | conflict => exact ⟨by simp, rfl⟩
  have h2 : ∀ (calls : List Call) (x : Handle), 0 < x.readers → x.cache = some c →
      0 < (calls.foldl callOn x).readers ∧ (calls.foldl callOn x).cache = some c := by
    intro calls
    induction calls with
    | nil => exact fun x a b => ⟨a, b⟩
    | cons call calls ih =>
      intro x a b
      obtain ⟨p, q⟩ := callOn_stuck x a call
      exact ih _ p (by rw [q, b])
  obtain ⟨p, q⟩ := h2 calls _ h1.1 h1.2
  refine ⟨q, fun c' => ?_⟩
  simp only [update]
  rw [if_neg (by omega)]

/-! ### The hypotheses can be met -/

/-- Two databases created after a full load at version 7. -/
def demoLog : List (List SchemaDiff) :=
  [[⟨8, .createSchema, [11, 12], some { id := 10, name := [1] }⟩],
   [⟨9, .createSchema, [21], some { id := 20, name := [2] }⟩]]

/-- The cache after both. -/
def demoCache : MetaCache := match applyAll (MetaCache.new 7 []) demoLog with
  | .ok c => c
  | _ => MetaCache.new 7 []

theorem demo_apply : applyAll (MetaCache.new 7 []) demoLog = .ok demoCache := rfl

example : demoCache.version = 9 ∧ demoCache.schemaDiffs = [[11, 12], [21]] ∧ demoCache.diffStartVersion = 8 := by
  decide

/-- A transaction started at version 8 that referred to collection 11 passes, one that referred to 21 is
refused and leaves the lock held; one started at version 6 is refused and releases it. -/
example : (check ⟨some demoCache, 0⟩ (some { demoCache with version := 8 }) (· == 11)).1 = .ok true ∧
    (check ⟨some demoCache, 0⟩ (some { demoCache with version := 8 }) (· == 21)).1 = .ok false ∧
    (check ⟨some demoCache, 0⟩ (some { demoCache with version := 8 }) (· == 21)).2.readers = 1 ∧
    (check ⟨some demoCache, 0⟩ (some { demoCache with version := 6 }) (· == 21)).1 = .ok false ∧
    (check ⟨some demoCache, 0⟩ (some { demoCache with version := 6 }) (· == 21)).2.readers = 0 := by
  decide

/-- The hypotheses of `C52_conflict_false` for that case. -/
example : (7 : Int) ≤ 8 ∧ demoCache.version - 8 ≤ 100 ∧ ¬ Untouched demoLog.flatten 8 (· == 21) := by
  refine ⟨by decide, by decide, ?_⟩
  intro h
  have := h ⟨9, .createSchema, [21], some { id := 20, name := [2] }⟩ (by simp [demoLog]) (by decide) 21 (by simp)
  exact absurd this (by decide)

end Sch
end Mondis.Props
