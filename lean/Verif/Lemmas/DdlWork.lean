import Verif.Lemmas.Ddl
/-!
# Package ddl: one turn of the worker
-/
namespace Mondis.Spec
open Mondis Schema Ddl

/-- A database as CreateSchema describes it: text, and no collection has a map of indexes. -/
structure Plain (d : DBInfo) : Prop where
  text : d.Text
  noIndex : ∀ n c, d.collections.get n = some c → c.indices = none

/-- What is true of the state in every history. -/
structure DState.Sane (A : DState) : Prop where
  nodup : A.ids.Nodup
  bound : ∀ x ∈ A.ids, 0 < x.toInt ∧ x.toInt ≤ A.lastID
  small : A.lastID < 2 ^ 63
  names : (A.dbs.map (·.name)).Nodup
  plain : ∀ d ∈ A.dbs, Plain d
  create : ∀ j d s, (Request.create j d, s) ∈ A.queue → Plain d ∧ s ≠ .crashed
  index : ∀ j i s, (Request.index j i, s) ∈ A.queue → i.Text ∧ (s = .waiting ∨ s = .crashed) ∧
    ∃ r, i.jobRedundant = some r ∧ ∃ d ∈ A.dbs, d.name = r.db ∧ d.collections.get r.collection ≠ none
  later : ∀ r ∈ A.queue.tail, r.2 = .waiting
  count : A.dbs.length + A.queue.countP (fun r => decide (r.2 ≠ .done)) ≤ A.lastID
  queueLen : A.queue.length ≤ A.lastID

end Mondis.Spec

namespace Mondis.Ddl
open Mondis Spec Schema Meta

theorem publicColl_plain {c : CollectionInfo} (h : c.indices = none) : publicColl c = { c with state := .public } := by
  unfold publicColl
  rw [h]; rfl

theorem get_mapVals {V W : Type} (f : V → W) (m : OMap V) (k : Bytes) : (mapVals f m).get k = (m.get k).map f := by
  obtain ⟨l, hs⟩ := m
  show OMap.lookup (l.map _) k = (OMap.lookup l k).map f
  clear hs
  induction l with
  | nil => rfl
  | cons a r ih =>
    obtain ⟨k', v⟩ := a
    simp only [List.map_cons, OMap.lookup]
    split
    · rfl
    · exact ih

theorem ents_mapVals {V W : Type} (f : V → W) (m : OMap V) : (mapVals f m).ents = m.ents.map (fun e => (e.1, f e.2)) := rfl

theorem publicColl_text {c : CollectionInfo} (h : c.Text) (hi : c.indices = none) : (publicColl c).Text := by
  rw [publicColl_plain hi]
  exact ⟨h.1, h.2.1, by intro m hm; rw [show c.indices = some m from hm] at hi; cases hi⟩

theorem publicDB_text {d : DBInfo} (h : Plain d) : (publicDB d).Text := by
  refine ⟨h.text.1, h.text.2.1, ?_⟩
  intro k c hk
  simp only [publicDB, get_mapVals] at hk
  cases hg : d.collections.get k with
  | none => rw [hg] at hk; cases hk
  | some c' =>
    rw [hg] at hk
    cases hk
    exact ⟨(h.text.2.2 k c' hg).1, publicColl_text (h.text.2.2 k c' hg).2 (h.noIndex k c' hg)⟩

section
variable {A : DState} {M : MState}

theorem mem_listing (h : A.Holds M) (p : DBInfo) : p ∈ M.dbs.ents.map Prod.snd ↔ ∃ d ∈ A.dbs, p = publicDB d := by
  constructor
  · intro hp
    obtain ⟨⟨k, p'⟩, he, rfl⟩ := List.mem_map.mp hp
    obtain ⟨d, hd, -, e⟩ := (h.dbs k p').mp (OMap.mem_get he)
    exact ⟨d, hd, e⟩
  · rintro ⟨d, hd, rfl⟩
    have := (h.dbs (textOf d.id) (publicDB d)).mpr ⟨d, hd, rfl, rfl⟩
    exact List.mem_map.mpr ⟨_, (OMap.get_eq_some_iff _ _ _).mp this, rfl⟩

theorem named_none_iff (h : A.Holds M) (n : Bytes) : named M n = none ↔ ¬ A.Has n := by
  unfold named
  rw [List.find?_eq_none]
  constructor
  · rintro hn ⟨d, hd, e⟩
    have := hn _ ((mem_listing h _).mpr ⟨d, hd, rfl⟩)
    exact this (decide_eq_true e)
  · intro hn p hp he
    obtain ⟨d, hd, rfl⟩ := (mem_listing h _).mp hp
    exact hn ⟨d, hd, of_decide_eq_true he⟩

theorem name_unique (hs : A.Sane) {d d' : DBInfo} (hd : d ∈ A.dbs) (hd' : d' ∈ A.dbs) (e : d.name = d'.name) : d = d' := by
  have := hs.names
  rw [List.Nodup, List.pairwise_map] at this
  have hne : ∀ x ∈ A.dbs, ∀ y ∈ A.dbs, x.name = y.name → x = y := by
    clear hd hd' e
    generalize A.dbs = l at this
    induction l with
    | nil => intro x hx; cases hx
    | cons a l ih =>
      rw [List.pairwise_cons] at this
      intro x hx y hy e
      rcases List.mem_cons.mp hx with hx | hx <;> rcases List.mem_cons.mp hy with hy | hy
      · rw [hx, hy]
      · rw [hx] at e; exact absurd e (this.1 y hy)
      · rw [hy] at e; exact absurd e.symm (this.1 x hx)
      · exact ih this.2 x hx y hy e
  exact hne d hd d' hd' e

theorem named_some (h : A.Holds M) (hs : A.Sane) {d : DBInfo} (hd : d ∈ A.dbs) : named M d.name = some (publicDB d) := by
  cases hn : named M d.name with
  | none => exact absurd ⟨d, hd, rfl⟩ ((named_none_iff h _).mp hn)
  | some p =>
    have h1 := List.find?_some hn
    have h2 := List.mem_of_find?_eq_some hn
    obtain ⟨d', hd', rfl⟩ := (mem_listing h _).mp h2
    have : d'.name = d.name := of_decide_eq_true h1
    rw [name_unique hs hd' hd this]

/-! ### The first request: nothing to do, failed, done -/

theorem runs_work_nil (o₁ o₂ o₃ : Order) (v : Vars) (h : A.Holds M) (hq : A.queue = []) :
    Runs (workTxn o₁ o₂ o₃ v) M 1 (.ok { nojob := true, vars := v }) M := by
  have hq' : M.queue .default = [] := by rw [h.queue, hq]; rfl
  exact Runs.bind (n := 1) (m := 0) (Runs.one trivial (sem_first_nil hq')) (Runs.pure _ _)

theorem runs_work_failed (o₁ o₂ o₃ : Order) (v : Vars) (h : A.Holds M) {j : Int64} {d : DBInfo} {q : List (Request × Status)}
    (hq : A.queue = (.create j d, .failed) :: q) : Runs (workTxn o₁ o₂ o₃ v) M 1 (.err .parse) M := by
  have hq' : M.queue .default = jobOf (.create j d, .failed) :: q.map jobOf := by rw [h.queue, hq]; rfl
  exact Runs.bindErr (Runs.one trivial (sem_first hq'))

theorem runs_finish {j j' : Job} {q : List Job} (hq : M.queue .default = j :: q) (he : j.error = none) (ht : j'.Text) :
    Runs (finishJob j') M 2 (.ok ()) { withQueue M q with history := M.history.set (MState.job.jobKey j'.id) (stored j') } := by
  have h1 : (MetaCall.deQueueDDLJob .default).sem M = (.ok (some j), withQueue M q) := by
    rw [sem_deQueue hq, readBack, if_pos he]; rfl
  exact Runs.bind (n := 1) (m := 1) (Runs.one trivial h1) (Runs.one ht rfl)

theorem runs_work_done (o₁ o₂ o₃ : Order) (v : Vars) (hs : A.Sane) (h : A.Holds M) {j : Int64} {d : DBInfo}
    {q : List (Request × Status)} (hq : A.queue = (.create j d, .done) :: q) :
    ∃ M', Runs (workTxn o₁ o₂ o₃ v) M 3 (.ok { vars := v }) M' ∧ A.work.Holds M' := by
  have hq' : M.queue .default = jobOf (.create j d, .done) :: q.map jobOf := by rw [h.queue, hq]; rfl
  have ht := (hs.create j d .done (by rw [hq]; exact List.mem_cons_self)).1.text
  have h1 : (MetaCall.getDDLJobByIdx .default 0).sem M = (.ok (some (jobOf (.create j d, .done))), M) := by
    rw [sem_first hq']; rfl
  have h2 := runs_finish (j' := syncedJob j d) hq' rfl ⟨trivial, by intro a ha; cases ha; exact ht⟩
  refine ⟨_, Runs.bind (n := 1) (m := 2) (Runs.one trivial h1) (Runs.bind (n := 2) (m := 0) h2 (Runs.pure _ _)), ?_⟩
  have hw : A.work = { A with queue := q, finished := A.finished ++ [(j, d)] } := by
    unfold DState.work; rw [hq]
  rw [hw]
  refine ⟨h.lastID, h.version, h.diff, h.noDiff, h.dbs, h.colls, ?_, ?_⟩
  · rfl
  · intro k i
    show (M.history.set (MState.job.jobKey j) (stored (syncedJob j d))).get k = some i ↔ _
    rw [OMap.get_set]
    have hst : stored (syncedJob j d) = syncedJob j d := rfl
    rw [hst]
    by_cases hk : MState.job.jobKey j = k
    · rw [if_pos hk]
      constructor
      · intro e; cases e
        exact ⟨(j, d), by simp, hk.symm, rfl⟩
      · rintro ⟨f, hf, rfl, rfl⟩
        rcases List.mem_append.mp hf with hf | hf
        · have e : j = f.1 := jobIDKey_inj.mp hk
          have hn := hs.nodup
          unfold DState.ids at hn
          rw [hq] at hn
          have := (List.nodup_append.mp hn).2.2 j (by simp [DState.requestIDs]) f.1 (List.mem_map_of_mem hf)
          exact absurd e this
        · simp only [List.mem_singleton] at hf
          rw [hf]
    · rw [if_neg hk, h.history]
      constructor
      · rintro ⟨f, hf, h1, h2⟩
        exact ⟨f, List.mem_append_left _ hf, h1, h2⟩
      · rintro ⟨f, hf, h1, h2⟩
        rcases List.mem_append.mp hf with hf | hf
        · exact ⟨f, hf, h1, h2⟩
        · simp only [List.mem_singleton] at hf
          rw [hf] at h1
          exact absurd h1.symm hk

/-! ### The first request: a new database -/

theorem runs_settle_update {j j' : Job} {q : List Job} (hq : M.queue .default = j :: q) (ht : j'.Text)
    (hc : j'.state ≠ .cancelled) : Runs (settle j' {}) M 1 (.ok ()) (withQueue M (stored j' :: q)) := by
  have : settle j' {} = Client.one (.updateDDLJob .default 0 j') := by
    unfold settle; exact if_neg hc
  rw [this]
  exact Runs.one ht (sem_update hq j')

theorem runs_updateVersion (o : Order) (j : Job) (M : MState) {ids : List Int64} (hi : job2CollectionIDs o j = .ok ids)
    (ht : (j.raw.getD j.arg).Text) : Runs (updateSchemaVersion o j) M 2 (.ok ())
      { M with version := some (M.version.getD 0 + 1),
               diffs := put M.diffs (M.version.getD 0 + 1) (some ⟨M.version.getD 0 + 1, j.type, ids, j.raw.getD j.arg⟩) } := by
  refine Runs.bind (n := 1) (m := 1) (Runs.one trivial rfl) ?_
  rw [hi]
  exact Runs.one ht rfl

theorem runs_work_taken (o₁ o₂ o₃ : Order) (v : Vars) (hs : A.Sane) (h : A.Holds M) {j : Int64} {d : DBInfo}
    {q : List (Request × Status)} (hq : A.queue = (.create j d, .waiting) :: q) (hh : A.Has d.name) :
    ∃ M', Runs (workTxn o₁ o₂ o₃ v) M 3 (.ok { vars := { err := some errDBAlreadyExists } }) M' ∧ A.work.Holds M' := by
  have hq' : M.queue .default = jobOf (.create j d, .waiting) :: q.map jobOf := by rw [h.queue, hq]; rfl
  have hp := (hs.create j d .waiting (by rw [hq]; exact List.mem_cons_self)).1
  have h1 : (MetaCall.getDDLJobByIdx .default 0).sem M = (.ok (some (jobOf (.create j d, .waiting))), M) := by
    rw [sem_first hq']; rfl
  let job : Job := { id := j, type := .createSchema, raw := some (.db d), state := .running, arg := .db (publicDB d) }
  have h2 : Runs (runJob o₁ o₂ o₃ (jobOf (.create j d, .waiting))) M 1 (.ok { job := job, err := some errDBAlreadyExists }) M := by
    have hc := runs_checkDB_some (M := M) (n := d.name) (by rw [Ne, named_none_iff h]; exact fun x => x hh)
    exact Runs.bind (n := 1) (m := 0) (Runs.attempt (Runs.bindErr hc)) (Runs.pure _ _)
  have h3 : Runs (settle job { err := some errDBAlreadyExists }) M 1 (.ok ())
      (withQueue M (jobOf (.create j d, .failed) :: q.map jobOf)) := by
    have ht : Job.Text { job with errorCount := 1, error := some errDBAlreadyExists } :=
      ⟨publicDB_text hp, by intro a ha; cases ha; exact hp.text⟩
    exact Runs.one ht (sem_update hq' _)
  refine ⟨_, Runs.bind (n := 1) (m := 2) (Runs.one trivial h1) (Runs.bind (n := 1) (m := 1) h2.attempt
    (Runs.bind (n := 1) (m := 0) h3 (Runs.pure _ _))), ?_⟩
  have hw : A.work = { A with queue := (.create j d, .failed) :: q } := by
    unfold DState.work; rw [hq]; simp only; rw [if_pos hh]
  rw [hw]
  refine ⟨h.lastID, h.version, h.diff, h.noDiff, h.dbs, h.colls, ?_, h.history⟩
  rfl

theorem ofNat_succ (n : Nat) : Int64.ofNat n + 1 = Int64.ofNat (n + 1) := (Int64.ofNat_add n 1).symm

theorem ofNat_inj {a b : Nat} (ha : a < 2 ^ 63) (hb : b < 2 ^ 63) (h : Int64.ofNat a = Int64.ofNat b) : a = b := by
  have := congrArg Int64.toInt h
  rw [Int64.toInt_ofNat_of_lt ha, Int64.toInt_ofNat_of_lt hb] at this
  omega


theorem perm_mem {l l' : List Int64} (h : l.Perm l') {x : Int64} : x ∈ l ↔ x ∈ l' := h.mem_iff

theorem runs_work_create (o₁ o₂ o₃ : Order) (v : Vars) (hs : A.Sane) (h : A.Holds M) {j : Int64} {d : DBInfo}
    {q : List (Request × Status)} (hq : A.queue = (.create j d, .waiting) :: q) (hh : ¬ A.Has d.name) :
    ∃ M', Runs (workTxn o₁ o₂ o₃ v) M (6 + d.collections.ents.length)
      (.ok { vars := {}, after := (o₃.visit (publicDB d).collections.ents).map (fun e => (d.id, e.2.id)) }) M' ∧
      A.work.Holds M' := by
  have hq' : M.queue .default = jobOf (.create j d, .waiting) :: q.map jobOf := by rw [h.queue, hq]; rfl
  have hp := (hs.create j d .waiting (by rw [hq]; exact List.mem_cons_self)).1
  have hn := hs.nodup
  unfold DState.ids at hn
  rw [hq] at hn
  have hnew : ∀ d' ∈ A.dbs, d'.id ≠ d.id := by
    intro d' hd' e
    have h1 := (List.nodup_append.mp (List.nodup_append.mp hn).1).2.2
    refine h1 d'.id (List.mem_flatMap.mpr ⟨d', hd', ?_⟩) d.id ?_ e
    · simp [DState.idsOf]
    · simp [DState.requestIDs, DState.idsOf]
  have hl : A.dbs.length + 1 < 2 ^ 63 := by
    have h1 := hs.count
    have h2 := hs.small
    rw [hq, List.countP_cons_of_pos (by simp)] at h1
    omega
  have hcn : (d.collections.ents.map (fun e => e.2.id)).Nodup := by
    have h1 := (List.nodup_append.mp (List.nodup_append.mp hn).1).2.1
    simp only [List.flatMap_cons, DState.requestIDs, DState.idsOf] at h1
    exact (List.nodup_cons.mp (List.nodup_cons.mp (List.nodup_append.mp h1).1).2).2
  have h1 : (MetaCall.getDDLJobByIdx .default 0).sem M = (.ok (some (jobOf (.create j d, .waiting))), M) := by
    rw [sem_first hq']; rfl
  let p := publicDB d
  let job : Job := { id := j, type := .createSchema, raw := some (.db d), state := .running, arg := .db p }
  let cs := (o₁.visit p.collections.ents).map Prod.snd
  have hcs : ∀ c, c ∈ cs ↔ ∃ n c', d.collections.get n = some c' ∧ c = publicColl c' := by
    intro c
    constructor
    · intro hc
      obtain ⟨e, he, rfl⟩ := List.mem_map.mp hc
      have he := (o₁.perm p.collections.ents).mem_iff.mp he
      obtain ⟨e', he', rfl⟩ := List.mem_map.mp he
      exact ⟨e'.1, e'.2, OMap.mem_get he', rfl⟩
    · rintro ⟨n, c', hg, rfl⟩
      refine List.mem_map.mpr ⟨(n, publicColl c'), (o₁.perm _).mem_iff.mpr ?_, rfl⟩
      exact List.mem_map.mpr ⟨(n, c'), (OMap.get_eq_some_iff _ _ _).mp hg, rfl⟩
  have hlen : cs.length = d.collections.ents.length := by
    rw [List.length_map, (o₁.perm _).length_eq]; exact List.length_map _
  have hcid : (cs.map (·.id)).Nodup := by
    have : (cs.map (·.id)).Perm (d.collections.ents.map (fun e => e.2.id)) := by
      rw [List.map_map]
      refine ((o₁.perm _).map _).trans ?_
      show (List.map _ (List.map _ _)).Perm _
      rw [List.map_map]
      exact List.Perm.refl _
    exact this.nodup_iff.mpr hcn
  have hdb : M.db p.id = none := by
    cases hg : M.db p.id with
    | none => rfl
    | some x =>
      obtain ⟨d', hd', e, -⟩ := (h.dbs _ _).mp hg
      exact absurd (textOf_inj.mp e).symm (hnew d' hd')
  have hcoll : ∀ k, (M.colls p.id).get k = none := by
    intro k
    cases hg : (M.colls p.id).get k with
    | none => rfl
    | some x =>
      obtain ⟨d', hd', e, -⟩ := (h.colls _ _ _).mp hg
      exact absurd e (hnew d' hd')
  let M₁ : MState := { M with dbs := M.dbs.set (textOf p.id) p }
  let M₂ : MState := { M₁ with colls := put M.colls p.id (addAll (M.colls p.id) cs) }
  let ids := (o₂.visit p.collections.ents).map (fun e => e.2.id)
  let M₃ : MState := { M₂ with version := some (M.version.getD 0 + 1),
                               diffs := put M.diffs (M.version.getD 0 + 1) (some ⟨M.version.getD 0 + 1, .createSchema, ids, .db d⟩) }
  have c1 : Runs (Client.one (.createDatabase p)) M 1 (.ok ()) M₁ := by
    refine Runs.one (publicDB_text hp) ?_
    simp only [MetaCall.sem]
    rw [if_neg (by rw [hdb]; simp)]
  have c2 : Runs (createCollections p.id cs) M₁ cs.length (.ok ()) M₂ := by
    refine runs_createCollections p.id cs M₁ ?_ ?_ hcid ?_
    · show (M.dbs.set (textOf p.id) p).get (textOf p.id) ≠ none
      rw [OMap.get_set, if_pos rfl]; simp
    · intro c _
      exact hcoll _
    · intro c hc
      obtain ⟨n, c', hg, rfl⟩ := (hcs c).mp hc
      exact publicColl_text (hp.text.2.2 n c' hg).2 (hp.noIndex n c' hg)
  have c3 : Runs (updateSchemaVersion o₂ job) M₂ 2 (.ok ()) M₃ :=
    runs_updateVersion o₂ job M₂ (ids := ids) rfl hp.text
  have h2 : Runs (runJob o₁ o₂ o₃ (jobOf (.create j d, .waiting))) M (4 + cs.length)
      (.ok { job := { job with state := .done, schemaState := .public },
             after := (o₃.visit p.collections.ents).map (fun e => (p.id, e.2.id)) }) M₃ := by
    have hc := runs_checkDB_none ((named_none_iff h d.name).mpr hh)
    have := Runs.bind (f := fun _ => _) hc (Runs.bind (f := fun _ => _) c1 (Runs.bind (f := fun _ => _) c2 c3))
    have := Runs.bind (β := RunOut) (f := fun
      | .ok _ => pure { job := { job with state := .done, schemaState := .public },
                        after := (o₃.visit p.collections.ents).map (fun e => (p.id, e.2.id)) }
      | .err e => pure { job := job, err := some e }
      | .panic => .done .panic) this.attempt (Runs.pure _ _)
    exact this.mono (by omega)
  have h3 : Runs (settle { job with state := .done, schemaState := .public } {}) M₃ 1 (.ok ())
      (withQueue M₃ (jobOf (.create j d, .done) :: q.map jobOf)) :=
    runs_settle_update (M := M₃) hq' ⟨publicDB_text hp, by intro a ha; cases ha; exact hp.text⟩ (fun e => by cases e)
  have h4 : Runs (workTxn o₁ o₂ o₃ v) M (1 + ((4 + cs.length) + (1 + 0)))
      (.ok { vars := {}, after := (o₃.visit (publicDB d).collections.ents).map (fun e => (d.id, e.2.id)) })
      (withQueue M₃ (jobOf (.create j d, .done) :: q.map jobOf)) :=
    Runs.bind (Runs.one trivial h1) (Runs.bind h2.attempt (Runs.bind h3 (Runs.pure _ _)))
  refine ⟨_, h4.mono (by omega), ?_⟩
  have hw : A.work = { A with queue := (.create j d, .done) :: q, dbs := A.dbs ++ [d] } := by
    unfold DState.work; rw [hq]; simp only; rw [if_neg hh]
  rw [hw]
  have hver : M.version.getD 0 + 1 = Int64.ofNat (A.dbs.length + 1) := by rw [h.version, ofNat_succ]
  refine ⟨h.lastID, ?_, ?_, ?_, ?_, ?_, ?_, h.history⟩
  · show M.version.getD 0 + 1 = _
    rw [hver, List.length_append]; rfl
  · intro i d' hi
    show ∃ ids', _ ∧ put M.diffs _ _ _ = _
    rw [hver]
    rw [List.getElem?_append] at hi
    split at hi
    · rename_i hlt
      obtain ⟨ids', g1, g2⟩ := h.diff i d' hi
      refine ⟨ids', g1, ?_⟩
      rw [put, if_neg, g2]
      intro e
      have := ofNat_inj (by omega) (by omega) e
      omega
    · rename_i hge
      rw [List.getElem?_singleton] at hi
      split at hi
      · cases hi
        have : i = A.dbs.length := by omega
        subst this
        refine ⟨ids, ?_, by rw [put, if_pos rfl]⟩
        refine ((o₂.perm _).map _).trans ?_
        show (List.map _ (List.map _ _)).Perm _
        rw [List.map_map]
        exact List.Perm.refl _
      · cases hi
  · intro w hw'
    show put M.diffs _ _ _ = _
    rw [hver, put, if_neg]
    · refine h.noDiff w (fun i hi => hw' i ?_)
      rw [List.length_append]; exact Nat.lt_add_right _ hi
    · exact hw' _ (by rw [List.length_append]; simp)
  · intro k x
    show (M.dbs.set (textOf p.id) p).get k = some x ↔ _
    rw [OMap.get_set]
    by_cases hk : textOf p.id = k
    · rw [if_pos hk]
      constructor
      · intro e; cases e; exact ⟨d, by simp, hk.symm, rfl⟩
      · rintro ⟨d', hd', rfl, rfl⟩
        rcases List.mem_append.mp hd' with hd' | hd'
        · exact absurd (textOf_inj.mp hk).symm (hnew d' hd')
        · simp only [List.mem_singleton] at hd'
          rw [hd']; rfl
    · rw [if_neg hk, h.dbs]
      constructor
      · rintro ⟨d', hd', e⟩; exact ⟨d', List.mem_append_left _ hd', e⟩
      · rintro ⟨d', hd', e1, e2⟩
        rcases List.mem_append.mp hd' with hd' | hd'
        · exact ⟨d', hd', e1, e2⟩
        · simp only [List.mem_singleton] at hd'
          rw [hd'] at e1
          exact absurd e1.symm hk
  · intro db k c
    show (put M.colls p.id (addAll (M.colls p.id) cs) db).get k = some c ↔ _
    by_cases hdbid : db = p.id
    · subst hdbid
      rw [put_self, get_addAll cs _ hcid]
      constructor
      · rintro (⟨hc, rfl⟩ | ⟨hc, -⟩)
        · obtain ⟨n, c', hg, rfl⟩ := (hcs c).mp hc
          exact ⟨d, by simp, rfl, n, c', hg, rfl, rfl⟩
        · rw [hcoll] at hc; cases hc
      · rintro ⟨d', hd', e, n, c', hg, rfl, rfl⟩
        rcases List.mem_append.mp hd' with hd' | hd'
        · exact absurd e (hnew d' hd')
        · simp only [List.mem_singleton] at hd'
          subst hd'
          exact .inl ⟨(hcs _).mpr ⟨n, c', hg, rfl⟩, rfl⟩
    · rw [put, if_neg hdbid, h.colls]
      constructor
      · rintro ⟨d', hd', e⟩; exact ⟨d', List.mem_append_left _ hd', e⟩
      · rintro ⟨d', hd', e, g⟩
        rcases List.mem_append.mp hd' with hd' | hd'
        · exact ⟨d', hd', e, g⟩
        · simp only [List.mem_singleton] at hd'
          rw [hd'] at e
          exact absurd e.symm hdbid
  · rfl

/-! ### The first request: a new index -/

theorem runs_work_index (o₁ o₂ o₃ : Order) (v : Vars) (hv : v.err = none) (hs : A.Sane) (h : A.Holds M) {j : Int64}
    {i : IndexInfo} {s : Status} {q : List (Request × Status)} (hq : A.queue = (.index j i, s) :: q) :
    ∃ M', Runs (workTxn o₁ o₂ o₃ v) M 3 (.ok { vars := v }) M' ∧ A.work.Holds M' := by
  have hq' : M.queue .default = jobOf (.index j i, s) :: q.map jobOf := by rw [h.queue, hq]; rfl
  obtain ⟨ht, hst, r, hr, d, hd, hdn, hdc⟩ := hs.index j i s (by rw [hq]; exact List.mem_cons_self)
  obtain ⟨c, hc⟩ : ∃ c, d.collections.get r.collection = some c := by
    cases hg : d.collections.get r.collection with
    | none => exact absurd hg hdc
    | some c => exact ⟨c, rfl⟩
  have hci : c.indices = none := (hs.plain d hd).noIndex _ _ hc
  have herr : (jobOf (.index j i, s)).error = none := by cases s <;> rfl
  have h1 : (MetaCall.getDDLJobByIdx .default 0).sem M = (.ok (some (jobOf (.index j i, s))), M) := by
    rw [sem_first hq', readBack, if_pos herr]; rfl
  have hg := runs_getDbInfo M r.db
  rw [← hdn, named_some h hs hd] at hg
  have hpc : (publicDB d).collections.get r.collection = some { c with state := .public } := by
    simp only [publicDB, get_mapVals, hc, Option.map_some, publicColl_plain hci]
  have key : ∀ st, Runs (onAddIndex o₂ { id := j, type := .addIndex, raw := some (.idx i), state := st }) M 1 .panic M := by
    intro st
    unfold onAddIndex
    simp only [Job.decodeIdx, JobArg.asIdx, hr]
    refine Runs.bind (n := 1) (m := 0) (by rw [← hdn]; exact hg.attempt) ?_
    simp only [hpc, hci]
    exact Runs.done _ _
  have h2 : Runs (runJob o₁ o₂ o₃ (jobOf (.index j i, s))) M 1 .panic M := by
    rcases hst with rfl | rfl
    · exact key .running
    · exact key .cancelling
  let job : Job := { id := j, type := .addIndex, raw := some (.idx i), state := .cancelling }
  have e : { jobOf (.index j i, s) with state := .cancelling } = job := by cases s <;> rfl
  have h3 : Runs (settle job v) M 1 (.ok ()) (withQueue M (jobOf (.index j i, .crashed) :: q.map jobOf)) := by
    have ht' : Job.Text job := ⟨trivial, by intro a ha; cases ha; exact ht⟩
    have : settle job v = Client.one (.updateDDLJob .default 0 job) := by
      unfold settle; rw [hv]; exact if_neg (fun e => by cases e)
    rw [this]
    exact Runs.one ht' (sem_update hq' _)
  have hst' : ¬ ((jobOf (.index j i, s)).state = .done ∨ (jobOf (.index j i, s)).state = .rollbackDone) := by
    rcases hst with rfl | rfl <;> (rintro (e | e) <;> cases e)
  refine ⟨withQueue M (jobOf (.index j i, .crashed) :: q.map jobOf),
    Runs.bind (n := 1) (m := 2) (Runs.one trivial h1) ?_, ?_⟩
  · simp only
    rw [if_neg hst']
    refine Runs.bind (n := 1) (m := 1) h2.attempt (Runs.bind (n := 1) (m := 0) (a := ()) ?_ (Runs.pure _ _))
    show Runs (settle { jobOf (.index j i, s) with state := .cancelling } v) _ _ _ _
    rw [e]
    exact h3
  · have hw : A.work = { A with queue := (.index j i, .crashed) :: q } := by
      unfold DState.work; rw [hq]
      rcases hst with rfl | rfl <;> rfl
    rw [hw]
    refine ⟨h.lastID, h.version, h.diff, h.noDiff, h.dbs, h.colls, ?_, h.history⟩
    rfl

end
end Mondis.Ddl
