import Verif.Lemmas.DdlCalls
/-!
# Package ddl: what is true in every history
-/
namespace Mondis.Spec
open Mondis Schema Ddl

/-- No request in the queue is for more than `K` collections. -/
def DState.Small (K : Nat) (A : DState) : Prop :=
  ∀ j d s, (Request.create j d, s) ∈ A.queue → d.collections.ents.length ≤ K

end Mondis.Spec

namespace Mondis.Ddl
open Mondis Spec Schema Meta

section
variable {A : DState} {M : MState} {K : Nat}

theorem ofNat_bound {n last top : Nat} (h1 : last < n) (h2 : n ≤ top) (h3 : top < 2 ^ 63) :
    (last : Int) < (Int64.ofNat n).toInt ∧ (Int64.ofNat n).toInt ≤ top := by
  rw [Int64.toInt_ofNat_of_lt (by omega)]
  omega

theorem nodup_ofNat {l : List Nat} (h : l.Nodup) (hb : ∀ x ∈ l, x < 2 ^ 63) : (l.map Int64.ofNat).Nodup := by
  rw [List.Nodup, List.pairwise_map]
  rw [List.pairwise_iff_forall_sublist]
  intro a b hab e
  have ha : a ∈ l := hab.subset (by simp)
  have hb' : b ∈ l := hab.subset (by simp)
  exact (List.pairwise_iff_forall_sublist.mp h) hab (ofNat_inj (hb a ha) (hb b hb') e)

/-- A new request with new ids. -/
theorem sane_enqueue (hs : A.Sane) (r : Request) (n : Nat) (hn : 1 ≤ n) (hb : A.lastID + n < 2 ^ 63)
    (l : List Nat) (hl : (DState.requestIDs (r, .waiting)).Perm (l.map Int64.ofNat)) (hd : l.Nodup)
    (hr : ∀ x ∈ l, A.lastID < x ∧ x ≤ A.lastID + n)
    (hc : ∀ j d, r = .create j d → Plain d)
    (hi : ∀ j i, r = .index j i → i.Text ∧ ∃ r, i.jobRedundant = some r ∧ ∃ d ∈ A.dbs, d.name = r.db ∧ d.collections.get r.collection ≠ none) :
    DState.Sane { A with lastID := A.lastID + n, queue := A.queue ++ [(r, .waiting)] } := by
  have hids : (DState.ids { A with lastID := A.lastID + n, queue := A.queue ++ [(r, .waiting)] }).Perm
      (l.map Int64.ofNat ++ A.ids) := by
    unfold DState.ids
    simp only [List.flatMap_append, List.flatMap_cons, List.flatMap_nil, List.append_nil]
    refine List.Perm.trans ?_ (hl.append_right _)
    have : (A.dbs.flatMap DState.idsOf ++ (A.queue.flatMap DState.requestIDs ++ DState.requestIDs (r, .waiting)) ++
        A.finished.map Prod.fst).Perm (DState.requestIDs (r, .waiting) ++ (A.dbs.flatMap DState.idsOf ++
        A.queue.flatMap DState.requestIDs) ++ A.finished.map Prod.fst) := by
      refine List.Perm.append_right _ ?_
      rw [← List.append_assoc]
      exact List.perm_append_comm
    rw [List.append_assoc (DState.requestIDs (r, .waiting))] at this
    exact this
  have hnew : ∀ x ∈ l.map Int64.ofNat, (A.lastID : Int) < x.toInt ∧ x.toInt ≤ (A.lastID + n : Nat) := by
    intro x hx
    obtain ⟨y, hy, rfl⟩ := List.mem_map.mp hx
    exact ofNat_bound (hr y hy).1 (hr y hy).2 hb
  refine ⟨?_, ?_, hb, hs.names, hs.plain, ?_, ?_, ?_, ?_, ?_⟩
  · rw [hids.nodup_iff, List.nodup_append]
    refine ⟨nodup_ofNat hd (fun x hx => by have := hr x hx; omega), hs.nodup, ?_⟩
    intro a ha b hb' e
    have h1 := hnew a ha
    have h2 := hs.bound b hb'
    rw [e] at h1
    omega
  · intro x hx
    rcases List.mem_append.mp (hids.mem_iff.mp hx) with hx | hx
    · have := hnew x hx; exact ⟨by omega, this.2⟩
    · have := hs.bound x hx
      exact ⟨this.1, by show x.toInt ≤ ((A.lastID + n : Nat) : Int); omega⟩
  · intro j d s hm
    rcases List.mem_append.mp hm with hm | hm
    · exact hs.create j d s hm
    · simp only [List.mem_singleton, Prod.mk.injEq] at hm
      exact ⟨hc j d hm.1.symm, by rw [hm.2]; decide⟩
  · intro j i s hm
    rcases List.mem_append.mp hm with hm | hm
    · exact hs.index j i s hm
    · simp only [List.mem_singleton, Prod.mk.injEq] at hm
      obtain ⟨h1, h2⟩ := hi j i hm.1.symm
      exact ⟨h1, .inl hm.2, h2⟩
  · intro r' hr'
    cases hq : A.queue with
    | nil => simp only [hq, List.nil_append, List.tail_cons, List.not_mem_nil] at hr'
    | cons a q =>
      simp only [hq, List.cons_append, List.tail_cons] at hr'
      rcases List.mem_append.mp hr' with hr' | hr'
      · exact hs.later r' (by rw [hq]; exact hr')
      · rw [List.mem_singleton] at hr'
        rw [hr']
  · have := hs.count
    show A.dbs.length + List.countP _ (A.queue ++ _) ≤ A.lastID + n
    rw [List.countP_append, List.countP_singleton]
    have : (if (decide (Status.waiting ≠ Status.done)) = true then 1 else 0) = 1 := by decide
    rw [this]
    omega
  · have := hs.queueLen
    show (A.queue ++ _).length ≤ A.lastID + n
    rw [List.length_append]
    simp only [List.length_singleton]
    omega

theorem requested_plain (last : Nat) {i : CreateSchemaInput} (ht : TextInput i) : Plain (requested last i) := by
  refine ⟨⟨ht.1, ht.2, ?_⟩, ?_⟩
  · intro k c hk
    obtain ⟨hk', n, -, rfl⟩ := get_numbered hk
    have := ht.2 k ((mem_distinct _ _).mp hk')
    exact ⟨this, this, by simp, by intro m hm; cases hm⟩
  · intro n c hc
    obtain ⟨-, _, -, rfl⟩ := get_numbered hc
    rfl

theorem sane_created (hs : A.Sane) {i : CreateSchemaInput} (ht : TextInput i)
    (hb : A.lastID + (2 + i.collections.length + i.indices.ents.length) < 2 ^ 63) : (A.enqueued i).Sane := by
  refine sane_enqueue hs _ _ (by omega) hb ((A.lastID + 2 + (distinct i.collections).length) :: (A.lastID + 1) ::
    (List.range (distinct i.collections).length).map (fun x => A.lastID + 2 + x)) ?_ ?_ ?_ ?_ ?_
  · simp only [DState.requestIDs, DState.idsOf, List.map_cons, List.map_map]
    refine List.Perm.cons _ (List.Perm.cons _ ?_)
    exact ids_numbered (A.lastID + 2) (distinct_nodup _)
  · rw [List.nodup_cons, List.nodup_cons]
    refine ⟨?_, ?_, ?_⟩
    · simp only [List.mem_cons, List.mem_map, List.mem_range, not_or, not_exists, not_and]
      exact ⟨by omega, fun x hx => by omega⟩
    · simp only [List.mem_map, List.mem_range, not_exists, not_and]
      exact fun x hx => by omega
    · rw [List.Nodup, List.pairwise_map]
      exact List.Pairwise.imp (fun h e => h (by omega)) List.nodup_range
  · have := distinct_length i.collections
    intro x hx
    simp only [List.mem_cons, List.mem_map, List.mem_range] at hx
    rcases hx with rfl | rfl | ⟨y, hy, rfl⟩ <;> omega
  · intro j d e; cases e; exact requested_plain _ ht
  · intro j d e; cases e

theorem small_created {i : CreateSchemaInput} (h : A.Small K) (hi : i.collections.length ≤ K) : (A.enqueued i).Small K := by
  intro j d s hm
  rcases List.mem_append.mp hm with hm | hm
  · exact h j d s hm
  · simp only [List.mem_singleton, Prod.mk.injEq, Request.create.injEq] at hm
    rw [hm.1.2]
    have := (ids_numbered (A.lastID + 2) (distinct_nodup i.collections)).length_eq
    rw [List.length_map, List.length_map, List.length_range] at this
    show (numbered _ _).ents.length ≤ K
    rw [this]
    exact Nat.le_trans (distinct_length _) hi

theorem runs_queueLen (M : MState) : Runs (Client.one (.ddlJobQueueLen .default)) M 1
    (.ok (Int64.ofInt (M.queue .default).length)) M := Runs.one trivial rfl

theorem queue_full (h : A.Holds M) (hs : A.Sane) :
    Int64.ofInt (M.queue .default).length > maxJobsInQueue ↔ 100 < A.queue.length := by
  have h1 := hs.queueLen
  have h2 := hs.small
  rw [h.queue, List.length_map]
  show maxJobsInQueue < Int64.ofInt (A.queue.length : Nat) ↔ _
  rw [Int64.lt_iff_toInt_lt, Int64.toInt_ofInt_of_le (by omega) (by omega)]
  have : maxJobsInQueue.toInt = 100 := rfl
  omega

/-- CreateSchema when nothing is refused. -/
theorem runs_createSchema (o : Order) (i : CreateSchemaInput) (hs : A.Sane) (h : A.Holds M) (ht : TextInput i) :
    ∃ r A' M', Runs (createSchema o i) M 4 r M' ∧ A.Creates i r A' ∧ ∀ j, r = .ok j → A'.Holds M' := by
  unfold createSchema
  rcases validate_cases o i with ⟨hv, e⟩ | ⟨hv, e, he, e'⟩
  case inr =>
    rw [e']
    exact ⟨_, A, M, (Runs.done _ _).mono (by omega), .invalid e hv he, fun j hj => by cases hj⟩
  rw [e]
  simp only
  have hfull := queue_full h hs
  by_cases hq : 100 < A.queue.length
  · refine ⟨.err errJobsInQueueExceeded, A, M, ?_, .full hv hq, fun j hj => by cases hj⟩
    refine Runs.mono (Runs.bind (n := 1) (m := 0) (runs_queueLen M) ?_) (by omega)
    rw [if_pos (hfull.mpr hq)]
    exact Runs.done _ _
  have hq' : ¬ Int64.ofInt (M.queue .default).length > maxJobsInQueue := fun x => hq (hfull.mp x)
  by_cases hh : A.Has i.db
  · refine ⟨.err errDBAlreadyExists, A, M, ?_, .taken hv (by omega) hh, fun j hj => by cases hj⟩
    refine Runs.mono (Runs.bind (n := 1) (m := 1) (runs_queueLen M) ?_) (by omega)
    rw [if_neg hq']
    exact Runs.bindErr (runs_checkDB_some (by rw [Ne, named_none_iff h]; exact fun x => x hh))
  let M₁ : MState := { M with globalID := some (M.globalID.getD 0 + i.idsTaken) }
  have hg : Runs (Client.one (.genGlobalIDs i.idsTaken)) M 1 (.ok (Int64.ofNat A.lastID, Int64.ofNat A.lastID + i.idsTaken)) M₁ := by
    rw [← h.lastID]
    exact Runs.one trivial rfl
  have hc := runs_checkDB_none ((named_none_iff h i.db).mpr hh)
  by_cases hw : WithIndex i
  · refine ⟨.panic, A, M₁, ?_, .crashes hv (by omega) hh hw, fun j hj => by cases hj⟩
    refine Runs.mono (Runs.bind (n := 1) (m := 2) (runs_queueLen M) ?_) (by omega)
    rw [if_neg hq']
    refine Runs.bind (n := 1) (m := 1) hc (Runs.bind (n := 1) (m := 0) hg ?_)
    simp only
    rw [createJob_panic i _ hw]
    exact Runs.done _ _
  · have hj := createJob_ok i A.lastID hw
    let job : Job := { id := DState.createJobID A.lastID i, type := .createSchema, arg := .db (requested A.lastID i) }
    have hk : Runs (Client.one (.enQueueDDLJob .default job)) M₁ 1 (.ok ())
        (withQueue M₁ (M.queue .default ++ [stored job])) :=
      Runs.one ⟨(requested_plain _ ht).text, by intro a ha; cases ha⟩ rfl
    refine ⟨.ok job.sealed, A.enqueued i, withQueue M₁ (M.queue .default ++ [stored job]), ?_,
      .ok _ hv (by omega) hh hw rfl rfl rfl rfl, ?_⟩
    · refine Runs.mono (Runs.bind (n := 1) (m := 3) (runs_queueLen M) ?_) (by omega)
      rw [if_neg hq']
      refine Runs.bind (n := 1) (m := 2) hc (Runs.bind (n := 1) (m := 1) hg ?_)
      simp only
      rw [hj]
      exact Runs.bind (n := 1) (m := 0) hk (Runs.pure _ _)
    · intro _ _
      refine ⟨?_, h.version, h.diff, h.noDiff, h.dbs, h.colls, ?_, h.history⟩
      · show M.globalID.getD 0 + i.idsTaken = _
        rw [h.lastID]
        show Int64.ofNat A.lastID + Int64.ofNat _ = Int64.ofNat _
        rw [← Int64.ofNat_add]
        rfl
      · show (M.queue .default ++ [stored job]) = _
        rw [h.queue]
        show _ = List.map jobOf (A.queue ++ [_])
        rw [List.map_append]; rfl

/-- AddIndex when nothing is refused. -/
theorem runs_addIndex (i : AddIndexInput) (hs : A.Sane) (h : A.Holds M) (ht : TextIndex i) (hb : A.lastID + 2 < 2 ^ 63) :
    ∃ r A' M', Runs (addIndexTxn i) M 3 r M' ∧ A.Adds i r A' ∧ A'.Sane ∧ (A.Small K → A'.Small K) ∧
      ∀ j, r = .ok j → A'.Holds M' := by
  unfold addIndexTxn checkIndexNameNotExists
  by_cases hh : A.Has i.db
  case neg =>
    refine ⟨.err Ddl.errDBNotExists, A, M, ?_, .noDB hh, hs, id, fun j hj => by cases hj⟩
    have := runs_getDbInfo M i.db
    rw [(named_none_iff h i.db).mpr hh] at this
    exact Runs.mono (Runs.bindErr (Runs.bind (n := 1) (m := 0) this (Runs.done _ _))) (by omega)
  obtain ⟨d, hd, hdn⟩ := hh
  have hg := runs_getDbInfo M i.db
  rw [← hdn, named_some h hs hd, hdn] at hg
  have hpc : (publicDB d).collections.get i.collection = (d.collections.get i.collection).map publicColl := by
    simp only [publicDB, get_mapVals]
  cases hc : d.collections.get i.collection with
  | none =>
    refine ⟨.err Ddl.errCollectionNotExists, A, M, ?_, .noCollection d hd hdn hc, hs, id, fun j hj => by cases hj⟩
    refine Runs.mono (Runs.bindErr (Runs.bind (n := 1) (m := 0) hg ?_)) (by omega)
    simp only [hpc, hc]
    exact Runs.done _ _
  | some c =>
    have hci := (hs.plain d hd).noIndex _ _ hc
    let M₁ : MState := { M with globalID := some (M.globalID.getD 0 + 2) }
    have hg2 : Runs (Client.one (.genGlobalIDs 2)) M 1 (.ok (Int64.ofNat A.lastID, Int64.ofNat A.lastID + 2)) M₁ := by
      rw [← h.lastID]
      exact Runs.one trivial rfl
    let job : Job := { id := Int64.ofNat (A.lastID + 2), type := .addIndex, arg := .idx (DState.requestedIndex A.lastID i) }
    have htx : (DState.requestedIndex A.lastID i).Text :=
      ⟨ht.2.2.1, ht.2.2.2, by intro r hr; cases hr; exact ⟨ht.2.1, ht.1⟩⟩
    have hk : Runs (Client.one (.enQueueDDLJob .default job)) M₁ 1 (.ok ())
        (withQueue M₁ (M.queue .default ++ [stored job])) := Runs.one ⟨htx, by intro a ha; cases ha⟩ rfl
    refine ⟨.ok job.sealed, _, withQueue M₁ (M.queue .default ++ [stored job]), ?_,
      .ok d _ hd hdn (by rw [hc]; simp) rfl rfl rfl rfl, ?_, ?_, ?_⟩
    · refine Runs.bind (n := 1) (m := 2) (a := false) (M' := M) ?_ ?_
      · refine Runs.bind (n := 1) (m := 0) hg ?_
        simp only [hpc, hc, Option.map_some]
        have : (publicColl c).indices = none := by rw [publicColl_plain hci]; exact hci
        rw [this]
        exact Runs.pure _ _
      · rw [if_neg (by simp)]
        refine Runs.bind (n := 1) (m := 1) hg2 ?_
        have e1 : Int64.ofNat A.lastID + 1 = Int64.ofNat (A.lastID + 1) := ofNat_succ _
        have e2 : Int64.ofNat A.lastID + 2 = Int64.ofNat (A.lastID + 2) := (Int64.ofNat_add _ 2).symm
        simp only [IndexIn.toModel, e1, e2]
        exact Runs.bind (n := 1) (m := 0) hk (Runs.pure _ _)
    · refine sane_enqueue hs _ 2 (by omega) hb [A.lastID + 2, A.lastID + 1] (List.Perm.refl _) (by simp) (by
        intro x hx
        simp only [List.mem_cons, List.not_mem_nil, or_false] at hx
        rcases hx with rfl | rfl <;> omega) (by intro j d e; cases e) ?_
      intro j x e
      cases e
      exact ⟨htx, _, rfl, d, hd, hdn, by show d.collections.get i.collection ≠ none; rw [hc]; simp⟩
    · intro hsm j d' s hm
      rcases List.mem_append.mp hm with hm | hm
      · exact hsm j d' s hm
      · simp only [List.mem_singleton, Prod.mk.injEq] at hm
        cases hm.1
    · intro _ _
      refine ⟨?_, h.version, h.diff, h.noDiff, h.dbs, h.colls, ?_, h.history⟩
      · show M.globalID.getD 0 + 2 = _
        rw [h.lastID]
        exact (Int64.ofNat_add _ 2).symm
      · show (M.queue .default ++ [stored job]) = _
        rw [h.queue, List.map_append]; rfl

end
end Mondis.Ddl
