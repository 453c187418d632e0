import Verif.Props.Meta
import Verif.Lemmas.Ser
import Verif.Lemmas.BigEndian
/-!
# C48, C49: consequences of the specification of package meta, and examples
-/
namespace Mondis.Props
open Mondis Spec Structure Schema Meta Util

/-! ### Records are filed under their own ids -/

/-- Every record is filed under its own id. -/
structure Filed (M : MState) : Prop where
  dbs : ∀ k d, M.dbs.get k = some d → k = textOf d.id
  colls : ∀ db k c, (M.colls db).get k = some c → k = textOf c.id
  history : ∀ k j, M.history.get k = some j → k = MState.job.jobKey j.id
  diffs : ∀ v d, M.diffs v = some d → d.version = v

theorem get_set_cases {V : Type} {m : OMap V} {k j : Bytes} {v w : V} (h : (m.set k v).get j = some w) :
    (k = j ∧ v = w) ∨ m.get j = some w := by
  rw [OMap.get_set] at h
  split at h
  · rename_i e; cases h; exact .inl ⟨by simp_all, rfl⟩
  · exact .inr h

theorem get_del_some {V : Type} {m : OMap V} {k j : Bytes} {w : V} (h : (m.del k).get j = some w) :
    m.get j = some w := by
  rw [OMap.get_del] at h
  split at h
  · cases h
  · exact h

theorem filed_set_colls {M : MState} (h : Filed M) (db : Int64) (c : CollectionInfo) :
    ∀ i k c', ((put M.colls db ((M.colls db).set (textOf c.id) c)) i).get k = some c' → k = textOf c'.id := by
  intro i k c' hk
  simp only [put] at hk
  split at hk
  · rcases get_set_cases hk with ⟨rfl, rfl⟩ | hk
    · rfl
    · exact h.colls _ _ _ hk
  · exact h.colls _ _ _ hk

theorem filed_call {M : MState} (h : Filed M) {β : Type} (c : MetaCall β) : Filed (c.sem M).2 := by
  have hset : ∀ d : DBInfo, Filed { M with dbs := M.dbs.set (textOf d.id) d } := by
    intro d
    refine ⟨?_, h.colls, h.history, h.diffs⟩
    intro k d' hk
    rcases get_set_cases hk with ⟨rfl, rfl⟩ | hk
    · rfl
    · exact h.dbs _ _ hk
  cases c with
  | createDatabase d =>
    simp only [MetaCall.sem]
    split
    · exact h
    · exact hset d
  | updateDatabase d =>
    simp only [MetaCall.sem, ifDB]
    split
    · exact h
    · exact hset d
  | createCollection db c =>
    simp only [MetaCall.sem, ifDB]
    (repeat' split) <;> first | exact h | exact ⟨h.dbs, filed_set_colls h db c, h.history, h.diffs⟩
  | updateCollection db c =>
    simp only [MetaCall.sem, ifDB, ifColl]
    (repeat' split) <;> first | exact h | exact ⟨h.dbs, filed_set_colls h db c, h.history, h.diffs⟩
  | dropDatabase db =>
    simp only [MetaCall.sem, ifDB]
    split
    · exact h
    · refine ⟨fun k d hk => h.dbs k d (get_del_some hk), ?_, h.history, h.diffs⟩
      intro i k c hk
      simp only [put] at hk
      split at hk
      · cases hk
      · exact h.colls _ _ _ hk
  | dropCollection db c del =>
    simp only [MetaCall.sem, ifDB, ifColl]
    split
    · exact h
    · split
      · exact h
      · refine ⟨h.dbs, ?_, h.history, h.diffs⟩
        intro i k c hk
        simp only [put] at hk
        split at hk
        · exact h.colls _ _ _ (get_del_some hk)
        · exact h.colls _ _ _ hk
  | addHistoryDDLJob j =>
    refine ⟨h.dbs, h.colls, ?_, h.diffs⟩
    intro k j' hk
    rcases get_set_cases hk with ⟨rfl, rfl⟩ | hk
    · rfl
    · exact h.history _ _ hk
  | setSchemaDiff d =>
    refine ⟨h.dbs, h.colls, h.history, ?_⟩
    intro v d' hv
    simp only [MetaCall.sem, put] at hv
    split at hv
    · cases hv; subst_vars; rfl
    · exact h.diffs _ _ hv
  | genGlobalID => exact ⟨h.dbs, h.colls, h.history, h.diffs⟩
  | genGlobalIDs n => exact ⟨h.dbs, h.colls, h.history, h.diffs⟩
  | genSchemaVersion => exact ⟨h.dbs, h.colls, h.history, h.diffs⟩
  | finishBootstrap v => exact ⟨h.dbs, h.colls, h.history, h.diffs⟩
  | enQueueDDLJob l j => exact ⟨h.dbs, h.colls, h.history, h.diffs⟩
  | updateDDLReorgStartHandle id s => exact ⟨h.dbs, h.colls, h.history, h.diffs⟩
  | updateDDLReorgHandle id s e => exact ⟨h.dbs, h.colls, h.history, h.diffs⟩
  | removeDDLReorgHandle id => exact ⟨h.dbs, h.colls, h.history, h.diffs⟩
  | incDidSequence db c s => exact ⟨h.dbs, h.colls, h.history, h.diffs⟩
  | getGlobalID => simp only [MetaCall.sem]; split <;> exact h
  | listCollections db => simp only [MetaCall.sem, ifDB]; split <;> exact h
  | getDatabase db => simp only [MetaCall.sem]; split <;> exact h
  | getCollection db c => simp only [MetaCall.sem, ifDB]; (repeat' split) <;> exact h
  | deQueueDDLJob l =>
    simp only [MetaCall.sem]
    split
    · exact h
    · exact ⟨h.dbs, h.colls, h.history, h.diffs⟩
  | getDDLJobByIdx l i => simp only [MetaCall.sem]; (repeat' split) <;> exact h
  | updateDDLJob l i j =>
    simp only [MetaCall.sem]
    split
    · exact ⟨h.dbs, h.colls, h.history, h.diffs⟩
    · exact h
  | getHistoryDDLJob id => simp only [MetaCall.sem]; split <;> exact h
  | getDDLReorgHandle id => simp only [MetaCall.sem]; split <;> exact h
  | getSchemaVersion => exact h
  | listDatabases => exact h
  | getBootstrapVersion => exact h
  | getSchemaDiff v => exact h
  | ddlJobQueueLen l => exact h
  | getAllDDLJobsInQueue l => exact h
  | getAllHistoryDDLJobs => exact h
  | getLastNHistoryDDLJobs n => exact h

theorem filed_client {α : Type} (p : Client α) {M : MState} (h : Filed M) : Filed (p.sem M).2 := by
  induction p generalizing M with
  | done r => exact h
  | call c k ih => exact ih _ (filed_call h c)

theorem filed_explained {α : Type} {Ts : List (MetaTxn α)} {rs : List (Res α)} {M M' : MState}
    (h : Explained M Ts rs M') (hf : Filed M) : Filed M' := by
  induction h with
  | nil => exact hf
  | @cons M M' M'' T Ts r rs he _ ih =>
    refine ih ?_
    rcases he with ⟨-, a, -, hs⟩ | ⟨rfl, -⟩ | ⟨rfl, -⟩
    · have := filed_client T.prog hf
      rwa [hs] at this
    · exact hf
    · exact hf

/-- Metadata that a history of transactions can lead to. -/
def Reachable (M : MState) : Prop := ∃ (α : Type) (Ts : List (MetaTxn α)) (rs : List (Res α)), Explained {} Ts rs M

theorem Reachable.filed {M : MState} (h : Reachable M) : Filed M := by
  obtain ⟨α, Ts, rs, h⟩ := h
  refine filed_explained h ⟨?_, ?_, ?_, ?_⟩
  · intro k d h; cases h
  · intro _ k d h; cases h
  · intro k d h; cases h
  · intro k d h; cases h

/-! ### C48 -/

/-- Creating a database that exists is an error and changes nothing; otherwise GetDatabase then answers exactly
what was created, and no other database is affected. -/
theorem C48_create_database (M : MState) (d : DBInfo) :
    let M' := ((MetaCall.createDatabase d).sem M).2
    (M.db d.id ≠ none → (MetaCall.createDatabase d).sem M = (.err errDBExists, M)) ∧
    (M.db d.id = none → ((MetaCall.createDatabase d).sem M).1 = .ok () ∧
      ((MetaCall.getDatabase d.id).sem M').1 = .ok d ∧
      ∀ id, id ≠ d.id → ((MetaCall.getDatabase id).sem M').1 = ((MetaCall.getDatabase id).sem M).1) := by
  intro M'
  refine ⟨fun h => by simp only [MetaCall.sem]; rw [if_pos h], fun h => ?_⟩
  have e : (MetaCall.createDatabase d).sem M = (.ok (), { M with dbs := M.dbs.set (textOf d.id) d }) := by
    simp only [MetaCall.sem]; rw [if_neg (by simp [h])]
  have eM : M' = { M with dbs := M.dbs.set (textOf d.id) d } := by show (_ : Res Unit × MState).2 = _; rw [e]
  rw [e, eM]
  refine ⟨rfl, ?_, ?_⟩
  · simp [MetaCall.sem, MState.db, OMap.get_set]
  · intro id hid
    have : ∀ N : MState, N.db id = M.db id → ((MetaCall.getDatabase id).sem N).1 = ((MetaCall.getDatabase id).sem M).1 := by
      intro N hN; simp only [MetaCall.sem, hN]; split <;> rfl
    refine this _ ?_
    simp only [MState.db, OMap.get_set]
    rw [if_neg (fun h => hid (textOf_inj.mp h.symm))]

/-- Every operation on a database that does not exist fails and changes nothing. -/
theorem C48_missing_database (M : MState) (d : DBInfo) (id : Int64) (c : CollectionInfo) (cid : Int64) (b : Bool)
    (h : M.db id = none) (hd : d.id = id) :
    (MetaCall.updateDatabase d).sem M = (.err errDBNotExists, M) ∧
    (MetaCall.getDatabase id).sem M = (.err errDBNotExists, M) ∧
    (MetaCall.dropDatabase id).sem M = (.err errDBNotExists, M) ∧
    (MetaCall.createCollection id c).sem M = (.err errDBNotExists, M) ∧
    (MetaCall.updateCollection id c).sem M = (.err errDBNotExists, M) ∧
    (MetaCall.dropCollection id cid b).sem M = (.err errDBNotExists, M) ∧
    (MetaCall.getCollection id cid).sem M = (.err errDBNotExists, M) ∧
    (MetaCall.listCollections id).sem M = (.err errDBNotExists, M) := by
  subst hd
  refine ⟨?_, ?_, ?_, ?_, ?_, ?_, ?_, ?_⟩ <;> simp only [MetaCall.sem, ifDB, h, if_true]

/-- Creating a collection that exists, and updating, dropping or reading one that does not, are errors that
change nothing; a created or updated collection is then answered by GetCollection, a dropped one is gone. -/
theorem C48_collections (M : MState) (db : Int64) (c : CollectionInfo) (hdb : M.db db ≠ none) :
    (M.coll db c.id ≠ none →
      (MetaCall.createCollection db c).sem M = (.err errCollectionExists, M) ∧
      ((MetaCall.updateCollection db c).sem M).1 = .ok () ∧
      ((MetaCall.getCollection db c.id).sem ((MetaCall.updateCollection db c).sem M).2).1 = .ok c ∧
      ∀ b, ((MetaCall.dropCollection db c.id b).sem M).1 = .ok () ∧
        ((MetaCall.getCollection db c.id).sem ((MetaCall.dropCollection db c.id b).sem M).2).1 =
          .err errCollectionNotExists) ∧
    (M.coll db c.id = none →
      ((MetaCall.createCollection db c).sem M).1 = .ok () ∧
      ((MetaCall.getCollection db c.id).sem ((MetaCall.createCollection db c).sem M).2).1 = .ok c ∧
      (MetaCall.updateCollection db c).sem M = (.err errCollectionNotExists, M) ∧
      (MetaCall.getCollection db c.id).sem M = (.err errCollectionNotExists, M) ∧
      ∀ b, (MetaCall.dropCollection db c.id b).sem M = (.err errCollectionNotExists, M)) := by
  have get : ∀ N : MState, N.db db ≠ none → ((MetaCall.getCollection db c.id).sem N).1 =
      ((N.coll db c.id).map Res.ok).getD (.err errCollectionNotExists) := by
    intro N hN
    simp only [MetaCall.sem, ifDB]
    rw [if_neg hN]
    cases N.coll db c.id <;> rfl
  have hset : ({ M with colls := put M.colls db ((M.colls db).set (textOf c.id) c) } : MState).coll db c.id = some c := by
    simp [MState.coll, put, OMap.get_set]
  constructor
  · intro hc
    have eu : (MetaCall.updateCollection db c).sem M =
        (.ok (), { M with colls := put M.colls db ((M.colls db).set (textOf c.id) c) }) := by
      simp only [MetaCall.sem, ifDB, ifColl]; rw [if_neg hdb, if_neg hc]
    refine ⟨?_, ?_, ?_, ?_⟩
    · simp only [MetaCall.sem, ifDB]; rw [if_neg hdb, if_pos hc]
    · rw [eu]
    · rw [eu]
      exact (get _ (show ({ M with colls := put M.colls db ((M.colls db).set (textOf c.id) c) } : MState).db db ≠ none from hdb)).trans (by rw [hset]; rfl)
    · intro b
      have ed : (MetaCall.dropCollection db c.id b).sem M =
          (.ok (), { M with colls := put M.colls db ((M.colls db).del (textOf c.id)),
                            dids := if b then put M.dids db ((M.dids db).del (textOf c.id)) else M.dids }) := by
        simp only [MetaCall.sem, ifDB, ifColl]; rw [if_neg hdb, if_neg hc]
      rw [ed]
      refine ⟨rfl, ?_⟩
      have : ∀ y, ({ M with colls := put M.colls db ((M.colls db).del (textOf c.id)), dids := y } : MState).coll db c.id = none := by
        intro y; simp [MState.coll, put, OMap.get_del]
      have h2 : ∀ y, ({ M with colls := put M.colls db ((M.colls db).del (textOf c.id)), dids := y } : MState).db db ≠ none := fun _ => hdb
      exact (get _ (h2 _)).trans (by rw [this]; rfl)
  · intro hc
    have hn : ¬ (M.coll db c.id ≠ none) := by simp [hc]
    have ec : (MetaCall.createCollection db c).sem M =
        (.ok (), { M with colls := put M.colls db ((M.colls db).set (textOf c.id) c) }) := by
      simp only [MetaCall.sem, ifDB]; rw [if_neg hdb, if_neg hn]
    refine ⟨?_, ?_, ?_, ?_, ?_⟩
    · rw [ec]
    · rw [ec]
      exact (get _ (show ({ M with colls := put M.colls db ((M.colls db).set (textOf c.id) c) } : MState).db db ≠ none from hdb)).trans (by rw [hset]; rfl)
    · simp only [MetaCall.sem, ifDB, ifColl]; rw [if_neg hdb, if_pos hc]
    · simp only [MetaCall.sem, ifDB, hc]; rw [if_neg hdb]
    · intro b; simp only [MetaCall.sem, ifDB, ifColl]; rw [if_neg hdb, if_pos hc]

/-- Dropping a database removes it and everything in it: even when a database with the same id is created
again, it has no collections and its document id counters start over.  Other databases keep theirs. -/
theorem C48_drop_database (M : MState) (id : Int64) (d : DBInfo) (h : M.db id ≠ none) (hd : d.id = id) :
    let M' := ((MetaCall.dropDatabase id).sem M).2
    let M'' := ((MetaCall.createDatabase d).sem M').2
    ((MetaCall.dropDatabase id).sem M).1 = .ok () ∧
    ((MetaCall.getDatabase id).sem M').1 = .err errDBNotExists ∧
    ((MetaCall.listCollections id).sem M'').1 = .ok [] ∧
    (∀ c step, ((MetaCall.incDidSequence id c step).sem M'').1 = .ok step) ∧
    (∀ other, other ≠ id → M'.db other = M.db other ∧ M'.colls other = M.colls other ∧ M'.dids other = M.dids other) := by
  subst hd
  have e1 : (MetaCall.dropDatabase d.id).sem M = (.ok (), { M with dbs := M.dbs.del (textOf d.id), colls := put M.colls d.id OMap.empty, dids := put M.dids d.id OMap.empty }) := by
    simp only [MetaCall.sem, ifDB]; rw [if_neg h]
  have hn : ∀ x y, ({ M with dbs := M.dbs.del (textOf d.id), colls := x, dids := y } : MState).db d.id = none := by
    intro x y; simp [MState.db, OMap.get_del]
  have e2 : ∀ x y, (MetaCall.createDatabase d).sem ({ M with dbs := M.dbs.del (textOf d.id), colls := x, dids := y } : MState) =
      (.ok (), { M with dbs := (M.dbs.del (textOf d.id)).set (textOf d.id) d, colls := x, dids := y }) := by
    intro x y
    simp only [MetaCall.sem]; rw [if_neg (by simp [hn])]
  simp only [e1, e2]
  refine ⟨trivial, ?_, ?_, ?_, ?_⟩
  · simp only [MetaCall.sem, hn]
  · simp only [MetaCall.sem, ifDB]
    rw [if_neg (by simp [MState.db, OMap.get_set])]
    simp [put, OMap.empty]
  · intro c step
    simp [MetaCall.sem, put, OMap.get_empty]
  · intro o ho
    refine ⟨?_, ?_, ?_⟩
    · simp only [MState.db, OMap.get_del]
      rw [if_neg (fun e => ho (textOf_inj.mp e.symm))]
    · simp [put, ho]
    · simp [put, ho]

/-- The listings contain exactly the existing databases, and exactly the collections of a database, each once. -/
theorem C48_listings (M : MState) (h : Reachable M) :
    (∃ l, ((MetaCall.listDatabases).sem M).1 = .ok l ∧ (∀ d, d ∈ l ↔ M.db d.id = some d) ∧ (l.map DBInfo.id).Nodup) ∧
    ∀ db, M.db db ≠ none → ∃ l, ((MetaCall.listCollections db).sem M).1 = .ok l ∧
      (∀ c, c ∈ l ↔ M.coll db c.id = some c) ∧ (l.map CollectionInfo.id).Nodup := by
  have key : ∀ {V : Type} (m : OMap V) (f : V → Int64) (hf : ∀ k v, m.get k = some v → k = textOf (f v)),
      (∀ v, v ∈ m.ents.map Prod.snd ↔ m.get (textOf (f v)) = some v) ∧ ((m.ents.map Prod.snd).map f).Nodup := by
    intro V m f hf
    constructor
    · intro v
      constructor
      · intro hv
        obtain ⟨⟨k, v'⟩, hk, rfl⟩ := List.mem_map.mp hv
        have := OMap.mem_get hk
        rw [← hf _ _ this]; exact this
      · intro hv
        exact List.mem_map.mpr ⟨_, (OMap.get_eq_some_iff _ _ _).mp hv, rfl⟩
    · have hn := OMap.keys_nodup m
      have e : m.ents.map Prod.fst = ((m.ents.map Prod.snd).map f).map textOf := by
        rw [List.map_map, List.map_map]
        apply List.map_congr_left
        rintro ⟨k, v⟩ hk
        exact hf _ _ (OMap.mem_get hk)
      rw [e] at hn
      exact List.Pairwise.of_map _ (fun a b hab he => hab (congrArg _ he)) hn
  have hf := h.filed
  refine ⟨⟨_, rfl, key M.dbs DBInfo.id hf.dbs⟩, ?_⟩
  intro db hdb
  refine ⟨(M.colls db).ents.map Prod.snd, ?_, key (M.colls db) CollectionInfo.id (hf.colls db)⟩
  simp only [MetaCall.sem, ifDB]; rw [if_neg hdb]

/-! ### C49 -/

/-- Jobs a call adds to a list. -/
def addedBy (l : ListKey) : {β : Type} → MetaCall β → Res β → List Job
  | _, .enQueueDDLJob l' j, .ok _ => if l' = l then [stored j] else []
  | _, _, _ => []

/-- Jobs a call takes from a list. -/
def takenBy (l : ListKey) : {β : Type} → MetaCall β → Res β → List Job
  | _, .deQueueDDLJob l', .ok (some j) => if l' = l then [j] else []
  | _, _, _ => []

/-- The program, answering also the jobs it added to the list and those it took from it, in order. -/
def withJobs (l : ListKey) {α : Type} (added taken : List Job) : Client α → Client (α × List Job × List Job)
  | .done r => .done (r.map' (fun a => (a, added, taken)))
  | .call c k => .call c (fun r => withJobs l (added ++ addedBy l c r) (taken ++ takenBy l c r) (k r))

/-- Calls that neither rewrite jobs waiting in the list nor add unreadable ones. -/
def Polite (l : ListKey) : {β : Type} → MetaCall β → Prop
  | _, .updateDDLJob l' _ _ => l' ≠ l
  | _, .enQueueDDLJob _ j => j.error = none
  | _, _ => True

theorem call_jobs (l : ListKey) (M : MState) {β : Type} (c : MetaCall β) (hc : Polite l c)
    (hM : ∀ j ∈ M.queue l, j.error = none) :
    M.queue l ++ addedBy l c (c.sem M).1 = takenBy l c (c.sem M).1 ++ (c.sem M).2.queue l ∧
    ∀ j ∈ (c.sem M).2.queue l, j.error = none := by
  cases c with
  | enQueueDDLJob l' j =>
    simp only [MetaCall.sem, addedBy, takenBy]
    by_cases e : l' = l
    · subst e
      refine ⟨by simp, ?_⟩
      intro j' hj'
      simp only [if_true, List.mem_append, List.mem_singleton] at hj'
      rcases hj' with h | rfl
      · exact hM _ h
      · exact hc
    · rw [if_neg e]; simp only [if_neg (Ne.symm e), List.append_nil, List.nil_append]
      exact ⟨trivial, hM⟩
  | deQueueDDLJob l' =>
    simp only [MetaCall.sem, addedBy]
    by_cases e : l' = l
    · subst e
      cases hq : M.queue l' with
      | nil => simp [takenBy, hq]
      | cons j rest =>
        rw [hq] at hM
        have hj := hM j (by simp)
        simp only [readBack, hj, if_true, Res.map', takenBy, List.append_nil]
        exact ⟨rfl, fun j' hj' => hM j' (by simp [hj'])⟩
    · have : takenBy l (MetaCall.deQueueDDLJob l') ((MetaCall.deQueueDDLJob l').sem M).1 = [] := by
        cases h : ((MetaCall.deQueueDDLJob l').sem M).1 with
        | ok o => cases o with
          | none => rfl
          | some j => simp [takenBy, e]
        | err e => rfl
        | panic => rfl
      simp only [MetaCall.sem] at this
      rw [this]
      split
      · simpa using hM
      · simp only [if_neg (Ne.symm e), List.append_nil, List.nil_append]; exact ⟨trivial, hM⟩
  | updateDDLJob l' i j =>
    have hne : l' ≠ l := hc
    simp only [MetaCall.sem, addedBy, takenBy]
    split
    · simp only [if_neg (Ne.symm hne), List.append_nil, List.nil_append]; exact ⟨trivial, hM⟩
    · simpa using hM
  | dropDatabase db => simp only [MetaCall.sem, ifDB, addedBy, takenBy]; (repeat' split) <;> simpa using hM
  | createDatabase db => simp only [MetaCall.sem, addedBy, takenBy]; (repeat' split) <;> simpa using hM
  | updateDatabase db => simp only [MetaCall.sem, ifDB, addedBy, takenBy]; (repeat' split) <;> simpa using hM
  | createCollection db c => simp only [MetaCall.sem, ifDB, addedBy, takenBy]; (repeat' split) <;> simpa using hM
  | dropCollection db c d => simp only [MetaCall.sem, ifDB, ifColl, addedBy, takenBy]; (repeat' split) <;> simpa using hM
  | updateCollection db c => simp only [MetaCall.sem, ifDB, ifColl, addedBy, takenBy]; (repeat' split) <;> simpa using hM
  | listCollections db => simp only [MetaCall.sem, ifDB, addedBy, takenBy]; (repeat' split) <;> simpa using hM
  | getDatabase db => simp only [MetaCall.sem, addedBy, takenBy]; (repeat' split) <;> simpa using hM
  | getCollection db c => simp only [MetaCall.sem, ifDB, addedBy, takenBy]; (repeat' split) <;> simpa using hM
  | getDDLJobByIdx l i => simp only [MetaCall.sem, addedBy, takenBy]; (repeat' split) <;> simpa using hM
  | getHistoryDDLJob id => simp only [MetaCall.sem, addedBy, takenBy]; (repeat' split) <;> simpa using hM
  | getDDLReorgHandle id => simp only [MetaCall.sem, addedBy, takenBy]; (repeat' split) <;> simpa using hM
  | getGlobalID => simp only [MetaCall.sem, addedBy, takenBy]; (repeat' split) <;> simpa using hM
  | _ => simpa [addedBy, takenBy, MetaCall.sem] using hM

theorem client_jobs (l : ListKey) {α : Type} (p : Client α) (hp : p.Only (fun _ c => Polite l c)) (M : MState)
    (q₀ added taken : List Job) (h : q₀ ++ added = taken ++ M.queue l) (hM : ∀ j ∈ M.queue l, j.error = none)
    {a : α} {added' taken' : List Job} (hr : ((withJobs l added taken p).sem M).1 = .ok (a, added', taken')) :
    q₀ ++ added' = taken' ++ ((withJobs l added taken p).sem M).2.queue l ∧
    ∀ j ∈ ((withJobs l added taken p).sem M).2.queue l, j.error = none := by
  induction p generalizing M added taken with
  | done r =>
    cases r with
    | ok b =>
      simp only [withJobs, Client.sem, Res.map', Res.ok.injEq, Prod.mk.injEq] at hr
      obtain ⟨-, rfl, rfl⟩ := hr
      exact ⟨h, hM⟩
    | err e => simp [withJobs, Client.sem, Res.map'] at hr
    | panic => simp [withJobs, Client.sem, Res.map'] at hr
  | call c k ih =>
    obtain ⟨h1, h2⟩ := call_jobs l M c hp.1 hM
    refine ih _ (hp.2 _) _ _ _ ?_ h2 hr
    rw [← List.append_assoc, h, List.append_assoc, h1, List.append_assoc]

/-- Jobs added to and taken from the list by these commits (newest first), in commit order. -/
def jobsOf (J : Json) {α : Type} (db₀ : DB) : List (MetaCommit (α × List Job × List Job)) → List Job × List Job
  | [] => ([], [])
  | T :: before => match T.answer J db₀ before with
    | .ok (_, added, taken) => ((jobsOf J db₀ before).1 ++ added, (jobsOf J db₀ before).2 ++ taken)
    | _ => jobsOf J db₀ before

/-- Whatever transactions run concurrently and whatever else they do: the jobs taken from a list are, in commit
order, exactly the first ones added, in the order in which they were added. -/
theorem C49_fifo (J : Json) (l : ListKey) {α : Type} (db₀ : DB) (h0 : Fresh Sequence.metaPrefix db₀)
    (h : List (MetaCommit (α × List Job × List Job)))
    (hp : ∀ T ∈ h, ∃ p : Client α, p.Only (fun _ c => Polite l c) ∧ T.prog = withJobs l [] [] p)
    (ha : Accepted db₀ (h.map (·.committed J)))
    (hs : ∀ T ∈ h, T.prog.Strict ∧ T.prog.Only (fun _ c => c.scans = false))
    (hok : ∀ later before T, h = later ++ T :: before → ∃ a, T.answer J db₀ before = .ok a)
    (hf : FitsCommits (2 ^ 63 - 1) h) :
    ∃ waiting, (jobsOf J db₀ h).1 = (jobsOf J db₀ h).2 ++ waiting := by
  have hc := C48_concurrent J db₀ h0 h ha hs hok hf
  have key : ∀ later before, h = later ++ before →
      (jobsOf J db₀ before).1 = (jobsOf J db₀ before).2 ++ (metaAfter before).queue l ∧
      ∀ j ∈ (metaAfter before).queue l, j.error = none := by
    intro later before
    induction before generalizing later with
    | nil => intro _; exact ⟨rfl, by intro j hj; cases hj⟩
    | cons T before ih =>
      intro e
      obtain ⟨hi, hi'⟩ := ih (later ++ [T]) (by rw [e, List.append_assoc]; rfl)
      have ht := hc later before T e
      obtain ⟨⟨a, added, taken⟩, hans⟩ := hok later before T e
      obtain ⟨p, hpol, hpT⟩ := hp T (by rw [e]; simp)
      rw [hans, hpT] at ht
      obtain ⟨g1, g2⟩ := client_jobs l p hpol (metaAfter before) ((metaAfter before).queue l) [] [] (by simp) hi' ht.symm
      simp only [jobsOf, hans, metaAfter, hpT]
      refine ⟨?_, g2⟩
      rw [hi, List.append_assoc, g1, List.append_assoc]
  exact ⟨_, (key [] h rfl).1⟩

/-- Indexed access counts from the next job to be taken (0) to the last one added (-1). -/
theorem C49_index (M : MState) (l : ListKey) (i : Int64) (n : Nat) (hn : n < (M.queue l).length)
    (hi : i.toInt = n ∨ i.toInt = n - (M.queue l).length) (he : (M.queue l)[n].error = none) :
    (MetaCall.getDDLJobByIdx l i).sem M = (.ok (some (M.queue l)[n]), M) := by
  have hne : M.queue l ≠ [] := by intro h; rw [h] at hn; simp at hn
  have hix : index (M.queue l).length i = n := by unfold index; split <;> omega
  simp only [MetaCall.sem]
  rw [if_neg hne, hix, if_pos (by omega)]
  simp only [Int.toNat_natCast, List.getElem?_eq_getElem hn, readBack, he, if_true, Res.map']

/-- Indexed access outside a list that is not empty is reported as a parse error rather than as no job. -/
theorem C49_index_outside_false (M : MState) (l : ListKey) (i : Int64) (hne : M.queue l ≠ [])
    (hi : (M.queue l).length ≤ i.toInt ∨ i.toInt < -(M.queue l).length) :
    (MetaCall.getDDLJobByIdx l i).sem M = (.err .parse, M) := by
  simp only [MetaCall.sem]
  rw [if_neg hne]
  unfold index
  by_cases h0 : 0 ≤ i.toInt
  · simp only [if_pos h0]
    rw [List.getElem?_eq_none (by omega)]
  · simp only [if_neg h0]
    rw [if_neg (by omega)]

/-- GetLastNHistoryDDLJobs answers finished jobs by descending id (as an unsigned number), at most `n`, and no
finished job that is left out has a larger id than one that is listed. -/
theorem C49_history_newest_first (M : MState) (h : Reachable M) (n : Nat)
    (he : ∀ id j, M.job id = some j → j.error = none) :
    ∃ l, ((MetaCall.getLastNHistoryDDLJobs n).sem M).1 = .ok l ∧
      l.Pairwise (fun a b => b.id.toUInt64 < a.id.toUInt64) ∧
      (∀ j ∈ l, M.job j.id = some j) ∧
      (∀ j, M.job j.id = some j → j ∈ l ∨ (l.length = n ∧ ∀ a ∈ l, j.id.toUInt64 < a.id.toUInt64)) := by
  have hf := h.filed.history
  have hmem : ∀ j, j ∈ M.history.ents.map Prod.snd ↔ M.job j.id = some j := by
    intro j
    constructor
    · intro hj
      obtain ⟨⟨k, j'⟩, hk, rfl⟩ := List.mem_map.mp hj
      have := OMap.mem_get hk
      unfold MState.job
      rw [← hf _ _ this]; exact this
    · intro hj
      exact List.mem_map.mpr ⟨_, (OMap.get_eq_some_iff _ _ _).mp hj, rfl⟩
  have hsort : (M.history.ents.map Prod.snd).Pairwise (fun a b => a.id.toUInt64 < b.id.toUInt64) := by
    rw [List.pairwise_map]
    refine List.Pairwise.imp_of_mem ?_ M.history.sorted
    intro a b ha hb hab
    rw [hf _ _ (OMap.mem_get ha), hf _ _ (OMap.mem_get hb)] at hab
    exact (Memcomparable.putUint64_lt _ _).mp hab
  have hrev : (M.history.ents.map Prod.snd).reverse.Pairwise (fun a b => b.id.toUInt64 < a.id.toUInt64) :=
    List.pairwise_reverse.mpr hsort
  refine ⟨(M.history.ents.map Prod.snd).reverse.take n, ?_, hrev.sublist (List.take_sublist _ _), ?_, ?_⟩
  · simp only [MetaCall.sem, readAll, Int.toNat_natCast]
    rw [if_pos]
    intro j hj
    have := (hmem j).mp (List.mem_reverse.mp (List.mem_of_mem_take hj))
    exact he _ _ this
  · intro j hj
    exact (hmem j).mp (List.mem_reverse.mp (List.mem_of_mem_take hj))
  · intro j hj
    have hj' := List.mem_reverse.mpr ((hmem j).mpr hj)
    rw [← List.take_append_drop n (M.history.ents.map Prod.snd).reverse, List.mem_append] at hj'
    rcases hj' with hj' | hj'
    · exact .inl hj'
    · right
      rw [← List.take_append_drop n (M.history.ents.map Prod.snd).reverse, List.pairwise_append] at hrev
      refine ⟨?_, fun a ha => hrev.2.2 a ha j hj'⟩
      rw [List.length_take]
      have : 0 < ((M.history.ents.map Prod.snd).reverse.drop n).length := List.length_pos_of_mem hj'
      rw [List.length_drop] at this
      omega

end Mondis.Props
