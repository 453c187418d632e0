import Verif.Lemmas.Meta
import Verif.Model.Client
/-!
# Refinement of the functions of package meta, one by one
-/
namespace Mondis
open Spec Structure Props Schema Meta SProg

section
variable {J : Json} {M : MState} {A : SState}

/-! ### Reading jobs -/

theorem unjob_stored {j : Job} (h : StoredJob j) : J.unjob (J.job j) = readBack j := by
  unfold readBack
  by_cases he : j.error = none
  · rw [if_pos he, J.unjob_job j h.1 h.2.1 he]
    congr 1
    have := h.2.2
    cases j; simp_all
  · rw [if_neg he, J.unjob_error j he]

theorem readAll_cons (j : Job) (l : List Job) : readAll (j :: l) =
    match readBack j with
    | .ok a => (readAll l).map' (a :: ·)
    | .err e => .err e
    | .panic => .panic := by
  unfold readAll readBack
  by_cases h : j.error = none
  · by_cases h2 : ∀ j ∈ l, j.error = none
    · rw [if_pos h, if_pos h2, if_pos (fun a ha => (List.mem_cons.mp ha).elim (fun e => e ▸ h) (h2 a))]; rfl
    · rw [if_pos h, if_neg h2, if_neg (fun H => h2 (fun a ha => H a (List.mem_cons_of_mem _ ha)))]; rfl
  · rw [if_neg h, if_neg (fun H => h (H j (by simp)))]

theorem decodeAll_jobs (l : List Job) (h : ∀ j ∈ l, StoredJob j) :
    decodeAll J.unjob (l.map J.job) = readAll l := by
  induction l with
  | nil => rfl
  | cons j l ih =>
    rw [List.map_cons, decodeAll, unjob_stored (h j (by simp)), ih (fun j hj => h j (by simp [hj])), readAll_cons]
    cases readBack j <;> rfl

theorem decodeAll_ok {α : Type} {f : Bytes → Res α} {g : α → Bytes} (l : List α) (h : ∀ a ∈ l, f (g a) = .ok a) :
    decodeAll f (l.map g) = .ok l := by
  induction l with
  | nil => rfl
  | cons a l ih =>
    rw [List.map_cons, decodeAll, h a (by simp), ih (fun a ha => h a (by simp [ha]))]
    rfl

theorem stored_job {j : Job} (h : j.Text) : StoredJob (stored j) := by
  refine ⟨⟨trivial, ?_⟩, by simp [stored], rfl⟩
  intro a ha
  simp only [stored, Option.some.injEq] at ha
  subst ha
  cases hr : j.raw with
  | none => exact h.1
  | some a => exact h.2 a hr

theorem job_sealed (j : Job) : J.job j.sealed = J.job (stored j) :=
  (J.job_arg j.sealed .null).symm

/-! ### Keys that differ -/

theorem db_ne_dbs (id : Int64) : dbKeyByID id ≠ dbsKey := by
  simp [dbKeyByID, idKey, dbPrefix, dbsKey]
theorem db_ne_history (id : Int64) : dbKeyByID id ≠ ddlJobHistoryKey := by
  simp [dbKeyByID, idKey, dbPrefix, ddlJobHistoryKey]
theorem db_ne_reorg (id : Int64) : dbKeyByID id ≠ ddlJobReorgKey := by
  simp [dbKeyByID, idKey, dbPrefix, ddlJobReorgKey]
theorem diff_ne_global (v : Int64) : schemaDiffKey v ≠ globalIDKey := by
  simp [schemaDiffKey, idKey, schemaDiffPrefix, globalIDKey]
theorem diff_ne_version (v : Int64) : schemaDiffKey v ≠ schemaVersionKey := by
  simp [schemaDiffKey, idKey, schemaDiffPrefix, schemaVersionKey]
theorem diff_ne_bootstrap (v : Int64) : schemaDiffKey v ≠ bootstrapKey := by
  simp [schemaDiffKey, idKey, schemaDiffPrefix, bootstrapKey]
theorem key_inj {l l' : ListKey} : l.key = l'.key ↔ l = l' := by
  cases l <;> cases l' <;> decide
theorem dbKey_inj {a b : Int64} : dbKeyByID a = dbKeyByID b ↔ a = b := idKey_inj
theorem diffKey_inj {a b : Int64} : schemaDiffKey a = schemaDiffKey b ↔ a = b := idKey_inj
theorem textOf_inj {a b : Int64} : textOf a = textOf b ↔ a = b := ⟨format_inj, by rintro rfl; rfl⟩

/-! ### Changing the metadata -/

theorem Abs.setGlobal (h : Abs J M A) (n : Int64) :
    Abs J { M with globalID := some n } (setStr A globalIDKey (some (textOf n))) := by
  constructor
  case globalID => simp
  case version => rw [setStr_str, if_neg (by decide)]; exact h.version
  case bootstrap => rw [setStr_str, if_neg (by decide)]; exact h.bootstrap
  case diffs => intro v; rw [setStr_str, if_neg (diff_ne_global v)]; exact h.diffs v
  all_goals (simp only [setStr_hash, setStr_list]; first
    | exact h.dbs | exact h.colls | exact h.queue | exact h.history | exact h.reorgStart | exact h.reorgEnd
    | exact h.tdiffs | exact h.tdbs | exact h.tcolls | exact h.tqueue | exact h.thistory)

theorem Abs.setVersion (h : Abs J M A) (n : Int64) :
    Abs J { M with version := some n } (setStr A schemaVersionKey (some (textOf n))) := by
  constructor
  case globalID => rw [setStr_str, if_neg (by decide)]; exact h.globalID
  case version => simp
  case bootstrap => rw [setStr_str, if_neg (by decide)]; exact h.bootstrap
  case diffs => intro v; rw [setStr_str, if_neg (diff_ne_version v)]; exact h.diffs v
  all_goals (simp only [setStr_hash, setStr_list]; first
    | exact h.dbs | exact h.colls | exact h.queue | exact h.history | exact h.reorgStart | exact h.reorgEnd
    | exact h.tdiffs | exact h.tdbs | exact h.tcolls | exact h.tqueue | exact h.thistory)

theorem Abs.setBootstrap (h : Abs J M A) (n : Int64) :
    Abs J { M with bootstrap := some n } (setStr A bootstrapKey (some (textOf n))) := by
  constructor
  case globalID => rw [setStr_str, if_neg (by decide)]; exact h.globalID
  case version => rw [setStr_str, if_neg (by decide)]; exact h.version
  case bootstrap => simp
  case diffs => intro v; rw [setStr_str, if_neg (diff_ne_bootstrap v)]; exact h.diffs v
  all_goals (simp only [setStr_hash, setStr_list]; first
    | exact h.dbs | exact h.colls | exact h.queue | exact h.history | exact h.reorgStart | exact h.reorgEnd
    | exact h.tdiffs | exact h.tdbs | exact h.tcolls | exact h.tqueue | exact h.thistory)

theorem Abs.setDiff (h : Abs J M A) (d : StoredDiff) (hd : d.Text) :
    Abs J { M with diffs := put M.diffs d.version (some d) }
      (setStr A (schemaDiffKey d.version) (some (J.diff d))) := by
  constructor
  case globalID => rw [setStr_str, if_neg (diff_ne_global _).symm]; exact h.globalID
  case version => rw [setStr_str, if_neg (diff_ne_version _).symm]; exact h.version
  case bootstrap => rw [setStr_str, if_neg (diff_ne_bootstrap _).symm]; exact h.bootstrap
  case diffs =>
    intro v
    rw [setStr_str]
    simp only [diffKey_inj, put]
    split
    · rfl
    · exact h.diffs v
  case tdiffs =>
    intro v d' hv
    simp only [put] at hv
    split at hv
    · cases hv; exact hd
    · exact h.tdiffs v d' hv
  all_goals (simp only [setStr_hash, setStr_list]; first
    | exact h.dbs | exact h.colls | exact h.queue | exact h.history | exact h.reorgStart | exact h.reorgEnd
    | exact h.tdbs | exact h.tcolls | exact h.tqueue | exact h.thistory)

theorem Abs.setDbs (h : Abs J M A) {m : OMap DBInfo} {x : OMap Bytes} (hx : x = m.tag dbTag J.db)
    (hm : ∀ k d, m.get k = some d → d.Text) : Abs J { M with dbs := m } (setHash A dbsKey x) := by
  constructor
  case dbs => simp [hx]
  case colls =>
    intro id f
    rw [setHash_hash, if_neg (db_ne_dbs id)]; exact h.colls id f
  case history => rw [setHash_hash, if_neg (by decide)]; exact h.history
  case reorgStart => intro id; rw [setHash_hash, if_neg (by decide)]; exact h.reorgStart id
  case reorgEnd => intro id; rw [setHash_hash, if_neg (by decide)]; exact h.reorgEnd id
  case tdbs => exact hm
  all_goals (simp only [setHash_str, setHash_list]; first
    | exact h.globalID | exact h.version | exact h.bootstrap | exact h.diffs | exact h.queue
    | exact h.tdiffs | exact h.tcolls | exact h.tqueue | exact h.thistory)

theorem Abs.setColls (h : Abs J M A) {id : Int64} {m : OMap CollectionInfo} {d : OMap Int64} {x : OMap Bytes}
    (hx : ∀ f, x.get f = ((m.tag collTag J.coll).get f).or ((d.tag didTag textOf).get f))
    (hm : ∀ k c, m.get k = some c → c.Text) :
    Abs J { M with colls := put M.colls id m, dids := put M.dids id d } (setHash A (dbKeyByID id) x) := by
  constructor
  case dbs => rw [setHash_hash, if_neg (db_ne_dbs id).symm]; exact h.dbs
  case colls =>
    intro i f
    rw [setHash_hash]
    simp only [dbKey_inj, put]
    split
    · exact hx f
    · exact h.colls i f
  case history => rw [setHash_hash, if_neg (db_ne_history id).symm]; exact h.history
  case reorgStart => intro i; rw [setHash_hash, if_neg (db_ne_reorg id).symm]; exact h.reorgStart i
  case reorgEnd => intro i; rw [setHash_hash, if_neg (db_ne_reorg id).symm]; exact h.reorgEnd i
  case tcolls =>
    intro i k c hc
    simp only [put] at hc
    split at hc
    · exact hm k c hc
    · exact h.tcolls i k c hc
  all_goals (simp only [setHash_str, setHash_list]; first
    | exact h.globalID | exact h.version | exact h.bootstrap | exact h.diffs | exact h.queue
    | exact h.tdiffs | exact h.tdbs | exact h.tqueue | exact h.thistory)

theorem Abs.setQueue (h : Abs J M A) {l : ListKey} {q : List Job} {x : List Bytes} (hx : x = q.map J.job)
    (hq : ∀ j ∈ q, StoredJob j) :
    Abs J { M with queue := fun l' => if l' = l then q else M.queue l' } (setList A l.key x) := by
  constructor
  case queue =>
    intro l'
    rw [setList_list]
    simp only [key_inj]
    split
    · exact hx
    · exact h.queue l'
  case tqueue =>
    intro l' j hj
    simp only at hj
    split at hj
    · exact hq j hj
    · exact h.tqueue l' j hj
  all_goals (simp only [setList_str, setList_hash]; first
    | exact h.globalID | exact h.version | exact h.bootstrap | exact h.diffs | exact h.dbs | exact h.colls
    | exact h.history | exact h.reorgStart | exact h.reorgEnd
    | exact h.tdiffs | exact h.tdbs | exact h.tcolls | exact h.thistory)

theorem Abs.setHistory (h : Abs J M A) {m : OMap Job} {x : OMap Bytes} (hx : x = m.tag [] J.job)
    (hm : ∀ k j, m.get k = some j → StoredJob j) : Abs J { M with history := m } (setHash A ddlJobHistoryKey x) := by
  constructor
  case dbs => rw [setHash_hash, if_neg (by decide)]; exact h.dbs
  case colls => intro id f; rw [setHash_hash, if_neg (db_ne_history id)]; exact h.colls id f
  case history => simp [hx]
  case reorgStart => intro id; rw [setHash_hash, if_neg (by decide)]; exact h.reorgStart id
  case reorgEnd => intro id; rw [setHash_hash, if_neg (by decide)]; exact h.reorgEnd id
  case thistory => exact hm
  all_goals (simp only [setHash_str, setHash_list]; first
    | exact h.globalID | exact h.version | exact h.bootstrap | exact h.diffs | exact h.queue
    | exact h.tdiffs | exact h.tdbs | exact h.tcolls | exact h.tqueue)

theorem Abs.setReorg (h : Abs J M A) {s e : Int64 → Option Int64} {x : OMap Bytes}
    (hs : ∀ id, x.get (jobIDKey id) = (s id).map textOf) (he : ∀ id, x.get (jobEndKey id) = (e id).map textOf) :
    Abs J { M with reorgStart := s, reorgEnd := e } (setHash A ddlJobReorgKey x) := by
  constructor
  case dbs => rw [setHash_hash, if_neg (by decide)]; exact h.dbs
  case colls => intro id f; rw [setHash_hash, if_neg (db_ne_reorg id)]; exact h.colls id f
  case history => rw [setHash_hash, if_neg (by decide)]; exact h.history
  case reorgStart => intro id; rw [setHash_hash, if_pos rfl]; exact hs id
  case reorgEnd => intro id; rw [setHash_hash, if_pos rfl]; exact he id
  all_goals (simp only [setHash_str, setHash_list]; first
    | exact h.globalID | exact h.version | exact h.bootstrap | exact h.diffs | exact h.queue
    | exact h.tdiffs | exact h.tdbs | exact h.tcolls | exact h.tqueue | exact h.thistory)

/-! ### Checks -/

theorem sem_checkDBExists (h : Abs J M A) (id : Int64) : (checkDBExists (dbKeyByID id)).sem A =
    (if M.db id = none then .err errDBNotExists else .ok (), A) := by
  unfold checkDBExists
  rw [sem_bind, sem_notFoundIs, sem_hget, h.get_db]
  cases M.db id <;> rfl

theorem sem_checkDBNotExists (h : Abs J M A) (id : Int64) : (checkDBNotExists (dbKeyByID id)).sem A =
    (if M.db id ≠ none then .err errDBExists else .ok (), A) := by
  unfold checkDBNotExists
  rw [sem_mustBeAbsent, sem_hget, h.get_db]
  cases M.db id <;> rfl

theorem sem_checkCollectionExists (h : Abs J M A) (db id : Int64) :
    (checkCollectionExists (dbKeyByID db) (collectionInfoKeyByID id)).sem A =
    (if M.coll db id = none then .err errCollectionNotExists else .ok (), A) := by
  unfold checkCollectionExists
  rw [sem_bind, sem_notFoundIs, sem_hget, h.get_coll]
  cases M.coll db id <;> rfl

theorem sem_checkCollectionNotExists (h : Abs J M A) (db id : Int64) :
    (checkCollectionNotExists (dbKeyByID db) (collectionInfoKeyByID id)).sem A =
    (if M.coll db id ≠ none then .err errCollectionExists else .ok (), A) := by
  unfold checkCollectionNotExists
  rw [sem_mustBeAbsent, sem_hget, h.get_coll]
  cases M.coll db id <;> rfl

theorem text_set {V : Type} {P : V → Prop} {m : OMap V} (h : ∀ k d, m.get k = some d → P d) {k : Bytes} {v : V}
    (hv : P v) : ∀ j d, (m.set k v).get j = some d → P d := by
  intro j d hj
  rw [OMap.get_set] at hj
  split at hj
  · cases hj; exact hv
  · exact h j d hj

theorem text_del {V : Type} {P : V → Prop} {m : OMap V} (h : ∀ k d, m.get k = some d → P d) {k : Bytes} :
    ∀ j d, (m.del k).get j = some d → P d := by
  intro j d hj
  rw [OMap.get_del] at hj
  split at hj
  · cases hj
  · exact h j d hj

theorem put_self {β : Type} (f : Int64 → β) (k : Int64) : put f k (f k) = f := by
  funext j; unfold put; split
  · subst_vars; rfl
  · rfl

/-- Setting a collection record in the hash of its database. -/
theorem Abs.coll_set (h : Abs J M A) (db : Int64) (c : CollectionInfo) (f : Bytes) :
    ((A (dbKeyByID db)).hash.set (collectionInfoKeyByID c.id) (J.coll c)).get f =
      ((((M.colls db).set (textOf c.id) c).tag collTag J.coll).get f).or (((M.dids db).tag didTag textOf).get f) := by
  rw [← OMap.tag_set, OMap.get_set, OMap.get_set, collectionInfoKeyByID, idKey_split]
  split
  · rfl
  · exact h.colls db f

theorem Abs.coll_del (h : Abs J M A) (db c : Int64) (f : Bytes) :
    ((A (dbKeyByID db)).hash.del (collectionInfoKeyByID c)).get f =
      ((((M.colls db).del (textOf c)).tag collTag J.coll).get f).or (((M.dids db).tag didTag textOf).get f) := by
  rw [← OMap.tag_del, OMap.get_del, OMap.get_del, collectionInfoKeyByID, idKey_split]
  split
  · rename_i e; subst e
    rw [OMap.get_tag_none _ _ _ _ (fun j hj => coll_ne_did _ _ hj.symm)]; rfl
  · exact h.colls db f

theorem Abs.did_set (h : Abs J M A) (db c n : Int64) (f : Bytes) :
    ((A (dbKeyByID db)).hash.set (didSequenceKeyByID c) (textOf n)).get f =
      (((M.colls db).tag collTag J.coll).get f).or ((((M.dids db).set (textOf c) n).tag didTag textOf).get f) := by
  rw [← OMap.tag_set, OMap.get_set, OMap.get_set, didSequenceKeyByID, idKey_split]
  split
  · rename_i e; subst e
    rw [OMap.get_tag_none _ _ _ _ (fun j hj => coll_ne_did _ _ hj)]; rfl
  · exact h.colls db f

theorem Abs.did_del (h : Abs J M A) (db c : Int64) (f : Bytes) :
    ((A (dbKeyByID db)).hash.del (didSequenceKeyByID c)).get f =
      (((M.colls db).tag collTag J.coll).get f).or ((((M.dids db).del (textOf c)).tag didTag textOf).get f) := by
  rw [← OMap.tag_del, OMap.get_del, OMap.get_del, didSequenceKeyByID, idKey_split]
  split
  · rename_i e; subst e
    rw [OMap.get_tag_none _ _ _ _ (fun j hj => coll_ne_did _ _ hj)]; rfl
  · exact h.colls db f

/-- The listing of the hash of a database, cut to collection records. -/
theorem Abs.coll_list (h : Abs J M A) (db : Int64) :
    ((A (dbKeyByID db)).hash.ents.filter (fun r => Key.hasPrefix r.1 collectionInfoPrefix)).map Prod.snd =
      ((M.colls db).ents.map Prod.snd).map J.coll := by
  rw [← OMap.tag_snd collTag]
  congr 1
  have : (A (dbKeyByID db)).hash.filter (fun r => Key.hasPrefix r.1 collectionInfoPrefix) =
      (M.colls db).tag collTag J.coll := by
    ext1 f
    rw [OMap.get_filter, h.colls]
    by_cases hc : ∃ j, collTag ++ j = f
    · obtain ⟨j, rfl⟩ := hc
      have hp : Key.hasPrefix (collTag ++ j) collectionInfoPrefix = true :=
        (Key.hasPrefix_iff _ _).mpr ⟨58 :: j, by simp [collTag]⟩
      rw [OMap.get_tag, OMap.get_tag_none didTag _ _ _ (fun i hi => coll_ne_did _ _ hi.symm), Option.or_none]
      cases (M.colls db).get j with
      | none => rfl
      | some c => simp only [Option.map_some, Option.filter, hp, if_true]
    · rw [OMap.get_tag_none collTag _ _ _ (fun j hj => hc ⟨j, hj⟩), Option.none_or]
      cases hd : ((M.dids db).tag didTag textOf).get f with
      | none => rfl
      | some v =>
        obtain ⟨j, n, -, rfl, -⟩ := (OMap.get_tag_eq _ _ _ _ _).mp hd
        have hp : Key.hasPrefix (didTag ++ j) collectionInfoPrefix = false := by
          rw [Bool.eq_false_iff]
          intro h'
          obtain ⟨t, ht⟩ := (Key.hasPrefix_iff _ _).mp h'
          simp [didTag, didSequencePrefix, collectionInfoPrefix] at ht
        simp only [Option.filter, hp, Bool.false_eq_true, if_false]
  rw [← this]; rfl

/-- **Refinement**: every function of package meta answers and changes the metadata as specified. -/
theorem call_sem {β : Type} (c : MetaCall β) (h : Abs J M A) (hc : c.Text) :
    ((MetaCode J c).sem A).1 = (c.sem M).1 ∧ Abs J (c.sem M).2 ((MetaCode J c).sem A).2 := by
  cases c with
  | getGlobalID =>
    simp only [MetaCode, getGlobalID, MetaCall.sem]
    rw [sem_getInt A _ _ h.globalID]
    cases M.globalID <;> exact ⟨rfl, h⟩
  | genGlobalID =>
    simp only [MetaCode, genGlobalID, MetaCall.sem]
    rw [sem_inc A _ _ _ h.globalID]
    exact ⟨rfl, h.setGlobal _⟩
  | genGlobalIDs n =>
    simp only [MetaCode, genGlobalIDs, MetaCall.sem]
    rw [sem_bind, sem_inc A _ _ _ h.globalID]
    refine ⟨?_, h.setGlobal _⟩
    simp only [sem_pure, Int64.add_sub_cancel]
  | getSchemaVersion =>
    simp only [MetaCode, getSchemaVersion, MetaCall.sem]
    rw [sem_bind, sem_notFoundNil, sem_getInt A _ _ h.version]
    cases M.version <;> exact ⟨rfl, h⟩
  | genSchemaVersion =>
    simp only [MetaCode, genSchemaVersion, MetaCall.sem]
    rw [sem_inc A _ _ _ h.version]
    exact ⟨rfl, h.setVersion _⟩
  | createDatabase d =>
    simp only [MetaCode, createDatabase, MetaCall.sem]
    rw [sem_bind, sem_checkDBNotExists h]
    by_cases hd : M.db d.id ≠ none
    · rw [if_pos hd, if_pos hd]; exact ⟨rfl, h⟩
    · rw [if_neg hd, if_neg hd]
      simp only [sem_hset]
      refine ⟨trivial, h.setDbs ?_ (text_set h.tdbs hc)⟩
      rw [h.dbs, dbKeyByID, idKey_split, OMap.tag_set]
  | updateDatabase d =>
    simp only [MetaCode, updateDatabase, MetaCall.sem, ifDB]
    rw [sem_bind, sem_checkDBExists h]
    by_cases hd : M.db d.id = none
    · rw [if_pos hd, if_pos hd]; exact ⟨rfl, h⟩
    · rw [if_neg hd, if_neg hd]
      simp only [sem_hset]
      refine ⟨trivial, h.setDbs ?_ (text_set h.tdbs hc)⟩
      rw [h.dbs, dbKeyByID, idKey_split, OMap.tag_set]
  | createCollection db c =>
    simp only [MetaCode, createCollection, MetaCall.sem, ifDB]
    rw [sem_bind, sem_checkDBExists h]
    by_cases hd : M.db db = none
    · rw [if_pos hd, if_pos hd]; exact ⟨rfl, h⟩
    · rw [if_neg hd, if_neg hd]
      simp only []
      rw [sem_bind, sem_checkCollectionNotExists h]
      by_cases hcc : M.coll db c.id ≠ none
      · rw [if_pos hcc, if_pos hcc]; exact ⟨rfl, h⟩
      · rw [if_neg hcc, if_neg hcc]
        simp only [sem_hset]
        refine ⟨trivial, ?_⟩
        have := h.setColls (id := db) (h.coll_set db c) (text_set (h.tcolls db) hc)
        rwa [put_self] at this
  | dropDatabase db =>
    simp only [MetaCode, dropDatabase, MetaCall.sem, ifDB]
    rw [sem_bind, sem_checkDBExists h]
    by_cases hd : M.db db = none
    · rw [if_pos hd, if_pos hd]; exact ⟨rfl, h⟩
    · rw [if_neg hd, if_neg hd]
      simp only [sem_bind, sem_hclear, sem_hdel]
      refine ⟨trivial, ?_⟩
      have h1 := h.setColls (id := db) (m := OMap.empty) (d := OMap.empty) (x := OMap.empty)
        (fun f => rfl) (fun k c hk => by cases hk)
      have h2 := h1.setDbs (m := M.dbs.del (textOf db)) (x := (setHash A (dbKeyByID db) OMap.empty dbsKey).hash.del (dbKeyByID db))
        (by rw [h1.dbs, dbKeyByID, idKey_split, OMap.tag_del]) (text_del h.tdbs)
      exact h2
  | dropCollection db c del =>
    simp only [MetaCode, dropCollection, MetaCall.sem, ifDB, ifColl]
    rw [sem_bind, sem_checkDBExists h]
    by_cases hd : M.db db = none
    · rw [if_pos hd, if_pos hd]; exact ⟨rfl, h⟩
    · rw [if_neg hd, if_neg hd]
      simp only []
      rw [sem_bind, sem_checkCollectionExists h]
      by_cases hcc : M.coll db c = none
      · rw [if_pos hcc, if_pos hcc]; exact ⟨rfl, h⟩
      · rw [if_neg hcc, if_neg hcc]
        simp only [sem_bind, sem_hdel]
        have h1 := h.setColls (id := db) (h.coll_del db c) (text_del (h.tcolls db))
        cases del with
        | false =>
          refine ⟨rfl, ?_⟩
          rw [put_self] at h1
          exact h1
        | true =>
          refine ⟨rfl, ?_⟩
          have h2 := h1.setColls (id := db) (h1.did_del db c) (h1.tcolls db)
          have e1 : ∀ {β : Type} (f : Int64 → β) (a b : β), put (put f db a) db b = put f db b := by
            intro β f a b; funext j; simp only [put]; split <;> rfl
          have e2 : ∀ {β : Type} (f : Int64 → β) (a : β), put f db a db = a := by
            intro β f a; simp [put]
          simp only [e1, e2] at h2
          exact h2
  | updateCollection db c =>
    simp only [MetaCode, updateCollection, MetaCall.sem, ifDB, ifColl]
    rw [sem_bind, sem_checkDBExists h]
    by_cases hd : M.db db = none
    · rw [if_pos hd, if_pos hd]; exact ⟨rfl, h⟩
    · rw [if_neg hd, if_neg hd]
      simp only []
      rw [sem_bind, sem_checkCollectionExists h]
      by_cases hcc : M.coll db c.id = none
      · rw [if_pos hcc, if_pos hcc]; exact ⟨rfl, h⟩
      · rw [if_neg hcc, if_neg hcc]
        simp only [sem_hset]
        refine ⟨trivial, ?_⟩
        have := h.setColls (id := db) (h.coll_set db c) (text_set (h.tcolls db) hc)
        rwa [put_self] at this
  | listCollections db =>
    simp only [MetaCode, listCollections, MetaCall.sem, ifDB]
    rw [sem_bind, sem_checkDBExists h]
    by_cases hd : M.db db = none
    · rw [if_pos hd, if_pos hd]; exact ⟨rfl, h⟩
    · rw [if_neg hd, if_neg hd]
      simp only [sem_bind, sem_hgetAll, sem_ofRes, h.coll_list]
      refine ⟨decodeAll_ok _ ?_, h⟩
      intro c hc
      obtain ⟨⟨k, c'⟩, hk, rfl⟩ := List.mem_map.mp hc
      exact J.uncoll_coll _ (h.tcolls db k _ (OMap.mem_get hk))
  | listDatabases =>
    simp only [MetaCode, listDatabases, MetaCall.sem]
    simp only [sem_bind, sem_hgetAll, sem_ofRes, h.dbs, OMap.tag_snd]
    refine ⟨decodeAll_ok _ ?_, h⟩
    intro c hc
    obtain ⟨⟨k, c'⟩, hk, rfl⟩ := List.mem_map.mp hc
    exact J.undb_db _ (h.tdbs k _ (OMap.mem_get hk))
  | getDatabase db =>
    simp only [MetaCode, getDatabase, MetaCall.sem]
    rw [sem_bind, sem_notFoundIs, sem_hget, h.get_db]
    cases hd : M.db db with
    | none => exact ⟨rfl, h⟩
    | some d => exact ⟨J.undb_db _ (h.tdbs _ _ hd), h⟩
  | getCollection db c =>
    simp only [MetaCode, getCollection, MetaCall.sem, ifDB]
    rw [sem_bind, sem_checkDBExists h]
    by_cases hd : M.db db = none
    · rw [if_pos hd, if_pos hd]; exact ⟨rfl, h⟩
    · rw [if_neg hd, if_neg hd]
      simp only []
      rw [sem_bind, sem_notFoundIs, sem_hget, h.get_coll]
      cases hcc : M.coll db c with
      | none => exact ⟨rfl, h⟩
      | some ci => exact ⟨J.uncoll_coll _ (h.tcolls db _ _ hcc), h⟩
  | getBootstrapVersion =>
    simp only [MetaCode, getBootstrapVersion, MetaCall.sem]
    rw [sem_bind, sem_notFoundNil, sem_getInt A _ _ h.bootstrap]
    cases M.bootstrap <;> exact ⟨rfl, h⟩
  | finishBootstrap v =>
    simp only [MetaCode, finishBootstrap, MetaCall.sem, sem_setInt]
    exact ⟨trivial, h.setBootstrap _⟩
  | getSchemaDiff v =>
    simp only [MetaCode, getSchemaDiff, MetaCall.sem]
    rw [sem_bind, sem_notFoundNil, sem_get, h.diffs]
    cases hd : M.diffs v with
    | none => exact ⟨rfl, h⟩
    | some d =>
      simp only [Option.map_some, sem_bind, sem_ofRes, J.undiff_diff d (h.tdiffs v d hd), sem_pure]
      exact ⟨trivial, h⟩
  | setSchemaDiff d =>
    simp only [MetaCode, setSchemaDiff, MetaCall.sem, sem_set]
    exact ⟨trivial, h.setDiff d hc⟩
  | enQueueDDLJob l j =>
    simp only [MetaCode, enQueueDDLJob, MetaCall.sem, sem_rpush]
    refine ⟨trivial, h.setQueue (by rw [h.queue, job_sealed]; simp) ?_⟩
    intro j' hj'
    rcases List.mem_append.mp hj' with hj' | hj'
    · exact h.tqueue l j' hj'
    · rw [List.mem_singleton] at hj'; subst hj'; exact stored_job hc
  | deQueueDDLJob l =>
    simp only [MetaCode, deQueueDDLJob, MetaCall.sem]
    rw [sem_bind, sem_notFoundNil, sem_lpop, h.queue]
    have hq := h.tqueue l
    cases hl : M.queue l with
    | nil => exact ⟨rfl, h⟩
    | cons j rest =>
      rw [hl] at hq
      simp only [List.map_cons, sem_bind, sem_ofRes, unjob_stored (hq j (by simp))]
      have := h.setQueue (l := l) (q := rest) rfl (fun j' hj' => hq j' (by simp [hj']))
      cases readBack j <;> exact ⟨rfl, this⟩
  | getDDLJobByIdx l i =>
    simp only [MetaCode, getDDLJobByIdx, MetaCall.sem]
    rw [sem_bind, sem_notFoundNil, sem_lindex, h.queue]
    simp only [List.map_eq_nil_iff, List.length_map]
    by_cases h0 : M.queue l = []
    · rw [if_pos h0, if_pos h0]; exact ⟨rfl, h⟩
    · rw [if_neg h0, if_neg h0]
      by_cases h1 : 0 ≤ index (M.queue l).length i
      · rw [if_pos h1]
        by_cases h2 : index (M.queue l).length i < (M.queue l).length
        · rw [if_pos ⟨h1, h2⟩]
          have hlt : (index (M.queue l).length i).toNat < (M.queue l).length := by omega
          rw [List.getElem?_eq_getElem (by simpa using hlt), List.getElem?_eq_getElem hlt]
          simp only [List.getElem_map, Option.getD_some, sem_bind, sem_ofRes]
          rw [unjob_stored (h.tqueue l _ (List.getElem_mem _))]
          cases readBack (M.queue l)[(index (M.queue l).length i).toNat] <;> exact ⟨rfl, h⟩
        · rw [if_neg (fun H => h2 H.2)]
          rw [List.getElem?_eq_none (by omega)]
          simp only [sem_bind, sem_ofRes, J.unjob_nil]
          exact ⟨trivial, h⟩
      · rw [if_neg (fun H => h1 H.1), if_neg h1]
        simp only [sem_bind, sem_ofRes, J.unjob_nil]
        exact ⟨trivial, h⟩
  | updateDDLJob l i j =>
    simp only [MetaCode, updateDDLJob, MetaCall.sem]
    rw [sem_notFoundIs, sem_lset, h.queue, List.length_map]
    by_cases h1 : 0 ≤ index (M.queue l).length i ∧ index (M.queue l).length i < (M.queue l).length
    · rw [if_pos h1, if_pos h1]
      refine ⟨rfl, h.setQueue (by rw [job_sealed, List.map_set]) ?_⟩
      intro j' hj'
      rcases List.mem_or_eq_of_mem_set hj' with hj' | rfl
      · exact h.tqueue l j' hj'
      · exact stored_job hc
    · rw [if_neg h1, if_neg h1]; exact ⟨rfl, h⟩
  | ddlJobQueueLen l =>
    simp only [MetaCode, ddlJobQueueLen, MetaCall.sem, sem_llen, h.queue, List.length_map]
    exact ⟨trivial, h⟩
  | getAllDDLJobsInQueue l =>
    simp only [MetaCode, getAllDDLJobsInQueue, MetaCall.sem, sem_bind, sem_lgetAll, sem_ofRes, h.queue]
    refine ⟨?_, h⟩
    rw [← List.map_reverse]
    exact decodeAll_jobs _ (fun j hj => h.tqueue l j (List.mem_reverse.mp hj))
  | addHistoryDDLJob j =>
    simp only [MetaCode, addHistoryDDLJob, MetaCall.sem, sem_hset]
    refine ⟨trivial, h.setHistory ?_ (text_set h.thistory (stored_job hc))⟩
    rw [h.history, job_sealed, ← OMap.tag_set]; rfl
  | getHistoryDDLJob id =>
    simp only [MetaCode, getHistoryDDLJob, MetaCall.sem]
    have e : (A ddlJobHistoryKey).hash.get (jobIDKey id) = (M.job id).map J.job := by
      rw [h.history]; exact OMap.get_tag [] _ _ _
    rw [sem_bind, sem_notFoundNil, sem_hget, e]
    cases hj : M.job id with
    | none => exact ⟨rfl, h⟩
    | some j =>
      simp only [Option.map_some, sem_bind, sem_ofRes, unjob_stored (h.thistory _ _ hj)]
      cases readBack j <;> exact ⟨rfl, h⟩
  | getAllHistoryDDLJobs =>
    simp only [MetaCode, getAllHistoryDDLJobs, MetaCall.sem, sem_bind, sem_hgetAll, sem_ofRes, h.history, OMap.tag_snd]
    refine ⟨decodeAll_jobs _ ?_, h⟩
    intro c hc
    obtain ⟨⟨k, c'⟩, hk, rfl⟩ := List.mem_map.mp hc
    exact h.thistory k _ (OMap.mem_get hk)
  | getLastNHistoryDDLJobs n =>
    simp only [MetaCode, getLastNHistoryDDLJobs, MetaCall.sem, sem_bind, sem_hgetNDesc, sem_ofRes, h.history]
    rw [List.map_take, List.map_reverse, OMap.tag_snd, ← List.map_reverse, ← List.map_take]
    refine ⟨decodeAll_jobs _ ?_, h⟩
    intro c hc
    obtain ⟨⟨k, c'⟩, hk, rfl⟩ := List.mem_map.mp (List.mem_reverse.mp (List.mem_of_mem_take hc))
    exact h.thistory k _ (OMap.mem_get hk)
  | updateDDLReorgStartHandle id s =>
    simp only [MetaCode, updateDDLReorgStartHandle, MetaCall.sem, sem_hset]
    refine ⟨trivial, h.setReorg (s := put M.reorgStart id (some s)) (e := M.reorgEnd) ?_ ?_⟩
    · intro i
      rw [OMap.get_set]
      by_cases e : id = i
      · subst e; simp [put, Numeric.encode2Human, textOf]
      · rw [if_neg (fun H => e (jobIDKey_inj.mp H)), h.reorgStart]; simp [put, Ne.symm e]
    · intro i
      rw [OMap.get_set, if_neg (jobIDKey_ne_end _ _), h.reorgEnd]
  | updateDDLReorgHandle id s e =>
    simp only [MetaCode, updateDDLReorgHandle, MetaCall.sem, sem_bind, sem_hset]
    have h1 := h.setReorg (s := put M.reorgStart id (some s)) (e := M.reorgEnd)
      (x := (A ddlJobReorgKey).hash.set (jobIDKey id) (Numeric.encode2Human s)) (by
        intro i
        rw [OMap.get_set]
        by_cases e : id = i
        · subst e; simp [put, Numeric.encode2Human, textOf]
        · rw [if_neg (fun H => e (jobIDKey_inj.mp H)), h.reorgStart]; simp [put, Ne.symm e]) (by
        intro i
        rw [OMap.get_set, if_neg (jobIDKey_ne_end _ _), h.reorgEnd])
    refine ⟨trivial, h1.setReorg (s := put M.reorgStart id (some s)) (e := put M.reorgEnd id (some e)) ?_ ?_⟩
    · intro i
      rw [OMap.get_set, if_neg (jobIDKey_ne_end _ _).symm, h1.reorgStart]
    · intro i
      rw [OMap.get_set]
      by_cases e : id = i
      · subst e; simp [put, Numeric.encode2Human, textOf]
      · rw [if_neg (fun H => e (jobEndKey_inj.mp H)), h1.reorgEnd]; simp [put, Ne.symm e]
  | removeDDLReorgHandle id =>
    simp only [MetaCode, removeDDLReorgHandle, MetaCall.sem, sem_bind, sem_hdel]
    have h1 := h.setReorg (s := put M.reorgStart id none) (e := M.reorgEnd)
      (x := (A ddlJobReorgKey).hash.del (jobIDKey id)) (by
        intro i
        rw [OMap.get_del]
        by_cases e : id = i
        · subst e; simp [put]
        · rw [if_neg (fun H => e (jobIDKey_inj.mp H)), h.reorgStart]; simp [put, Ne.symm e]) (by
        intro i
        rw [OMap.get_del, if_neg (jobIDKey_ne_end _ _), h.reorgEnd])
    refine ⟨trivial, h1.setReorg (s := put M.reorgStart id none) (e := put M.reorgEnd id none) ?_ ?_⟩
    · intro i
      rw [OMap.get_del, if_neg (jobIDKey_ne_end _ _).symm, h1.reorgStart]
    · intro i
      rw [OMap.get_del]
      by_cases e : id = i
      · subst e; simp [put]
      · rw [if_neg (fun H => e (jobEndKey_inj.mp H)), h1.reorgEnd]; simp [put, Ne.symm e]
  | getDDLReorgHandle id =>
    simp only [MetaCode, getDDLReorgHandle, MetaCall.sem]
    rw [sem_bind, sem_hgetInt A _ _ _ (h.reorgStart id)]
    cases M.reorgStart id with
    | none => exact ⟨rfl, h⟩
    | some s =>
      simp only [Option.map_some, Option.getD_some]
      rw [sem_bind, sem_hgetInt A _ _ _ (h.reorgEnd id)]
      cases M.reorgEnd id <;> exact ⟨rfl, h⟩
  | incDidSequence db c s =>
    simp only [MetaCode, incDidSequence, MetaCall.sem]
    rw [sem_hinc A _ _ _ _ (h.get_did db c)]
    refine ⟨rfl, ?_⟩
    have := h.setColls (id := db) (h.did_set db c (((M.dids db).get (textOf c)).getD 0 + s)) (h.tcolls db)
    rwa [put_self] at this

end
end Mondis
