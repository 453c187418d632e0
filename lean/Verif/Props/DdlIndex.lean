import Verif.Lemmas.Ddl
/-!
# C78: how far a job that adds an index gets

In every history the worker panics on such a job, because a new collection has no index map (C52, C77).  Where the
map is there, the job goes through the states delete only, write only and reorganization, one for each turn of the
worker, and stays in the last for ever.
-/
namespace Mondis.Props
open Mondis Spec Schema Meta Ddl

/-- The state an index gets in the next turn. -/
def nextState : SchemaState → SchemaState
  | .absent => .deleteOnly
  | .deleteOnly => .writeOnly
  | .writeOnly => .writeReorganization
  | s => s

/-- The job for index `info` of collection `r`, in state `s`. -/
def indexJob (j : Int64) (st : JobState) (info : IndexInfo) (r : IndexInfoRedundant) (s : SchemaState) : Job :=
  { id := j, type := .addIndex, state := st, raw := some (.idx { info with jobRedundant := some r }), schemaState := s }

/-- The index as the catalogue lists it in a state. -/
def listedAs (info : IndexInfo) (s : SchemaState) : IndexInfo := { info with jobRedundant := none, state := s }

/-- The catalogue has database `d`, the only one of its name, with collection `c` in it. -/
structure Catalogued (M : MState) (d : DBInfo) (c : CollectionInfo) : Prop where
  db : M.db d.id = some d
  only : ∀ k d', M.dbs.get k = some d' → d'.name = d.name → k = textOf d.id
  coll : ∃ c', M.coll d.id c.id = some c'
  within : d.collections.get c.name = some c

/-- The first job is one that adds index `info` to collection `c` of `d`, whose index map is `m`; if the job has
run before, the index is there. -/
structure Adding (M : MState) (j : Int64) (info : IndexInfo) (d : DBInfo) (c : CollectionInfo) (m : OMap IndexInfo)
    (s : SchemaState) (rest : List Job) : Prop where
  cat : Catalogued M d c
  map : c.indices = some m
  first : s = .absent →
    m.get info.name = none ∧ ∃ st, (st = .none ∨ st = .running) ∧
      M.queue .default = indexJob j st info ⟨c.name, d.name, 0⟩ s :: rest
  later : s ≠ .absent →
    m.get info.name = some (listedAs info s) ∧ M.queue .default = indexJob j .running info ⟨c.name, d.name, c.id⟩ s :: rest

/-- What a turn leaves: the collection with the index in its next state, in its own record and in that of its
database, a new schema version with a note of what changed, and the job. -/
def afterTurn (M : MState) (j : Int64) (info : IndexInfo) (d : DBInfo) (c : CollectionInfo) (m : OMap IndexInfo)
    (s : SchemaState) (rest : List Job) : MState :=
  let c' : CollectionInfo := { c with
    indices := some (m.set info.name (listedAs info (nextState s))),
    indexOrder := if s = .absent then c.indexOrder ++ [info.name] else c.indexOrder }
  let v := M.version.getD 0 + 1
  let seen : IndexInfo := { info with jobRedundant := some ⟨c.name, d.name, if s = .absent then 0 else c.id⟩ }
  { M with
    colls := put M.colls d.id ((M.colls d.id).set (textOf c.id) c')
    dbs := M.dbs.set (textOf d.id) { d with collections := d.collections.set c.name c' }
    version := some v
    diffs := put M.diffs v (some ⟨v, .addIndex, [c.id], .idx seen⟩)
    queue := fun l => if l = .default then indexJob j .running info ⟨c.name, d.name, c.id⟩ (nextState s) :: rest else M.queue l }

theorem find_only {m : OMap DBInfo} {n : Bytes} {k : Bytes} {d : DBInfo} (h : m.get k = some d) (hn : d.name = n)
    (ho : ∀ k' d', m.get k' = some d' → d'.name = n → k' = k) :
    (m.ents.map Prod.snd).find? (fun d => decide (d.name = n)) = some d := by
  cases hf : (m.ents.map Prod.snd).find? (fun d => decide (d.name = n)) with
  | none =>
    have := List.find?_eq_none.mp hf d (List.mem_map.mpr ⟨(k, d), (OMap.get_eq_some_iff _ _ _).mp h, rfl⟩)
    simp [hn] at this
  | some p =>
    have h1 : p.name = n := of_decide_eq_true (List.find?_some (p := fun d : DBInfo => decide (d.name = n)) hf)
    obtain ⟨⟨k', p'⟩, h2, rfl⟩ := List.mem_map.mp (List.mem_of_find?_eq_some hf)
    have h3 := OMap.mem_get h2
    have h4 := ho _ _ h3 h1
    subst h4
    rw [h] at h3
    exact h3.symm

variable {M : MState} {j : Int64} {info : IndexInfo} {d : DBInfo} {c : CollectionInfo} {m : OMap IndexInfo}
  {s : SchemaState} {rest : List Job}

theorem Catalogued.named (h : Catalogued M d c) : Ddl.named M d.name = some d := find_only h.db rfl h.only

theorem attempt_sem {α : Type} (p : Client α) (M : MState) : (attempt p).sem M = (.ok (p.sem M).1, (p.sem M).2) := by
  induction p generalizing M with
  | done r => rfl
  | call c k ih => exact ih _ _

/-- Storing a changed collection in both records. -/
theorem sem_updateCollectionInfo (h : Catalogued M d c) (o : Order) (job : Job) (c' : CollectionInfo)
    (hid : c'.id = c.id) (hn : c'.name = c.name) (hj : job.type = .addIndex)
    {i : IndexInfo} {r : IndexInfoRedundant} (ha : job.arg = .idx i) (hr : i.jobRedundant = some r) :
    (updateCollectionInfo o job { d with collections := d.collections.set c.name c' } c').sem M =
      (.ok (), { M with
        colls := put M.colls d.id ((M.colls d.id).set (textOf c.id) c')
        dbs := M.dbs.set (textOf d.id) { d with collections := d.collections.set c.name c' }
        version := some (M.version.getD 0 + 1)
        diffs := put M.diffs (M.version.getD 0 + 1) (some ⟨M.version.getD 0 + 1, .addIndex, [r.cid], job.raw.getD job.arg⟩) }) := by
  obtain ⟨cc, hcc⟩ := h.coll
  have h0 : ({ d with collections := d.collections.set c.name c' } : DBInfo).collections.get c'.name ≠ none := by
    simp [hn]
  unfold updateCollectionInfo
  show (Client.bind _ _).sem M = _
  rw [Client.sem_bind]
  have e1 : (Client.one (.updateCollection d.id c')).sem M =
      (.ok (), { M with colls := put M.colls d.id ((M.colls d.id).set (textOf c.id) c') }) := by
    show (MetaCall.updateCollection d.id c').sem M = _
    simp only [MetaCall.sem, ifDB, h.db, ifColl, hid, hcc]
    rfl
  rw [show ({ d with collections := d.collections.set c.name c' } : DBInfo).id = d.id from rfl, e1]
  dsimp only
  rw [if_neg h0]
  show (Client.bind _ _).sem _ = _
  rw [Client.sem_bind]
  have e2 : ∀ N : MState, N.dbs = M.dbs → (Client.one (.updateDatabase
      { d with collections := (d.collections.set c.name c').set c'.name c' })).sem N =
      (.ok (), { N with dbs := M.dbs.set (textOf d.id) { d with collections := d.collections.set c.name c' } }) := by
    intro N hN
    show (MetaCall.updateDatabase { d with collections := (d.collections.set c.name c').set c'.name c' }).sem N = _
    have : N.db d.id ≠ none := by rw [MState.db, hN]; exact fun e => by rw [← MState.db, h.db] at e; cases e
    simp only [MetaCall.sem, ifDB, hn, OMap.set_set, hN]
    rw [if_neg this]
  rw [e2 { M with colls := put M.colls d.id ((M.colls d.id).set (textOf c.id) c') } rfl]
  dsimp only
  unfold updateSchemaVersion
  show (Client.bind _ _).sem _ = _
  rw [Client.sem_bind]
  have e3 : ∀ N : MState, (Client.one .genSchemaVersion).sem N =
      (.ok (N.version.getD 0 + 1), { N with version := some (N.version.getD 0 + 1) }) := fun N => rfl
  rw [e3]
  simp only [job2CollectionIDs, hj, ha, hr]
  rfl

theorem listedAs_state (info : IndexInfo) (s t : SchemaState) : { listedAs info s with state := t } = listedAs info t := rfl

theorem listedAs_name (info : IndexInfo) (s : SchemaState) : (listedAs info s).name = info.name := rfl

theorem advance_listed (hc : c.indices = some m) (hn : m.get info.name = some (listedAs info s)) (t : SchemaState) :
    advanceIndex c info.name t = .ok { c with indices := some (m.set info.name (listedAs info t)) } := by
  unfold advanceIndex
  rw [hc]
  dsimp only
  rw [hn]
  dsimp only
  have e : ((m.set info.name (listedAs info t)).get info.name) ≠ none := by simp
  refine (if_neg e).trans ?_
  show Res.ok { c with indices := some ((m.set info.name (listedAs info t)).set info.name (listedAs info t)) } = _
  rw [OMap.set_set]

/-- What running the job once does. -/
theorem sem_onAddIndex (h : Adding M j info d c m s rest)
    (hs : s = .absent ∨ s = .deleteOnly ∨ s = .writeOnly) (o : Order) {r : IndexInfoRedundant}
    (hr : r = ⟨c.name, d.name, if s = .absent then 0 else c.id⟩) :
    ∃ job, (onAddIndex o (indexJob j .running info r s)).sem M = (.ok { job := job },
        { afterTurn M j info d c m s rest with queue := M.queue }) ∧
      stored job = indexJob j .running info ⟨c.name, d.name, c.id⟩ (nextState s) ∧ job.error = none ∧ job.state = .running := by
  subst hr
  have hg := h.cat.named
  have hget : ∀ o, ((attempt (getDbInfo d.name)).bind o : Client RunOut).sem M = (o (.ok (some d))).sem M := by
    intro o
    rw [Client.sem_bind, (runs_getDbInfo M d.name).attempt.1, hg]
  rcases hs with rfl | rfl | rfl
  · obtain ⟨hn, -⟩ := h.first rfl
    refine ⟨{ id := j, type := .addIndex, state := .running, schemaState := .deleteOnly,
              arg := .idx { info with jobRedundant := some ⟨c.name, d.name, c.id⟩ } }, ?_, rfl, rfl, rfl⟩
    unfold onAddIndex
    simp only [indexJob, Job.decodeIdx, JobArg.asIdx, if_pos]
    rw [hget]
    simp only [h.cat.within, h.map, Option.bind, hn, Option.isSome, Bool.false_eq_true, if_false]
    have hu := sem_updateCollectionInfo h.cat o ⟨j, .addIndex, .running, none, 0,
      .idx { info with jobRedundant := some ⟨c.name, d.name, c.id⟩ },
      some (.idx { info with jobRedundant := some ⟨c.name, d.name, 0⟩ }), .absent, 0, 0⟩
      { c with indices := some (m.set info.name (listedAs info .deleteOnly)), indexOrder := c.indexOrder ++ [info.name] }
      rfl rfl rfl rfl rfl
    rw [Client.sem_bind, attempt_sem]
    erw [hu]
    rfl
  · obtain ⟨hn, -⟩ := h.later nofun
    refine ⟨⟨j, .addIndex, .running, none, 0, .idx { info with jobRedundant := some ⟨c.name, d.name, c.id⟩ },
      some (.idx { info with jobRedundant := some ⟨c.name, d.name, c.id⟩ }), .writeOnly, 0, 0⟩, ?_, rfl, rfl, rfl⟩
    have hu := sem_updateCollectionInfo h.cat o ⟨j, .addIndex, .running, none, 0,
      .idx { info with jobRedundant := some ⟨c.name, d.name, c.id⟩ },
      some (.idx { info with jobRedundant := some ⟨c.name, d.name, c.id⟩ }), .deleteOnly, 0, 0⟩
      { c with indices := some (m.set info.name (listedAs info .writeOnly)) }
      rfl rfl rfl rfl rfl
    have ha := advance_listed h.map hn .writeOnly
    unfold onAddIndex
    simp only [indexJob, Job.decodeIdx, JobArg.asIdx, reduceCtorEq, if_false]
    rw [hget]
    simp only [h.cat.within, ha]
    rw [Client.sem_bind, attempt_sem, hu]
    rfl
  · obtain ⟨hn, -⟩ := h.later nofun
    refine ⟨⟨j, .addIndex, .running, none, 0, .idx { info with jobRedundant := some ⟨c.name, d.name, c.id⟩ },
      some (.idx { info with jobRedundant := some ⟨c.name, d.name, c.id⟩ }), .writeReorganization, 0, 0⟩, ?_, rfl, rfl, rfl⟩
    have hu := sem_updateCollectionInfo h.cat o ⟨j, .addIndex, .running, none, 0,
      .idx { info with jobRedundant := some ⟨c.name, d.name, c.id⟩ },
      some (.idx { info with jobRedundant := some ⟨c.name, d.name, c.id⟩ }), .writeOnly, 0, 0⟩
      { c with indices := some (m.set info.name (listedAs info .writeReorganization)) }
      rfl rfl rfl rfl rfl
    have ha := advance_listed h.map hn .writeReorganization
    unfold onAddIndex
    simp only [indexJob, Job.decodeIdx, JobArg.asIdx, reduceCtorEq, if_false]
    rw [hget]
    simp only [h.cat.within, ha]
    rw [Client.sem_bind, attempt_sem, hu]
    rfl

/-- The collection after a turn. -/
def collAfter (info : IndexInfo) (c : CollectionInfo) (m : OMap IndexInfo) (s : SchemaState) : CollectionInfo :=
  { c with indices := some (m.set info.name (listedAs info (nextState s))),
           indexOrder := if s = .absent then c.indexOrder ++ [info.name] else c.indexOrder }

/-- One turn of the worker moves the index by one state: both records list it in the next state and nothing else
in them changes, the schema version goes up by one and the note of the change names the collection, and the job is
still the first, ready for the turn after. -/
theorem C78_turn (h : Adding M j info d c m s rest) (hs : s = .absent ∨ s = .deleteOnly ∨ s = .writeOnly)
    (o₁ o₂ o₃ : Order) (v : Vars) :
    (workTxn o₁ o₂ o₃ v).sem M = (.ok { vars := {} }, afterTurn M j info d c m s rest) ∧
    Adding (afterTurn M j info d c m s rest) j info { d with collections := d.collections.set c.name (collAfter info c m s) }
      (collAfter info c m s) (m.set info.name (listedAs info (nextState s))) (nextState s) rest := by
  have hne : nextState s ≠ .absent := by rcases hs with rfl | rfl | rfl <;> decide
  constructor
  · obtain ⟨st, hst, hq⟩ : ∃ st, (st = .none ∨ st = .running) ∧
        M.queue .default = indexJob j st info ⟨c.name, d.name, if s = .absent then 0 else c.id⟩ s :: rest := by
      by_cases ha : s = .absent
      · subst ha
        obtain ⟨-, st, h1, h2⟩ := h.first rfl
        exact ⟨st, h1, h2⟩
      · obtain ⟨-, h2⟩ := h.later ha
        exact ⟨.running, .inr rfl, by rw [h2, if_neg ha]⟩
    obtain ⟨job, h1, h2, h3, h4⟩ := sem_onAddIndex h hs o₂ (r := ⟨c.name, d.name, if s = .absent then 0 else c.id⟩) rfl
    unfold workTxn
    show (Client.bind _ _).sem M = _
    rw [Client.sem_bind]
    have e1 : (Client.one (.getDDLJobByIdx .default 0)).sem M =
        (.ok (some (indexJob j st info ⟨c.name, d.name, if s = .absent then 0 else c.id⟩ s)), M) := by
      show (MetaCall.getDDLJobByIdx .default 0).sem M = _
      rw [sem_first hq]
      rfl
    rw [e1]
    dsimp only
    rw [if_neg (by rcases hst with rfl | rfl <;> (rintro (e | e) <;> cases e))]
    show (Client.bind _ _).sem M = _
    have e2 : runJob o₁ o₂ o₃ (indexJob j st info ⟨c.name, d.name, if s = .absent then 0 else c.id⟩ s) =
        onAddIndex o₂ (indexJob j .running info ⟨c.name, d.name, if s = .absent then 0 else c.id⟩ s) := by
      rcases hst with rfl | rfl <;> rfl
    rw [Client.sem_bind, attempt_sem, e2, h1]
    show (Client.bind _ _).sem _ = _
    rw [Client.sem_bind]
    have e3 : settle job {} = Client.one (.updateDDLJob .default 0 job) := by
      unfold settle
      simp only [h4]
      rfl
    simp only [recovered]
    rw [e3]
    have e4 : (Client.one (.updateDDLJob .default 0 job)).sem { afterTurn M j info d c m s rest with queue := M.queue } =
        (.ok (), withQueue { afterTurn M j info d c m s rest with queue := M.queue } (stored job :: rest)) := by
      show (MetaCall.updateDDLJob .default 0 job).sem _ = _
      exact sem_update (M := { afterTurn M j info d c m s rest with queue := M.queue }) hq job
    rw [e4, h2]
    rfl
  · refine ⟨⟨?_, ?_, ?_, ?_⟩, rfl, fun e => absurd e hne, fun _ => ⟨?_, rfl⟩⟩
    · show (M.dbs.set _ _).get _ = _
      rw [OMap.get_set, if_pos rfl]; rfl
    · intro k d' hk hn
      replace hk : (M.dbs.set (textOf d.id) _).get k = some d' := hk
      rw [OMap.get_set] at hk
      split at hk
      · exact Eq.symm (by assumption)
      · exact h.cat.only k d' hk hn
    · refine ⟨collAfter info c m s, ?_⟩
      show (put M.colls d.id _ d.id).get _ = _
      rw [put, if_pos rfl, OMap.get_set]
      exact if_pos rfl
    · show (d.collections.set c.name _).get c.name = _
      rw [OMap.get_set, if_pos rfl]
    · rw [OMap.get_set, if_pos rfl]

/-- In its last state the job is looked at and put back: a turn changes nothing at all. -/
theorem C78_last (h : Adding M j info d c m .writeReorganization rest) (o₁ o₂ o₃ : Order) (v : Vars) :
    (workTxn o₁ o₂ o₃ v).sem M = (.ok { vars := {} }, M) := by
  obtain ⟨-, hq⟩ := h.later nofun
  have hg := h.cat.named
  unfold workTxn
  show (Client.bind _ _).sem M = _
  rw [Client.sem_bind]
  have e1 : (Client.one (.getDDLJobByIdx .default 0)).sem M =
      (.ok (some (indexJob j .running info ⟨c.name, d.name, c.id⟩ .writeReorganization)), M) := by
    show (MetaCall.getDDLJobByIdx .default 0).sem M = _
    rw [sem_first hq]
    rfl
  rw [e1]
  dsimp only
  rw [if_neg (by rintro (e | e) <;> cases e)]
  show (Client.bind _ _).sem M = _
  have e2 : runJob o₁ o₂ o₃ (indexJob j .running info ⟨c.name, d.name, c.id⟩ .writeReorganization) =
      onAddIndex o₂ (indexJob j .running info ⟨c.name, d.name, c.id⟩ .writeReorganization) := rfl
  have e5 : (onAddIndex o₂ (indexJob j .running info ⟨c.name, d.name, c.id⟩ .writeReorganization)).sem M =
      (.ok { job := ⟨j, .addIndex, .running, none, 0, .idx { info with jobRedundant := some ⟨c.name, d.name, c.id⟩ },
        some (.idx { info with jobRedundant := some ⟨c.name, d.name, c.id⟩ }), .writeReorganization, 0, 0⟩ }, M) := by
    unfold onAddIndex
    simp only [indexJob, Job.decodeIdx, JobArg.asIdx]
    rw [Client.sem_bind, (runs_getDbInfo M d.name).attempt.1, hg]
    simp only [h.cat.within]
    rfl
  rw [Client.sem_bind, attempt_sem, e2, e5]
  show (Client.bind _ _).sem _ = _
  rw [Client.sem_bind]
  have e4 : ∀ job, (Client.one (.updateDDLJob .default 0 job)).sem M = (.ok (), withQueue M (stored job :: rest)) := by
    intro job
    show (MetaCall.updateDDLJob .default 0 job).sem _ = _
    exact sem_update hq job
  have e6 : ∀ job : Job, job.state = .running → settle job {} = Client.one (.updateDDLJob .default 0 job) := by
    intro job h4
    unfold settle
    simp only [h4]
    rfl
  simp only [recovered]
  rw [e6 _ rfl, e4]
  have : withQueue M (indexJob j .running info ⟨c.name, d.name, c.id⟩ .writeReorganization :: rest) = M := by
    unfold withQueue
    congr 1
    funext l
    split
    · rename_i e; rw [e, hq]
    · rfl
  exact congrArg (Prod.mk _) this

/-- Turns of the worker, one after the other; one whose transaction fails leaves things as they were. -/
def turns : List (Order × Order × Order) → Vars → MState → MState
  | [], _, M => M
  | (o₁, o₂, o₃) :: os, v, M => match (workTxn o₁ o₂ o₃ v).sem M with
    | (.ok out, M') => turns os out.vars M'
    | _ => turns os v M

theorem turns_last (h : Adding M j info d c m .writeReorganization rest) (os : List (Order × Order × Order)) (v : Vars) :
    turns os v M = M := by
  induction os generalizing v with
  | nil => rfl
  | cons o os ih =>
    obtain ⟨o₁, o₂, o₃⟩ := o
    simp only [turns, C78_last h o₁ o₂ o₃ v]
    exact ih _

theorem turns_cons (h : Adding M j info d c m s rest) (hs : s = .absent ∨ s = .deleteOnly ∨ s = .writeOnly)
    (o : Order × Order × Order) (os : List (Order × Order × Order)) (v : Vars) :
    turns (o :: os) v M = turns os {} (afterTurn M j info d c m s rest) := by
  obtain ⟨o₁, o₂, o₃⟩ := o
  simp only [turns, (C78_turn h hs o₁ o₂ o₃ v).1]

/-- However many turns the worker takes from the third on, the index is in reorganization, in the record of its
collection and in that of the database, the schema version went up by three, and the job is still the first: it is
never finished, and no job behind it ever runs. -/
theorem C78_never_done (h : Adding M j info d c m .absent rest) (os : List (Order × Order × Order)) (hn : 3 ≤ os.length) (v : Vars) :
    ∃ c', (turns os v M).coll d.id c.id = some c' ∧
      (turns os v M).db d.id = some { d with collections := d.collections.set c.name c' } ∧
      c' = { c with indices := some (m.set info.name (listedAs info .writeReorganization)), indexOrder := c.indexOrder ++ [info.name] } ∧
      (turns os v M).queue .default = indexJob j .running info ⟨c.name, d.name, c.id⟩ .writeReorganization :: rest ∧
      (turns os v M).version = some (M.version.getD 0 + 1 + 1 + 1) ∧
      (turns os v M).history = M.history := by
  match os, hn with
  | a :: b :: e :: os, _ =>
    have h1 := (C78_turn h (.inl rfl) a.1 a.2.1 a.2.2 v).2
    have h2 := (C78_turn h1 (.inr (.inl rfl)) a.1 a.2.1 a.2.2 v).2
    have h3 := (C78_turn h2 (.inr (.inr rfl)) a.1 a.2.1 a.2.2 v).2
    rw [turns_cons h (.inl rfl), turns_cons h1 (.inr (.inl rfl)), turns_cons h2 (.inr (.inr rfl)), turns_last h3]
    refine ⟨_, ?_, ?_, rfl, rfl, rfl, rfl⟩
    · show OMap.get (put _ d.id _ d.id) _ = _
      rw [put, if_pos rfl, OMap.get_set]
      refine (if_pos rfl).trans ?_
      show some (collAfter info (collAfter info (collAfter info c m .absent) _ .deleteOnly) _ .writeOnly) = _
      unfold collAfter
      simp only [OMap.set_set]
      rfl
    · rw [h3.cat.db]
      unfold collAfter
      simp only [OMap.set_set]
      rfl

/-- Why index `info` cannot be added to collection `r.collection` of database `r.db`: there is no such database; the database (the only one
of its name) has no such collection; the collection has such an index, before the job's first turn; the job is in a state the
worker does not know. -/
inductive IndexRefused (M : MState) (info : IndexInfo) (r : IndexInfoRedundant) : SchemaState → Err → Prop where
  | noDB {s : SchemaState} : (∀ k d, M.dbs.get k = some d → d.name ≠ r.db) → IndexRefused M info r s Ddl.errDBNotExists
  | noCollection {s : SchemaState} {d : DBInfo} : M.db d.id = some d → d.name = r.db → (∀ k d', M.dbs.get k = some d' → d'.name = r.db → k = textOf d.id) →
      d.collections.get r.collection = none → IndexRefused M info r s Ddl.errCollectionNotExists
  | taken {d : DBInfo} {c : CollectionInfo} {m : OMap IndexInfo} {i : IndexInfo} : M.db d.id = some d → d.name = r.db → (∀ k d', M.dbs.get k = some d' → d'.name = r.db → k = textOf d.id) →
      d.collections.get r.collection = some c → c.indices = some m → m.get info.name = some i →
      IndexRefused M info r .absent errIndexAlreadyExists
  | unknown {s : SchemaState} {d : DBInfo} {c : CollectionInfo} : M.db d.id = some d → d.name = r.db → (∀ k d', M.dbs.get k = some d' → d'.name = r.db → k = textOf d.id) →
      d.collections.get r.collection = some c → s = .other ∨ s = .«public» → IndexRefused M info r s errInvalidDDLState

/-- A job that cannot be carried out is given up in its first turn: it is taken from the queue and put into the history with the error;
nothing else changes. -/
theorem C78_refused {st : JobState} {r : IndexInfoRedundant} {e : Err} (hst : st = .none ∨ st = .running)
    (hq : M.queue .default = indexJob j st info r s :: rest) (h : IndexRefused M info r s e) (o₁ o₂ o₃ : Order) (v : Vars) :
    (workTxn o₁ o₂ o₃ v).sem M = (.ok { vars := ⟨true, some e⟩ },
      { withQueue M rest with
        history := M.history.set (MState.job.jobKey j) { indexJob j .running info r s with errorCount := 1, error := some e } }) := by
  have hrun : ∃ job, (onAddIndex o₂ (indexJob j .running info r s)).sem M = (.ok { job := job, failNow := true, err := some e }, M) ∧
      stored job = indexJob j .running info r s ∧ job.errorCount = 0 ∧ job.id = j := by
    refine ⟨⟨j, .addIndex, .running, none, 0, .idx { info with jobRedundant := some r }, some (.idx { info with jobRedundant := some r }),
      s, 0, 0⟩, ?_, rfl, rfl, rfl⟩
    have hget : ∀ o, ((attempt (getDbInfo r.db)).bind o : Client RunOut).sem M = (o (.ok (Ddl.named M r.db))).sem M := by
      intro o
      rw [Client.sem_bind, (runs_getDbInfo M r.db).attempt.1]
    unfold onAddIndex
    simp only [indexJob, Job.decodeIdx, JobArg.asIdx]
    rw [hget]
    cases h with
    | noDB h =>
      have : Ddl.named M r.db = none := by
        refine List.find?_eq_none.mpr (fun d hd => ?_)
        obtain ⟨⟨k, d'⟩, h2, rfl⟩ := List.mem_map.mp hd
        simpa using h k d' (OMap.mem_get h2)
      rw [this]
      rfl
    | noCollection h1 h2 h3 h4 =>
      rw [show Ddl.named M r.db = _ from find_only h1 h2 h3]
      simp only [h4]
      rfl
    | taken h1 h2 h3 h4 h5 h6 =>
      rw [show Ddl.named M r.db = _ from find_only h1 h2 h3]
      simp only [h4, h5, Option.bind, h6, Option.isSome, if_true]
      rfl
    | unknown h1 h2 h3 h4 h5 =>
      rw [show Ddl.named M r.db = _ from find_only h1 h2 h3]
      rcases h5 with rfl | rfl <;> simp only [h4] <;> rfl
  obtain ⟨job, h1, h2, h3, h4⟩ := hrun
  unfold workTxn
  show (Client.bind _ _).sem M = _
  rw [Client.sem_bind]
  have e1 : (Client.one (.getDDLJobByIdx .default 0)).sem M = (.ok (some (indexJob j st info r s)), M) := by
    show (MetaCall.getDDLJobByIdx .default 0).sem M = _
    rw [sem_first hq]
    rfl
  rw [e1]
  dsimp only
  rw [if_neg (by rcases hst with rfl | rfl <;> (rintro (e | e) <;> cases e))]
  show (Client.bind _ _).sem M = _
  have e2 : runJob o₁ o₂ o₃ (indexJob j st info r s) = onAddIndex o₂ (indexJob j .running info r s) := by
    rcases hst with rfl | rfl <;> rfl
  rw [Client.sem_bind, attempt_sem, e2, h1]
  show (Client.bind _ _).sem _ = _
  rw [Client.sem_bind]
  simp only [recovered]
  have e3 : settle job ⟨true, some e⟩ = finishJob { job with errorCount := 1, error := some e } := by
    unfold settle
    simp only [true_or, if_true, h3]
    rfl
  rw [e3]
  have e4 : ∀ job', (finishJob job').sem M = (.ok (), { withQueue M rest with history := M.history.set (MState.job.jobKey job'.id) (stored job') }) := by
    intro job'
    unfold finishJob
    show (Client.bind _ _).sem M = _
    rw [Client.sem_bind]
    have : (Client.one (.deQueueDDLJob .default)).sem M = (.ok (some (indexJob j st info r s)), withQueue M rest) := by
      show (MetaCall.deQueueDDLJob .default).sem M = _
      rw [sem_deQueue hq]
      rfl
    rw [this]
    rfl
  rw [e4]
  have e5 : stored { job with errorCount := 1, error := some e } = { indexJob j .running info r s with errorCount := 1, error := some e } := by
    rw [← h2]
    rfl
  rw [e5]
  subst h4
  rfl

/-- And the history cannot be asked about it: reading back the stored error fails. -/
theorem C78_refused_unread {st : JobState} {r : IndexInfoRedundant} {e : Err} (hst : st = .none ∨ st = .running)
    (hq : M.queue .default = indexJob j st info r s :: rest) (h : IndexRefused M info r s e) (o₁ o₂ o₃ : Order) (v : Vars) :
    ((MetaCall.getHistoryDDLJob j).sem ((workTxn o₁ o₂ o₃ v).sem M).2).1 = .err .parse := by
  rw [C78_refused hst hq h]
  simp only [MetaCall.sem, MState.job, OMap.get_set, if_true]
  rfl

/-- Some names. -/
def aName : Bytes := [65]
def xName : Bytes := [120]
def iName : Bytes := [73]

def aColl : CollectionInfo := { id := 2, name := xName, indices := some OMap.empty }
def aBase : DBInfo := { id := 1, name := aName, collections := OMap.empty.set xName aColl, collectionOrder := [xName] }
def anIndex : IndexInfo := { id := 3, name := iName, columns := [xName] }

/-- A catalogue whose collection has an index map, and a job that adds an index to it. -/
def aCatalogue : MState :=
  { dbs := OMap.empty.set (textOf 1) aBase
    colls := put (fun _ => OMap.empty) 1 (OMap.empty.set (textOf 2) aColl)
    queue := fun l => if l = .default then [indexJob 4 .none anIndex ⟨xName, aName, 0⟩ .absent] else [] }

/-- C78's hypotheses are met. -/
example : Adding aCatalogue 4 anIndex aBase aColl OMap.empty .absent [] := by
  refine ⟨⟨?_, ?_, ⟨aColl, ?_⟩, ?_⟩, rfl, fun _ => ⟨rfl, .none, .inl rfl, rfl⟩, fun e => absurd rfl e⟩
  · show (OMap.empty.set _ _).get _ = _
    rw [OMap.get_set]; exact if_pos rfl
  · intro k d' hk _
    replace hk : (OMap.empty.set (textOf 1) aBase).get k = some d' := hk
    rw [OMap.get_set] at hk
    split at hk
    · exact Eq.symm (by assumption)
    · cases hk
  · show OMap.get (put _ _ _ _) _ = _
    rw [put, if_pos (show aBase.id = 1 from rfl), OMap.get_set]; exact if_pos rfl
  · show (OMap.empty.set _ _).get _ = _
    rw [OMap.get_set]; exact if_pos rfl

/-- C78_refused's hypotheses are met: a job for a database that is not there. -/
example : IndexRefused aCatalogue anIndex ⟨xName, xName, 0⟩ .absent Ddl.errDBNotExists := by
  refine .noDB (fun k d hk => ?_)
  replace hk : (OMap.empty.set (textOf 1) aBase).get k = some d := hk
  rw [OMap.get_set] at hk
  split at hk
  · cases hk; decide
  · cases hk

/-- And one in a state the worker does not know. -/
example : IndexRefused aCatalogue anIndex ⟨xName, aName, 2⟩ .«public» errInvalidDDLState := by
  refine .unknown (d := aBase) (c := aColl) ?_ rfl ?_ ?_ (.inr rfl)
  · show (OMap.empty.set _ _).get _ = _
    rw [OMap.get_set]; exact if_pos rfl
  · intro k d' hk _
    replace hk : (OMap.empty.set (textOf 1) aBase).get k = some d' := hk
    rw [OMap.get_set] at hk
    split at hk
    · exact Eq.symm (by assumption)
    · cases hk
  · show (OMap.empty.set _ _).get _ = _
    rw [OMap.get_set]; exact if_pos rfl

end Mondis.Props
