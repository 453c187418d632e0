import Verif.Lemmas.DdlFacts
import Verif.Props.MetaExamples
/-!
# C54, C55, C57, C66: package ddl

`Spec/Ddl.lean` says what every call and every turn of the worker does.  Here: every history of the model is a
history of that specification, and what follows for users.
-/
namespace Mondis.Props
open Mondis Spec Schema Meta Structure Ddl

/-- What a function of package meta answers in a transaction of its own on the database. -/
def asks (J : Json) (db : DB) (env : Env) {β : Type} (c : MetaCall β) : Res β :=
  ((⟨false, env, none, Client.one c⟩ : MetaTxn β).run J db).1

theorem asks_kept {J : Json} {M : MState} {db : DB} (h : Keeps J (2 ^ 62) M db) (env : Env) {β : Type} (c : MetaCall β)
    (hw : c.writes = false) (ht : c.Text) : asks J db env c = (c.sem M).1 := by
  refine (txn_calm J ⟨false, env, none, Client.one c⟩ h ⟨ht, trivial⟩ ?_ (.inr ⟨rfl, Client.only_one hw⟩)).1
  show 2 ^ 62 + 2 * (1 + 0) < 2 ^ 63
  omega

/-- The metadata can be read. -/
theorem text_of_reads {β : Type} {c : MetaCall β} (h : c.writes = false) : c.Text := by
  cases c <;> first | trivial | (cases h)

section
variable {J : Json} {K : Nat} {db : DB} {es : List Ev}

/-- Every history — calls, refused transactions, turns of the worker, crashes, restarts, in any order — is one the
specification allows, and what is stored in the end is what the specification says. -/
theorem C55_history (hdb : Fresh Sequence.metaPrefix db) (hb : Brief K es) :
    ∃ Q M, Proc.Steps {} es (Ddl.run J es { db := db }).1 Q ∧ Q.state.Holds M ∧
      ∀ (env : Env) {β : Type} (c : MetaCall β), c.writes = false →
        asks J (Ddl.run J es { db := db }).2.db env c = (c.sem M).1 := by
  obtain ⟨Q, h1, h2⟩ := run_serves J hdb hb
  obtain ⟨M, h3, h4, -⟩ := h2.kept
  exact ⟨Q, M, h1.steps, h3, fun env β c hw => asks_kept h4 env c hw (text_of_reads hw)⟩

/-- All ids in all jobs handed out — of the jobs, databases, collections and indexes — are different and positive,
whatever happened in between. -/
theorem C55_ids_distinct (hdb : Fresh Sequence.metaPrefix db) (hb : Brief K es) :
    ((accepted (Ddl.run J es { db := db }).1).flatMap idsIn).Nodup ∧
    ∀ x ∈ (accepted (Ddl.run J es { db := db }).1).flatMap idsIn, 0 < x := by
  obtain ⟨Q, h1, h2⟩ := run_serves J hdb hb
  obtain ⟨g1, g2, -⟩ := accepted_ids h1
  refine ⟨g1, fun x hx => ?_⟩
  have := (g2 x hx).1
  rw [Int64.lt_iff_toInt_lt]
  exact this

/-- One more CreateSchema answers as the specification says, or its transaction is refused.  Before a successful Init the
caller gets a panic in place of the job (`Proc.heard`). -/
theorem C55_create (hdb : Fresh Sequence.metaPrefix db) {o : Order} {i : CreateSchemaInput} {c : Ddl.Circ}
    (hb : Brief K (es ++ [.createSchema o i c])) :
    ∃ Q, Proc.Steps {} es (Ddl.run J es { db := db }).1 Q ∧
      ((∃ r A', Q.state.Creates i r A' ∧ ((Ddl.run J es { db := db }).2.step J (.createSchema o i c)).1 = .job (Q.heard r)) ∨
       ∃ e, c.fail = some e ∧ ((Ddl.run J es { db := db }).2.step J (.createSchema o i c)).1 = .job (.err e)) := by
  obtain ⟨R, h1, -⟩ := run_serves J hdb hb
  rw [run_append] at h1
  obtain ⟨es₁, es₂, Q, e, h2, h3⟩ := h1.split
  have hlen : es₁.length = es.length := by
    have a1 := h2.length
    have a2 : (Ddl.run J es { db := db }).1.length = es.length := by
      have : ∀ (es : List Ev) (w : World), (Ddl.run J es w).1.length = es.length := by
        intro es
        induction es with
        | nil => exact fun _ => rfl
        | cons e es ih => exact fun w => by show _ + 1 = _ + 1; rw [ih]
      exact this _ _
    omega
  obtain ⟨rfl, rfl⟩ := List.append_inj e hlen.symm
  cases h3 with
  | cons s1 s2 h4 h5 =>
    cases hx : ((Ddl.run J es { db := db }).2.step J (.createSchema o i c)).1 with
    | job r =>
      rw [hx] at h4
      refine ⟨Q, h2.steps, ?_⟩
      cases h4 with
      | create h => exact .inl ⟨_, _, h, rfl⟩
      | createRefused h => exact .inr ⟨_, h, rfl⟩
    | _ => exact absurd hx (by simp [World.step])

/-- A call that answers an error changes nothing; once there is a worker, nor does one that panics. -/
theorem C55_atomic (w : World) (e : Ev) (r : Res Job) (h : (w.step J e).1 = .job r) (hr : ∀ j, r ≠ .ok j)
    (hup : w.up = true ∨ r ≠ .panic) : (w.step J e).2 = w := by
  have hn : ∀ x : Res Job, notifyWorker w.up x = r → ∀ j, x ≠ .ok j := by
    rintro x hx j rfl
    have hx : (if w.up = true then Res.ok j else .panic) = r := hx
    split at hx
    · exact hr _ hx.symm
    · rename_i hf
      rcases hup with hup | hup
      · exact hf hup
      · exact hup hx.symm
  have key : ∀ (T : MetaTxn Job), T.update = true → (∀ j, (T.run J w.db).1 ≠ .ok j) → (T.run J w.db).2 = w.db := by
    intro T hu hn
    unfold MetaTxn.run at hn ⊢
    simp only [hu, if_true] at hn ⊢
    unfold Util.runInNewUpdateTxn at hn ⊢
    cases hx : Util.body T.env true (T.prog.code J) w.db with
    | mk r t =>
      rw [hx] at hn
      cases r with
      | err e => rfl
      | panic => rfl
      | ok a =>
        simp only at hn ⊢
        unfold Txn.commit at hn ⊢
        by_cases hw : t.writes = []
        · rw [if_pos hw]
        · rw [if_neg hw] at hn ⊢
          cases hf : T.fail with
          | none => rw [hf] at hn; exact absurd rfl (hn a)
          | some e => rfl
  cases e with
  | createSchema o i c =>
    simp only [World.step, Answer.job.injEq] at h ⊢
    rw [key _ rfl (hn _ h)]
  | addIndex i c =>
    simp only [World.step, Answer.job.injEq] at h ⊢
    rw [key _ rfl (hn _ h)]
  | getJob id c => simp [World.step] at h
  | work o₁ o₂ o₃ c env =>
    simp only [World.step] at h
    split at h
    · cases h
    · split at h <;> cases h
  | draw x c =>
    simp only [World.step] at h
    split at h <;> cases h
  | crash => simp [World.step] at h
  | init o env fail =>
    simp only [World.step] at h
    split at h
    · split at h <;> cases h
    · cases h
    · cases h

/-- What the version and the diffs are in a state that serves. -/
theorem diffs_kept {Q : Proc} {w : World} (h2 : Serves J K (2 ^ 62) Q w) (env : Env) :
    ∃ dbs : List DBInfo, dbs.length < 2 ^ 63 ∧
      asks J w.db env .getSchemaVersion = .ok (Int64.ofNat dbs.length) ∧
      (∀ i d, dbs[i]? = some d → ∃ ids, ids.Perm (d.collections.ents.map (fun e => e.2.id)) ∧
        asks J w.db env (.getSchemaDiff (Int64.ofNat (i + 1))) =
          .ok (some ⟨Int64.ofNat (i + 1), .createSchema, ids, .db d⟩)) ∧
      (∀ v : Int64, ¬ (0 < v ∧ v ≤ Int64.ofNat dbs.length) →
        asks J w.db env (.getSchemaDiff v) = .ok none) ∧
      ∃ l, asks J w.db env .listDatabases = .ok l ∧ l.Perm (dbs.map openDB) ∧
        ∀ p ∈ l, ∃ cs, asks J w.db env (.listCollections p.id) = .ok cs ∧
          cs.Perm (p.collections.ents.map Prod.snd) := by
  obtain ⟨M, h3, h4, -⟩ := h2.kept
  have hlen : Q.state.dbs.length < 2 ^ 63 := by
    have a1 := h2.sane.count
    have a2 := h2.sane.small
    omega
  refine ⟨Q.state.dbs, hlen, ?_, ?_, ?_, M.dbs.ents.map Prod.snd, ?_, ?_⟩
  · rw [asks_kept h4 env .getSchemaVersion rfl trivial]
    simp only [MetaCall.sem, h3.version]
  · intro i d hd
    obtain ⟨ids, hp, hx⟩ := h3.diff i d hd
    refine ⟨ids, hp, ?_⟩
    rw [asks_kept h4 env (.getSchemaDiff (Int64.ofNat (i + 1))) rfl (text_of_reads rfl)]
    simp only [MetaCall.sem, hx]
  · intro v hv
    rw [asks_kept h4 env (.getSchemaDiff v) rfl trivial]
    simp only [MetaCall.sem]
    rw [h3.noDiff v]
    intro i hi e
    apply hv
    rw [e]
    constructor
    · rw [Int64.lt_iff_toInt_lt, Int64.toInt_ofNat_of_lt (by omega)]
      show (0 : Int) < _
      omega
    · rw [Int64.le_iff_toInt_le, Int64.toInt_ofNat_of_lt (by omega), Int64.toInt_ofNat_of_lt (by omega)]
      omega
  · rw [asks_kept h4 env .listDatabases rfl trivial]; rfl
  constructor
  · -- the same databases, each once
    rw [List.perm_ext_iff_of_nodup]
    · intro p
      rw [mem_listing h3, List.mem_map]
      exact ⟨fun ⟨d, hd, e⟩ => ⟨d, hd, e.symm⟩, fun ⟨d, hd, e⟩ => ⟨d, hd, e.symm⟩⟩
    · have hl : ∀ e ∈ M.dbs.ents, ∃ d ∈ Q.state.dbs, e = (textOf d.id, publicDB d) := by
        intro e he
        obtain ⟨k, p⟩ := e
        obtain ⟨d, hd, rfl, rfl⟩ := (h3.dbs k p).mp (OMap.mem_get he)
        exact ⟨d, hd, rfl⟩
      have hsorted := M.dbs.sorted
      rw [List.Nodup, List.pairwise_map]
      refine List.Pairwise.imp_of_mem ?_ hsorted
      intro a b ha hb' hlt e
      obtain ⟨d, hd, rfl⟩ := hl a ha
      obtain ⟨d', hd', rfl⟩ := hl b hb'
      have : d.id = d'.id := by have := congrArg DBInfo.id e; exact this
      simp only [this] at hlt
      exact List.lt_irrefl _ hlt
    · have hnames := h2.sane.names
      rw [List.Nodup, List.pairwise_map] at hnames ⊢
      exact hnames.imp (fun h e => h (show (openDB _).name = (openDB _).name by rw [e]))
  · intro p hp
    obtain ⟨d, hd, rfl⟩ := (mem_listing h3 p).mp hp
    refine ⟨(M.colls d.id).ents.map Prod.snd, ?_, ?_⟩
    · rw [asks_kept h4 env (.listCollections (publicDB d).id) rfl trivial]
      have : M.db d.id ≠ none := by
        have := (h3.dbs (textOf d.id) (openDB d)).mpr ⟨d, hd, rfl, rfl⟩
        show M.dbs.get _ ≠ none
        rw [this]; exact fun h => (nomatch h)
      show (ifDB M d.id _).1 = _
      rw [ifDB, if_neg this]; rfl
    · have hids := idsOf_dbs_nodup h2.sane
      have hl : ∀ e ∈ (M.colls d.id).ents, e.1 = textOf e.2.id := by
        intro e he
        obtain ⟨d', -, -, n, c, -, e1, e2⟩ := (h3.colls d.id e.1 e.2).mp (OMap.mem_get he)
        rw [e1, e2]; rfl
      rw [List.perm_ext_iff_of_nodup]
      · intro c
        constructor
        · intro hc
          obtain ⟨e, he, rfl⟩ := List.mem_map.mp hc
          obtain ⟨d', hd', e0, n, c, hg, -, e2⟩ := (h3.colls d.id e.1 e.2).mp (OMap.mem_get he)
          obtain rfl := sameDB hids hd' hd e0
          rw [e2]
          exact List.mem_map.mpr ⟨(n, openColl c), List.mem_map.mpr ⟨(n, c), (OMap.get_eq_some_iff _ _ _).mp hg, rfl⟩, rfl⟩
        · intro hc
          obtain ⟨e, he, rfl⟩ := List.mem_map.mp hc
          obtain ⟨⟨n, c⟩, hx, rfl⟩ := List.mem_map.mp he
          have := (h3.colls d.id (textOf c.id) (openColl c)).mpr ⟨d, hd, rfl, n, c, OMap.mem_get hx, rfl, rfl⟩
          exact List.mem_map.mpr ⟨_, (OMap.get_eq_some_iff _ _ _).mp this, rfl⟩
      · rw [List.Nodup, List.pairwise_map]
        refine List.Pairwise.imp_of_mem ?_ (M.colls d.id).sorted
        intro a b ha hb' hlt e
        rw [hl a ha, hl b hb', e] at hlt
        exact List.lt_irrefl _ hlt
      · have := (List.nodup_cons.mp (idsOf_nodup hids hd)).2
        rw [List.Nodup, List.pairwise_map] at this
        show ((d.collections.ents.map _).map Prod.snd).Nodup
        rw [List.map_map, List.Nodup, List.pairwise_map]
        exact this.imp (fun h e => h (show (publicColl _).id = (publicColl _).id from congrArg CollectionInfo.id e))

/-- After any history the stored version is the number of databases created, versions 1 … n have exactly one diff
each, of the database created then, and no other version has one; the databases listed are those of the diffs, all of
it public, and the collections listed are theirs. -/
theorem C57_diffs (hdb : Fresh Sequence.metaPrefix db) (hb : Brief K es) (env : Env) :
    ∃ dbs : List DBInfo, dbs.length < 2 ^ 63 ∧
      asks J (Ddl.run J es { db := db }).2.db env .getSchemaVersion = .ok (Int64.ofNat dbs.length) ∧
      (∀ i d, dbs[i]? = some d → ∃ ids, ids.Perm (d.collections.ents.map (fun e => e.2.id)) ∧
        asks J (Ddl.run J es { db := db }).2.db env (.getSchemaDiff (Int64.ofNat (i + 1))) =
          .ok (some ⟨Int64.ofNat (i + 1), .createSchema, ids, .db d⟩)) ∧
      (∀ v : Int64, ¬ (0 < v ∧ v ≤ Int64.ofNat dbs.length) →
        asks J (Ddl.run J es { db := db }).2.db env (.getSchemaDiff v) = .ok none) ∧
      ∃ l, asks J (Ddl.run J es { db := db }).2.db env .listDatabases = .ok l ∧ l.Perm (dbs.map openDB) ∧
        ∀ p ∈ l, ∃ cs, asks J (Ddl.run J es { db := db }).2.db env (.listCollections p.id) = .ok cs ∧
          cs.Perm (p.collections.ents.map Prod.snd) := by
  obtain ⟨Q, h1, h2⟩ := run_serves J hdb hb
  exact diffs_kept h2 env

/-! ## C54: progress -/

/-- The same call once a worker was started. -/
def started (w : World) : World := { w with up := true }

/-- A call before a successful Init: where it would be accepted, the request is queued all the same, and the caller gets a
panic; any other answer is the same. -/
theorem C55_before_init (w : World) (hup : w.up = false) (e : Ev) (r : Res Job) (h : ((started w).step J e).1 = .job r) :
    ((w.step J e).2.db = ((started w).step J e).2.db) ∧
    ((∃ j, r = .ok j) → (w.step J e).1 = .job .panic) ∧ ((∀ j, r ≠ .ok j) → (w.step J e).1 = .job r) := by
  have key : ∀ x : Res Job, notifyWorker (started w).up x = r →
      ((∃ j, r = .ok j) → notifyWorker w.up x = .panic) ∧ ((∀ j, r ≠ .ok j) → notifyWorker w.up x = r) := by
    intro x hx
    rw [hup]
    cases x with
    | ok j =>
      have hx : Res.ok j = r := hx
      exact ⟨fun _ => rfl, fun h => absurd hx.symm (h j)⟩
    | err e => exact ⟨fun ⟨j, h⟩ => by (rw [h] at hx; cases hx), fun _ => hx⟩
    | panic => exact ⟨fun ⟨j, h⟩ => by (rw [h] at hx; cases hx), fun _ => hx⟩
  cases e with
  | createSchema o i c =>
    simp only [World.step, Answer.job.injEq] at h ⊢
    exact ⟨rfl, key _ h⟩
  | addIndex i c =>
    simp only [World.step, Answer.job.injEq] at h ⊢
    exact ⟨rfl, key _ h⟩
  | getJob id c => simp [World.step] at h
  | work o₁ o₂ o₃ c env =>
    simp only [World.step] at h
    split at h
    · cases h
    · split at h <;> cases h
  | draw x c =>
    simp only [World.step] at h
    split at h <;> cases h
  | crash => simp [World.step] at h
  | init o env fail =>
    simp only [World.step] at h
    split at h
    · split at h <;> cases h
    · cases h
    · cases h

/-- If no call panicked and the requests accepted so far are for databases with different names, then once the worker has had two turns
for each, every one of them has its database, its job is Synced, and the caller waiting for it returns without an
error — whatever crashes, refusals and restarts happened before. -/
theorem C54_progress (hdb : Fresh Sequence.metaPrefix db) {ws : List Ev} {id : Int64} {c : Ddl.Circ}
    (hb : Brief K (es ++ (ws ++ [.getJob id c])))
    (hcalm : ∀ a ∈ (Ddl.run J es { db := db }).1, a ≠ .job .panic)
    (hacc : ∀ j ∈ accepted (Ddl.run J es { db := db }).1, (dbOf j).isSome)
    (hnames : ((accepted (Ddl.run J es { db := db }).1).filterMap (fun j => (dbOf j).map (·.name))).Nodup)
    (hup : (Ddl.run J es { db := db }).2.up = true)
    (hturns : Turns ws) (hlen : 2 * (accepted (Ddl.run J es { db := db }).1).length ≤ ws.length)
    (hj : ∃ j ∈ accepted (Ddl.run J es { db := db }).1, j.id = id) (hc : c.fail = none) :
    ∃ r, ((Ddl.run J (es ++ ws) { db := db }).2.step J (.getJob id c)).1 = .found r ∧ checkOnce r = some (.ok ()) := by
  obtain ⟨P, R, h1, h2, h3, -⟩ := run_serves_two J hdb hb
  obtain ⟨k1, k2, k3, k4⟩ := clean_steps h1 ⟨fun r hr => absurd hr List.not_mem_nil, List.nodup_nil⟩ hcalm hacc hnames
  rw [run_append] at h3
  obtain ⟨e₁, e₂, Q, e, h5, h6⟩ := h3.split
  have hl : e₁.length = ws.length := by rw [← h5.length, run_length]
  obtain ⟨rfl, rfl⟩ := List.append_inj e hl.symm
  obtain ⟨g1, g2, g3⟩ := turns_run h5 (by rw [← h2.up]; exact hup) hturns k1
  have hz : Q.state.queue = [] := by
    apply turns_zero
    have := turns_le P.state.queue
    have k2 : P.state.queue.length ≤ 0 + (accepted (Ddl.run J es { db := db }).1).length := k2
    omega
  obtain ⟨j, hj, rfl⟩ := hj
  cases hd : dbOf j with
  | none => have := hacc j hj; rw [hd] at this; cases this
  | some d =>
    rcases g3 _ _ (k4 j hj d hd) with ⟨s, h⟩ | h
    · rw [hz] at h; exact absurd h List.not_mem_nil
    cases h6 with
    | cons s1 s2 h7 h8 =>
      rw [run_append]
      generalize World.step J (Ddl.run J ws (Ddl.run J es { db := db }).2).2 (Ev.getJob j.id c) = x at h7 ⊢
      generalize x.1 = a at h7 ⊢
      cases h7 with
      | getJobRefused he => rw [hc] at he; cases he
      | getJob =>
        refine ⟨_, rfl, ?_⟩
        unfold DState.finishedJob
        cases hf : Q.state.finished.find? (fun f => decide (f.1 = j.id)) with
        | none =>
          have := List.find?_eq_none.mp hf _ h
          simp at this
        | some f => rfl

/-- What is said to the caller waiting for a job that is not in the history: nothing yet. -/
theorem waits_none : checkOnce (.ok none) = none := rfl

/-- What an event accepted in the middle of a history is. -/
theorem middle (hdb : Fresh Sequence.metaPrefix db) {es₁ es₂ : List Ev} {e : Ev} (hb : Brief K (es₁ ++ e :: es₂)) :
    ∃ P Q R, SSteps {} es₁ (Ddl.run J es₁ { db := db }).1 P ∧ P.state.Sane ∧ Q.state.Sane ∧
      P.Step e ((Ddl.run J es₁ { db := db }).2.step J e).1 Q ∧
      SSteps Q es₂ (Ddl.run J es₂ (Ddl.run J (es₁ ++ [e]) { db := db }).2).1 R ∧ R.state.Sane := by
  obtain ⟨P, R, h1, h2, h3, h4⟩ := run_serves_two J hdb hb
  rw [Ddl.run] at h3
  cases h3 with
  | cons s1 s2 h5 h6 =>
    refine ⟨P, _, R, h1, s1, s2, h5, ?_, h4.sane⟩
    rw [run_append]
    exact h6

/-- The callers of blocked jobs wait. -/
theorem blocked_waits (hdb : Fresh Sequence.metaPrefix db) {es₁ es₂ : List Ev} {e : Ev} {id : Int64} {c : Ddl.Circ}
    (hb : Brief K (es₁ ++ e :: (es₂ ++ [.getJob id c])))
    (hbl : ∀ P Q, SSteps {} es₁ (Ddl.run J es₁ { db := db }).1 P → P.state.Sane →
      P.Step e ((Ddl.run J es₁ { db := db }).2.step J e).1 Q →
      ∃ x, Blocked x Q.state ∧ (id = x ∨ ∃ j ∈ accepted (Ddl.run J es₂ (Ddl.run J (es₁ ++ [e]) { db := db }).2).1, j.id = id)) :
    ∃ r, ((Ddl.run J (es₁ ++ e :: es₂) { db := db }).2.step J (.getJob id c)).1 = .found r ∧ checkOnce r = none := by
  obtain ⟨P, Q, R, h1, s1, s2, h2, h3, s3⟩ := middle hdb hb
  obtain ⟨x, h4, h5⟩ := hbl P Q h1 s1 h2
  rw [run_append] at h3
  obtain ⟨e₁, e₂, S, he, h6, h7⟩ := h3.split
  have hl : e₁.length = es₂.length := by rw [← h6.length, run_length]
  obtain ⟨rfl, rfl⟩ := List.append_inj he hl.symm
  obtain ⟨g1, g2⟩ := blocked_steps h6 h4
  have g3 : Blocked id S.state := by
    rcases h5 with rfl | ⟨j, hj, rfl⟩
    · exact g1
    · exact g2 j hj
  cases h7 with
  | cons s4 s5 h8 h9 =>
    have hw : (Ddl.run J es₂ (Ddl.run J (es₁ ++ [e]) { db := db }).2).2 = (Ddl.run J (es₁ ++ e :: es₂) { db := db }).2 := by
      rw [run_append, run_append]; rfl
    rw [hw] at h8
    generalize World.step J (Ddl.run J (es₁ ++ e :: es₂) { db := db }).2 (Ev.getJob id c) = y at h8 ⊢
    generalize y.1 = a at h8 ⊢
    cases h8 with
    | getJob => exact ⟨_, rfl, by rw [blocked_unfinished s4 g3]; rfl⟩
    | getJobRefused hf => exact ⟨_, rfl, rfl⟩

/-- A request for a database that an earlier accepted request already asked for is never carried out, and no request
accepted after it ever is: whatever happens then — more turns of the worker, crashes, restarts — their callers wait
for ever. -/
theorem C54_same_name_never (hdb : Fresh Sequence.metaPrefix db) {es₁ es₂ : List Ev} {e : Ev} {j j' : Job} {d d' : DBInfo}
    {id : Int64} {c : Ddl.Circ} (hb : Brief K (es₁ ++ e :: (es₂ ++ [.getJob id c])))
    (h1 : j ∈ accepted (Ddl.run J es₁ { db := db }).1) (hd : dbOf j = some d)
    (h2 : ((Ddl.run J es₁ { db := db }).2.step J e).1 = .job (.ok j')) (hd' : dbOf j' = some d') (hn : d'.name = d.name)
    (hid : id = j'.id ∨ ∃ x ∈ accepted (Ddl.run J es₂ (Ddl.run J (es₁ ++ [e]) { db := db }).2).1, x.id = id) :
    ∃ r, ((Ddl.run J (es₁ ++ e :: es₂) { db := db }).2.step J (.getJob id c)).1 = .found r ∧ checkOnce r = none := by
  refine blocked_waits hdb hb (fun P Q s hs hst => ⟨j'.id, ?_, hid⟩)
  have hu := accepted_underway s j h1 d hd
  rw [h2] at hst
  rcases step_cases hs hst with ⟨e1, -⟩ | ⟨j₁, r, e1, hq, hdbs, -, hr, hcase⟩
  · cases e1
  · replace e1 := e1.resolve_right (fun x => nomatch x.2)
    have : j' = j₁ := by
      have : [j'] = [j₁] := e1
      exact List.head_eq_of_cons_eq this
    subst this
    rcases hcase with ⟨o, i, c', -, hcr, rfl⟩ | ⟨i, c', -, hcr, -⟩
    · have e2 : d' = requested P.state.lastID i := by
        unfold dbOf at hd'
        rw [creates_arg hcr] at hd'
        exact (Option.some.inj hd').symm
      refine ⟨P.state.queue, _, [], hq, .inr ⟨rfl, ?_⟩, _, List.mem_cons_self, rfl⟩
      rw [← e2, hn]
      rcases hu with hu | hu
      · exact .inl (by unfold DState.Has; rw [hdbs]; exact hu)
      · exact .inr ⟨_, _, hu, rfl⟩
    · unfold dbOf at hd'
      rw [adds_arg hcr] at hd'
      cases hd'

/-- An accepted AddIndex is never carried out, and no request accepted after it ever is. -/
theorem C54_index_never (hdb : Fresh Sequence.metaPrefix db) {es₁ es₂ : List Ev} {i : AddIndexInput} {c₁ : Ddl.Circ} {j : Job}
    {id : Int64} {c : Ddl.Circ} (hb : Brief K (es₁ ++ .addIndex i c₁ :: (es₂ ++ [.getJob id c])))
    (h : ((Ddl.run J es₁ { db := db }).2.step J (.addIndex i c₁)).1 = .job (.ok j))
    (hid : id = j.id ∨ ∃ x ∈ accepted (Ddl.run J es₂ (Ddl.run J (es₁ ++ [.addIndex i c₁]) { db := db }).2).1, x.id = id) :
    ∃ r, ((Ddl.run J (es₁ ++ .addIndex i c₁ :: es₂) { db := db }).2.step J (.getJob id c)).1 = .found r ∧ checkOnce r = none := by
  refine blocked_waits hdb hb (fun P Q s hs hst => ⟨j.id, ?_, hid⟩)
  rw [h] at hst
  rcases step_cases hs hst with ⟨e1, -⟩ | ⟨j₁, r, e1, hq, hdbs, -, hr, hcase⟩
  · cases e1
  · replace e1 := e1.resolve_right (fun x => nomatch x.2)
    have : j = j₁ := by
      have : [j] = [j₁] := e1
      exact List.head_eq_of_cons_eq this
    subst this
    rcases hcase with ⟨o, i, c', he, -, -⟩ | ⟨i, c', -, hcr, rfl⟩
    · cases he
    · exact ⟨P.state.queue, _, [], hq, trivial, _, List.mem_cons_self, rfl⟩

/-! ## C66: Init and the sequences of the collections -/

/-- In any history, one more event: what the specification says about it. -/
theorem one_more (hdb : Fresh Sequence.metaPrefix db) {e : Ev} (hb : Brief K (es ++ [e])) :
    ∃ P Q, Serves J K (2 ^ 62) P (Ddl.run J es { db := db }).2 ∧
      P.Step e ((Ddl.run J es { db := db }).2.step J e).1 Q ∧ Serves J K (2 ^ 62) Q ((Ddl.run J es { db := db }).2.step J e).2 := by
  obtain ⟨P, Q, h1, h2, h3, h4⟩ := run_serves_two J hdb hb
  rw [run_append] at h4
  rw [Ddl.run] at h3
  cases h3 with
  | cons s1 s2 h5 h6 =>
    cases h6 with
    | nil => exact ⟨P, _, h2, h5, h4⟩

/-- The collections listed in the database are the ones of the state. -/
theorem listed_coll {P : Proc} {w : World} (h : Serves J K (2 ^ 62) P w) {env : Env} {l : List DBInfo}
    (hl : asks J w.db env .listDatabases = .ok l) {d : DBInfo} (hd : d ∈ l) {x : Bytes × CollectionInfo} (hx : x ∈ d.collections.ents) :
    (d.id, x.2.id) ∈ P.state.collections := by
  obtain ⟨M, h3, h4, -⟩ := h.kept
  rw [asks_kept h4 env .listDatabases rfl trivial] at hl
  have hl : Res.ok (M.dbs.ents.map Prod.snd) = Res.ok l := hl
  cases hl
  obtain ⟨d', hd', rfl⟩ := (mem_listing h3 d).mp hd
  obtain ⟨y, hy, rfl⟩ : ∃ y ∈ d'.collections.ents, (y.1, publicColl y.2) = x := List.mem_map.mp hx
  exact mem_collections.mpr ⟨d', hd', y, hy, rfl⟩

/-- While the worker runs, every collection that exists has its sequence: drawing an id for it gives one, unless the
engine refuses. -/
theorem C66_ready (hdb : Fresh Sequence.metaPrefix db) {env : Env} {l : List DBInfo} {d : DBInfo} {x : Bytes × CollectionInfo}
    {c : Ddl.Circ} (hb : Brief K (es ++ [.draw x.2.id c])) (hup : (Ddl.run J es { db := db }).2.up = true)
    (hl : asks J (Ddl.run J es { db := db }).2.db env .listDatabases = .ok l) (hd : d ∈ l) (hx : x ∈ d.collections.ents) :
    ∃ r, ((Ddl.run J es { db := db }).2.step J (.draw x.2.id c)).1 = .id r ∧
      ((∃ v, r = .ok v) ∨ ∃ e, c.fail = some e ∧ r = .err e) := by
  obtain ⟨P, Q, h1, h2, -⟩ := one_more hdb hb
  have hhas := h1.all (by rw [← h1.up]; exact hup) _ (listed_coll h1 hl hd hx)
  have hhas : P.has x.2.id = true := hhas
  generalize ((Ddl.run J es { db := db }).2.step J (.draw x.2.id c)).1 = a at h2 ⊢
  cases h2 with
  | draw _ _ => exact ⟨_, rfl, .inl ⟨_, rfl⟩⟩
  | drawRefused _ hf => exact ⟨_, rfl, .inr ⟨_, hf, rfl⟩⟩
  | drawNot hn => rw [hhas] at hn; cases hn

/-- The worker, once started, is never stuck: each of its turns runs. -/
theorem C66_never_stuck (hdb : Fresh Sequence.metaPrefix db) {o₁ o₂ o₃ : Order} {c : Ddl.Circ} {env : Env}
    (hb : Brief K (es ++ [.work o₁ o₂ o₃ c env])) (hup : (Ddl.run J es { db := db }).2.up = true) :
    ∃ r, ((Ddl.run J es { db := db }).2.step J (.work o₁ o₂ o₃ c env)).1 = .worked r := by
  obtain ⟨P, Q, h1, h2, -⟩ := one_more hdb hb
  have hr : P.running = true := by rw [← h1.up]; exact hup
  generalize ((Ddl.run J es { db := db }).2.step J (.work o₁ o₂ o₃ c env)).1 = a at h2 ⊢
  cases h2 with
  | work _ _ _ => exact ⟨_, rfl⟩
  | workRefused _ _ => exact ⟨_, rfl⟩
  | workNot hn => rw [hr] at hn; cases hn

/-- A process started on the database, whatever happened to it before, comes up if the engine refuses no commit. -/
theorem C66_restart (hdb : Fresh Sequence.metaPrefix db) {o : DBInfo → Order} {env : Env} {fail : Int64 → Option Err}
    (hb : Brief K ((es ++ [.crash]) ++ [.init o env fail])) (hf : ∀ x, fail x = none) :
    ((Ddl.run J (es ++ [.crash]) { db := db }).2.step J (.init o env fail)).1 = .inited (.ok ()) ∧
    ((Ddl.run J (es ++ [.crash]) { db := db }).2.step J (.init o env fail)).2.up = true := by
  obtain ⟨P, Q, h1, h2, h3⟩ := one_more hdb hb
  have hno : ∀ x, P.has x = false := by
    intro x
    rw [← h1.has x, run_append]
    rfl
  rw [h3.up]
  generalize ((Ddl.run J (es ++ [.crash]) { db := db }).2.step J (.init o env fail)).1 = a at h2 ⊢
  cases h2 with
  | init _ _ => exact ⟨rfl, rfl⟩
  | initAgain he _ _ => obtain ⟨p, -, h⟩ := he; rw [hno] at h; cases h
  | initRefused he _ _ => obtain ⟨p, -, h⟩ := he; rw [hf] at h; cases h

/-- Once the process can draw ids for a collection that exists — because Init or a turn of the worker made its sequence,
even if that Init failed later on — Init fails, every time, until the process is restarted. -/
theorem C66_init_again (hdb : Fresh Sequence.metaPrefix db) {o : DBInfo → Order} {env : Env} {fail : Int64 → Option Err}
    {x : Int64} {c : Ddl.Circ} {v : Int64} {es₁ es₂ : List Ev} (hb : Brief K ((es₁ ++ (.draw x c :: es₂)) ++ [.init o env fail]))
    (h : ((Ddl.run J es₁ { db := db }).2.step J (.draw x c)).1 = .id (.ok v)) (hc : ∀ e ∈ es₂, e ≠ .crash) :
    ∃ e, ((Ddl.run J (es₁ ++ .draw x c :: es₂) { db := db }).2.step J (.init o env fail)).1 = .inited (.err e) ∧
      (e = errSequenceAlreadyExists ∨ ∃ y, fail y = some e) := by
  have hb' : Brief K (es₁ ++ (.draw x c :: (es₂ ++ [.init o env fail]))) := by
    rw [List.append_assoc] at hb; exact hb
  obtain ⟨P, R, h1, h2, h3, h4⟩ := run_serves_two J hdb hb'
  rw [Ddl.run] at h3
  cases h3 with
  | @cons _ _ _ Q _ _ _ s1 s2 h5 h6 =>
    have hQ : (∃ p ∈ Q.state.collections, p.2 = x) ∧ Q.has x = true := by
      rw [h] at h5
      cases h5 with
      | draw hh _ =>
        refine ⟨?_, hh⟩
        cases hs : (Ddl.run J es₁ { db := db }).2.seqs x with
        | none => have := h2.has x; rw [hs, hh] at this; cases this
        | some s =>
          obtain ⟨d, hd, -⟩ := h2.seqs x s hs
          exact ⟨_, hd, rfl⟩
    rw [run_append] at h6
    obtain ⟨e₁, e₂, S, he, h7, h8⟩ := h6.split
    have hl : e₁.length = es₂.length := by rw [← h7.length, run_length]
    obtain ⟨rfl, rfl⟩ := List.append_inj he hl.symm
    obtain ⟨⟨p, hp, hpx⟩, hS⟩ := has_steps h7 hc hQ.1 hQ.2
    have hrun : (Ddl.run J (es₁ ++ .draw x c :: es₂) { db := db }).2 =
        (Ddl.run J es₂ ((Ddl.run J es₁ { db := db }).2.step J (.draw x c)).2).2 := by rw [run_append]; rfl
    rw [hrun]
    cases h8 with
    | cons s3 s4 h9 h10 =>
      generalize (World.step J (Ddl.run J es₂ ((Ddl.run J es₁ { db := db }).2.step J (.draw x c)).2).2 (.init o env fail)).1 = a at h9 ⊢
      cases h9 with
      | init hn _ => have := hn p hp; rw [hpx, hS] at this; cases this
      | initAgain _ _ _ => exact ⟨_, rfl, .inl rfl⟩
      | initRefused he _ _ => obtain ⟨q, -, hq⟩ := he; exact ⟨_, rfl, .inr ⟨_, hq⟩⟩

/-! ## C67: document ids -/

/-- The document ids handed out for a collection grow, from 1 on, over crashes and restarts of the process: none is
ever handed out twice. -/
theorem C67_increasing (hdb : Fresh Sequence.metaPrefix db) (hb : Brief K es) (x : Int64) :
    (drawn x es (Ddl.run J es { db := db }).1).Pairwise (· < ·) ∧ ∀ v ∈ drawn x es (Ddl.run J es { db := db }).1, 0 < v := by
  obtain ⟨Q, h1, h2⟩ := run_serves J hdb hb
  obtain ⟨g1, g2⟩ := drawn_sorted h1 x
  exact ⟨g1, fun v hv => by rw [Int64.lt_iff_toInt_lt]; exact g2 v hv⟩

end
end Mondis.Props
