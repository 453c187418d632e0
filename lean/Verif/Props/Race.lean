import Verif.Lemmas.RaceFacts
import Verif.Props.DdlExamples
/-!
# C85: DDL calls made at the same time as one another and as the worker

`Spec/Race.lean` says what a call that was under way for the last `n` events does.  Here: every history of the model is a
history of that specification, and what follows for users.
-/
namespace Mondis.Props
open Mondis Spec Schema Meta Structure Ddl

section
variable {J : Json} {K : Nat} {db : DB} {es : List Race.Ev}

/-- A process on this store, before anything happened. -/
def atFirst (db : DB) : Race.Hub := { w := { db := db } }

/-- Every history — of calls that overlap with one another and with the worker, refused transactions, crashes, restarts — is one
the specification allows, and what is stored in the end is what the specification says. -/
theorem C85_history (hdb : Fresh Sequence.metaPrefix db) (hb : Span.Brief K es) :
    ∃ S M, Span.Steps {} es (Race.run J es (atFirst db)).1 S ∧ S.proc.state.Holds M ∧
      ∀ (env : Env) {β : Type} (c : MetaCall β), c.writes = false →
        asks J (Race.run J es (atFirst db)).2.w.db env c = (c.sem M).1 := by
  obtain ⟨S, h1, h2⟩ := Race.run_hub J hdb hb
  obtain ⟨M, h3, h4, -⟩ := h2.now.kept
  exact ⟨S, M, h1.steps, h3, fun env β c hw => asks_kept h4 env c hw (text_of_reads hw)⟩

/-- The stored version is the number of databases created, versions 1 … n have exactly one diff each, of the database
created then, and no other version has one; the databases listed are those of the diffs, no two of the same name, and the
collections listed are theirs. -/
theorem C85_diffs (hdb : Fresh Sequence.metaPrefix db) (hb : Span.Brief K es) (env : Env) :
    ∃ dbs : List DBInfo, dbs.length < 2 ^ 63 ∧
      asks J (Race.run J es (atFirst db)).2.w.db env .getSchemaVersion = .ok (Int64.ofNat dbs.length) ∧
      (∀ i d, dbs[i]? = some d → ∃ ids, ids.Perm (d.collections.ents.map (fun e => e.2.id)) ∧
        asks J (Race.run J es (atFirst db)).2.w.db env (.getSchemaDiff (Int64.ofNat (i + 1))) =
          .ok (some ⟨Int64.ofNat (i + 1), .createSchema, ids, .db d⟩)) ∧
      (∀ v : Int64, ¬ (0 < v ∧ v ≤ Int64.ofNat dbs.length) →
        asks J (Race.run J es (atFirst db)).2.w.db env (.getSchemaDiff v) = .ok none) ∧
      ∃ l, asks J (Race.run J es (atFirst db)).2.w.db env .listDatabases = .ok l ∧ l.Perm (dbs.map openDB) ∧
        (l.map (·.name)).Nodup ∧
        ∀ p ∈ l, ∃ cs, asks J (Race.run J es (atFirst db)).2.w.db env (.listCollections p.id) = .ok cs ∧
          cs.Perm (p.collections.ents.map Prod.snd) := by
  obtain ⟨S, h1, h2⟩ := Race.run_hub J hdb hb
  have hd := diffs_kept h2.now env
  obtain ⟨M, h3, h4, -⟩ := h2.now.kept
  obtain ⟨dbs, g1, g2, g3, g4, l, g5, g6, g7⟩ := hd
  refine ⟨dbs, g1, g2, g3, g4, l, g5, g6, ?_, g7⟩
  have e : Res.ok l = .ok (M.dbs.ents.map Prod.snd) := by
    rw [← g5]
    exact asks_kept h4 env .listDatabases rfl trivial
  have e := Res.ok.inj e
  have hnames : (S.proc.state.dbs.map (·.name)).Nodup := h2.now.sane.names
  rw [e, List.Nodup, List.pairwise_map, List.pairwise_map]
  refine List.Pairwise.imp_of_mem ?_ M.dbs.sorted
  intro a b ha hb' hlt hx
  obtain ⟨d, hd, k1, k2⟩ := (h3.dbs a.1 a.2).mp (OMap.mem_get ha)
  obtain ⟨d', hd', k3, k4⟩ := (h3.dbs b.1 b.2).mp (OMap.mem_get hb')
  rw [k2, k4] at hx
  have : d = d' := by
    have hx : d.name = d'.name := hx
    rw [List.Nodup, List.pairwise_map] at hnames
    obtain ⟨x, hx1, hx2⟩ := List.getElem_of_mem hd
    obtain ⟨y, hy1, hy2⟩ := List.getElem_of_mem hd'
    rcases Nat.lt_trichotomy x y with hlt | hlt | hlt
    · exact absurd (by rw [hx2, hy2]; exact hx) (List.pairwise_iff_getElem.mp hnames x y hx1 hy1 hlt)
    · subst hlt; rw [← hx2, ← hy2]
    · exact absurd (by rw [hx2, hy2]; exact hx.symm) (List.pairwise_iff_getElem.mp hnames y x hy1 hx1 hlt)
  subst this
  rw [k1, k3] at hlt
  exact List.lt_irrefl _ hlt

/-- All ids in all jobs handed out are different and positive. -/
theorem C85_ids_distinct (hdb : Fresh Sequence.metaPrefix db) (hb : Span.Brief K es) :
    ((accepted (Race.run J es (atFirst db)).1).flatMap idsIn).Nodup ∧
    ∀ x ∈ (accepted (Race.run J es (atFirst db)).1).flatMap idsIn, 0 < x := by
  obtain ⟨S, h1, -⟩ := Race.run_hub J hdb hb
  obtain ⟨g1, g2, -⟩ := Race.race_ids h1
  refine ⟨g1, fun x hx => ?_⟩
  have := (g2 x hx).1
  rw [Int64.lt_iff_toInt_lt]
  exact this

/-- The document ids drawn from a collection increase, over crashes and restarts too. -/
theorem C85_drawn (hdb : Fresh Sequence.metaPrefix db) (hb : Span.Brief K es) (x : Int64) :
    (Spec.drawn x (es.map (·.ev)) (Race.run J es (atFirst db)).1).Pairwise (· < ·) ∧
    ∀ v ∈ Spec.drawn x (es.map (·.ev)) (Race.run J es (atFirst db)).1, 0 < v := by
  obtain ⟨S, h1, -⟩ := Race.run_hub J hdb hb
  obtain ⟨g1, g2⟩ := Race.race_drawn h1 x
  refine ⟨g1, fun v hv => ?_⟩
  have := g2 v hv
  rw [Int64.lt_iff_toInt_lt]
  exact this

/-- What an event at the end of a history is. -/
theorem race_last (hdb : Fresh Sequence.metaPrefix db) {es mid : List Race.Ev} {e : Race.Ev} (hb : Span.Brief K (es ++ (mid ++ [e]))) :
    ∃ S T Q, Race.RSteps {} es (Race.run J es (atFirst db)).1 S ∧ Race.HubOK J K (2 ^ 62) S (Race.run J es (atFirst db)).2 ∧
      Race.RSteps S mid (Race.run J mid (Race.run J es (atFirst db)).2).1 T ∧ T.proc.state.Sane ∧ Q.state.Sane ∧
      T.Does e ((Race.run J (es ++ mid) (atFirst db)).2.step J e).1 Q := by
  obtain ⟨S, R, h1, h2, h3, -⟩ := Race.run_hub_two J hdb hb
  rw [Race.run_append] at h3
  obtain ⟨e₁, e₂, T, he, h4, h5⟩ := h3.split
  have hl : e₁.length = mid.length := by rw [← h4.length, Race.run_length]
  obtain ⟨rfl, rfl⟩ := List.append_inj he hl.symm
  cases h5 with
  | @cons _ _ _ Q _ _ _ s1 s2 h6 h7 =>
    refine ⟨S, T, Q, h1, h2, h4, s1, s2, ?_⟩
    rw [Race.run_append]
    exact h6

/-- Of calls that overlap only one is accepted: if a call is accepted, then no request was since it started. -/
theorem C85_overlap (hdb : Fresh Sequence.metaPrefix db) {es mid : List Race.Ev} {e : Race.Ev} {j : Job}
    (hb : Span.Brief K (es ++ (mid ++ [e]))) (hlen : e.back = mid.length) (hc : ∀ x ∈ mid, x.ev ≠ .crash)
    (h : ((Race.run J (es ++ mid) (atFirst db)).2.step J e).1 = .job (.ok j)) :
    accepted (Race.run J mid (Race.run J es (atFirst db)).2).1 = [] := by
  obtain ⟨S, T, Q, h1, -, h3, s1, s2, h4⟩ := race_last hdb hb
  rw [h] at h4
  rcases Race.does_cases s1 s2 h4 with ⟨e1, -⟩ | ⟨j', r, -, -, -, -, -, -, -, hl, -⟩
  · cases e1
  · rw [hlen, Race.seen_start h3 hc] at hl
    exact Race.ids_still h3 hl

/-- An accepted CreateSchema is for a name that no database had when the call started. -/
theorem C85_free (hdb : Fresh Sequence.metaPrefix db) {es mid : List Race.Ev} {o : Order} {i : CreateSchemaInput} {c : Ddl.Circ} {j : Job}
    (hb : Span.Brief K (es ++ (mid ++ [⟨.createSchema o i c, mid.length⟩]))) (hc : ∀ x ∈ mid, x.ev ≠ .crash)
    (h : ((Race.run J (es ++ mid) (atFirst db)).2.step J ⟨.createSchema o i c, mid.length⟩).1 = .job (.ok j)) (env : Env) :
    ∃ l d, asks J (Race.run J es (atFirst db)).2.w.db env .listDatabases = .ok l ∧ dbOf j = some d ∧ d.name = i.db ∧
      ∀ p ∈ l, p.name ≠ i.db := by
  obtain ⟨S, T, Q, h1, h2, h3, s1, s2, h4⟩ := race_last hdb hb
  obtain ⟨M, h5, h6, -⟩ := h2.now.kept
  have key : ∃ A' j', (T.seen mid.length).Creates i (.ok j') A' ∧ Answer.job (T.proc.heard (.ok j')) = Answer.job (.ok j) := by
    generalize ((Race.run J (es ++ mid) (atFirst db)).2.step J ⟨.createSchema o i c, mid.length⟩).1 = a at h4 h
    cases h4 with
    | create h' hr => injection h with h; exact absurd h (hr j)
    | created h' hl hq => exact ⟨_, _, h', h⟩
    | createRefused => injection h with h; cases h
  obtain ⟨A', j', h7, h8⟩ := key
  have h8 : j' = j := by
    injection h8 with h8
    have h8 : (if T.proc.running then Res.ok j' else .panic) = .ok j := h8
    split at h8
    · injection h8
    · cases h8
  subst h8
  rw [Race.seen_start h3 hc] at h7
  cases h7 with
  | ok _ a1 a2 a3 a4 a5 a6 a7 a8 =>
    refine ⟨_, _, asks_kept h6 env .listDatabases rfl trivial, by unfold dbOf; rw [a7], rfl, ?_⟩
    intro p hp e
    obtain ⟨d, hd, rfl⟩ := (mem_listing h5 p).mp hp
    exact a3 ⟨d, hd, e⟩

/-- A request for a database that an earlier accepted request already asked for is never carried out, however the calls
overlap, and no request accepted after it ever is: whatever happens then, their callers wait for ever. -/
theorem C85_same_name_never (hdb : Fresh Sequence.metaPrefix db) {es₁ es₂ : List Race.Ev} {e : Race.Ev} {j j' : Job} {d d' : DBInfo}
    {id : Int64} {c : Ddl.Circ} (hb : Span.Brief K (es₁ ++ (e :: (es₂ ++ [⟨.getJob id c, 0⟩]))))
    (h1 : j ∈ accepted (Race.run J es₁ (atFirst db)).1) (hd : dbOf j = some d)
    (h2 : ((Race.run J es₁ (atFirst db)).2.step J e).1 = .job (.ok j')) (hd' : dbOf j' = some d') (hn : d'.name = d.name)
    (hid : id = j'.id ∨ ∃ x ∈ accepted (Race.run J es₂ (Race.run J (es₁ ++ [e]) (atFirst db)).2).1, x.id = id) :
    ∃ r, ((Race.run J (es₁ ++ e :: es₂) (atFirst db)).2.step J ⟨.getJob id c, 0⟩).1 = .found r ∧ checkOnce r = none := by
  obtain ⟨S, R, g1, g2, g3, -⟩ := Race.run_hub_two J hdb hb
  have g3' : Race.RSteps S (e :: (es₂ ++ [⟨.getJob id c, 0⟩])) (((Race.run J es₁ (atFirst db)).2.step J e).1 ::
      (Race.run J (es₂ ++ [⟨.getJob id c, 0⟩]) ((Race.run J es₁ (atFirst db)).2.step J e).2).1) R := g3
  rw [h2, Race.run_append] at g3'
  cases g3' with
  | @cons _ _ _ Q _ _ _ s1 s2 h3 h4 =>
    obtain ⟨e₁, e₂, T, he, h5, h6⟩ := h4.split
    have hl : e₁.length = es₂.length := by rw [← h5.length, Race.run_length]
    obtain ⟨rfl, rfl⟩ := List.append_inj he hl.symm
    have hu := Race.race_underway g1 j h1 d hd
    have hbl : Blocked j'.id Q.state := by
      rcases Race.does_cases s1 s2 h3 with ⟨e1, -⟩ | ⟨j₁, r, e1, hq, hdbs, -, hr, -, -, -, hcase⟩
      · cases e1
      · replace e1 := e1.resolve_right (fun x => nomatch x.2)
        have : j' = j₁ := by
          have : [j'] = [j₁] := e1
          exact List.head_eq_of_cons_eq this
        subst this
        rw [hcase d' hd'] at hq
        refine ⟨S.proc.state.queue, _, [], hq, .inr ⟨rfl, ?_⟩, _, List.mem_cons_self, rfl⟩
        rw [hn]
        rcases hu with hu | hu
        · exact .inl (by unfold DState.Has; rw [hdbs]; exact hu)
        · exact .inr ⟨_, _, hu, rfl⟩
    have hproc := Race.then_proc S e Q
    obtain ⟨k1, k2⟩ := Race.race_blocked h5 (id := j'.id) (by rw [hproc]; exact hbl)
    have hrun : Race.run J (es₁ ++ e :: es₂) (atFirst db) = ((Race.run J es₁ (atFirst db)).1 ++ (((Race.run J es₁ (atFirst db)).2.step J e).1 ::
        (Race.run J es₂ ((Race.run J es₁ (atFirst db)).2.step J e).2).1), (Race.run J es₂ ((Race.run J es₁ (atFirst db)).2.step J e).2).2) := by
      rw [Race.run_append]; rfl
    have hone : (Race.run J (es₁ ++ [e]) (atFirst db)).2 = ((Race.run J es₁ (atFirst db)).2.step J e).2 := by
      rw [Race.run_append]; rfl
    have k3 : Blocked id T.proc.state := by
      rcases hid with rfl | ⟨x, hx, rfl⟩
      · exact k1
      · rw [hone] at hx
        exact k2 x hx
    rw [hrun]
    simp only
    generalize (Race.run J es₂ ((Race.run J es₁ (atFirst db)).2.step J e).2).2 = hub at h6 ⊢
    cases h6 with
    | cons s3 s4 h7 h8 =>
      change T.Does _ (hub.step J ⟨.getJob id c, 0⟩).1 _ at h7
      generalize (hub.step J ⟨.getJob id c, 0⟩).1 = a at h7 ⊢
      cases h7 with
      | getJob => exact ⟨_, rfl, by show checkOnce (.ok (T.proc.state.finishedJob id)) = _; rw [blocked_unfinished s3 k3]; rfl⟩

/-- If no call panicked and the requests accepted so far — however the calls overlapped — are for databases with different
names, then once the worker has had two undisturbed turns for each, every one of them is carried out and its caller
returns without an error. -/
theorem C85_progress (hdb : Fresh Sequence.metaPrefix db) {ws : List Ddl.Ev} {id : Int64} {c : Ddl.Circ}
    (hb : Span.Brief K (es ++ (ws.map (fun e => ⟨e, 0⟩) ++ [⟨.getJob id c, 0⟩])))
    (hcalm : ∀ a ∈ (Race.run J es (atFirst db)).1, a ≠ .job .panic)
    (hacc : ∀ j ∈ accepted (Race.run J es (atFirst db)).1, (dbOf j).isSome)
    (hnames : ((accepted (Race.run J es (atFirst db)).1).filterMap (fun j => (dbOf j).map (·.name))).Nodup)
    (hup : (Race.run J es (atFirst db)).2.w.up = true)
    (hturns : Turns ws) (hlen : 2 * (accepted (Race.run J es (atFirst db)).1).length ≤ ws.length)
    (hj : ∃ j ∈ accepted (Race.run J es (atFirst db)).1, j.id = id) :
    ∃ r, ((Race.run J (es ++ ws.map (fun e => ⟨e, 0⟩)) (atFirst db)).2.step J ⟨.getJob id c, 0⟩).1 = .found r ∧
      checkOnce r = some (.ok ()) := by
  obtain ⟨S, T, Q, h1, h2, h3, s1, s2, h4⟩ := race_last hdb hb
  obtain ⟨k1, k2, k3, k4⟩ := Race.race_clean h1 ⟨fun r hr => absurd hr List.not_mem_nil, List.nodup_nil⟩ hcalm hacc hnames
  have h5 := Race.turns_alone h3 rfl hturns
  obtain ⟨g1, g2, g3⟩ := turns_run h5 (by rw [← h2.now.up]; exact hup) hturns k1
  have hz : T.proc.state.queue = [] := by
    apply turns_zero
    have := turns_le S.proc.state.queue
    have k2 : S.proc.state.queue.length ≤ 0 + (accepted (Race.run J es (atFirst db)).1).length := k2
    omega
  obtain ⟨j, hj, rfl⟩ := hj
  cases hd : dbOf j with
  | none => have := hacc j hj; rw [hd] at this; cases this
  | some d =>
    rcases g3 _ _ (k4 j hj d hd) with ⟨s, h⟩ | h
    · rw [hz] at h; exact absurd h List.not_mem_nil
    generalize ((Race.run J (es ++ ws.map (fun e => ⟨e, 0⟩)) (atFirst db)).2.step J ⟨.getJob j.id c, 0⟩).1 = a at h4 ⊢
    cases h4 with
    | getJob =>
      refine ⟨_, rfl, ?_⟩
      show checkOnce (.ok (T.proc.state.finishedJob j.id)) = _
      unfold DState.finishedJob
      cases hf : T.proc.state.finished.find? (fun f => decide (f.1 = j.id)) with
      | none =>
        have := List.find?_eq_none.mp hf _ h
        simp at this
      | some f => rfl

theorem race_alone (J : Json) (h : Race.Hub) (e : Ddl.Ev) : h.does J ⟨e, 0⟩ = h.w.step J e := by
  have late : ∀ {α : Type} (env : Env) (fail : Option Err) (p : Client α) (x : DB),
      Race.lateTxn J env fail p x x = (⟨true, env, fail, p⟩ : MetaTxn α).run J x := by
    intro α env fail p x
    unfold Race.lateTxn Race.refusal
    rw [if_pos (fun _ _ => rfl)]
    rfl
  cases e with
  | createSchema o i c => simp only [Race.Hub.does, World.step, Race.Hub.snap, late]
  | addIndex i c => simp only [Race.Hub.does, World.step, Race.Hub.snap, late]
  | getJob id c => simp only [Race.Hub.does, World.step, Race.Hub.snap, late]
  | work o₁ o₂ o₃ c env => simp only [Race.Hub.does, World.step, Nat.zero_min, Race.Hub.snap, late]; rfl
  | draw x c => rfl
  | crash => rfl
  | init o env fail => rfl

/-- When no two transactions overlap, a history is one of Model/Ddl. -/
theorem C85_alone (es : List Ddl.Ev) (h : Race.Hub) :
    (Race.run J (es.map (fun e => ⟨e, 0⟩)) h).1 = (Ddl.run J es h.w).1 ∧ (Race.run J (es.map (fun e => ⟨e, 0⟩)) h).2.w = (Ddl.run J es h.w).2 := by
  have step := race_alone J
  have hthen : ∀ (h : Race.Hub) (e : Race.Ev) (w : World), (h.then e w).w = w := by
    intro h e w
    unfold Race.Hub.then
    split <;> rfl
  induction es generalizing h with
  | nil => exact ⟨rfl, rfl⟩
  | cons e es ih =>
    obtain ⟨h1, h2⟩ := ih (h.step J ⟨e, 0⟩).2
    have hw : (h.step J ⟨e, 0⟩).2.w = (h.w.step J e).2 := by
      unfold Race.Hub.step
      simp only [hthen, step]
    rw [hw] at h1 h2
    refine ⟨?_, h2⟩
    show (h.step J ⟨e, 0⟩).1 :: (Race.run J (es.map (fun e => ⟨e, 0⟩)) (h.step J ⟨e, 0⟩).2).1 = _
    rw [h1]
    show (h.does J ⟨e, 0⟩).1 :: _ = _
    rw [step]
    rfl

end

/-! ### Cases meeting the hypotheses -/

/-- At the moment. -/
def now (e : Ddl.Ev) : Race.Ev := ⟨e, 0⟩

/-- Database "a" is requested; while the worker creates it, it is requested again. -/
def twice : List Race.Ev := [now start, now createA]
def again : Race.Ev := ⟨createA, 1⟩

theorem twice_brief (es : List Race.Ev) (hl : es.length ≤ 20) (h : ∀ e ∈ es, e.ev = start ∨ e.ev = createA ∨ e.ev = createB ∨ e.ev = turn ∨
    e.ev = draw2 ∨ ∃ id, e.ev = .getJob id quiet) : Span.Brief 2 es := by
  refine ⟨?_, ?_⟩
  · intro e he
    obtain ⟨x, hx, rfl⟩ := List.mem_map.mp he
    rcases h x hx with e | e | e | e | e | ⟨id, e⟩
    · simp only [e]; exact fits_start
    · simp only [e]; exact fits_createA
    · simp only [e]; exact fits_createB
    · simp only [e]; exact fits_turn
    · simp only [e]; exact fits_draw
    · simp only [e]; exact fits_get id
  · rw [List.length_map]
    have : es.length * (4 * (es.length + 1) * (2 + 300)) ≤ 20 * (4 * (20 + 1) * (2 + 300)) :=
      Nat.mul_le_mul hl (Nat.mul_le_mul (Nat.mul_le_mul_left _ (by omega)) (Nat.le_refl _))
    omega

set_option maxRecDepth 100000

/-- The request made again is accepted, although by then the database exists: its check was made before the worker's turn, and
the commit does not notice databases that were added since. -/
theorem C85_taken_accepted :
    (match asks plainJson (Race.run plainJson (twice ++ [now turn]) (atFirst OMap.empty)).2.w.db plainEnv .listDatabases with
      | .ok l => l.map (·.name)
      | _ => []) = [nameA] ∧
    (accepted [((Race.run plainJson (twice ++ [now turn]) (atFirst OMap.empty)).2.step plainJson again).1]).map
      (fun j => (j.id, (dbOf j).map (·.name))) = [(8, some nameA)] := by decide +kernel

/-- The worker's turn writes no key that the request made again reads, so that badger, too, accepts it. -/
example : ∀ k ∈ (Util.body plainEnv true ((Ddl.createSchema asIs { db := nameA, collections := [nameX, nameY] }).code plainJson)
      (Race.run plainJson twice (atFirst OMap.empty)).2.w.db).2.reads,
    k ∉ (Util.body plainEnv true ((workTxn asIs asIs asIs (Race.run plainJson twice (atFirst OMap.empty)).2.w.vars).code plainJson)
      (Race.run plainJson twice (atFirst OMap.empty)).2.w.db).2.writes.map Prod.fst := by decide +kernel

/-- C85_overlap and C85_free at work. -/
example : ∃ j, ((Race.run plainJson (twice ++ [now turn]) (atFirst OMap.empty)).2.step plainJson again).1 = .job (.ok j) ∧
    accepted (Race.run plainJson [now turn] (Race.run plainJson twice (atFirst OMap.empty)).2).1 = [] ∧
    ∃ l d, asks plainJson (Race.run plainJson twice (atFirst OMap.empty)).2.w.db plainEnv .listDatabases = .ok l ∧
      dbOf j = some d ∧ d.name = nameA ∧ ∀ p ∈ l, p.name ≠ nameA := by
  have h := C85_taken_accepted.2
  cases ha : ((Race.run plainJson (twice ++ [now turn]) (atFirst OMap.empty)).2.step plainJson again).1 with
  | job r =>
    cases r with
    | ok j =>
      have hb : Span.Brief 2 (twice ++ ([now turn] ++ [again])) := twice_brief _ (by decide) (by
        intro e he
        simp only [twice, again, List.cons_append, List.nil_append, List.mem_cons, List.not_mem_nil, or_false] at he
        rcases he with rfl | rfl | rfl | rfl <;> simp [now])
      refine ⟨j, rfl, C85_overlap freshDB hb rfl ?_ ha, C85_free freshDB hb ?_ ha plainEnv⟩
      all_goals
        intro x hx
        rw [List.mem_singleton] at hx
        rw [hx]
        intro hx; cases hx
    | err e => rw [ha] at h; cases h
    | panic => rw [ha] at h; cases h
  | _ => rw [ha] at h; cases h

/-- C85_same_name_never at work: the second request is never carried out. -/
example : ∃ r, ((Race.run plainJson ((twice ++ [now turn]) ++ again :: [now turn, now turn, now turn]) (atFirst OMap.empty)).2.step plainJson
    ⟨.getJob 8 quiet, 0⟩).1 = .found r ∧ checkOnce r = none := by
  have h := C85_taken_accepted.2
  have h0 : (accepted (Race.run plainJson (twice ++ [now turn]) (atFirst OMap.empty)).1).map (fun j => (dbOf j).map (·.name)) = [some nameA] := by
    decide +kernel
  cases ha : ((Race.run plainJson (twice ++ [now turn]) (atFirst OMap.empty)).2.step plainJson again).1 with
  | job r =>
    cases r with
    | ok j =>
      rw [ha] at h
      have h : [(j.id, (dbOf j).map (·.name))] = [((8 : Int64), some nameA)] := h
      obtain ⟨h1, h2⟩ := Prod.mk.inj (List.head_eq_of_cons_eq h)
      cases hd' : dbOf j with
      | none => rw [hd'] at h2; cases h2
      | some d' =>
        rw [hd'] at h2
        cases hacc : accepted (Race.run plainJson (twice ++ [now turn]) (atFirst OMap.empty)).1 with
        | nil => rw [hacc] at h0; cases h0
        | cons j₀ l =>
          rw [hacc] at h0
          have h0 : (dbOf j₀).map (·.name) = some nameA := List.head_eq_of_cons_eq h0
          cases hd : dbOf j₀ with
          | none => rw [hd] at h0; cases h0
          | some d =>
            rw [hd] at h0
            refine C85_same_name_never (K := 2) freshDB (twice_brief _ (by decide) ?_) (by rw [hacc]; exact List.mem_cons_self) hd ha hd'
              ((Option.some.inj h2).trans (Option.some.inj h0).symm) (.inl h1.symm)
            intro e he
            simp only [twice, again, List.cons_append, List.nil_append, List.mem_cons, List.not_mem_nil, or_false] at he
            rcases he with rfl | rfl | rfl | rfl | rfl | rfl | rfl | rfl <;> simp [now]
    | err e => rw [ha] at h; cases h
    | panic => rw [ha] at h; cases h
  | _ => rw [ha] at h; cases h

/-- Two requests at the same time: the second is refused; made again, it is accepted, although the worker is at work. -/
def busy : List Race.Ev := [now start, now createA, ⟨createB, 1⟩, now turn, ⟨createB, 1⟩, ⟨turn, 1⟩]

theorem busy_answers : (Race.run plainJson busy (atFirst OMap.empty)).1.map (fun
    | .job (.ok j) => some (some j.id)
    | .job (.err .conflict) => some none
    | _ => none) = [none, some (some 4), some none, none, some (some 7), none] := by decide +kernel

/-- C85_progress at work. -/
example : ∃ r, ((Race.run plainJson (busy ++ [turn, turn, turn, turn].map (fun e => ⟨e, 0⟩)) (atFirst OMap.empty)).2.step plainJson
    ⟨.getJob 7 quiet, 0⟩).1 = .found r ∧ checkOnce r = some (.ok ()) := by
  refine C85_progress (K := 2) freshDB (twice_brief _ (by decide) ?_) ?_ ?_ (by decide +kernel) (by decide +kernel) ?_ (by decide +kernel) ?_
  · intro e he
    simp only [busy, List.map_cons, List.map_nil, List.cons_append, List.nil_append, List.mem_cons, List.not_mem_nil, or_false] at he
    rcases he with rfl | rfl | rfl | rfl | rfl | rfl | rfl | rfl | rfl | rfl | rfl <;> simp [now]
  · have : ((Race.run plainJson busy (atFirst OMap.empty)).1).all (fun
        | .job .panic => false
        | _ => true) = true := by decide +kernel
    intro a ha e
    have := List.all_eq_true.mp this a ha
    rw [e] at this
    cases this
  · have : (accepted (Race.run plainJson busy (atFirst OMap.empty)).1).all (fun j => (dbOf j).isSome) = true := by decide +kernel
    exact List.all_eq_true.mp this
  · intro e he
    have : e = turn := by
      simp only [List.mem_cons, List.not_mem_nil, or_false, or_self] at he
      exact he
    exact ⟨_, _, _, _, _, this, rfl⟩
  · have : (accepted (Race.run plainJson busy (atFirst OMap.empty)).1).any (fun j => decide (j.id = 7)) = true := by decide +kernel
    obtain ⟨j, hj, e⟩ := List.any_eq_true.mp this
    exact ⟨j, hj, of_decide_eq_true e⟩

end Mondis.Props
