import Verif.Props.Domain
import Verif.Props.Race
import Verif.Lemmas.Crowd
/-!
# C86: documents, while calls and the worker of package ddl overlap
-/
namespace Mondis.Props
open Mondis Spec Schema Meta Ddl Domain Doc

variable {D : Type} {J : Json} {C : Codec D} {K : Nat} {db : DB} {es es' : List (Crowd.Ev D)}

/-- A new process on the database. -/
def gathering (db : DB) : Crowd.Hub := { w := { ddl := { db := db } } }

/-- The events of the process. -/
def evsOf (es : List (Crowd.Ev D)) : List (Domain.Ev D) := es.map (·.ev)

/-- These events, where no transaction of package ddl takes time. -/
def atOnce (es : List (Domain.Ev D)) : List (Crowd.Ev D) := es.map (fun e => ⟨e, 0⟩)

theorem run_crowd (hdb : Fresh Sequence.metaPrefix db) (hd : NoDocs db) (hb : Throng.Brief K es) :
    ∃ S, Throng.Steps C.norm {} es (Crowd.run J C es (gathering db)).1 S ∧
      Site.Walks C.norm {} (evsOf es) (Crowd.run J C es (gathering db)).1 S.site ∧
      CrowdOK J C K (2 ^ 62) S (Crowd.run J C es (gathering db)).2 := by
  obtain ⟨S, R, h1, h2, h3, -, -⟩ := run_crowd_two J C (es := es) (es' := []) hdb hd (by rw [List.append_nil]; exact hb)
  exact ⟨S, h1, h2, h3⟩

/-- C86: the answers of every history are those of the specification, and the documents stored in the end are the
specification's. -/
theorem C86_refines (hdb : Fresh Sequence.metaPrefix db) (hd : NoDocs db) (hb : Throng.Brief K es) :
    ∃ S, Throng.Steps C.norm {} es (Crowd.run J C es (gathering db)).1 S ∧
      HoldsDocs C S.site.docs (Crowd.run J C es (gathering db)).2.w.ddl.db := by
  obtain ⟨S, h1, -, h2⟩ := run_crowd (J := J) (C := C) hdb hd hb
  exact ⟨S, h1, h2.site.docs⟩

/-- C86: no id that InsertOne gave for a collection is given again, unless the Commit of the transaction failed. -/
theorem C86_unique (hdb : Fresh Sequence.metaPrefix db) (hd : NoDocs db) (hb : Throng.Brief K es)
    (hr : NoRecommit (evsOf es)) {as : List (Domain.Answer D)} (ha : as = (Crowd.run J C es (gathering db)).1) (name coll : Bytes) :
    (((insertions (evsOf es) as).filter (fun i => decide (i.db = name ∧ i.coll = coll ∧ i.txn ∉ failedIn (evsOf es) as))).map (·.did)).Nodup := by
  obtain ⟨S, -, hs, -⟩ := run_crowd (J := J) (C := C) hdb hd hb
  rw [← ha] at hs
  obtain ⟨G, h⟩ := Keeping.steps hs keeping_start hr
  exact h.unique name coll

/-- C86: a transaction whose Commit failed never commits. -/
theorem C86_failed (hdb : Fresh Sequence.metaPrefix db) (hd : NoDocs db) (hb : Throng.Brief K es)
    (hr : NoRecommit (evsOf es)) {as : List (Domain.Answer D)} (ha : as = (Crowd.run J C es (gathering db)).1) :
    ∀ k ∈ committedIn (evsOf es) as, k ∉ failedIn (evsOf es) as := by
  obtain ⟨S, -, hs, -⟩ := run_crowd (J := J) (C := C) hdb hd hb
  rw [← ha] at hs
  obtain ⟨G, h⟩ := Keeping.steps hs keeping_start hr
  exact h.disjoint

/-- C86: after a reload (what an earlier one read being published first) the published schema is what a process starting
now would load. -/
theorem C86_converges {env env' : Env} (hdb : Fresh Sequence.metaPrefix db) (hd : NoDocs db)
    (hb : Throng.Brief K (es ++ atOnce [.publish, .reload env, .publish])) {h : Crowd.Hub}
    (hh : h = (Crowd.run J C (es ++ atOnce [.publish, .reload env, .publish]) (gathering db)).2) :
    ∃ o, freshLoad J env' h.w.ddl.db = .ok o ∧ SameSchema h.w.handle.cache o := by
  obtain ⟨S, R, -, -, hm, hs, hm'⟩ := run_crowd_two J C hdb hd hb
  rw [crowd_append] at hh
  subst hh
  obtain ⟨-, hp, -, -, -, -, he⟩ := steps_refresh hs
  obtain ⟨o, ho, hi⟩ := hm'.site.freshLoad (by omega) env'
  rw [← hp] at he
  rw [← hm'.site.known he] at hi
  exact ⟨o, ho, hm'.site.schemaIs.same hi⟩

/-- C86: a reload never fails. -/
theorem C86_no_error (hdb : Fresh Sequence.metaPrefix db) (hd : NoDocs db) (hb : Throng.Brief K es)
    {r : Res Bool} (h : .reloaded r ∈ (Crowd.run J C es (gathering db)).1) : ∃ b, r = .ok b := by
  obtain ⟨S, -, hs, -⟩ := run_crowd (J := J) (C := C) hdb hd hb
  generalize (Crowd.run J C es (gathering db)).1 = as at h hs
  clear hb
  generalize ({} : Site D) = S₀ at hs
  generalize evsOf es = l at hs
  generalize S.site = Q at hs
  induction hs with
  | nil => cases h
  | cons h1 _ ih =>
    rcases List.mem_cons.mp h with e | h
    · rw [← e] at h1; exact step_reloaded h1
    · exact ih h

/-- C86: as long as the process lives the published schema only grows: the version does not get smaller, and what it says
about a database stays. -/
theorem C86_monotone (hdb : Fresh Sequence.metaPrefix db) (hd : NoDocs db)
    (hb : Throng.Brief K (es ++ es')) (hc : ∀ e ∈ evsOf es', e ≠ .ddl .crash) {c : MetaCache}
    (h : (Crowd.run J C es (gathering db)).2.w.handle.cache = some c) :
    ∃ c', (Crowd.run J C (es ++ es') (gathering db)).2.w.handle.cache = some c' ∧ c.version ≤ c'.version ∧
      ∀ name d, c.db name = some d → ∃ d', c'.db name = some d' ∧ blankDB d' = blankDB d := by
  obtain ⟨S, R, -, hs, hm, hs', hm'⟩ := run_crowd_two J C hdb hd hb
  rw [crowd_append]
  exact published_grows hm.site (steps_grow hs known_start).1 hs' hm'.site hc h

/-- C86: a transaction that is ready to commit passes the check exactly if at most 100 databases were published since it
began (and the schema was not published for the first time since); otherwise it fails with ErrDDLConflict. -/
theorem C86_check {env : Env} {s : Session} (hdb : Fresh Sequence.metaPrefix db) (hd : NoDocs db)
    (hb : Throng.Brief K (es ++ (⟨.begin true env, 0⟩ :: es'))) (hc : ∀ e ∈ evsOf es', e ≠ .ddl .crash)
    {w₁ : Domain.World} {h : Crowd.Hub} (hw₁ : w₁ = (Crowd.run J C es (gathering db)).2.w)
    (hh : h = (Crowd.run J C (es ++ (⟨.begin true env, 0⟩ :: es')) (gathering db)).2)
    (hs : h.w.session w₁.sessions.length = some s) (hph : s.phase = .ready) :
    (FewSince (publishedVersion w₁) (publishedVersion h.w) → (h.step J C ⟨.commit w₁.sessions.length, 0⟩).1 = .none ∧
      (h.step J C ⟨.commit w₁.sessions.length, 0⟩).2.w.session w₁.sessions.length = some { s with phase := .checked }) ∧
    (¬ FewSince (publishedVersion w₁) (publishedVersion h.w) →
      (h.step J C ⟨.commit w₁.sessions.length, 0⟩).1 = .committed (.err Dml.errDDLConflict)) := by
  obtain ⟨S, R, -, hs1, hm, hs', hm'⟩ := run_crowd_two J C hdb hd hb
  rw [crowd_append] at hh
  subst hh
  subst hw₁
  exact check_exact hm.site (steps_grow hs1 known_start).1 hs' hm'.site hc hs hph

/-- C86: Commit panics only if the transaction was discarded or committed before. -/
theorem C86_no_panic {e : Crowd.Ev D} (hdb : Fresh Sequence.metaPrefix db) (hd : NoDocs db) (hb : Throng.Brief K (es ++ [e]))
    (h : ((Crowd.run J C es (gathering db)).2.step J C e).1 = .committed .panic) :
    ∃ k, e.ev = .commit k ∧ ∃ e' ∈ evsOf es, e' = .discard k ∨ ∃ fail, e' = .finish k fail := by
  obtain ⟨S, R, -, hs, hm, hs', hm'⟩ := run_crowd_two J C hdb hd hb
  have hs' : S.site.Walks C.norm [e.ev] [((Crowd.run J C es (gathering db)).2.step J C e).1] R.site := hs'
  rw [h] at hs'
  cases hs' with
  | cons h1 _ =>
    obtain ⟨k, v, he, hv, hp⟩ := commit_panics h1
    rcases over_why hs hv hp with ⟨u, hu, -⟩ | ⟨e', h1, h2⟩
    · have : ((([] : List (Option (Visit D)))[k]?).join) = some u := hu
      simp at this
    · exact ⟨k, he, e', h1, h2⟩

theorem crowd_then (h : Crowd.Hub) (e : Crowd.Ev D) (w : Domain.World) : (h.then e w).w = w := (then_hub h e w).2

/-- An event of package ddl changes nothing of the process but package ddl. -/
theorem does_ddl (J : Json) (C : Codec D) (h : Crowd.Hub) {d : Ddl.Ev} {n : Nat} (hc : d ≠ .crash) :
    (h.does J C ⟨.ddl d, n⟩).2 = h.w ∨ (h.does J C ⟨.ddl d, n⟩).2 = { h.w with ddl := (h.race.does J ⟨d, n⟩).2 } := by
  have hdoes : h.does J C ⟨.ddl d, n⟩ = if h.w.ddl.up = false ∧ Domain.needsDDL d then (.ddl (.job .panic), h.w)
      else (.ddl (h.race.does J ⟨d, n⟩).1, { h.w with ddl := (h.race.does J ⟨d, n⟩).2 }) := by
    cases d <;> first | rfl | exact absurd rfl hc
  rw [hdoes]
  split
  · exact .inl rfl
  · exact .inr rfl

/-- C86: whatever else happens, an open transaction stays as it is, so that its reads give what they would have given before. -/
theorem C86_isolated (J : Json) (C : Codec D) {h : Crowd.Hub} {k : Nat} {s : Session} (hs : h.w.session k = some s)
    (he : ∀ e ∈ evsOf es, e ≠ .ddl .crash ∧ ¬ Addresses k e) :
    (Crowd.run J C es h).2.w.session k = some s ∧ ∀ name coll o mark n,
      ((Crowd.run J C es h).2.step J C ⟨.op k name coll o mark, n⟩).1 = (h.step J C ⟨.op k name coll o mark, n⟩).1 := by
  have key : (Crowd.run J C es h).2.w.session k = some s := by
    induction es generalizing h with
    | nil => exact hs
    | cons e es ih =>
      refine ih (h := (h.step J C e).2) ?_ (fun x hx => he x (List.mem_cons_of_mem _ hx))
      obtain ⟨hc, ha⟩ := he e.ev List.mem_cons_self
      show (h.then e (h.does J C e).2).w.session k = some s
      rw [crowd_then]
      obtain ⟨ev, n⟩ := e
      cases ev with
      | ddl d =>
        rcases does_ddl J C h (d := d) (n := n) (fun x => hc (by rw [x])) with e | e <;> rw [e] <;> exact hs
      | _ => exact step_isolated J C hs hc ha
  refine ⟨key, fun name coll o mark n => ?_⟩
  have e1 : ∀ h' : Crowd.Hub, (h'.step J C ⟨.op k name coll o mark, n⟩).1 = match h'.w.session k with
      | some s => if s.phase = .ready then .out (runOp C name coll o mark s.txn).1 else .none
      | none => .none := by
    intro h'
    show (h'.w.step J C (.op k name coll o mark)).1 = _
    simp only [Domain.World.step]
    cases h'.w.session k with
    | none => rfl
    | some s => dsimp only; split <;> rfl
  rw [e1, e1, key, hs]

/-- C86: the stored documents change only when the Commit of a transaction succeeds. -/
theorem C86_only_commit (J : Json) (C : Codec D) (h : Crowd.Hub) (e : Crowd.Ev D)
    (he : ∀ k f, e.ev = .finish k f → (h.step J C e).1 ≠ .committed (.ok ())) (cid did : Int64) :
    (h.step J C e).2.w.ddl.db.get (documentKey cid did) = h.w.ddl.db.get (documentKey cid did) := by
  show (h.then e (h.does J C e).2).w.ddl.db.get _ = _
  rw [crowd_then]
  obtain ⟨ev, n⟩ := e
  cases ev with
  | ddl d =>
    by_cases hc : d = .crash
    · subst hc; exact C71_only_commit J C h.w (.ddl .crash) (by simp) cid did
    · rcases does_ddl J C h (d := d) (n := n) hc with e | e <;> rw [e]
      exact does_frame J h.race _ (docKey_not_meta (atDoc_key cid did))
  | _ => exact C71_only_commit J C h.w _ he cid did

/-- C86: where package domain makes the reloads happen (`Duty.follows`: before the worker starts, and when the worker tells
of a change, before its next turn), then as soon as the caller of CreateSchema has found its job in the history, and while the worker runs, `DB`
and `Collection` find what was asked for, a document can be inserted in a new transaction, Commit succeeds, and the next transaction reads the
document under the id InsertOne gave: whatever other calls were made meanwhile, and however long the transactions of these calls and
of the worker took. -/
theorem C86_at_once {o : Order} {i : CreateSchemaInput} {c c' c₁ : Ddl.Circ} {j j' : Job} {e₂ e₃ : Env}
    {k : Nat} {coll : Bytes} {doc d : D} {mark mark' : Bool} (hdb : Fresh Sequence.metaPrefix db) (hd : NoDocs db)
    (hb : ∀ did, Throng.Brief K (es ++ (atOnce [.begin true e₂, .snapshot k, .insert k i.db coll doc mark c₁,
      .commit k, .finish k none, .begin false e₃, .snapshot (k + 1)] ++ atOnce [.op (k + 1) i.db coll (.getOne did) mark'])))
    (hduty : Duty.follows .due ((evsOf es).zip (Crowd.run J C es (gathering db)).1) = true)
    (hacc : (.ddl (.createSchema o i c), .ddl (.job (.ok j))) ∈ (evsOf es).zip (Crowd.run J C es (gathering db)).1)
    (hfin : (.ddl (.getJob j.id c'), .ddl (.found (.ok (some j')))) ∈ (evsOf es).zip (Crowd.run J C es (gathering db)).1)
    (hcoll : coll ∈ i.collections) (hdoc : C.norm doc = .ok d) (hc : c₁.fail = none)
    {h h' : Crowd.Hub} (hh : h = (Crowd.run J C es (gathering db)).2)
    (hup : h.w.ddl.up = true) (hk : k = h.w.sessions.length)
    {as : List (Domain.Answer D)}
    (hh' : (as, h') = Crowd.run J C (atOnce [.begin true e₂, .snapshot k, .insert k i.db coll doc mark c₁,
      .commit k, .finish k none, .begin false e₃, .snapshot (k + 1)]) h) :
    newDB h.w.handle i.db = .ok () ∧ collection h.w.handle i.db coll = .ok () ∧
    ∃ did, as = [.none, .none, .inserted (.ok did), .none, .committed (.ok ()), .none, .none] ∧
      (h'.step J C ⟨.op (k + 1) i.db coll (.getOne did) mark', 0⟩).1 = .out (.ok (.doc d)) := by
  have key : ∀ did₀, newDB h.w.handle i.db = .ok () ∧ collection h.w.handle i.db coll = .ok () ∧
      ∃ did, as = [.none, .none, .inserted (.ok did), .none, .committed (.ok ()), .none, .none] ∧
        (did = did₀ → (h'.step J C ⟨.op (k + 1) i.db coll (.getOne did₀) mark', 0⟩).1 = .out (.ok (.doc d))) := by
    intro did₀
    obtain ⟨R, Z, -, hs, hm, hz, -⟩ := run_crowd_two J C hdb hd (hb did₀)
    have hh := hh
    rw [gathering] at hh hacc hfin hduty
    rw [← hh] at hm hz
    obtain ⟨n, ht⟩ := accepted_tracked hs hacc
    obtain ⟨d', hf⟩ := found_finished hs hfin
    obtain ⟨s, hdone⟩ := Dutiful.steps hs dutiful_start hduty
    have hknow := hdone.shown (by rw [← hm.site.serves.up]; exact hup) _ (tracked_finished hm.site.serves.sane ht hf).1
    rw [crowd_append] at hz
    have hlen := crowd_length J C (atOnce [.begin true e₂, .snapshot k, .insert k i.db coll doc mark c₁,
      .commit k, .finish k none, .begin false e₃, .snapshot (k + 1)]) h
    rw [← hh'] at hz hlen
    exact roundtrip_core hm.site hknow hcoll hdoc hc hup hk hlen hz
  obtain ⟨h1, h2, did, h3, -⟩ := key 0
  refine ⟨h1, h2, did, h3, ?_⟩
  obtain ⟨-, -, did', h3', h4⟩ := key did
  rw [h3] at h3'
  have e : did = did' := by
    simp only [List.cons.injEq, Answer.inserted.injEq, Res.ok.injEq] at h3'
    exact h3'.2.2.1
  subst e
  exact h4 rfl

/-- C86: when no transaction of package ddl overlaps with anything, a history is one of Model/Domain. -/
theorem C86_alone (es : List (Domain.Ev D)) (h : Crowd.Hub) :
    (Crowd.run J C (atOnce es) h).1 = (Domain.run J C es h.w).1 ∧ (Crowd.run J C (atOnce es) h).2.w = (Domain.run J C es h.w).2 := by
  have step : ∀ (h : Crowd.Hub) (e : Domain.Ev D), h.does J C ⟨e, 0⟩ = h.w.step J C e := by
    intro h e
    by_cases hl : Late e
    · have hr : ∀ d : Ddl.Ev, h.race.does J ⟨d, 0⟩ = h.w.ddl.step J d := fun d => race_alone J h.race d
      have hcase : ∀ d : Ddl.Ev, d ≠ .crash → h.does J C ⟨.ddl d, 0⟩ = h.w.step J C (.ddl d) := by
        intro d hd
        have e1 : h.does J C ⟨.ddl d, 0⟩ = if h.w.ddl.up = false ∧ Domain.needsDDL d then (.ddl (.job .panic), h.w)
            else (.ddl (h.race.does J ⟨d, 0⟩).1, { h.w with ddl := (h.race.does J ⟨d, 0⟩).2 }) := by
          cases d <;> first | rfl | exact absurd rfl hd
        have e2 : h.w.step J C (.ddl d) = if h.w.ddl.up = false ∧ Domain.needsDDL d then (.ddl (.job .panic), h.w)
            else (.ddl (h.w.ddl.step J d).1, { h.w with ddl := (h.w.ddl.step J d).2 }) := by
          cases d <;> first | rfl | exact absurd rfl hd
        rw [e1, e2, hr]
      rcases hl with ⟨_, _, _, rfl⟩ | ⟨_, _, rfl⟩ | ⟨_, _, rfl⟩ | ⟨_, _, _, _, _, rfl⟩ <;> exact hcase _ (by simp)
    · exact does_plain J C h hl
  induction es generalizing h with
  | nil => exact ⟨rfl, rfl⟩
  | cons e es ih =>
    obtain ⟨h1, h2⟩ := ih (h.step J C ⟨e, 0⟩).2
    have hw : (h.step J C ⟨e, 0⟩).2.w = (h.w.step J C e).2 := by
      show (h.then _ (h.does J C ⟨e, 0⟩).2).w = _
      rw [crowd_then, step]
    rw [hw] at h1 h2
    refine ⟨?_, h2⟩
    show (h.step J C ⟨e, 0⟩).1 :: (Crowd.run J C (atOnce es) (h.step J C ⟨e, 0⟩).2).1 = _
    rw [h1]
    show (h.does J C ⟨e, 0⟩).1 :: _ = _
    rw [step]
    rfl

end Mondis.Props
