import Verif.Lemmas.DdlWait
import Verif.Props.Ddl
/-!
# C88: what the callers of CreateSchema and AddIndex are told

A history `as : List Act` is any interleaving of new calls, turns of the worker, restarts, looks of the callers that
wait, and callers whose context is over.
-/
namespace Mondis.Wait
open Mondis Spec Schema Meta Structure Ddl Props

variable {J : Json} {K : Nat} {db : DB} {as ws : List Act}

theorem answersOf_cons (a : Ddl.Answer) (l : List Ddl.Answer) : Wait.answersOf (a :: l) = Wait.answersOf [a] ++ Wait.answersOf l := by
  unfold Wait.answersOf
  rw [← List.filterMap_append]; rfl

theorem transaction_arrive (a : Ddl.Answer) : (arrive a).map Wait.transaction = Wait.answersOf [a] := by
  cases a with
  | job r => cases r <;> rfl
  | _ => rfl

theorem transaction_die (x : Caller) : Wait.transaction x.die = Wait.transaction x := by cases x <;> rfl

theorem transaction_set {cs : List Caller} {k : Nat} {x y : Caller} (hx : cs[k]? = some x) (h : Wait.transaction y = Wait.transaction x) :
    (cs.set k y).map Wait.transaction = cs.map Wait.transaction := by
  apply List.ext_getElem?
  intro i
  rw [List.getElem?_map, List.getElem?_map, List.getElem?_set]
  split
  · next e => subst e; rw [if_pos (List.getElem?_eq_some_iff.mp hx).1, hx]; exact congrArg some h
  · rfl

theorem transaction_after (j : Job) (a : Ddl.Answer) : Wait.transaction (Caller.after j a) = .ok j := by
  unfold Caller.after
  split
  · split <;> rfl
  · rfl

/-- Waiting is only looking: however long the callers wait, however often they look and whoever gives up, the process and
its database are what they are without, and the transactions of all calls are answered the same. -/
theorem C88_history (J : Json) (as : List Act) (R : Room) :
    (run J as R).world = (Ddl.run J (Wait.events as) R.world).2 ∧
    (run J as R).callers.map Wait.transaction = R.callers.map Wait.transaction ++ Wait.answersOf (Ddl.run J (Wait.events as) R.world).1 := by
  induction as generalizing R with
  | nil => exact ⟨rfl, (List.append_nil _).symm⟩
  | cons a as ih =>
    obtain ⟨h1, h2⟩ := ih (R.step J a)
    have keep : (R.step J a).world = R.world → (R.step J a).callers.map Wait.transaction = R.callers.map Wait.transaction →
        Wait.events (a :: as) = Wait.events as →
        (run J (a :: as) R).world = (Ddl.run J (Wait.events (a :: as)) R.world).2 ∧
        (run J (a :: as) R).callers.map Wait.transaction =
          R.callers.map Wait.transaction ++ Wait.answersOf (Ddl.run J (Wait.events (a :: as)) R.world).1 := fun e1 e2 e3 => by
      refine ⟨?_, ?_⟩
      · show (run J as (R.step J a)).world = _
        rw [h1, e1, e3]
      · show (run J as (R.step J a)).callers.map _ = _
        rw [h2, e1, e2, e3]
    cases a with
    | ev e =>
      refine ⟨h1, ?_⟩
      show (run J as (R.step J (.ev e))).callers.map _ = R.callers.map Wait.transaction ++ Wait.answersOf ((R.world.step J e).1 :: _)
      rw [h2, answersOf_cons, ← transaction_arrive, ← List.append_assoc]
      congr 1
      show ((if isCrash e then _ else _) ++ arrive _).map _ = _
      rw [List.map_append]
      congr 1
      split
      · rw [List.map_map]
        exact List.map_congr_left (fun x _ => transaction_die x)
      · rfl
    | look k c =>
      refine keep ?_ ?_ rfl
      · simp only [Room.step]
        split
        · exact look_quiet J _ _ _
        · rfl
      · simp only [Room.step]
        split
        · next j hk => exact transaction_set hk (transaction_after j _)
        · rfl
    | over k o =>
      refine keep ?_ ?_ rfl
      · simp only [Room.step]
        split <;> rfl
      · simp only [Room.step]
        split
        · next j hk => exact transaction_set hk rfl
        · rfl

/-- In the database listing, for everyone who asks, is the database `d`, all of it public. -/
def Listed (J : Json) (db : DB) (d : DBInfo) : Prop := ∀ env, ∃ l, asks J db env .listDatabases = .ok l ∧ openDB d ∈ l

theorem listed_of {P : Proc} {w : World} (h : Serves J K (2 ^ 62) P w) {d : DBInfo} (hd : d ∈ P.state.dbs) : Listed J w.db d := by
  intro env
  obtain ⟨M, h3, h4, -⟩ := h.kept
  exact ⟨_, asks_kept h4 env .listDatabases rfl trivial, (mem_listing h3 _).mpr ⟨d, hd, rfl⟩⟩

/-- A caller who waited is told nothing but success, and only if it asked for a database and the database is there: from
then on everyone sees it.  It never gets an error out of the queue, and the panic at the end of checkJob is never
reached. -/
theorem C88_told (hdb : Props.Fresh Sequence.metaPrefix db) (hb : Wait.Brief K as) {j : Job} {r : Res Unit}
    (h : Caller.told j r ∈ (run J as { world := { db := db } }).callers) :
    r = .ok () ∧ ∃ d, dbOf j = some d ∧ Listed J (run J as { world := { db := db } }).world.db d := by
  obtain ⟨Q, h1, h2⟩ := room_serves J hdb hb
  obtain ⟨h3, d, h4, h5⟩ := h2.told j r h
  exact ⟨h3, d, h4, listed_of h1 (h2.made.finished _ h5)⟩

/-- The caller of an AddIndex, and the caller of a request for a database that an accepted call asked for before, is never
told anything, and no caller after it ever is: it returns only when its context is over. -/
theorem C88_never (hdb : Props.Fresh Sequence.metaPrefix db) (hb : Wait.Brief K as) {n m : Nat}
    (hn : Wait.Doomed (run J as { world := { db := db } }).callers n) (hm : n ≤ m) (j : Job) (r : Res Unit) :
    (run J as { world := { db := db } }).callers[m]? ≠ some (.told j r) := by
  intro h
  obtain ⟨Q, h1, h2⟩ := room_serves J hdb hb
  obtain ⟨-, d, -, h5⟩ := h2.told j r (List.mem_of_getElem? h)
  exact finished_blocked h1.sane h5 (h2.doomed n m _ j hn hm h rfl)

theorem ended_more {as bs : List Act} {k : Nat} {x : Caller} (h : Wait.Ended as k x) : Wait.Ended (as ++ bs) k x := by
  cases x with
  | answered r => exact h
  | waiting j => trivial
  | told j r => obtain ⟨c, h⟩ := h; exact ⟨c, List.mem_append_left _ h⟩
  | gaveUp j o => exact List.mem_append_left _ h
  | died j => exact List.mem_append_left _ h

theorem ended_step (J : Json) (as : List Act) (a : Act) (R : Room) (h : ∀ (k : Nat) (x : Caller), R.callers[k]? = some x → Wait.Ended as k x) :
    ∀ (k : Nat) (x : Caller), (R.step J a).callers[k]? = some x → Wait.Ended (as ++ [a]) k x := by
  have mem : a ∈ as ++ [a] := List.mem_append_right _ List.mem_cons_self
  have put : ∀ {k i : Nat} {x y : Caller}, (R.callers.set k y)[i]? = some x → Wait.Ended (as ++ [a]) k y → Wait.Ended (as ++ [a]) i x := by
    intro k i x y hx hy
    rw [List.getElem?_set] at hx
    split at hx
    · next e =>
      subst e
      split at hx
      · cases hx; exact hy
      · cases hx
    · exact ended_more (h i x hx)
  intro k x hx
  cases a with
  | ev e =>
    change ((if isCrash e then R.callers.map Caller.die else R.callers) ++ arrive _)[k]? = some x at hx
    have old : ∀ {cs : List Caller}, cs = (if isCrash e then R.callers.map Caller.die else R.callers) → cs[k]? = some x → Wait.Ended (as ++ [.ev e]) k x := by
      rintro _ rfl hx
      cases hc : isCrash e with
      | true =>
        have he : e = .crash := by cases e <;> first | rfl | cases hc
        rw [hc, if_pos rfl, List.getElem?_map] at hx
        obtain ⟨y, hy, rfl⟩ := Option.map_eq_some_iff.mp hx
        have hy := ended_more (bs := [.ev e]) (h k y hy)
        cases y with
        | waiting j => subst he; exact mem
        | _ => exact hy
      | false =>
        rw [hc, if_neg (fun h => nomatch h)] at hx
        exact ended_more (h k x hx)
    generalize hcs : (if isCrash e then R.callers.map Caller.die else R.callers) = cs at hx
    rw [List.getElem?_append] at hx
    split at hx
    · exact old hcs.symm hx
    · have hx := List.mem_of_getElem? hx
      generalize (R.world.step J e).1 = b at hx
      cases b with
      | job r =>
        cases r with
        | ok j => rw [List.mem_singleton.mp hx]; trivial
        | err e' => rw [List.mem_singleton.mp hx]; exact fun _ e => nomatch e
        | panic => rw [List.mem_singleton.mp hx]; exact fun _ e => nomatch e
      | _ => exact absurd hx List.not_mem_nil
  | look i c =>
    simp only [Room.step] at hx
    split at hx
    · refine put hx ?_
      unfold Caller.after
      split
      · split
        · exact ⟨c, mem⟩
        · trivial
      · trivial
    · exact ended_more (h k x hx)
  | over i o =>
    simp only [Room.step] at hx
    split at hx
    · exact put hx mem
    · exact ended_more (h k x hx)

/-- Nobody returns from a call that was accepted for another reason: a caller is told something only after a look of its
own, and gives up only because its own context is over. -/
theorem C88_ends (J : Json) (as : List Act) (w : World) (k : Nat) (x : Caller) (h : (run J as { world := w }).callers[k]? = some x) :
    Wait.Ended as k x := by
  suffices ∀ (as bs : List Act) (R : Room), (∀ (k : Nat) (x : Caller), R.callers[k]? = some x → Wait.Ended bs k x) →
      ∀ (k : Nat) (x : Caller), (run J as R).callers[k]? = some x → Wait.Ended (bs ++ as) k x from
    this as [] { world := w } (fun k x h => by cases h) k x h
  intro as
  induction as with
  | nil => intro bs R h k x hx; rw [List.append_nil]; exact h k x hx
  | cons a as ih =>
    intro bs R h k x hx
    have := ih (bs ++ [a]) (R.step J a) (ended_step J bs a R h) k x hx
    rwa [List.append_assoc] at this

theorem jobs_accepted {cs : List Caller} {l : List Ddl.Answer} (h : cs.map Wait.transaction = Wait.answersOf l) :
    cs.filterMap Wait.job = accepted l := by
  have e1 : cs.filterMap Wait.job = (cs.map Wait.transaction).filterMap (fun
      | .ok j => some j
      | _ => none) := by
    rw [List.filterMap_map]; rfl
  rw [e1, h]
  unfold Wait.answersOf accepted
  rw [List.filterMap_filterMap]
  congr 1
  funext a
  cases a with
  | job r => cases r <;> rfl
  | _ => rfl

theorem events_append (as bs : List Act) : Wait.events (as ++ bs) = Wait.events as ++ Wait.events bs := List.filterMap_append

theorem events_brief (hb : Wait.Brief K as) : Spec.Brief K (Wait.events as) := by
  obtain ⟨h1, h2⟩ := hb
  refine ⟨fun e he => ?_, Nat.lt_of_le_of_lt ?_ h2⟩
  · obtain ⟨a, ha, hx⟩ := List.mem_filterMap.mp he
    cases a with
    | ev e' => cases hx; exact h1 _ ha
    | look k c => cases hx
    | over k o => cases hx
  · have : (Wait.events as).length ≤ as.length := List.length_filterMap_le _ _
    exact Nat.mul_le_mul this (Nat.mul_le_mul_right _ (by omega))

/-- If no call panicked and the accepted ones asked for databases with different names, then once the worker has had two
turns for each — whatever the callers do meanwhile — every one of these databases is there, whether its caller still
waits, gave up or died with an earlier process; and a caller that still waits is told of its success when it looks
next. -/
theorem C88_served (hdb : Props.Fresh Sequence.metaPrefix db) {n : Nat} {c : Circ} (hb : Wait.Brief K (as ++ ws ++ [.look n c]))
    (hcalm : ∀ x ∈ (run J as { world := { db := db } }).callers, Wait.transaction x ≠ .panic)
    (hacc : ∀ x ∈ (run J as { world := { db := db } }).callers, ∀ j, Wait.job x = some j → (dbOf j).isSome)
    (hnames : (((run J as { world := { db := db } }).callers.filterMap Wait.job).filterMap (fun j => (dbOf j).map (·.name))).Nodup)
    (hup : (run J as { world := { db := db } }).world.up = true) (hturns : Turns (Wait.events ws))
    (hlen : 2 * ((run J as { world := { db := db } }).callers.filterMap Wait.job).length ≤ (Wait.events ws).length) (hc : c.fail = none) :
    (∀ x ∈ (run J as { world := { db := db } }).callers, ∀ j d, Wait.job x = some j → dbOf j = some d →
      Listed J (run J (as ++ ws) { world := { db := db } }).world.db d) ∧
    ∀ j, (run J (as ++ ws) { world := { db := db } }).callers[n]? = some (.waiting j) → (∃ x ∈ (run J as { world := { db := db } }).callers, Wait.job x = some j) →
      (run J (as ++ ws ++ [.look n c]) { world := { db := db } }).callers[n]? = some (.told j (.ok ())) := by
  obtain ⟨g1, g2⟩ := C88_history J as { world := { db := db } }
  obtain ⟨g3, -⟩ := C88_history J (as ++ ws) { world := { db := db } }
  rw [events_append] at g3
  have g2 : (run J as { world := { db := db } }).callers.map Wait.transaction = Wait.answersOf (Ddl.run J (Wait.events as) { db := db }).1 := g2
  have gj := jobs_accepted g2
  rw [gj] at hnames hlen
  rw [g1] at hup
  have hmem : ∀ {j : Job}, (∃ x ∈ (run J as { world := { db := db } }).callers, Wait.job x = some j) ↔
      j ∈ accepted (Ddl.run J (Wait.events as) { db := db }).1 := fun {j} => by
    rw [← gj, List.mem_filterMap]
  have hacc' : ∀ j ∈ accepted (Ddl.run J (Wait.events as) { db := db }).1, (dbOf j).isSome := by
    intro j hj
    obtain ⟨x, hx, e⟩ := hmem.mpr hj
    exact hacc x hx j e
  have hcalm' : ∀ a ∈ (Ddl.run J (Wait.events as) { db := db }).1, a ≠ .job .panic := by
    rintro a ha rfl
    have : Res.panic ∈ Wait.answersOf (Ddl.run J (Wait.events as) { db := db }).1 := List.mem_filterMap.mpr ⟨_, ha, rfl⟩
    rw [← g2] at this
    obtain ⟨x, hx, e⟩ := List.mem_map.mp this
    exact hcalm x hx e
  have hb' : Spec.Brief K (Wait.events as ++ (Wait.events ws ++ [.getJob 0 c])) := by
    obtain ⟨h1, h2⟩ := hb
    refine ⟨fun e he => ?_, Nat.lt_of_le_of_lt ?_ h2⟩
    · have ev : ∀ {l : List Act}, (∀ a ∈ l, a ∈ as ++ ws ++ [.look n c]) → ∀ e ∈ Wait.events l, EvFits K e := by
        intro l hl e he
        obtain ⟨a, ha, hx⟩ := List.mem_filterMap.mp he
        cases a with
        | ev e' => cases hx; exact h1 _ (hl _ ha)
        | look k c => cases hx
        | over k o => cases hx
      rcases List.mem_append.mp he with he | he
      · exact ev (fun a ha => List.mem_append_left _ (List.mem_append_left _ ha)) e he
      · rcases List.mem_append.mp he with he | he
        · exact ev (fun a ha => List.mem_append_left _ (List.mem_append_right _ ha)) e he
        · rw [List.mem_singleton.mp he]
          exact h1 (.look n c) (List.mem_append_right _ List.mem_cons_self)
    · have l1 : (Wait.events as).length ≤ as.length := List.length_filterMap_le _ _
      have l2 : (Wait.events ws).length ≤ ws.length := List.length_filterMap_le _ _
      have : (Wait.events as ++ (Wait.events ws ++ [Ev.getJob 0 c])).length ≤ (as ++ ws ++ [Act.look n c]).length := by
        simp only [List.length_append, List.length_singleton]; omega
      exact Nat.mul_le_mul this (Nat.mul_le_mul_right _ (by omega))
  have hbid : ∀ id, Spec.Brief K (Wait.events as ++ (Wait.events ws ++ [.getJob id c])) := by
    intro id
    obtain ⟨h1, h2⟩ := hb'
    refine ⟨fun e he => ?_, by simpa only [List.length_append, List.length_singleton] using h2⟩
    rcases List.mem_append.mp he with he | he
    · exact h1 e (List.mem_append_left _ he)
    · rcases List.mem_append.mp he with he | he
      · exact h1 e (List.mem_append_right _ (List.mem_append_left _ he))
      · rw [List.mem_singleton.mp he]
        exact h1 (.getJob 0 c) (List.mem_append_right _ (List.mem_append_right _ List.mem_cons_self))
  constructor
  · intro x hx j d hj hd
    have hbw : Spec.Brief K (Wait.events as ++ Wait.events ws) := by
      have := hb'
      rw [← List.append_assoc] at this
      exact brief_left this
    obtain ⟨P, Q, s1, s2, s3, s4⟩ := run_serves_two J hdb hbw
    obtain ⟨k1, k2, k3, k4⟩ := clean_steps s1 ⟨fun r hr => absurd hr List.not_mem_nil, List.nodup_nil⟩ hcalm' hacc' hnames
    obtain ⟨t1, t2, t3⟩ := turns_run s3 (by rw [← s2.up]; exact hup) hturns k1
    have hz : Q.state.queue = [] := by
      apply turns_zero
      have := turns_le P.state.queue
      have k2 : P.state.queue.length ≤ 0 + (accepted (Ddl.run J (Wait.events as) { db := db }).1).length := k2
      omega
    have hf : (j.id, d) ∈ Q.state.finished := by
      rcases t3 _ _ (k4 j (hmem.mp ⟨x, hx, hj⟩) d hd) with ⟨s, h⟩ | h
      · rw [hz] at h; exact absurd h List.not_mem_nil
      · exact h
    have hm : Made Q.state :=
      SSteps.inv (I := fun P => Made P.state) (fun P e a Q s1 _ h hm => (finished_step s1 hm h).1) (s1.append s3)
        ⟨fun _ _ h => absurd h List.not_mem_nil, fun _ h => absurd h List.not_mem_nil⟩
    rw [g3]
    exact listed_of s4 (hm.finished _ hf)
  · intro j hw hj
    obtain ⟨r, e1, e2⟩ := C54_progress (J := J) hdb (hbid j.id) hcalm' hacc' hnames hup hturns hlen ⟨j, hmem.mp hj, rfl⟩ hc
    rw [run_append]
    show (Room.step J (run J (as ++ ws) _) (.look n c)).callers[n]? = _
    simp only [Room.step, hw]
    rw [g3]
    rw [List.getElem?_set, if_pos rfl, if_pos (List.getElem?_eq_some_iff.mp hw).1]
    rw [show ({ world := { db := db } } : Room).world = { db := db } from rfl, e1]
    show some (match checkOnce r with
      | some a => Caller.told j a
      | none => .waiting j) = _
    rw [e2]

end Mondis.Wait
