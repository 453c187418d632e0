import Verif.Lemmas.Torn
import Verif.Props.DdlExamples
/-!
# C84: the process may die in the middle of a turn of the worker, or of Init

`Model/Torn.lean` lets the process die after any of the transactions that a turn or Init is made of.  What the properties
C54, C55, C57, C66 and C67 say of histories of whole events holds of these histories too.
-/
namespace Mondis.Props
open Mondis Spec Schema Meta Structure Ddl Torn

section
variable {J : Json} {K : Nat} {db : DB} {xs : List TEv}

/-- Every history in which the process may die in the middle is a history of whole events of the specification, where
what was cut short counts as done, followed by the death of the process: the answers heard are the answers of that
history, and what is stored in the end is what the specification says. -/
theorem C84_history (hdb : Fresh Sequence.metaPrefix db) (hb : Brief K (xs.flatMap whole)) :
    ∃ as Q M, Proc.Steps {} (xs.flatMap whole) as Q ∧ told xs as = (Torn.run J xs { db := db }).1 ∧ Q.state.Holds M ∧
      ∀ (env : Env) {β : Type} (c : MetaCall β), c.writes = false →
        asks J (Torn.run J xs { db := db }).2.db env c = (c.sem M).1 := by
  obtain ⟨as, Q, h1, h2, h5⟩ := Torn.run_serves J hdb hb
  obtain ⟨M, h3, h4, -⟩ := h5.kept
  exact ⟨as, Q, M, h1.steps, h2.told, h3, fun env β c hw => asks_kept h4 env c hw (text_of_reads hw)⟩

/-- Of a turn that was cut short nobody can tell, by reading the metadata, how far it got: every read answers as after the
whole turn. -/
theorem C84_turn_seen (hdb : Fresh Sequence.metaPrefix db) {o₁ o₂ o₃ : Order} {c : Ddl.Circ} {after : Env} (n : Nat)
    (hb : Brief K (xs.flatMap whole ++ [.work o₁ o₂ o₃ c after])) (env : Env) {β : Type} (r : MetaCall β) (hr : r.writes = false) :
    asks J (Torn.run J (xs ++ [.turn o₁ o₂ o₃ c after n]) { db := db }).2.db env r =
      asks J (Torn.run J (xs ++ [.ev (.work o₁ o₂ o₃ c after)]) { db := db }).2.db env r := by
  obtain ⟨B, P, h1, h2⟩ := run_serves_room J hdb hb (Nat.le_refl 1)
  obtain ⟨M, h3, m, h4⟩ := turn_meta J h1 (hb.1 _ (List.mem_append_right _ List.mem_cons_self)) (by omega)
  obtain ⟨M₁, k1, k2⟩ := h3 n
  obtain ⟨M₂, k3, k4⟩ := h3 m
  rw [h4] at k4
  rw [Torn.run_append, Torn.run_append]
  show asks J (turnDies J o₁ o₂ o₃ c after n (Torn.run J xs { db := db }).2).db env r =
    asks J ((Torn.run J xs { db := db }).2.step J (.work o₁ o₂ o₃ c after)).2.db env r
  rw [asks_kept (Ddl.Keeps.mono k2 h2) env r hr (text_of_reads hr), asks_kept (Ddl.Keeps.mono k4 h2) env r hr (text_of_reads hr), sem_same k1 r hr,
    sem_same k3 r hr]

/-- Nor of Init, that it had begun: every read answers as before. -/
theorem C84_init_seen (hdb : Fresh Sequence.metaPrefix db) {o : DBInfo → Order} {e : Env} {fail : Int64 → Option Err} (n : Nat)
    (hb : Brief K (xs.flatMap whole ++ [.init o e fail])) (env : Env) {β : Type} (r : MetaCall β) (hr : r.writes = false) :
    asks J (Torn.run J (xs ++ [.init o e fail n]) { db := db }).2.db env r = asks J (Torn.run J xs { db := db }).2.db env r := by
  obtain ⟨B, P, h1, h2⟩ := run_serves_room J hdb hb (Nat.le_refl 1)
  obtain ⟨-, M, M', k1, k2, k3⟩ := init_left J h1 (o := o) (env := e) (fail := fail) n
    (hb.1 _ (List.mem_append_right _ List.mem_cons_self)) (by omega)
  rw [Torn.run_append]
  show asks J (initDies J o e fail n (Torn.run J xs { db := db }).2).db env r = _
  rw [asks_kept (Ddl.Keeps.mono k3 h2) env r hr (text_of_reads hr), asks_kept (Ddl.Keeps.mono k2 (by omega)) env r hr (text_of_reads hr), sem_same k1 r hr]

/-- All ids in all jobs handed out are different and positive. -/
theorem C84_ids_distinct (hdb : Fresh Sequence.metaPrefix db) (hb : Brief K (xs.flatMap whole)) :
    ((accepted (Torn.run J xs { db := db }).1).flatMap idsIn).Nodup ∧
    ∀ x ∈ (accepted (Torn.run J xs { db := db }).1).flatMap idsIn, 0 < x := by
  obtain ⟨as, Q, h1, h2, -⟩ := Torn.run_serves J hdb hb
  obtain ⟨g1, g2, -⟩ := accepted_ids h1
  rw [h2.accepted] at g1 g2
  refine ⟨g1, fun x hx => ?_⟩
  have := (g2 x hx).1
  rw [Int64.lt_iff_toInt_lt]
  exact this

/-- The document ids handed out for a collection increase, whatever was cut short in between. -/
theorem C84_increasing (hdb : Fresh Sequence.metaPrefix db) (hb : Brief K (xs.flatMap whole)) (x : Int64) :
    (drawn x (xs.flatMap heard) (Torn.run J xs { db := db }).1).Pairwise (· < ·) ∧
    ∀ v ∈ drawn x (xs.flatMap heard) (Torn.run J xs { db := db }).1, 0 < v := by
  obtain ⟨as, Q, h1, h2, -⟩ := Torn.run_serves J hdb hb
  obtain ⟨g1, g2⟩ := drawn_sorted h1 x
  rw [h2.drawn] at g1 g2
  exact ⟨g1, fun v hv => by rw [Int64.lt_iff_toInt_lt]; exact g2 v hv⟩

/-- The stored version is the number of databases created, each version has the diff of its database, and the databases
listed are those of the diffs. -/
theorem C84_diffs (hdb : Fresh Sequence.metaPrefix db) (hb : Brief K (xs.flatMap whole)) (env : Env) :
    ∃ dbs : List DBInfo, dbs.length < 2 ^ 63 ∧
      asks J (Torn.run J xs { db := db }).2.db env .getSchemaVersion = .ok (Int64.ofNat dbs.length) ∧
      (∀ i d, dbs[i]? = some d → ∃ ids, ids.Perm (d.collections.ents.map (fun e => e.2.id)) ∧
        asks J (Torn.run J xs { db := db }).2.db env (.getSchemaDiff (Int64.ofNat (i + 1))) =
          .ok (some ⟨Int64.ofNat (i + 1), .createSchema, ids, .db d⟩)) ∧
      (∀ v : Int64, ¬ (0 < v ∧ v ≤ Int64.ofNat dbs.length) →
        asks J (Torn.run J xs { db := db }).2.db env (.getSchemaDiff v) = .ok none) ∧
      ∃ l, asks J (Torn.run J xs { db := db }).2.db env .listDatabases = .ok l ∧ l.Perm (dbs.map openDB) ∧
        ∀ p ∈ l, ∃ cs, asks J (Torn.run J xs { db := db }).2.db env (.listCollections p.id) = .ok cs ∧
          cs.Perm (p.collections.ents.map Prod.snd) := by
  obtain ⟨as, Q, h1, h2, h3⟩ := Torn.run_serves J hdb hb
  exact diffs_kept h3 env

/-- Wherever the process died, a process started on the database comes up if the engine refuses no commit. -/
theorem C84_restart (hdb : Fresh Sequence.metaPrefix db) {x : TEv} (hx : Dies x) {o : DBInfo → Order} {env : Env}
    {fail : Int64 → Option Err} (hb : Brief K ((xs ++ [x]).flatMap whole ++ [.init o env fail])) (hf : ∀ x, fail x = none) :
    ((Torn.run J (xs ++ [x]) { db := db }).2.step J (.init o env fail)).1 = .inited (.ok ()) ∧
    ((Torn.run J (xs ++ [x]) { db := db }).2.step J (.init o env fail)).2.up = true := by
  obtain ⟨as, P, Q, -, -, h1, h2, h3⟩ := Torn.run_serves_two J hdb hb
  have hno : ∀ y, P.has y = false := by
    intro y
    rw [← h1.has y, Torn.run_append]
    generalize (Torn.run J xs { db := db }).2 = w
    cases x with
    | ev e => have : e = .crash := hx; subst this; rfl
    | turn o₁ o₂ o₃ c after n =>
      show ((turnDies J o₁ o₂ o₃ c after n w).seqs y).isSome = false
      unfold turnDies
      split
      · rfl
      · simp only; split <;> rfl
    | init o env fail n =>
      show ((initDies J o env fail n w).seqs y).isSome = false
      unfold initDies
      simp only; split <;> rfl
  have h3 : Serves J K (2 ^ 62) Q ((Torn.run J (xs ++ [x]) { db := db }).2.step J (.init o env fail)).2 := h3
  rw [h3.up]
  cases h2 with
  | cons s1 s2 h4 h5 =>
    cases h5
    generalize ((Torn.run J (xs ++ [x]) { db := db }).2.step J (.init o env fail)).1 = a at h4 ⊢
    cases h4 with
    | init _ _ => exact ⟨rfl, rfl⟩
    | initAgain he _ _ => obtain ⟨p, -, h⟩ := he; rw [hno] at h; cases h
    | initRefused he _ _ => obtain ⟨p, -, h⟩ := he; rw [hf] at h; cases h

/-- Once Init succeeded, a document id can be drawn for every collection listed — also if the process died before the
sequence of that collection was ever made. -/
theorem C84_ready (hdb : Fresh Sequence.metaPrefix db) {env : Env} {l : List DBInfo} {d : DBInfo} {x : Bytes × CollectionInfo}
    {c : Ddl.Circ} (hb : Brief K (xs.flatMap whole ++ [.draw x.2.id c])) (hup : (Torn.run J xs { db := db }).2.up = true)
    (hl : asks J (Torn.run J xs { db := db }).2.db env .listDatabases = .ok l) (hd : d ∈ l) (hx : x ∈ d.collections.ents) :
    ∃ r, ((Torn.run J xs { db := db }).2.step J (.draw x.2.id c)).1 = .id r ∧
      ((∃ v, r = .ok v) ∨ ∃ e, c.fail = some e ∧ r = .err e) := by
  obtain ⟨as, P, Q, -, -, h1, h2, -⟩ := Torn.run_serves_two J hdb hb
  have hhas : P.has x.2.id = true := h1.all (by rw [← h1.up]; exact hup) _ (listed_coll h1 hl hd hx)
  cases h2 with
  | cons s1 s2 h4 h5 =>
    generalize ((Torn.run J xs { db := db }).2.step J (.draw x.2.id c)).1 = a at h4 ⊢
    cases h4 with
    | draw _ _ => exact ⟨_, rfl, .inl ⟨_, rfl⟩⟩
    | drawRefused _ hf => exact ⟨_, rfl, .inr ⟨_, hf, rfl⟩⟩
    | drawNot hn => rw [hhas] at hn; cases hn

/-- If no call panicked and the requests accepted so far are for databases with different names, then once the worker has
had two turns for each, the caller waiting for any of them returns without an error — also if the process died in the
middle of the turn that made its database. -/
theorem C84_progress (hdb : Fresh Sequence.metaPrefix db) {ws : List Ev} {id : Int64} {c : Ddl.Circ}
    (hb : Brief K (xs.flatMap whole ++ (ws ++ [.getJob id c])))
    (hcalm : ∀ a ∈ (Torn.run J xs { db := db }).1, a ≠ .job .panic)
    (hacc : ∀ j ∈ accepted (Torn.run J xs { db := db }).1, (dbOf j).isSome)
    (hnames : ((accepted (Torn.run J xs { db := db }).1).filterMap (fun j => (dbOf j).map (·.name))).Nodup)
    (hup : (Torn.run J xs { db := db }).2.up = true)
    (hturns : Turns ws) (hlen : 2 * (accepted (Torn.run J xs { db := db }).1).length ≤ ws.length)
    (hj : ∃ j ∈ accepted (Torn.run J xs { db := db }).1, j.id = id) (hc : c.fail = none) :
    ∃ r, ((Torn.run J (xs ++ ws.map .ev) { db := db }).2.step J (.getJob id c)).1 = .found r ∧ checkOnce r = some (.ok ()) := by
  obtain ⟨as, P, R, h1, hs, h2, h3, -⟩ := Torn.run_serves_two J hdb hb
  rw [← hs.accepted] at hacc hnames hlen hj
  obtain ⟨k1, k2, k3, k4⟩ := clean_steps h1 ⟨fun r hr => absurd hr List.not_mem_nil, List.nodup_nil⟩ (hs.panic hcalm) hacc hnames
  rw [Ddl.run_append] at h3
  obtain ⟨e₁, e₂, Q, e, h5, h6⟩ := h3.split
  have hl : e₁.length = ws.length := by rw [← h5.length, Ddl.run_length]
  obtain ⟨rfl, rfl⟩ := List.append_inj e hl.symm
  obtain ⟨g1, g2, g3⟩ := turns_run h5 (by rw [← h2.up]; exact hup) hturns k1
  have hz : Q.state.queue = [] := by
    apply turns_zero
    have := turns_le P.state.queue
    have k2 : P.state.queue.length ≤ 0 + (accepted as).length := k2
    omega
  obtain ⟨j, hj, rfl⟩ := hj
  cases hd : dbOf j with
  | none => have := hacc j hj; rw [hd] at this; cases this
  | some d =>
    rcases g3 _ _ (k4 j hj d hd) with ⟨s, h⟩ | h
    · rw [hz] at h; exact absurd h List.not_mem_nil
    cases h6 with
    | cons s1 s2 h7 h8 =>
      rw [Torn.run_append, Torn.run_ev]
      generalize World.step J (Ddl.run J ws (Torn.run J xs { db := db }).2).2 (Ev.getJob j.id c) = x at h7 ⊢
      generalize x.1 = a at h7 ⊢
      cases h7 with
      | getJobRefused he => rw [hc] at he; cases he
      | getJob =>
        refine ⟨_, rfl, ?_⟩
        unfold DState.finishedJob
        cases hf : Q.state.finished.find? (fun f => decide (f.1 = j.id)) with
        | none =>
          have := List.find?_eq_none.mp hf _ h
          simp at this
        | some f => rfl

/-- Nothing new where the process does not die in the middle. -/
theorem C84_alone (es : List Ev) (w : World) : Torn.run J (es.map .ev) w = Ddl.run J es w := Torn.run_ev J es w

end

/-! ## Cases meeting the hypotheses -/

/-- A turn, and the process dies when `n` sequences were made. -/
def turnCut (n : Nat) : TEv := .turn asIs asIs asIs quiet plainEnv n
/-- Init, and the process dies when `n` sequences were made. -/
def startCut (n : Nat) : TEv := .init (fun _ => asIs) plainEnv (fun _ => none) n

/-- Database "a", with collections 2 and 3, is requested; the process dies in the turn that makes it, when one of the two
sequences was made; the next process dies in Init, when one of the two was made. -/
def cutStory : List TEv := [.ev start, .ev createA, turnCut 1, startCut 1]

set_option maxRecDepth 100000

/-- How far the document ids of a collection of database 1 are leased. -/
def leasedTo (c : Int64) (xs : List TEv) : Option Int64 :=
  let db := (Torn.run plainJson xs { db := OMap.empty }).2.db
  match (⟨true, plainEnv, none, Client.one (.incDidSequence 1 c 0)⟩ : MetaTxn Int64).run plainJson db with
  | (.ok v, _) => some v
  | _ => none

/-- The database is there, and only the first sequence was made, twice: nobody ever drew the first thousand. -/
example : leasedTo 2 [.ev start, .ev createA, turnCut 1] = some 1000 ∧ leasedTo 3 [.ev start, .ev createA, turnCut 1] = some 0 ∧
    leasedTo 2 cutStory = some 2000 ∧ leasedTo 3 cutStory = some 0 ∧
    leasedTo 2 [.ev start, .ev createA, turnCut 5] = some 1000 ∧ leasedTo 3 [.ev start, .ev createA, turnCut 5] = some 1000 := by
  decide +kernel

theorem cut_fits {ys : List Ev} (h : ∀ e ∈ ys, e = start ∨ e = createA ∨ e = createB ∨ e = turn ∨ e = indexX ∨ e = draw2 ∨ e = .crash ∨
    ∃ id, e = .getJob id quiet) (hn : (cutStory.flatMap whole ++ ys).length ≤ 20) : Brief 2 (cutStory.flatMap whole ++ ys) := by
  refine brief_of ?_ ?_
  · intro e he
    rcases List.mem_append.mp he with he | he
    · have : cutStory.flatMap whole = [start, createA, turn, .crash, start, .crash] := rfl
      rw [this] at he
      simp only [List.mem_cons, List.not_mem_nil, or_false] at he
      rcases he with rfl | rfl | rfl | rfl | rfl | rfl
      · exact .inl rfl
      · exact .inr (.inl rfl)
      · exact .inr (.inr (.inr (.inl rfl)))
      · exact .inr (.inr (.inr (.inr (.inr (.inr (.inl rfl))))))
      · exact .inl rfl
      · exact .inr (.inr (.inr (.inr (.inr (.inr (.inl rfl))))))
    · exact h e he
  · have : (cutStory.flatMap whole ++ ys).length * (4 * ((cutStory.flatMap whole ++ ys).length + 1) * (2 + 300)) ≤ 20 * (4 * 21 * 302) :=
      Nat.mul_le_mul hn (Nat.mul_le_mul (by omega) (by omega))
    omega

/-- C84_restart at work. -/
example : ((Torn.run plainJson cutStory { db := OMap.empty }).2.step plainJson start).1 = .inited (.ok ()) :=
  (C84_restart (K := 2) (xs := [.ev start, .ev createA, turnCut 1]) (x := startCut 1) freshDB trivial
    (cut_fits (ys := [start]) (by simp) (by decide)) (fun _ => rfl)).1

/-- C84_ready at work: the sequence of collection 3 was never made by a turn. -/
example : (match ((Torn.run plainJson (cutStory ++ [.ev start]) { db := OMap.empty }).2.step plainJson (.draw 3 quiet)).1 with
    | .id (.ok v) => some v
    | _ => none) = some 1 := by decide +kernel

/-- C84_history, C84_turn_seen and C84_diffs at work: the database of the turn that was cut short is listed. -/
example : asks plainJson (Torn.run plainJson [.ev start, .ev createA, turnCut 1] { db := OMap.empty }).2.db plainEnv .getSchemaVersion = .ok 1 ∧
    asks plainJson (Torn.run plainJson [.ev start, .ev createA] { db := OMap.empty }).2.db plainEnv .getSchemaVersion = .ok 0 := by
  decide +kernel

/-- C84_increasing at work: ids 1 and 2 before, 2001 after the process died in Init (which leased another thousand). -/
example : drawn 2 ([.ev start, .ev createA, .ev turn, .ev draw2, .ev draw2, .ev .crash, startCut 1, .ev start, .ev draw2].flatMap heard)
    (Torn.run plainJson [.ev start, .ev createA, .ev turn, .ev draw2, .ev draw2, .ev .crash, startCut 1, .ev start, .ev draw2]
      { db := OMap.empty }).1 = [1, 2, 2001] := by decide +kernel

/-- C84_progress at work: the caller of the request, job 4, was answered before the process died twice. -/
example : ∃ r, ((Torn.run plainJson ((cutStory ++ [.ev start]) ++ [turn, turn].map .ev) { db := OMap.empty }).2.step plainJson
    (.getJob 4 quiet)).1 = .found r ∧ checkOnce r = some (.ok ()) := by
  have h1 : (Torn.run plainJson (cutStory ++ [.ev start]) { db := OMap.empty }).1.all (fun
        | .job .panic => false
        | _ => true) = true ∧
      (accepted (Torn.run plainJson (cutStory ++ [.ev start]) { db := OMap.empty }).1).map (fun j => (j.id, (dbOf j).isSome)) = [(4, true)] ∧
      (Torn.run plainJson (cutStory ++ [.ev start]) { db := OMap.empty }).2.up = true := by decide +kernel
  obtain ⟨h1, h2, h3⟩ := h1
  have h4 : ∃ j, accepted (Torn.run plainJson (cutStory ++ [.ev start]) { db := OMap.empty }).1 = [j] ∧ j.id = 4 ∧ (dbOf j).isSome = true := by
    generalize accepted (Torn.run plainJson (cutStory ++ [.ev start]) { db := OMap.empty }).1 = l at h2 ⊢
    rcases l with _ | ⟨j, _ | ⟨k, l⟩⟩
    · cases h2
    · have h2 := List.head_eq_of_cons_eq h2
      exact ⟨j, rfl, (Prod.mk.inj h2).1, (Prod.mk.inj h2).2⟩
    · have := congrArg List.length h2
      simp at this
  obtain ⟨j, hj, hid, hdb⟩ := h4
  refine C84_progress (K := 2) freshDB ?_ ?_ ?_ ?_ h3 ?_ ?_ ?_ rfl
  · have := cut_fits (ys := [start, turn, turn, .getJob 4 quiet]) (by simp) (by decide)
    exact this
  · intro a ha e
    have := List.all_eq_true.mp h1 a ha
    rw [e] at this
    cases this
  · intro k hk
    rw [hj] at hk
    rw [List.mem_singleton.mp hk]; exact hdb
  · rw [hj]
    cases hd : dbOf j with
    | none => simp [hd]
    | some d => simp [hd]
  · intro e he
    have : e = turn := by
      simp only [List.mem_cons, List.not_mem_nil, or_false, or_self] at he
      exact he
    exact ⟨_, _, _, _, _, this, rfl⟩
  · rw [hj]; exact Nat.le_refl 2
  · rw [hj]; exact ⟨j, List.mem_cons_self, hid⟩

end Mondis.Props
