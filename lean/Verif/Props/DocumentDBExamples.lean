import Verif.Props.DocumentDB
/-!
# C75: cases
-/
namespace Mondis.DocDB
open Mondis Prog Doc Spec Props

variable {D : Type} {C : Codec D} {IC : IndexCodec} {w : World} {es : List (Ev D)}

/-! ### `Undisturbed` can be checked -/

def overlaps (w : World) (j k : Nat) : Bool :=
  match w.sessions[j]?, w.sessions[k]? with
  | some sj, some sk => match sj.phase, sk.phase with
    | .committed m, .committed n => decide (sk.v < m) && decide (m < n)
    | _, _ => false
  | _, _ => false

def disturbs (tj tk : List (Said D)) : Bool := tk.any (fun q => !q.call.point && tj.any (fun r => r.wrote && decide (r.coll = q.coll)))

theorem undisturbed_of (h : ((List.range (run C IC es w).2.sessions.length).all fun j => (List.range (run C IC es w).2.sessions.length).all fun k =>
    !(overlaps (run C IC es w).2 j k && disturbs (saidIn j es (run C IC es w).1) (saidIn k es (run C IC es w).1))) = true) :
    Undisturbed C IC es w := by
  rintro j k ⟨sj, sk, m, n, h1, h2, h3, h4, h5, h6⟩ q hq hp r hr hw he
  have hj := (List.getElem?_eq_some_iff.mp h1).1
  have hk := (List.getElem?_eq_some_iff.mp h2).1
  have := List.all_eq_true.mp (List.all_eq_true.mp h j (List.mem_range.mpr hj)) k (List.mem_range.mpr hk)
  rw [Bool.not_eq_true', Bool.and_eq_false_iff] at this
  rcases this with this | this
  · unfold overlaps at this
    rw [h1, h2] at this
    simp only [h3, h4] at this
    simp [h5, h6] at this
  · have := List.any_eq_false.mp this q hq
    refine this ?_
    rw [hp]
    exact List.any_eq_true.mpr ⟨r, hr, by rw [hw]; exact decide_eq_true he⟩

theorem blank : Blank OMap.empty := fun k hk => absurd (OMap.get_empty k) hk

set_option maxRecDepth 100000

/-- Quiet circumstances. -/
def turn (v : Nat) : Turn := ⟨v, plainEnv, none⟩
def reading : Env := { plainEnv with update := false }
def nameX : Bytes := [120]
def nameY : Bytes := [121]

/-- Two processes.  Both ask for collection "x" at the same time, and one has to ask again; the second also makes "y". -/
def opening : List (Ev Bytes) :=
  [.newDB (turn 0), .newDB2 0 (turn 1), .newDB (turn 2), .newDB2 1 (turn 3),
   .lookup 0 nameX .usual 4 plainEnv (turn 4), .lookup 1 nameX .usual 4 plainEnv (turn 4),
   .register 0 none, .register 1 none, .sequence 0 (turn 5), .indexes 0 plainEnv,
   .lookup 1 nameX .usual 6 plainEnv (turn 6), .sequence 1 (turn 6), .indexes 1 plainEnv,
   .lookup 1 nameY .usual 7 plainEnv (turn 7), .register 1 none, .sequence 1 (turn 8), .indexes 1 plainEnv]

/-- Two transactions at the same time, one in each process.  The second counts "y", inserts into "x" and "y", and commits first.
A read-only one is begun before the commits, another between them. -/
def together : List (Ev Bytes) := opening ++
  [.begin plainEnv, .begin plainEnv, .insert 0 0 nameX [5] .usual (turn 9), .insert 1 1 nameX [6] .usual (turn 9),
   .op 0 0 nameX (.getOne 9) .usual, .op 1 1 nameY .count .usual, .insert 1 1 nameY [0, 7] .usual (turn 9), .begin reading,
   .commit 1 none, .op 0 0 nameX (.upsert 3 [8]) .usual, .op 2 1 nameX .count .usual, .begin reading, .commit 0 none,
   .op 3 1 nameX .count .usual, .op 3 1 nameX (.getOne 1001) .usual, .op 3 1 nameX .deleteAll .usual, .crash 0]

/-- CreateIndex is under way when Close begins; Close waits for it. -/
def closing : List (Ev Bytes) := together ++
  [.begin plainEnv, .createIndex 1 nameX ⟨[97], [⟨[98], false⟩], false⟩ .usual 11 plainEnv (turn 11), .close 1, .closed 1 plainEnv,
   .insert 4 1 nameX [7] .usual (turn 11), .writeIndex 0 none, .closed 1 plainEnv, .finish 0, .closed 1 plainEnv]

def answers (es : List (Ev Bytes)) : List (Answer Bytes) := (run demoCodec Idx.demoIC es (World.start OMap.empty)).1
def world (es : List (Ev Bytes)) : World := (run demoCodec Idx.demoIC es (World.start OMap.empty)).2

/-- What Collection answered. -/
def handles (es : List (Ev Bytes)) : List (Res Unit) := (answers es).filterMap (fun a => match a with
  | .handle r => some r
  | _ => none)

def isClosed : Answer Bytes → Bool
  | .closed => true
  | _ => false

theorem isClosed_eq {a : Answer Bytes} (h : isClosed a = true) : a = .closed := by
  cases a <;> first | rfl | cases h

theorem begins (es : List (Ev Bytes)) (h : (es.all fun e => match e with
    | .begin _ => false
    | _ => true) = true) : ∀ env, .begin env ∈ es → Roomy env := by
  intro env hm
  have := List.all_eq_true.mp h _ hm
  cases this

theorem brief_together : Brief together := by
  refine ⟨by decide, fun env hm => ?_⟩
  rcases List.mem_append.mp hm with hm | hm
  · exact begins opening (by decide) env hm
  · simp only [List.mem_cons, Ev.begin.injEq, reduceCtorEq, false_or, List.not_mem_nil, or_false] at hm
    rcases hm with rfl | rfl | rfl | rfl <;> exact fun _ => rfl

theorem brief_closing : Brief closing := by
  refine ⟨by decide, fun env hm => ?_⟩
  rcases List.mem_append.mp hm with hm | hm
  · exact brief_together.2 env hm
  · simp only [List.mem_cons, Ev.begin.injEq, reduceCtorEq, List.not_mem_nil, or_false] at hm
    subst hm; exact fun _ => rfl

/-- The first race is lost by the second process; both transactions commit, and they overlap; ids are from two leases. -/
example : handles together = [.err .conflict, .ok (), .ok (), .ok ()] ∧ writersIn together (answers together) = [1, 0] ∧
    overlaps (world together) 1 0 = true ∧ idsIn nameX together (answers together) = [1, 1001] ∧
    idsIn nameY together (answers together) = [1] := by
  refine ⟨by decide +kernel, by decide +kernel, by decide +kernel, by decide +kernel, by decide +kernel⟩

theorem undisturbed_together : Undisturbed demoCodec Idx.demoIC together (World.start OMap.empty) := undisturbed_of (by decide +kernel)

example : ∃ N, Serial demoCodec.norm Library.empty ((writersIn together (answers together)).map (fun k => saidIn k together (answers together))) N ∧
    Holdings demoCodec (world together).store.db N :=
  C75_serializable blank brief_together undisturbed_together _ rfl

/-- The transaction that had begun before the first commit, and the one begun after it. -/
example : ((saidIn 2 together (answers together)).map (·.answer)) = [.ok (.num 0)] ∧
    ((saidIn 3 together (answers together)).map (·.answer)) = [.ok (.num 1), .ok (.doc [6]), .err .readOnlyTxn] := by
  refine ⟨by decide +kernel, by decide +kernel⟩

example : ∃ N, Holdings demoCodec (world opening).store.db N ∧
    (Spec.play demoCodec.norm N (saidIn 0 together (answers together))).1 = [.ok .unit, .err errDocNotFound, .ok (.flag true)] := by
  obtain ⟨N, h1, h2, -⟩ := C75_snapshot (C := demoCodec) (IC := Idx.demoIC) blank brief_together
    (show together = opening ++ .begin plainEnv :: together.drop 18 by rfl) 0 (by decide +kernel) _ rfl
  refine ⟨N, h1, (h2 rfl).trans ?_⟩
  show (saidIn 0 together (answers together)).map (·.answer) = _
  decide +kernel

example : ∃ N, Serial demoCodec.norm Library.empty ((writersIn (together.take 28) (answers (together.take 28))).map
      (fun j => saidIn j (together.take 28) (answers (together.take 28)))) N ∧
    ∀ q ∈ saidIn 3 together (answers together),
      q.answer = (q.call.sem demoCodec.norm (N q.db q.coll)).1 ∨ (q.call.reads = false ∧ q.answer = .err .readOnlyTxn) :=
  C75_readers blank brief_together undisturbed_together (show together = together.take 28 ++ .begin reading :: together.drop 29 by rfl) rfl 3
    (by decide +kernel) _ rfl

/-- Both processes have an object of "x". -/
example : numberOf (world (together.take 30)).store.db nameX = some 1 ∧ numberOf (world together).store.db nameY = some 52 ∧
    (((world (together.take 30)).obj 0).bind (fun o => (o.colls.get nameX).map (·.cid))) = some 1 ∧
    (((world (together.take 30)).obj 1).bind (fun o => (o.colls.get nameX).map (·.cid))) = some 1 ∧
    (((world (together.take 30)).obj 1).bind (fun o => (o.colls.get nameY).map (·.cid))) = some 52 := by
  refine ⟨by decide +kernel, by decide +kernel, by decide +kernel, by decide +kernel, by decide +kernel⟩

/-- Close answers the third time only. -/
example : ((answers closing).drop 34).map isClosed = [false, false, false, false, false, false, false, false, true] := by decide +kernel

/-- InsertOne on an object that Collection gave before fails once Close has returned. -/
example : ((world closing).step demoCodec Idx.demoIC (.insert 4 1 nameX [7] .usual (turn 12))).1.failed = true := by
  rcases (C75_closed (C := demoCodec) (IC := Idx.demoIC) (w := World.start OMap.empty) (l₁ := closing.take 42) (l₂ := []) (i := 1) (env := plainEnv)
    (e := .insert 4 1 nameX [7] .usual (turn 12)) (isClosed_eq (by decide +kernel)) (world closing) rfl rfl).2 with h | ⟨_, _, _, _, _, h, _⟩
  · exact h
  · cases h

/-- A reserved name. -/
example : reserved [105, 110, 100, 101, 120] = true := by decide

/-- Two transactions count "x" at the same time, and each inserts a document of its own: `Undisturbed` cannot be left out. -/
def phantoms : List (Ev Bytes) := opening ++
  [.begin plainEnv, .begin plainEnv, .op 0 0 nameX .count .usual, .insert 0 0 nameX [5] .usual (turn 9), .op 1 1 nameX .count .usual,
   .insert 1 1 nameX [5] .usual (turn 9), .commit 1 none, .commit 0 none]

example : writersIn phantoms (answers phantoms) = [1, 0] ∧
    (∀ N, ¬ Serial demoCodec.norm Library.empty [saidIn 1 phantoms (answers phantoms), saidIn 0 phantoms (answers phantoms)] N) ∧
    (∀ N, ¬ Serial demoCodec.norm Library.empty [saidIn 0 phantoms (answers phantoms), saidIn 1 phantoms (answers phantoms)] N) := by
  refine ⟨by decide +kernel, fun N h => ?_, fun N h => ?_⟩
  · exact absurd h.2.1 (by decide +kernel)
  · exact absurd h.2.1 (by decide +kernel)

end Mondis.DocDB
