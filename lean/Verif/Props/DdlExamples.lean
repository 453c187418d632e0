import Verif.Props.Ddl
/-!
# Cases meeting the hypotheses of `Props/Ddl.lean`
-/
namespace Mondis.Props
open Mondis Spec Schema Meta Structure Ddl

/-- A `range` that happens to visit in order. -/
def asIs : Order := ⟨fun l => l, fun l => .refl _⟩
def quiet : Ddl.Circ := ⟨plainEnv, none⟩
/-- The engine refuses the commit. -/
def refused : Ddl.Circ := ⟨plainEnv, some .conflict⟩

def nameA : Bytes := [97]
def nameB : Bytes := [98]
def nameX : Bytes := [120]
def nameY : Bytes := [121]

/-- CreateSchema of database "a" with collections "x" and "y" -/
def createA : Ev := .createSchema asIs { db := nameA, collections := [nameX, nameY] } quiet
/-- CreateSchema of database "b" with collection "x" -/
def createB : Ev := .createSchema asIs { db := nameB, collections := [nameX] } quiet
/-- A request refused by the engine. -/
def createRefused : Ev := .createSchema asIs { db := nameB, collections := [nameX] } refused
def turn : Ev := .work asIs asIs asIs quiet plainEnv
def start : Ev := .init (fun _ => asIs) plainEnv (fun _ => none)
/-- AddIndex on collection "x" of database "a" -/
def indexX : Ev := .addIndex { db := nameA, collection := nameX, index := { name := nameB, columns := [nameY] } } quiet
/-- A document id for the collection with id 2 -/
def draw2 : Ev := .draw 2 quiet

theorem utf8_one {s : String} {x : UInt8} (h : s.toUTF8 = ⟨#[x]⟩) : s.toUTF8.toList = [x] := by
  rw [h]
  unfold ByteArray.toList
  rw [ByteArray.toList.loop.eq_def, if_pos (by show 0 < 1; omega), ByteArray.toList.loop.eq_def, if_neg (by show ¬ (1 < 1); omega)]
  rfl

theorem text_a : IsText nameA := ⟨"a", utf8_one (by decide)⟩
theorem text_b : IsText nameB := ⟨"b", utf8_one (by decide)⟩
theorem text_x : IsText nameX := ⟨"x", utf8_one (by decide)⟩
theorem text_y : IsText nameY := ⟨"y", utf8_one (by decide)⟩
theorem roomy : Roomy plainEnv := fun _ => rfl

theorem fits_createA : EvFits 2 createA :=
  ⟨⟨text_a, fun c hc => by
    rcases List.mem_cons.mp hc with rfl | hc
    · exact text_x
    · rw [List.mem_singleton.mp hc]; exact text_y⟩, by decide, roomy⟩
theorem fits_createB : EvFits 2 createB :=
  ⟨⟨text_b, fun c hc => by rw [List.mem_singleton.mp hc]; exact text_x⟩, by decide, roomy⟩
theorem fits_createRefused : EvFits 2 createRefused :=
  ⟨⟨text_b, fun c hc => by rw [List.mem_singleton.mp hc]; exact text_x⟩, by decide, roomy⟩
theorem fits_turn : EvFits 2 turn := ⟨roomy, roomy⟩
theorem fits_start : EvFits 2 start := roomy
theorem fits_index : EvFits 2 indexX :=
  ⟨⟨text_a, text_x, text_b, fun c hc => by rw [List.mem_singleton.mp hc]; exact text_y⟩, roomy⟩
theorem fits_draw : EvFits 2 draw2 := roomy
theorem fits_get (id : Int64) : EvFits 2 (.getJob id quiet) := roomy

theorem freshDB : Fresh Sequence.metaPrefix OMap.empty := fun k _ => OMap.get_empty k

/-- Two databases are requested (one request refused first), the process dies after the first turn and is started
again. -/
def story : List Ev := [start, createA, createRefused, turn, createB, .crash, start]

/-- Then the worker takes four turns, and the caller of the second request looks. -/
def story2 : List Ev := story ++ ([turn, turn, turn, turn] ++ [.getJob 7 quiet])

theorem story2_fits : Brief 2 story2 := by
  refine ⟨?_, by decide⟩
  intro e he
  simp only [story2, story, List.cons_append, List.nil_append, List.mem_cons, List.not_mem_nil, or_false] at he
  rcases he with rfl | rfl | rfl | rfl | rfl | rfl | rfl | rfl | rfl | rfl | rfl | rfl
  · exact fits_start
  · exact fits_createA
  · exact fits_createRefused
  · exact fits_turn
  · exact fits_createB
  · trivial
  · exact fits_start
  · exact fits_turn
  · exact fits_turn
  · exact fits_turn
  · exact fits_turn
  · exact fits_get 7

set_option maxRecDepth 100000

/-- Both requests were accepted: jobs 4 and 7. -/
theorem story_accepts : (accepted (Ddl.run plainJson story { db := OMap.empty }).1).map (·.id) = [4, 7] ∧
    (accepted (Ddl.run plainJson story { db := OMap.empty }).1).map (fun j => (dbOf j).map (·.name)) = [some nameA, some nameB] ∧
    (Ddl.run plainJson story { db := OMap.empty }).2.up = true := by decide

/-- C54_progress at work. -/
example : ∃ r, ((Ddl.run plainJson (story ++ [turn, turn, turn, turn]) { db := OMap.empty }).2.step plainJson (.getJob 7 quiet)).1 = .found r ∧
    checkOnce r = some (.ok ()) := by
  refine C54_progress (K := 2) freshDB story2_fits ?_ ?_ (by decide) (by decide) ?_ (by decide) ?_ rfl
  · have : ((Ddl.run plainJson story { db := OMap.empty }).1).all (fun
        | .job .panic => false
        | _ => true) = true := by decide
    intro a ha e
    have := List.all_eq_true.mp this a ha
    rw [e] at this
    cases this
  · have : (accepted (Ddl.run plainJson story { db := OMap.empty }).1).all (fun j => (dbOf j).isSome) = true := by decide
    exact List.all_eq_true.mp this
  · intro e he
    have : e = turn := by
      simp only [List.mem_cons, List.not_mem_nil, or_false, or_self] at he
      exact he
    exact ⟨_, _, _, _, _, this, rfl⟩
  · have : (accepted (Ddl.run plainJson story { db := OMap.empty }).1).any (fun j => decide (j.id = 7)) = true := by decide
    obtain ⟨j, hj, e⟩ := List.any_eq_true.mp this
    exact ⟨j, hj, of_decide_eq_true e⟩

/-- The ids 1 to 7 are those of the two jobs: database 1 with collections 2 and 3, job 4; database 5 with
collection 6, job 7. -/
example : (accepted (Ddl.run plainJson story { db := OMap.empty }).1).flatMap idsIn = [4, 1, 2, 3, 7, 5, 6] := by decide

/-- C57_diffs at work: in the end there are two versions. -/
example : asks plainJson (Ddl.run plainJson story2 { db := OMap.empty }).2.db plainEnv .getSchemaVersion = .ok 2 := by decide

/-- All events of a history fit. -/
theorem brief_of {es : List Ev} (h : ∀ e ∈ es, e = start ∨ e = createA ∨ e = createB ∨ e = turn ∨ e = indexX ∨ e = draw2 ∨ e = .crash ∨
    ∃ id, e = .getJob id quiet) (hn : es.length * (4 * (es.length + 1) * (2 + 300)) < 2 ^ 62) : Brief 2 es := by
  refine ⟨fun e he => ?_, hn⟩
  rcases h e he with rfl | rfl | rfl | rfl | rfl | rfl | rfl | ⟨id, rfl⟩
  · exact fits_start
  · exact fits_createA
  · exact fits_createB
  · exact fits_turn
  · exact fits_index
  · exact fits_draw
  · trivial
  · exact fits_get id

/-- C54_same_name_never at work: database "a" is requested twice before the worker runs, then "b" (job 11); after five
turns and a restart the caller of the request for "b" still waits. -/
example : (accepted (Ddl.run plainJson [start, createA, createA, createB] { db := OMap.empty }).1).map (·.id) = [4, 8, 11] ∧
    ∃ r, ((Ddl.run plainJson ([start, createA] ++ createA :: [createB, turn, turn, turn, .crash, start, turn, turn])
      { db := OMap.empty }).2.step plainJson (.getJob 11 quiet)).1 = .found r ∧ checkOnce r = none := by
  refine ⟨by decide, ?_⟩
  have h1 : (accepted (Ddl.run plainJson [start, createA] { db := OMap.empty }).1).any
      (fun j => decide ((dbOf j).map (·.name) = some nameA)) = true := by decide
  obtain ⟨j, hj, e⟩ := List.any_eq_true.mp h1
  have e := of_decide_eq_true e
  cases hd : dbOf j with
  | none => rw [hd] at e; cases e
  | some d =>
    rw [hd] at e
    have e : d.name = nameA := Option.some.inj e
    have h2 : (accepted [((Ddl.run plainJson [start, createA] { db := OMap.empty }).2.step plainJson createA).1]).map
        (fun j => (dbOf j).map (·.name)) = [some nameA] := by decide
    cases hx : ((Ddl.run plainJson [start, createA] { db := OMap.empty }).2.step plainJson createA).1 with
    | job r =>
      rw [hx] at h2
      cases r with
      | ok j' =>
        have h2 : [(dbOf j').map (·.name)] = [some nameA] := h2
        have h2 := List.head_eq_of_cons_eq h2
        cases hd' : dbOf j' with
        | none => rw [hd'] at h2; cases h2
        | some d' =>
          rw [hd'] at h2
          have h2 : d'.name = nameA := Option.some.inj h2
          refine C54_same_name_never (K := 2) freshDB (brief_of (by simp) (by decide)) hj hd hx hd' (h2.trans e.symm) (.inr ?_)
          have h3 : (accepted (Ddl.run plainJson [createB, turn, turn, turn, .crash, start, turn, turn]
            (Ddl.run plainJson ([start, createA] ++ [createA]) { db := OMap.empty }).2).1).any (fun j => decide (j.id = 11)) = true := by
            decide
          obtain ⟨x, hx, e⟩ := List.any_eq_true.mp h3
          exact ⟨x, hx, of_decide_eq_true e⟩
      | err e => cases h2
      | panic => cases h2
    | _ => rw [hx] at h2; cases h2

/-- C54_index_never at work: an index is requested once database "a" exists (job 6), then database "b" (job 9). -/
example : (accepted (Ddl.run plainJson [start, createA, turn, turn, indexX, createB] { db := OMap.empty }).1).map (·.id) = [4, 6, 9] ∧
    ∃ r, ((Ddl.run plainJson ([start, createA, turn, turn] ++ indexX :: [createB, turn, turn, turn, turn])
      { db := OMap.empty }).2.step plainJson (.getJob 9 quiet)).1 = .found r ∧ checkOnce r = none := by
  refine ⟨by decide, ?_⟩
  have h2 : (accepted [((Ddl.run plainJson [start, createA, turn, turn] { db := OMap.empty }).2.step plainJson indexX).1]).length = 1 := by
    decide
  cases hx : ((Ddl.run plainJson [start, createA, turn, turn] { db := OMap.empty }).2.step plainJson indexX).1 with
  | job r =>
    rw [hx] at h2
    cases r with
    | ok j =>
      refine C54_index_never (K := 2) freshDB (brief_of (by simp [indexX]) (by decide)) hx (.inr ?_)
      have h3 : (accepted (Ddl.run plainJson [createB, turn, turn, turn, turn]
        (Ddl.run plainJson ([start, createA, turn, turn] ++ [indexX]) { db := OMap.empty }).2).1).any (fun j => decide (j.id = 9)) = true := by
        decide
      obtain ⟨x, hx, e⟩ := List.any_eq_true.mp h3
      exact ⟨x, hx, of_decide_eq_true e⟩
    | err e => cases h2
    | panic => cases h2
  | _ => rw [hx] at h2; cases h2

/-- C55_before_init at work: database "a" is requested before Init, the caller gets a panic, and the worker started then
creates the database (job 4). -/
example : (match (({ db := OMap.empty } : World).step plainJson createA).1 with
      | .job .panic => true
      | _ => false) = true ∧
    (match ((started { db := OMap.empty }).step plainJson createA).1 with
      | .job (.ok j) => decide (j.id = 4)
      | _ => false) = true ∧
    (match ((Ddl.run plainJson [createA, start, turn, turn] { db := OMap.empty }).2.step plainJson (.getJob 4 quiet)).1 with
      | .found (.ok (some j)) => decide (j.state = .synced)
      | _ => false) = true := by decide

/-- C67 at work: four document ids, with a restart in between. -/
def draws : List Ev := [start, createA, turn, draw2, draw2, .crash, start, draw2, turn, draw2]

example : Brief 2 draws := brief_of (by simp [draws]) (by decide)
example : drawn 2 draws (Ddl.run plainJson draws { db := OMap.empty }).1 = [1, 2, 1001, 1002] := by decide

/-- C66_ready at work: in the end collection 2 is listed, and an id is drawn. -/
example : (Ddl.run plainJson draws { db := OMap.empty }).2.up = true ∧
    (∃ l, asks plainJson (Ddl.run plainJson draws { db := OMap.empty }).2.db plainEnv .listDatabases = .ok l ∧
      l.map (fun d => d.collections.ents.map (·.2.id)) = [[2, 3]]) ∧
    Brief 2 (draws ++ [draw2]) := by
  refine ⟨by decide, ?_, brief_of (by simp [draws]) (by decide)⟩
  have h : (match asks plainJson (Ddl.run plainJson draws { db := OMap.empty }).2.db plainEnv .listDatabases with
    | .ok l => decide (l.map (fun d => d.collections.ents.map (·.2.id)) = [[2, 3]])
    | _ => false) = true := by decide
  split at h
  · rename_i l hl
    exact ⟨l, hl, of_decide_eq_true h⟩
  · cases h

/-- C66_init_again at work: Init a second time, with nothing refused. -/
example : ∃ e, ((Ddl.run plainJson ([start, createA, turn] ++ draw2 :: [turn]) { db := OMap.empty }).2.step plainJson start).1 = .inited (.err e) ∧
    e = errSequenceAlreadyExists := by
  have h2 : drawn 2 [draw2] [((Ddl.run plainJson [start, createA, turn] { db := OMap.empty }).2.step plainJson draw2).1] = [1] := by decide
  cases hx : ((Ddl.run plainJson [start, createA, turn] { db := OMap.empty }).2.step plainJson draw2).1 with
  | id r =>
    rw [hx] at h2
    cases r with
    | ok v =>
      obtain ⟨e, h3, h4⟩ := C66_init_again (K := 2) freshDB (es₁ := [start, createA, turn]) (es₂ := [turn]) (fail := fun _ => none)
        (o := fun _ => asIs) (env := plainEnv) (brief_of (by intro e he; simp only [List.cons_append, List.nil_append, List.mem_cons, List.not_mem_nil, or_false] at he; rcases he with rfl | rfl | rfl | rfl | rfl | rfl <;> simp [start, draw2]) (by decide)) hx
        (by intro e he; rw [List.mem_singleton.mp he]; simp [turn])
      refine ⟨e, h3, h4.elim id ?_⟩
      rintro ⟨y, hy⟩
      cases hy
    | err e => cases h2
    | panic => cases h2
  | _ => rw [hx] at h2; cases h2

/-- An Init that is refused half-way through leaves the process unable to come up: collection 2 has its sequence already. -/
example : ((Ddl.run plainJson [start, createA, turn, .crash, .init (fun _ => asIs) plainEnv (fun c => if c = 3 then some .conflict else none), start]
    { db := OMap.empty }).1.map (fun
      | .inited (.ok _) => 0
      | .inited (.err .conflict) => 1
      | .inited (.err _) => 2
      | _ => 9)) = [0, 9, 9, 9, 1, 2] := by decide

end Mondis.Props
