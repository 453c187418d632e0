import Verif.Lemmas.DomainLooks
import Verif.Props.Domain
/-!
# The document process: the tale of a transaction

The calls in a transaction, on any documents that agree with its snapshot where it looked, answer what they answered.
-/
namespace Mondis.Props
open Mondis Prog Spec Schema Doc Domain

variable {D : Type} {norm : D → Res D}

/-- A call and the number of its collection; `none` if the call could have no effect. -/
abbrev Rec (D : Type) := Said D × Option Int64

/-- One call on documents by number. -/
def rerun (norm : D → Res D) (A : Docs D) (q : Rec D) : Res (DocOut D) × Docs D :=
  match q.2 with
  | some x => ((q.1.call.sem norm (A x)).1, A.upd x (q.1.call.sem norm (A x)).2)
  | none => (q.1.answer, A)

/-- Calls one after the other. -/
def reruns (norm : D → Res D) (A : Docs D) : List (Rec D) → List (Res (DocOut D)) × Docs D
  | [] => ([], A)
  | q :: l => ((rerun norm A q).1 :: (reruns norm (rerun norm A q).2 l).1, (reruns norm (rerun norm A q).2 l).2)

theorem reruns_snoc (A : Docs D) (l : List (Rec D)) (q : Rec D) :
    reruns norm A (l ++ [q]) = ((reruns norm A l).1 ++ [(rerun norm (reruns norm A l).2 q).1], (rerun norm (reruns norm A l).2 q).2) := by
  induction l generalizing A with
  | nil => rfl
  | cons p l ih => simp only [List.cons_append, reruns, ih]

/-- The answers that were given. -/
def answersOf (l : List (Rec D)) : List (Res (DocOut D)) := l.map (fun q => q.1.answer)

/-- What an update transaction did: it is at `v`, its snapshot was `base`, it looked at `looked`. -/
structure Tale (norm : D → Res D) (v : Visit D) (recs : List (Rec D)) (looked : List (Int64 × Int64)) (base : Docs D) : Prop where
  own : reruns norm base recs = (answersOf recs, v.docs)
  rep : ∀ A : Docs D, (∀ p ∈ looked, (A p.1).get p.2 = (base p.1).get p.2) →
    (∀ q ∈ recs, q.1.call.point = false → ∀ x, q.2 = some x → A x = base x) →
    (reruns norm A recs).1 = answersOf recs ∧ Merged v.touched v.docs A (reruns norm A recs).2
  touch : ∀ p ∈ v.touched, ∃ q ∈ recs, q.2 = some p.1 ∧ q.1.wrote = true
  wrote : ∀ q ∈ recs, q.1.wrote = true → v.touched ≠ []

theorem tale_start (v : Visit D) (ht : v.touched = []) (hp : Phase) : Tale norm { v with docs := v.docs, phase := hp } [] [] v.docs where
  own := rfl
  rep := by
    intro A _ _
    refine ⟨rfl, fun c i => ?_⟩
    show (A c).get i = if (c, i) ∈ v.touched then _ else _
    rw [ht, if_neg (by simp)]
  touch := by intro p hp; have : p ∈ v.touched := hp; rw [ht] at this; cases this
  wrote := nofun

/-- Where nothing was written the transaction sees its snapshot. -/
theorem Tale.unwritten {v : Visit D} {recs : List (Rec D)} {looked : List (Int64 × Int64)} {base : Docs D} (h : Tale norm v recs looked base)
    {c i : Int64} (hn : (c, i) ∉ v.touched) : (v.docs c).get i = (base c).get i := by
  have := (h.rep base (fun _ _ => rfl) (fun _ _ _ _ _ => rfl)).2 c i
  rw [h.own, if_neg hn] at this
  exact this

/-- A call with no effect. -/
theorem Tale.idle {v : Visit D} {recs : List (Rec D)} {looked : List (Int64 × Int64)} {base : Docs D} (h : Tale norm v recs looked base)
    (q : Said D) (hw : q.wrote = false) : Tale norm v (recs ++ [(q, none)]) looked base where
  own := by
    rw [reruns_snoc, h.own]
    simp [rerun, answersOf]
  rep := by
    intro A h1 h2
    obtain ⟨h3, h4⟩ := h.rep A h1 (fun q hq => h2 q (List.mem_append_left _ hq))
    rw [reruns_snoc]
    refine ⟨?_, h4⟩
    simp [rerun, answersOf, h3]
  touch := by
    intro p hp
    obtain ⟨q, h1, h2⟩ := h.touch p hp
    exact ⟨q, List.mem_append_left _ h1, h2⟩
  wrote := by
    intro r hr hw'
    rcases List.mem_append.mp hr with hr | hr
    · exact h.wrote r hr hw'
    · rw [List.mem_singleton.mp hr] at hw'
      rw [show (q, none (α := Int64)).1 = q from rfl, hw] at hw'; cases hw'

/-- A call on the documents of collection `x`. -/
theorem Tale.next {v : Visit D} {recs : List (Rec D)} {looked : List (Int64 × Int64)} {base : Docs D} (h : Tale norm v recs looked base)
    {q : Said D} {x : Int64} {op : DocOp D} (hsem : ∀ s, q.call.sem norm s = op.sem norm s)
    (hpoint : q.call.point = isPoint op) (hans : q.answer = (op.sem norm (v.docs x)).1)
    (hwrote : q.wrote = true ↔ op.touches norm (v.docs x) ≠ []) {v' : Visit D}
    (hd : v'.docs = v.docs.upd x (op.sem norm (v.docs x)).2) (ht : v'.touched = v.touched ++ (op.touches norm (v.docs x)).map (fun i => (x, i)))
    {more : List (Int64 × Int64)} (hm : ∀ i ∈ looks norm (v.docs x) op, (x, i) ∉ v.touched → (x, i) ∈ more) :
    Tale norm v' (recs ++ [(q, some x)]) (looked ++ more) base where
  own := by
    rw [reruns_snoc, h.own]
    simp [rerun, answersOf, hsem, hans, hd]
  rep := by
    intro A h1 h2
    obtain ⟨h3, h4⟩ := h.rep A (fun p hp => h1 p (List.mem_append_left _ hp)) (fun q hq => h2 q (List.mem_append_left _ hq))
    rw [reruns_snoc]
    generalize hA : (reruns norm A recs).2 = A' at h4 ⊢
    have agree : ∀ i, ((x, i) ∈ v.touched ∨ (A x).get i = (base x).get i) → (A' x).get i = (v.docs x).get i := by
      intro i hi
      rw [h4 x i]
      by_cases hx : (x, i) ∈ v.touched
      · rw [if_pos hx]
      · rw [if_neg hx, h.unwritten hx]
        exact hi.resolve_left hx
    have key : (op.sem norm (A' x)).1 = (op.sem norm (v.docs x)).1 ∧ op.touches norm (A' x) = op.touches norm (v.docs x) ∧
        ∀ i ∈ op.touches norm (v.docs x), (op.sem norm (A' x)).2.get i = (op.sem norm (v.docs x)).2.get i := by
      cases hp : isPoint op with
      | true =>
        refine sem_congr op hp (fun i hi => agree i ?_)
        by_cases hx : (x, i) ∈ v.touched
        · exact .inl hx
        · exact .inr (h1 (x, i) (List.mem_append_right _ (hm i hi hx)))
      | false =>
        have e := h2 (q, some x) (by simp) (by show q.call.point = false; rw [hpoint, hp]) x rfl
        have : A' x = v.docs x := IMap.ext (fun i => agree i (.inr (by rw [e])))
        rw [this]
        exact ⟨rfl, rfl, fun _ _ => rfl⟩
    refine ⟨?_, ?_⟩
    · simp only [rerun, answersOf, List.map_append, List.map_cons, List.map_nil]
      rw [show (recs.map (fun q : Rec D => q.1.answer)) = answersOf recs from rfl, h3, hsem, key.1, hans]
    · intro c i
      simp only [rerun, hsem]
      rw [ht, hd]
      unfold Docs.upd
      by_cases hc : c = x
      · subst hc
        rw [if_pos rfl, if_pos rfl]
        by_cases hi : i ∈ op.touches norm (v.docs c)
        · rw [if_pos (List.mem_append_right _ (List.mem_map.mpr ⟨i, hi, rfl⟩)), key.2.2 i hi]
        · have hi' : i ∉ op.touches norm (A' c) := by rw [key.2.1]; exact hi
          rw [untouched op _ hi', untouched op _ hi, h4 c i]
          by_cases hx : (c, i) ∈ v.touched
          · rw [if_pos hx, if_pos (List.mem_append_left _ hx)]
          · rw [if_neg hx, if_neg]
            intro hx'
            rcases List.mem_append.mp hx' with hx' | hx'
            · exact hx hx'
            · obtain ⟨j, hj, e⟩ := List.mem_map.mp hx'
              cases e; exact hi hj
      · rw [if_neg hc, if_neg hc, h4 c i]
        by_cases hx : (c, i) ∈ v.touched
        · rw [if_pos hx, if_pos (List.mem_append_left _ hx)]
        · rw [if_neg hx, if_neg]
          intro hx'
          rcases List.mem_append.mp hx' with hx' | hx'
          · exact hx hx'
          · obtain ⟨j, hj, e⟩ := List.mem_map.mp hx'
            cases e; exact hc rfl
  touch := by
    intro p hp
    rw [ht] at hp
    rcases List.mem_append.mp hp with hp | hp
    · obtain ⟨r, h1, h2⟩ := h.touch p hp
      exact ⟨r, List.mem_append_left _ h1, h2⟩
    · obtain ⟨i, hi, rfl⟩ := List.mem_map.mp hp
      refine ⟨(q, some x), by simp, rfl, hwrote.mpr ?_⟩
      intro e; rw [e] at hi; cases hi
  wrote := by
    intro r hr hw
    rw [ht]
    rcases List.mem_append.mp hr with hr | hr
    · intro e; exact h.wrote r hr hw (List.append_eq_nil_iff.mp e).1
    · rw [List.mem_singleton.mp hr] at hw
      intro e
      have := (List.append_eq_nil_iff.mp e).2
      exact hwrote.mp hw (List.map_eq_nil_iff.mp this)

/-- What a read-only transaction was told. -/
def Heard (norm : D → Res D) (base : Docs D) (q : Rec D) : Prop :=
  q.1.answer = (rerun norm base q).1 ∨ (q.1.call.reads = false ∧ q.1.answer = .err .readOnlyTxn)

/-! ### The calls -/

theorem at_sem (o : Op D) (x : Int64) (s : IMap D) : (DocCall.op o).sem norm s = (o.at x).sem norm s := by cases o <;> rfl

theorem at_point (o : Op D) (x : Int64) : (DocCall.op o).point = isPoint (o.at x) := by cases o <;> rfl

theorem fetch_err {s : IMap D} : ∀ {l : List Int64}, (∃ ds, fetch s l = .ok ds) ∨ fetch s l = .err errDocNotFound
  | [] => .inl ⟨[], rfl⟩
  | i :: is => by
    unfold fetch
    cases s.get i with
    | none => exact .inr rfl
    | some d =>
      rcases fetch_err (s := s) (l := is) with ⟨ds, h⟩ | h
      · exact .inl ⟨d :: ds, by rw [h]⟩
      · exact .inr (by rw [h])

/-- The answer of a call on a collection that exists is never that there is none. -/
theorem op_found (o : Op D) (x : Int64) (s : IMap D) {u : Unit} (h : docStorable norm o = .ok u) : noCollection ((o.at x).sem norm s).1 = false := by
  have hn : ∀ {d : D}, (norm d).map' (fun _ => ()) = .ok u → ∃ d', norm d = .ok d' := by
    intro d h
    cases hn : norm d with
    | ok d' => exact ⟨d', rfl⟩
    | err e => rw [hn] at h; cases h
    | panic => rw [hn] at h; cases h
  cases o with
  | insertManaged did d =>
    obtain ⟨d', h⟩ := hn h
    simp only [Op.at, DocOp.sem, storing, h]
    cases s.get did <;> rfl
  | update did d =>
    obtain ⟨d', h⟩ := hn h
    simp only [Op.at, DocOp.sem, storing, h]
    cases s.get did <;> rfl
  | upsert did d =>
    obtain ⟨d', h⟩ := hn h
    simp only [Op.at, DocOp.sem, storing, h]
    rfl
  | delete did => rfl
  | getOne did => simp only [Op.at, DocOp.sem]; cases s.get did <;> rfl
  | getMany l =>
    simp only [Op.at, DocOp.sem]
    rcases fetch_err (s := s) (l := l) with ⟨ds, h⟩ | h <;> rw [h] <;> rfl
  | getAll => rfl
  | count => rfl
  | deleteAll => rfl

/-- A call wrote something if it touched a document. -/
theorem op_wrote (o : Op D) (x : Int64) (s : IMap D) (db coll : Bytes) :
    (⟨db, coll, .op o, ((o.at x).sem norm s).1⟩ : Said D).wrote = true ↔ (o.at x).touches norm s ≠ [] := by
  cases o with
  | insertManaged did d =>
    simp only [Op.at, DocOp.sem, storing, DocOp.touches, Said.wrote]
    cases hn : norm d with
    | ok d' => cases hg : s.get did <;> simp [hg]
    | err e => simp
    | panic => simp
  | update did d =>
    simp only [Op.at, DocOp.sem, storing, DocOp.touches, Said.wrote]
    cases hn : norm d with
    | ok d' => cases hg : s.get did <;> simp [hg]
    | err e => simp
    | panic => simp
  | upsert did d =>
    simp only [Op.at, DocOp.sem, storing, DocOp.touches, Said.wrote]
    cases hn : norm d with
    | ok d' => simp
    | err e => simp
    | panic => simp
  | delete did => simp [Op.at, DocOp.sem, DocOp.touches, Said.wrote]
  | getOne did => simp only [Op.at, DocOp.sem, DocOp.touches, Said.wrote]; cases s.get did <;> simp
  | getMany l => simp [Op.at, DocOp.sem, DocOp.touches, Said.wrote]
  | getAll => simp [Op.at, DocOp.sem, DocOp.touches, Said.wrote]
  | count => simp [Op.at, DocOp.sem, DocOp.touches, Said.wrote]
  | deleteAll =>
    simp only [Op.at, DocOp.sem, DocOp.touches, Said.wrote]
    cases s.ents <;> simp

/-- A document that cannot be stored. -/
theorem op_unstorable (o : Op D) {r : Res (DocOut D)} (h : (∃ e, docStorable norm o = .err e ∧ r = .err e) ∨ (docStorable norm o = .panic ∧ r = .panic)) :
    (∀ s : IMap D, (DocCall.op o).sem norm s = (r, s)) ∧ ∀ db coll, (⟨db, coll, .op o, r⟩ : Said D).wrote = false := by
  have key : ∀ d : D, (∃ e, (norm d).map' (fun _ => ()) = .err e ∧ r = .err e) ∨ ((norm d).map' (fun _ => ()) = .panic ∧ r = .panic) →
      (∃ e, norm d = .err e ∧ r = .err e) ∨ (norm d = .panic ∧ r = .panic) := by
    intro d h
    cases hn : norm d with
    | ok d' => rw [hn] at h; rcases h with ⟨e, h, -⟩ | ⟨h, -⟩ <;> cases h
    | err e => rw [hn] at h; rcases h with ⟨e', h, h'⟩ | ⟨h, -⟩
               · cases h; exact .inl ⟨e, rfl, h'⟩
               · cases h
    | panic => rw [hn] at h; rcases h with ⟨e', h, h'⟩ | ⟨h, h'⟩
               · cases h
               · exact .inr ⟨rfl, h'⟩
  cases o with
  | insertManaged did d =>
    rcases key d h with ⟨e, h1, rfl⟩ | ⟨h1, rfl⟩ <;>
      exact ⟨fun s => by simp [DocCall.sem, Op.at, DocOp.sem, storing, h1], fun _ _ => rfl⟩
  | update did d =>
    rcases key d h with ⟨e, h1, rfl⟩ | ⟨h1, rfl⟩ <;>
      exact ⟨fun s => by simp [DocCall.sem, Op.at, DocOp.sem, storing, h1], fun _ _ => rfl⟩
  | upsert did d =>
    rcases key d h with ⟨e, h1, rfl⟩ | ⟨h1, rfl⟩ <;>
      exact ⟨fun s => by simp [DocCall.sem, Op.at, DocOp.sem, storing, h1], fun _ _ => rfl⟩
  | delete => rcases h with ⟨e, h, -⟩ | ⟨h, -⟩ <;> cases h
  | getOne => rcases h with ⟨e, h, -⟩ | ⟨h, -⟩ <;> cases h
  | getMany => rcases h with ⟨e, h, -⟩ | ⟨h, -⟩ <;> cases h
  | getAll => rcases h with ⟨e, h, -⟩ | ⟨h, -⟩ <;> cases h
  | count => rcases h with ⟨e, h, -⟩ | ⟨h, -⟩ <;> cases h
  | deleteAll => rcases h with ⟨e, h, -⟩ | ⟨h, -⟩ <;> cases h

end Mondis.Props
