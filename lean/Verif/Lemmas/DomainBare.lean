import Verif.Model.Domain
import Verif.Lemmas.DdlHistory
/-!
# Package ddl among transactions on documents

Transactions on documents put ids back into the sequences; nothing else of package ddl notices.
-/
namespace Mondis.Props
open Mondis Schema Spec Meta Ddl

/-- The sequences without what was put back. -/
def bareSeqs (q : Dml.Seqs) : Dml.Seqs := fun c => (q c).map (fun s => { s with putbacks := [] })

/-- The process with nothing put back. -/
def bare (w : Ddl.World) : Ddl.World := { w with seqs := bareSeqs w.seqs }

theorem bareSeqs_set (q : Dml.Seqs) (c : Int64) (s : Sequence.Seq) :
    bareSeqs (q.set c s) = (bareSeqs q).set c { s with putbacks := [] } := by
  funext x
  unfold bareSeqs Dml.Seqs.set
  by_cases e : x = c
  · rw [if_pos e, if_pos e]; rfl
  · rw [if_neg e, if_neg e]

/-- The sequences are the same, but for new ones. -/
def Grown (q q' : Dml.Seqs) : Prop := ∀ c, q' c = q c ∨ (q c = none ∧ ∃ s, q' c = some s ∧ s.putbacks = [])

theorem Grown.refl (q : Dml.Seqs) : Grown q q := fun _ => .inl rfl

theorem Grown.trans {q q' q'' : Dml.Seqs} (h : Grown q q') (h' : Grown q' q'') : Grown q q'' := by
  intro c
  rcases h' c with e | ⟨e, s, h1, h2⟩
  · rw [e]; exact h c
  · rcases h c with e' | ⟨-, s', h1', -⟩
    · exact .inr ⟨e' ▸ e, s, h1, h2⟩
    · rw [h1'] at e; cases e

theorem renew_putbacks (s : Sequence.Seq) (c : Sequence.Circ) (n : Int64) (db : DB) :
    (s.renewLease c n db).2.1.putbacks = s.putbacks := by
  unfold Sequence.Seq.renewLease
  dsimp only
  split <;> rfl

theorem new_putbacks {cell : Sequence.Cell} {n : Int64} {c : Sequence.Circ} {db db' : DB} {r : Res Unit} {s : Sequence.Seq}
    (h : Sequence.Seq.new cell n c db = (r, some s, db')) : s.putbacks = [] := by
  unfold Sequence.Seq.new at h
  split at h
  · cases h
  · split at h
    · cases h
    · have := renew_putbacks { cell := cell, bandwidth := n } c 0 db
      cases hx : Sequence.Seq.renewLease { cell := cell, bandwidth := n } c 0 db with
      | mk r x =>
        obtain ⟨s', db''⟩ := x
        rw [hx] at this h
        cases h
        exact this

theorem createSequence_bare (d c : Int64) (env : Env) (fail : Option Err) (w : Ddl.World) :
    createSequence d c env fail (bare w) = ((createSequence d c env fail w).1, bare (createSequence d c env fail w).2) ∧
      Grown w.seqs (createSequence d c env fail w).2.seqs := by
  unfold createSequence
  have hs : ((bare w).seqs c).isSome = (w.seqs c).isSome := by
    show ((w.seqs c).map _).isSome = _
    rw [Option.isSome_map]
  rw [hs]
  cases hw : w.seqs c with
  | some s => exact ⟨rfl, .refl _⟩
  | none =>
    simp only [Option.isSome_none, Bool.false_eq_true, if_false]
    rw [show (bare w).db = w.db from rfl]
    cases hx : Sequence.Seq.new (didCell d c) defaultDIDBandWidth ⟨env, w.db, fail⟩ w.db with
    | mk r x =>
      obtain ⟨o, db'⟩ := x
      cases r with
      | err e => exact ⟨rfl, .refl _⟩
      | panic => exact ⟨rfl, .refl _⟩
      | ok u =>
        cases o with
        | none => exact ⟨rfl, .refl _⟩
        | some s =>
          have hp := new_putbacks hx
          constructor
          · simp only
            refine Prod.ext rfl ?_
            show { bare w with db := db', seqs := (bareSeqs w.seqs).set c s } = bare { w with db := db', seqs := w.seqs.set c s }
            unfold bare
            dsimp only
            rw [bareSeqs_set, show ({ s with putbacks := [] } : Sequence.Seq) = s from by cases s; cases hp; rfl]
          · intro x
            simp only [Dml.Seqs.set]
            by_cases e : x = c
            · rw [if_pos e]; exact .inr ⟨e ▸ hw, s, rfl, hp⟩
            · rw [if_neg e]; exact .inl rfl

theorem afterCommit_bare (env : Env) (l : List (Int64 × Int64)) : ∀ w : Ddl.World,
    afterCommit env l (bare w) = bare (afterCommit env l w) ∧ Grown w.seqs (afterCommit env l w).seqs := by
  induction l with
  | nil => exact fun w => ⟨rfl, .refl _⟩
  | cons p l ih =>
    intro w
    obtain ⟨d, c⟩ := p
    obtain ⟨h1, h2⟩ := createSequence_bare d c env none w
    simp only [afterCommit]
    rw [h1]
    cases hx : createSequence d c env none w with
    | mk r w' =>
      rw [hx] at h2
      cases r with
      | ok u => exact ⟨(ih w').1, h2.trans (ih w').2⟩
      | err e => exact ⟨rfl, h2⟩
      | panic => exact ⟨rfl, h2⟩

theorem initSequences_bare (env : Env) (fail : Int64 → Option Err) (l : List (Int64 × Int64)) : ∀ w : Ddl.World,
    initSequences env fail l (bare w) = ((initSequences env fail l w).1, bare (initSequences env fail l w).2) ∧
      Grown w.seqs (initSequences env fail l w).2.seqs := by
  induction l with
  | nil => exact fun w => ⟨rfl, .refl _⟩
  | cons p l ih =>
    intro w
    obtain ⟨d, c⟩ := p
    obtain ⟨h1, h2⟩ := createSequence_bare d c env (fail c) w
    simp only [initSequences]
    rw [h1]
    cases hx : createSequence d c env (fail c) w with
    | mk r w' =>
      rw [hx] at h2
      cases r with
      | ok u => exact ⟨(ih w').1, h2.trans (ih w').2⟩
      | err e => exact ⟨rfl, h2⟩
      | panic => exact ⟨rfl, h2⟩

/-- An event that draws no id does the same whatever was put back. -/
theorem step_bare (J : Json) (w : Ddl.World) {e : Ddl.Ev} (he : ∀ x c, e ≠ .draw x c) :
    (bare w).step J e = ((w.step J e).1, bare (w.step J e).2) := by
  cases e with
  | createSchema o i c => rfl
  | addIndex i c => rfl
  | getJob id c => rfl
  | draw x c => exact absurd rfl (he x c)
  | crash => rfl
  | work o₁ o₂ o₃ c env =>
    simp only [World.step]
    rw [show (bare w).stuck = w.stuck from rfl, show (bare w).up = w.up from rfl, show (bare w).vars = w.vars from rfl,
      show (bare w).db = w.db from rfl]
    split
    · rfl
    · split
      · rename_i out _
        refine Prod.ext rfl ?_
        exact (afterCommit_bare env out.after { w with db := _, vars := _ }).1
      · rfl
  | init o env fail =>
    simp only [World.step]
    rw [show (bare w).db = w.db from rfl]
    split
    · rename_i l _
      have := (initSequences_bare env fail (l.flatMap (fun d => ((o d).visit d.collections.ents).map (fun e => (d.id, e.2.id))))
        { w with db := ((⟨true, env, none, Client.one .listDatabases⟩ : MetaTxn (List DBInfo)).run J w.db).2 }).1
      rw [show ({ bare w with db := ((⟨true, env, none, Client.one .listDatabases⟩ : MetaTxn (List DBInfo)).run J w.db).2 } : Ddl.World)
        = bare { w with db := ((⟨true, env, none, Client.one .listDatabases⟩ : MetaTxn (List DBInfo)).run J w.db).2 } from rfl, this]
      generalize initSequences env fail _ _ = y
      obtain ⟨r, w'⟩ := y
      cases r <;> rfl
    · rfl
    · rfl

theorem step_grown (J : Json) (w : Ddl.World) {e : Ddl.Ev} (he : ∀ x c, e ≠ .draw x c) (hc : e ≠ .crash) :
    Grown w.seqs (w.step J e).2.seqs := by
  cases e with
  | createSchema o i c => exact .refl _
  | addIndex i c => exact .refl _
  | getJob id c => exact .refl _
  | draw x c => exact absurd rfl (he x c)
  | crash => exact absurd rfl hc
  | work o₁ o₂ o₃ c env =>
    simp only [World.step]
    split
    · exact .refl _
    · split
      · rename_i out _
        exact (afterCommit_bare env out.after { w with db := _, vars := _ }).2
      · exact .refl _
  | init o env fail =>
    simp only [World.step]
    split
    · rename_i l _
      have := (initSequences_bare env fail (l.flatMap (fun d => ((o d).visit d.collections.ents).map (fun e => (d.id, e.2.id))))
        { w with db := ((⟨true, env, none, Client.one .listDatabases⟩ : MetaTxn (List DBInfo)).run J w.db).2 }).2
      split <;> exact this
    · exact .refl _
    · exact .refl _

/-- Drawing where something was put back: the last one comes, and nothing else changes. -/
theorem draw_back (s : Sequence.Seq) (c : Sequence.Circ) (db : DB) (hc : s.closed = false) {v : Int64}
    (hv : s.putbacks.getLast? = some v) : s.nextId c db = (.ok v, { s with putbacks := s.putbacks.dropLast }, db) := by
  unfold Sequence.Seq.nextId
  rw [hc, hv]
  simp

/-- Drawing where nothing was put back. -/
theorem draw_bare (s : Sequence.Seq) (c : Sequence.Circ) (db : DB) (hv : s.putbacks = []) :
    (s.nextId c db).2.1.putbacks = [] := by
  unfold Sequence.Seq.nextId
  rw [hv]
  simp only [List.getLast?_nil]
  split
  · exact hv
  · have key : (if s.next ≥ s.leased then s.renewLease c 0 db else (.ok (), s, db)).2.1.putbacks = [] := by
      split
      · exact (renew_putbacks s c 0 db).trans hv
      · exact hv
    generalize (if s.next ≥ s.leased then s.renewLease c 0 db else (.ok (), s, db)) = y at key
    obtain ⟨r, s', db'⟩ := y
    cases r <;> exact key

end Mondis.Props
