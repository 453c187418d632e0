import Verif.Props.Crowd
import Verif.Props.CrowdAside
import Verif.Props.DomainExamples
/-!
# Cases meeting the hypotheses of `Props/Crowd.lean`
-/
namespace Mondis.Props
open Mondis Spec Schema Meta Ddl Domain Doc

set_option maxRecDepth 100000

/-- While database "a" is created, a request for "b" that started before that of "a" was accepted is refused; one that started before the
schema was published, and before a document was inserted into "a", is accepted; a turn of the worker that started before that is in vain;
the caller who wanted "a" looks for job 4 in the history while the document is committed. -/
def thronged : List (Crowd.Ev Bytes) :=
  [⟨.reload plainEnv, 0⟩, ⟨.ddl start, 0⟩, ⟨.ddl createA, 0⟩, ⟨.ddl createB, 1⟩, ⟨.ddl turn, 0⟩, ⟨.reload plainEnv, 0⟩, ⟨.publish, 0⟩,
   ⟨.begin true plainEnv, 0⟩, ⟨.snapshot 0, 0⟩, ⟨.insert 0 nameA nameY [5] true quiet, 0⟩, ⟨.ddl createB, 5⟩, ⟨.ddl turn, 2⟩, ⟨.commit 0, 0⟩,
   ⟨.ddl turn, 1⟩, ⟨.reload plainEnv, 0⟩, ⟨.finish 0 none, 0⟩, ⟨.ddl (.getJob 4 quiet), 1⟩, ⟨.ddl turn, 0⟩, ⟨.reload plainEnv, 0⟩]

/-- What the callers are told. -/
def heardIn (es : List (Crowd.Ev Bytes)) : List (Domain.Answer Bytes) := (Crowd.run plainJson demoCodec es (gathering OMap.empty)).1

theorem thronged_jobs : (heardIn thronged).map (fun
    | .ddl (.job (.ok j)) => some (some j.id)
    | .ddl (.job (.err .conflict)) => some none
    | .ddl (.worked (.err .conflict)) => some none
    | .ddl (.found (.ok (some j))) => some (some j.id)
    | _ => none) =
    [none, none, some (some 4), some none, none, none, none, none, none, none, some (some 7), some none, none, none, none, none, some (some 4), none,
      none] := by decide +kernel

theorem thronged_fits : ∀ e ∈ evsOf thronged, DomainFits 2 e := by
  intro e he
  simp only [evsOf, thronged, List.map_cons, List.map_nil, List.mem_cons, List.not_mem_nil, or_false] at he
  rcases he with rfl | rfl | rfl | rfl | rfl | rfl | rfl | rfl | rfl | rfl | rfl | rfl | rfl | rfl | rfl | rfl | rfl | rfl | rfl
  all_goals first | trivial | exact fits_start | exact fits_createA | exact fits_createB | exact fits_turn | exact fits_get 4 | exact roomy

theorem thronged_brief : Throng.Brief 2 thronged := ⟨thronged_fits, by decide⟩

/-- C86_at_once at work: the schema of "b" is read, not yet published. -/
example : ∃ did, ((Crowd.run plainJson demoCodec (thronged ++ atOnce [.begin true plainEnv, .snapshot 1, .insert 1 nameA nameY [0, 7] true quiet,
    .commit 1, .finish 1 none, .begin false plainEnv, .snapshot 2]) (gathering OMap.empty)).2.step plainJson demoCodec
    ⟨.op 2 nameA nameY (.getOne did) false, 0⟩).1 = .out (.ok (.doc [7])) := by
  obtain ⟨j, hj, hacc⟩ := given_job (es := evsOf thronged) (as := heardIn thronged) (n := 2) (id := 4) rfl (by decide +kernel) (by decide +kernel)
  obtain ⟨j', hfin⟩ := given_found (es := evsOf thronged) (as := heardIn thronged) (n := 16) (id := 4) rfl (by decide +kernel) (by decide +kernel)
  rw [← hj] at hfin
  obtain ⟨-, -, did, -, h⟩ := C86_at_once (K := 2) (J := plainJson) (C := demoCodec) (db := OMap.empty) (es := thronged) (k := 1)
    (coll := nameY) (doc := [0, 7]) (d := [7]) (mark := true) (mark' := false) (e₂ := plainEnv) (e₃ := plainEnv)
    (c₁ := quiet) freshDB noDocs
    (fun did => ⟨by
      rw [List.map_append]
      refine fits_append thronged_fits ?_
      intro e he
      simp only [atOnce, List.map_cons, List.map_nil, List.cons_append, List.nil_append, List.mem_cons, List.not_mem_nil, or_false] at he
      rcases he with rfl | rfl | rfl | rfl | rfl | rfl | rfl | rfl <;> first | trivial | exact roomy, by simp [thronged, atOnce]⟩)
    (by decide +kernel) hacc hfin (by decide) (by decide) rfl rfl (by decide +kernel) (by decide +kernel) rfl
  refine ⟨did, ?_⟩
  rw [← h]
  rw [crowd_append _ _ thronged]
  rfl

/-- C86_unique, C86_failed at work: the document has an id. -/
example : NoRecommit (evsOf thronged) ∧ (insertions (evsOf thronged) (heardIn thronged)).map (·.did) = [1] ∧
    committedIn (evsOf thronged) (heardIn thronged) = [0] := by
  refine ⟨?_, by decide +kernel, by decide +kernel⟩
  intro l k f r h hm
  have h1 : ((evsOf thronged).filter (fun | .commit _ => true | .finish _ _ => true | _ => false)) = [.commit 0, .finish 0 none] := rfl
  rw [h, List.filter_append, List.filter_cons_of_pos rfl] at h1
  have hm : Domain.Ev.commit k ∈ r.filter (fun | .commit _ => true | .finish _ _ => true | _ => false) := List.mem_filter.mpr ⟨hm, rfl⟩
  cases hl : l.filter (fun | .commit _ => true | .finish _ _ => true | _ => false : Domain.Ev Bytes → Bool) with
  | nil => rw [hl] at h1; cases h1
  | cons x l' =>
    rw [hl] at h1
    obtain ⟨-, h1⟩ := List.cons.inj h1
    cases l' with
    | nil =>
      obtain ⟨-, h1⟩ := List.cons.inj h1
      rw [h1] at hm
      cases hm
    | cons y l' =>
      obtain ⟨-, h1⟩ := List.cons.inj h1
      cases l' <;> cases h1

/-- C86_converges, C86_monotone and C86_check at work: the schema is at version 1 and then at version 2, and the transaction
begun in between passes the check. -/
example : publishedVersion (Crowd.run plainJson demoCodec (thronged.take 7) (gathering OMap.empty)).2.w = some 1 ∧
    publishedVersion (Crowd.run plainJson demoCodec (thronged ++ atOnce [.publish, .reload plainEnv, .publish]) (gathering OMap.empty)).2.w = some 2 ∧
    Throng.Brief 2 (thronged ++ atOnce [.publish, .reload plainEnv, .publish]) ∧
    (((Crowd.run plainJson demoCodec (thronged.take 12) (gathering OMap.empty)).2.w.session 0).map (·.phase) = some .ready) ∧
    (∀ e ∈ evsOf ((thronged.take 12).drop 8), e ≠ .ddl .crash) := by
  refine ⟨by decide +kernel, by decide +kernel, ⟨?_, by decide⟩, by decide +kernel, ?_⟩
  · rw [List.map_append]
    refine fits_append thronged_fits ?_
    intro e he
    simp only [atOnce, List.map_cons, List.map_nil, List.mem_cons, List.not_mem_nil, or_false] at he
    rcases he with rfl | rfl | rfl <;> trivial
  · intro e he
    simp only [evsOf, thronged, List.take, List.drop, List.map_cons, List.map_nil, List.mem_cons, List.not_mem_nil, or_false] at he
    rcases he with rfl | rfl | rfl | rfl <;> nofun

/-- C86_undisturbed at work: the call that started before the schema was published and the document inserted. -/
example : ((Crowd.run plainJson demoCodec (thronged.take 10) (gathering OMap.empty)).2.step plainJson demoCodec ⟨.ddl createB, 5⟩).1 =
    ((Crowd.run plainJson demoCodec (thronged.take 10) (gathering OMap.empty)).2.step plainJson demoCodec ⟨.ddl createB, 0⟩).1 := by
  refine congrArg Prod.fst (C86_undisturbed (K := 2) (db := OMap.empty) (es := thronged.take 5) (es' := (thronged.take 10).drop 5)
    freshDB noDocs ⟨fun e he => thronged_fits e (List.mem_of_mem_take (i := 11) (l := evsOf thronged) he), by decide⟩ ?_ (by decide) (.inl ⟨_, _, _, rfl⟩) rfl)
  intro e he
  simp only [evsOf, thronged, List.take, List.drop, List.map_cons, List.map_nil, List.mem_cons, List.not_mem_nil, or_false] at he
  rcases he with rfl | rfl | rfl | rfl | rfl <;> nofun

/-- C86_turn_undisturbed at work: the turn that started before the transaction was checked. -/
example : ((Crowd.run plainJson demoCodec (thronged.take 13) (gathering OMap.empty)).2.step plainJson demoCodec ⟨.ddl turn, 1⟩).1 =
    ((Crowd.run plainJson demoCodec (thronged.take 13) (gathering OMap.empty)).2.step plainJson demoCodec ⟨.ddl turn, 0⟩).1 := by
  refine congrArg Prod.fst (C86_turn_undisturbed (K := 2) (db := OMap.empty) (es := thronged.take 12) (es' := (thronged.take 13).drop 12)
    freshDB noDocs ⟨fun e he => thronged_fits e (List.mem_of_mem_take (i := 14) (l := evsOf thronged) he), by decide⟩ ?_ ?_ (by decide) rfl)
  all_goals
    intro e he
    simp only [evsOf, thronged, List.take, List.drop, List.map_cons, List.map_nil, List.mem_cons, List.not_mem_nil, or_false] at he
    subst he
    nofun

end Mondis.Props
