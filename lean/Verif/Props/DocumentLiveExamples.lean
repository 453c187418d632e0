import Verif.Props.DocumentLive
import Verif.Props.DocumentIndexExamples
/-!
# C79: cases

`indexing` is a history of two DB objects with conflicts, a refused CreateIndex and two indexes at its end.
-/
namespace Mondis.DocDB
open Mondis Prog Doc Spec Props

set_option maxRecDepth 100000

def isReady (w : World) (i : Nat) : Bool := match w.obj i with
  | some o => decide (o.st = .open) && o.iseq.isSome && o.making.isNone
  | none => false

theorem ready_of {w : World} {i : Nat} (h : isReady w i = true) : ∃ o, Ready w i o := by
  unfold isReady at h
  split at h
  · rename_i o ho
    simp only [Bool.and_eq_true, decide_eq_true_eq, Option.isNone_iff_eq_none] at h
    exact ⟨o, ho, h.1.1, h.1.2, h.2⟩
  · cases h

theorem roomy_plain : Roomy plainEnv := fun _ => rfl

def opened (w : World) (i : Nat) (name : Bytes) : Bool := ((w.obj i).bind (fun o => o.colls.get name)).isSome

theorem opened_of {w : World} {i : Nat} {o : Obj} {name : Bytes} (ho : Ready w i o) (h : opened w i name = true) : (o.colls.get name).isSome := by
  unfold opened at h
  rw [ho.obj] at h
  exact h

theorem unopened_of {w : World} {i : Nat} {o : Obj} {name : Bytes} (ho : Ready w i o) (h : opened w i name = false) : o.colls.get name = none := by
  unfold opened at h
  rw [ho.obj] at h
  simpa using h

theorem storableX : Storable nameX := ⟨by decide, by decide, by decide⟩

theorem columns_fit {cid : Int64} {fs : List IndexField} {b : Bytes} (h : columnsIndexedKey cid fs = .ok b)
    (h0 : (match columnsIndexedKey 0 fs with
      | .ok x => decide (x.length ≤ 60000)
      | _ => false) = true) : keyErr b = none := by
  obtain ⟨d, hd, -⟩ := encodeFields_total (normFields fs)
  unfold columnsIndexedKey at h h0
  rw [hd] at h h0
  cases h
  rw [(C01_int64_append _ _).1] at h0 ⊢
  have h1 := of_decide_eq_true h0
  simp only [List.length_append, encodeInt64_len] at h1
  unfold keyErr
  rw [if_neg (by simp [collectionPrefix]), if_neg (by simp [collectionPrefix, Key.hasPrefix, badgerPrefix]), if_neg]
  simp only [List.length_append, encodeInt64_len]
  omega

/-- The hypotheses of C79_collection are met: the first object has not opened "y", which the second made. -/
example : ∃ o, Ready (world indexing) 0 o ∧ o.colls.get nameY = none ∧
    (run demoCodec Idx.demoIC (collectionCall demoCodec Idx.demoIC (world indexing) 0 nameY plainEnv) (world indexing)).1 =
      [.none, .none, .none, .handle (.ok ())] := by
  obtain ⟨o, ho⟩ := ready_of (w := world indexing) (i := 0) (by decide +kernel)
  have hc := unopened_of ho (name := nameY) (by decide +kernel)
  exact ⟨o, ho, hc, (C79_collection fair_indexing (by decide) rfl ho ⟨by decide, by decide, by decide⟩ hc plainEnv roomy_plain).1⟩

/-- Of C79_again. -/
example (v : Nat) (c : Turn) : (world indexing).step demoCodec Idx.demoIC (.lookup 0 nameX .usual v plainEnv c) = (.handle (.ok ()), world indexing) := by
  obtain ⟨o, ho⟩ := ready_of (w := world indexing) (i := 0) (by decide +kernel)
  exact C79_again ho storableX (opened_of ho (by decide +kernel)) v plainEnv c

/-- Of C79_insert: a transaction begun after that history. -/
example : ∃ did, ((world (indexing ++ [.begin plainEnv])).step demoCodec Idx.demoIC (.insert 0 1 nameX [7] .usual (.calm (world (indexing ++ [.begin plainEnv])) plainEnv))).1 =
    .inserted (.ok did) := by
  obtain ⟨o, ho⟩ := ready_of (w := world (indexing ++ [.begin plainEnv])) (i := 1) (by decide +kernel)
  have hb : Brief (indexing ++ [.begin plainEnv]) := by
    refine ⟨by decide, fun env hm => ?_⟩
    rcases List.mem_append.mp hm with hm | hm
    · exact fair_indexing.brief.2 env hm
    · cases List.mem_singleton.mp hm; exact roomy_plain
  obtain ⟨s, h1, h2, h3⟩ : ∃ s, (world (indexing ++ [.begin plainEnv])).sessions[0]? = some s ∧ s.phase = .live ∧ s.txn.env.update = true := by
    have : ((world (indexing ++ [.begin plainEnv])).sessions[0]?.any fun s => decide (s.phase = .live) && s.txn.env.update) = true := by decide +kernel
    rw [Option.any_eq_true_iff_get] at this
    obtain ⟨h, this⟩ := this
    simp only [Bool.and_eq_true, decide_eq_true_eq] at this
    exact ⟨_, (Option.some_get h).symm, this⟩
  exact C79_insert blank hb (by decide) rfl ho (opened_of ho (by decide +kernel)) storableX (data := [7]) rfl h1 h2 h3 plainEnv roomy_plain

/-- Of C79_story: the document is inserted through the first object and read through the second. -/
example : ∃ did, (run demoCodec Idx.demoIC [.begin plainEnv, .insert 0 0 nameX [5] .usual (.calm (world indexing) plainEnv), .commit 0 none, .begin reading,
      .op 1 1 nameX (.getOne did) .usual] (world indexing)).1 =
    [.none, .inserted (.ok did), .committed (.ok ()), .none, .out (.ok (.doc [5]))] := by
  obtain ⟨o, ho⟩ := ready_of (w := world indexing) (i := 0) (by decide +kernel)
  obtain ⟨o', ho'⟩ := ready_of (w := world indexing) (i := 1) (by decide +kernel)
  exact C79_story blank fair_indexing.brief (by decide) rfl ho (opened_of ho (by decide +kernel)) ho' (opened_of ho' (by decide +kernel)) storableX
    (d := [5]) (by decide) plainEnv reading roomy_plain rfl 0 (by decide +kernel)

/-- Of C79_createIndex: "a" is on column "b" and "d" on two; none is on "c" alone. -/
example : ∃ iid, (run demoCodec Idx.demoIC [.createIndex 0 nameX ⟨[101], [⟨[99], false⟩], false⟩ .usual (world indexing).store.now plainEnv (.calm (world indexing) plainEnv),
      .writeIndex (world indexing).pending.length none, .finish (world indexing).pending.length] (world indexing)).1 =
    [.drawn iid, .stored nameX iid ⟨[101], [⟨[99], false⟩], false⟩, .created (.ok iid)] := by
  obtain ⟨o, ho⟩ := ready_of (w := world indexing) (i := 0) (by decide +kernel)
  refine C79_createIndex fair_indexing (by decide) rfl ho (opened_of ho (by decide +kernel)) roomy_plain (sane_of (by decide +kernel)) ?_ (by decide) (by decide) ?_ _ rfl
  · exact fun cid b hb => columns_fit hb (by decide +kernel)
  · rintro ⟨n, iid, d, h1, h2⟩
    have hm := (OMap.get_eq_some_iff _ _ _).mp h1
    have he : ((catalogue (answers indexing)) nameX).ents = [([97], 2, defA), ([100], 3, defD)] := by decide +kernel
    rw [show (catalogue (run demoCodec Idx.demoIC indexing (World.start OMap.empty)).1 nameX).ents = _ from he] at hm
    simp only [List.mem_cons, Prod.mk.injEq, List.not_mem_nil, or_false] at hm
    rcases hm with ⟨-, -, rfl⟩ | ⟨-, -, rfl⟩ <;> rcases h2 with ⟨h2, h3⟩ | ⟨h2, h3⟩
    · exact absurd h3 (by decide)
    · exact absurd rfl h2
    · exact absurd h2 (by decide)
    · exact absurd h3.length_eq (by decide)

/-- Of C79_dropIndex. -/
example : (run demoCodec Idx.demoIC [.dropIndex 0 nameX [97] .usual (.calm (world indexing) plainEnv), .finish (world indexing).pending.length] (world indexing)).1 =
    [.erased nameX [97], .dropped (.ok true)] := by
  obtain ⟨o, ho⟩ := ready_of (w := world indexing) (i := 0) (by decide +kernel)
  exact C79_dropIndex fair_indexing rfl ho (opened_of ho (by decide +kernel)) roomy_plain (by decide +kernel) _ rfl

/-- Of C79_newDB: a third object. -/
example : ∃ o, Ready (run demoCodec Idx.demoIC [.newDB (turn 3), .newDB2 2 (turn 4)] (world indexing)).2 2 o ∧ o.colls = OMap.empty :=
  (C79_newDB (world indexing) (turn 3) (turn 4) (by decide +kernel) (by decide +kernel) 2 (by decide +kernel)).2

end Mondis.DocDB
