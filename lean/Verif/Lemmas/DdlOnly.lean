import Verif.Lemmas.DdlSeq
/-!
# The transactions of package ddl leave the counters of document ids alone
-/
namespace Mondis.Ddl
open Mondis Spec Schema Meta

/-- Not one of the functions that change the counters of document ids. -/
def didless : {β : Type} → MetaCall β → Bool
  | _, .incDidSequence _ _ _ => false
  | _, .dropDatabase _ => false
  | _, .dropCollection _ _ _ => false
  | _, _ => true

theorem noDid {β : Type} {c : MetaCall β} (h : didless c = true) : NoDid β c := by
  intro M
  cases c <;> first | (cases h; done) | rfl | (simp only [MetaCall.sem, ifDB, ifColl]; (repeat' split) <;> rfl)

theorem only_one {β : Type} {c : MetaCall β} (h : didless c = true) : (Client.one c).Only NoDid := Client.only_one (noDid h)

theorem only_attempt {α : Type} {p : Client α} (h : p.Only NoDid) : (attempt p).Only NoDid := by
  induction p with
  | done r => trivial
  | call c k ih => exact ⟨h.1, fun r => ih r (h.2 r)⟩

theorem only_getDbInfo (n : Bytes) : (getDbInfo n).Only NoDid := .bind (only_one rfl) fun _ => trivial

theorem only_check (n : Bytes) : (checkDBNameNotExists n).Only NoDid :=
  .bind (only_getDbInfo n) fun r => by cases r <;> trivial

theorem only_createSchema (o : Order) (i : CreateSchemaInput) : (createSchema o i).Only NoDid := by
  unfold createSchema
  split
  · unfold createSchemaTxn
    refine .bind (only_one rfl) fun n => ?_
    split
    · trivial
    · refine .bind (only_check _) fun _ => .bind (only_one rfl) fun x => ?_
      simp only
      split
      · exact .bind (only_one rfl) fun _ => trivial
      · trivial
      · trivial
  · trivial
  · trivial

theorem only_addIndex (i : AddIndexInput) : (addIndexTxn i).Only NoDid := by
  unfold addIndexTxn
  refine .bind ?_ fun ex => ?_
  · unfold checkIndexNameNotExists
    refine .bind (only_getDbInfo _) fun r => ?_
    cases r with
    | none => trivial
    | some d => simp only; split <;> trivial
  · split
    · trivial
    · exact .bind (only_one rfl) fun x => .bind (only_one rfl) fun _ => trivial

theorem only_getJob (id : Int64) : (getHistoryJob id).Only NoDid := only_one rfl

theorem only_version (o : Order) (j : Job) : (updateSchemaVersion o j).Only NoDid := by
  unfold updateSchemaVersion
  refine .bind (only_one rfl) fun v => ?_
  split
  · exact only_one rfl
  · trivial
  · trivial

theorem only_collections (db : Int64) (l : List CollectionInfo) : (createCollections db l).Only NoDid := by
  induction l with
  | nil => trivial
  | cons c l ih => exact .bind (only_one rfl) fun _ => ih

theorem only_updateColl (o : Order) (j : Job) (d : DBInfo) (c : CollectionInfo) : (updateCollectionInfo o j d c).Only NoDid := by
  unfold updateCollectionInfo
  refine .bind (only_one rfl) fun _ => ?_
  split
  · trivial
  · exact .bind (only_one rfl) fun _ => only_version o j

theorem only_run (o₁ o₂ o₃ : Order) (j : Job) : (runJob o₁ o₂ o₃ j).Only NoDid := by
  unfold runJob
  split
  · trivial
  · simp only
    split
    · unfold onCreateSchema
      split
      · refine .bind (only_attempt (.bind (only_check _) fun _ => .bind (only_one rfl) fun _ =>
          .bind (only_collections _ _) fun _ => only_version _ _)) fun r => ?_
        cases r <;> trivial
      · trivial
      · trivial
    · unfold onAddIndex
      split
      · simp only
        split
        · trivial
        · refine .bind (only_attempt (only_getDbInfo _)) fun r => ?_
          have store : ∀ (job job' : Job) (d : DBInfo) (c : CollectionInfo),
              ((attempt (updateCollectionInfo o₂ job d c)).bind (fun
                | .ok _ => (pure { job := job' } : Client RunOut)
                | .err e => pure { job := job, err := some e }
                | .panic => .done .panic)).Only NoDid := by
            intro job job' d c
            refine .bind (only_attempt (only_updateColl _ _ _ _)) fun r => ?_
            cases r <;> trivial
          split
          · split
            · trivial
            · split
              · split
                · trivial
                · split
                  · trivial
                  · exact store _ _ _ _
              · split
                · exact store _ _ _ _
                · trivial
              · split
                · exact store _ _ _ _
                · trivial
              · trivial
              · trivial
          · trivial
          · trivial
          · trivial
      · trivial
      · trivial
    · trivial

theorem only_finish (j : Job) : (finishJob j).Only NoDid := .bind (only_one rfl) fun _ => only_one rfl

theorem only_settle (j : Job) (v : Vars) : (settle j v).Only NoDid := by
  unfold settle
  simp only
  repeat' split
  all_goals first | exact only_finish _ | exact only_one rfl

theorem only_work (o₁ o₂ o₃ : Order) (v : Vars) : (workTxn o₁ o₂ o₃ v).Only NoDid := by
  unfold workTxn
  refine .bind (only_one rfl) fun r => ?_
  split
  · trivial
  · split
    · exact .bind (only_finish _) fun _ => trivial
    · exact .bind (only_attempt (only_run _ _ _ _)) fun r => .bind (only_settle _ _) fun _ => trivial

theorem Runs.dids {α : Type} {p : Client α} {M M' : MState} {n : Nat} {r : Res α} (h : Runs p M n r M') (ho : p.Only NoDid) :
    M'.dids = M.dids := by
  have := dids_only ho M
  rw [h.1] at this
  exact this

theorem leaves_dids {α : Type} {r : Res α} {M M' : MState} (h : M'.dids = M.dids) : (leaves r M M').dids = M.dids := by
  cases r <;> first | exact h | rfl

theorem did_congr {M M' : MState} (h : M'.dids = M.dids) (d c : Int64) : did M' d c = did M d c := by unfold did; rw [h]

/-! ### Leases -/

/-- The counters, the leases in memory, and the last id handed out for each collection. -/
structure Leased (B : Nat) (C : List (Int64 × Int64)) (M : MState) (seqs : Dml.Seqs) (last : Int64 → Int) : Prop where
  range : ∀ d c, 0 ≤ did M d c ∧ did M d c ≤ B
  low : ∀ c, 0 ≤ last c
  fresh : ∀ c, (∀ d, (d, c) ∉ C) → last c = 0
  stored : ∀ d c, (d, c) ∈ C → last c ≤ did M d c
  leases : ∀ d c s, (d, c) ∈ C → seqs c = some s →
    last c ≤ s.next.toInt ∧ s.next.toInt ≤ s.leased.toInt ∧ s.leased.toInt ≤ did M d c

section
variable {B B' : Nat} {C C' : List (Int64 × Int64)} {M M' : MState} {seqs : Dml.Seqs} {last : Int64 → Int}

theorem Leased.mono (h : Leased B C M seqs last) (hB : B ≤ B') : Leased B' C M seqs last :=
  ⟨fun d c => ⟨(h.range d c).1, by have := (h.range d c).2; omega⟩, h.low, h.fresh, h.stored, h.leases⟩

theorem Leased.same (h : Leased B C M seqs last) (hM : M'.dids = M.dids) (hC : C' = C) : Leased B C' M' seqs last := by
  subst hC
  exact ⟨fun d c => by rw [did_congr hM]; exact h.range d c, h.low, h.fresh, fun d c => by rw [did_congr hM]; exact h.stored d c,
    fun d c s => by rw [did_congr hM]; exact h.leases d c s⟩

theorem Leased.crash (h : Leased B C M seqs last) : Leased B C M (fun _ => none) last :=
  ⟨h.range, h.low, h.fresh, h.stored, fun d c s _ e => by cases e⟩

end

end Mondis.Ddl
