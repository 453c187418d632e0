import Verif.Spec.Ddl
import Verif.Lemmas.ClientStatic
import Verif.Lemmas.MetaStep
import Verif.Props.MetaFacts
/-!
# Package ddl: what its transactions do to the metadata
-/
namespace Mondis.Ddl
open Mondis Spec Schema Meta

/-- The program answers `r` and leaves `M'`, passing only text, in at most `n` calls. -/
def Runs {α : Type} (p : Client α) (M : MState) (n : Nat) (r : Res α) (M' : MState) : Prop :=
  p.sem M = (r, M') ∧ p.Text M ∧ p.calls M ≤ n

section
variable {α β : Type} {p : Client α} {f : α → Client β} {M M' M'' : MState} {n m : Nat}

theorem Runs.mono {r : Res α} (h : Runs p M n r M') (hn : n ≤ m) : Runs p M m r M' :=
  ⟨h.1, h.2.1, Nat.le_trans h.2.2 hn⟩

theorem Runs.done (r : Res α) (M : MState) : Runs (.done r) M 0 r M := ⟨rfl, trivial, Nat.le_refl _⟩
theorem Runs.pure (a : α) (M : MState) : Runs (pure a) M 0 (.ok a) M := ⟨rfl, trivial, Nat.le_refl _⟩

theorem Runs.one {c : MetaCall β} {r : Res β} (ht : c.Text) (h : c.sem M = (r, M')) : Runs (Client.one c) M 1 r M' :=
  ⟨h, ⟨ht, trivial⟩, Nat.le_refl _⟩

theorem text_bind (p : Client α) (f : α → Client β) (M : MState) (h : p.Text M)
    (hf : ∀ a M', p.sem M = (.ok a, M') → (f a).Text M') : (p.bind f).Text M := by
  induction p generalizing M with
  | done r => cases r with
    | ok a => exact hf a M rfl
    | err e => trivial
    | panic => trivial
  | call c k ih => exact ⟨h.1, ih _ _ h.2 (fun a M' e => hf a M' e)⟩

theorem calls_bind (p : Client α) (f : α → Client β) (M : MState) (n m : Nat) (h : p.calls M ≤ n)
    (hf : ∀ a M', p.sem M = (.ok a, M') → (f a).calls M' ≤ m) : (p.bind f).calls M ≤ n + m := by
  induction p generalizing M n with
  | done r => cases r with
    | ok a => exact Nat.le_trans (hf a M rfl) (Nat.le_add_left _ _)
    | err e => exact Nat.zero_le _
    | panic => exact Nat.zero_le _
  | call c k ih =>
    have h' : (k (c.sem M).1).calls (c.sem M).2 ≤ n - 1 := by simp only [Client.calls] at h; omega
    have := ih _ _ _ h' (fun a M' e => hf a M' e)
    simp only [Client.calls] at h
    simp only [Client.bind, Client.calls]
    omega

theorem Runs.bind {a : α} {r : Res β} (h : Runs p M n (.ok a) M') (h' : Runs (f a) M' m r M'') :
    Runs (p.bind f) M (n + m) r M'' := by
  refine ⟨?_, text_bind p f M h.2.1 ?_, calls_bind p f M n m h.2.2 ?_⟩
  · rw [Client.sem_bind, h.1]; exact h'.1
  · intro b N e; rw [h.1] at e; cases e; exact h'.2.1
  · intro b N e; rw [h.1] at e; cases e; exact h'.2.2

theorem Runs.bindErr {e : Err} (h : Runs p M n (.err e) M') : Runs (p.bind f) M n (.err e) M' := by
  refine ⟨?_, text_bind p f M h.2.1 ?_, calls_bind p f M n 0 h.2.2 ?_⟩
  · rw [Client.sem_bind, h.1]
  · intro b N e; rw [h.1] at e; cases e
  · intro b N e; rw [h.1] at e; cases e

theorem Runs.bindPanic (h : Runs p M n .panic M') : Runs (p.bind f) M n .panic M' := by
  refine ⟨?_, text_bind p f M h.2.1 ?_, calls_bind p f M n 0 h.2.2 ?_⟩
  · rw [Client.sem_bind, h.1]
  · intro b N e; rw [h.1] at e; cases e
  · intro b N e; rw [h.1] at e; cases e

theorem Runs.attempt {r : Res α} (h : Runs p M n r M') : Runs (attempt p) M n (.ok r) M' := by
  obtain ⟨h1, h2, h3⟩ := h
  suffices ∀ M, (Ddl.attempt p).sem M = (.ok (p.sem M).1, (p.sem M).2) ∧ (p.Text M → (Ddl.attempt p).Text M) ∧
      (Ddl.attempt p).calls M = p.calls M by
    obtain ⟨g1, g2, g3⟩ := this M
    exact ⟨by rw [g1, h1], g2 h2, by rw [g3]; exact h3⟩
  clear h1 h2 h3
  induction p with
  | done r => exact fun M => ⟨rfl, fun h => h, rfl⟩
  | call c k ih =>
    intro M
    obtain ⟨g1, g2, g3⟩ := ih (c.sem M).1 (c.sem M).2
    exact ⟨g1, fun h => ⟨h.1, g2 h.2⟩, by show 1 + _ = 1 + _; rw [g3]⟩

end

/-! ### Single calls -/

/-- Change the queue. -/
def withQueue (M : MState) (q : List Job) : MState :=
  { M with queue := fun l => if l = .default then q else M.queue l }

theorem sem_first {M : MState} {j : Job} {q : List Job} (h : M.queue .default = j :: q) :
    (MetaCall.getDDLJobByIdx .default 0).sem M = ((readBack j).map' some, M) := by
  simp only [MetaCall.sem, h, index]
  rfl

theorem sem_first_nil {M : MState} (h : M.queue .default = []) :
    (MetaCall.getDDLJobByIdx .default 0).sem M = (.ok none, M) := by
  simp only [MetaCall.sem, h]
  rfl

theorem sem_update {M : MState} {j : Job} {q : List Job} (h : M.queue .default = j :: q) (j' : Job) :
    (MetaCall.updateDDLJob .default 0 j').sem M = (.ok (), withQueue M (stored j' :: q)) := by
  simp only [MetaCall.sem, h, index]
  rw [if_pos (by
    have h0 : (0 : Int64).toInt = 0 := rfl
    rw [if_pos (by decide), h0, List.length_cons]
    omega)]
  rfl

theorem sem_deQueue {M : MState} {j : Job} {q : List Job} (h : M.queue .default = j :: q) :
    (MetaCall.deQueueDDLJob .default).sem M = ((readBack j).map' some, withQueue M q) := by
  simp only [MetaCall.sem, h]
  rfl

theorem sem_enQueue (M : MState) (j : Job) :
    (MetaCall.enQueueDDLJob .default j).sem M = (.ok (), withQueue M (M.queue .default ++ [stored j])) := rfl

/-- The first database of the listing with a name. -/
def named (M : MState) (n : Bytes) : Option DBInfo :=
  (M.dbs.ents.map Prod.snd).find? (fun d => decide (d.name = n))

theorem runs_getDbInfo (M : MState) (n : Bytes) : Runs (getDbInfo n) M 1 (.ok (named M n)) M :=
  Runs.bind (n := 1) (m := 0) (Runs.one trivial rfl) (Runs.pure _ _)

theorem runs_checkDB_none {M : MState} {n : Bytes} (h : named M n = none) :
    Runs (checkDBNameNotExists n) M 1 (.ok ()) M := by
  have := runs_getDbInfo M n
  rw [h] at this
  exact Runs.bind (n := 1) (m := 0) this (Runs.pure _ _)

theorem runs_checkDB_some {M : MState} {n : Bytes} (h : named M n ≠ none) :
    Runs (checkDBNameNotExists n) M 1 (.err errDBAlreadyExists) M := by
  have := runs_getDbInfo M n
  cases hn : named M n with
  | none => exact absurd hn h
  | some d =>
    rw [hn] at this
    exact Runs.bind (n := 1) (m := 0) this (Runs.done _ _)

/-! ### Collections of a new database -/

/-- Add collections under their ids. -/
def addAll (m : OMap CollectionInfo) (cs : List CollectionInfo) : OMap CollectionInfo :=
  cs.foldl (fun m c => m.set (textOf c.id) c) m

theorem get_addAll (cs : List CollectionInfo) (m : OMap CollectionInfo)
    (hd : (cs.map (·.id)).Nodup) (k : Bytes) (c : CollectionInfo) :
    (addAll m cs).get k = some c ↔ (c ∈ cs ∧ k = textOf c.id) ∨ (m.get k = some c ∧ ∀ c' ∈ cs, k ≠ textOf c'.id) := by
  induction cs generalizing m with
  | nil => simp [addAll]
  | cons a cs ih =>
    rw [List.map_cons, List.nodup_cons] at hd
    have := ih (m.set (textOf a.id) a) hd.2
    rw [show addAll m (a :: cs) = addAll (m.set (textOf a.id) a) cs from rfl, this, OMap.get_set]
    by_cases hk : textOf a.id = k
    · subst hk
      simp only [if_true, Option.some.injEq]
      constructor
      · rintro (⟨h1, h2⟩ | ⟨h1, h2⟩)
        · exact .inl ⟨List.mem_cons_of_mem _ h1, h2⟩
        · subst h1; exact .inl ⟨List.mem_cons_self, rfl⟩
      · rintro (⟨h1, h2⟩ | ⟨h1, h2⟩)
        · rcases List.mem_cons.mp h1 with rfl | h1
          · refine .inr ⟨rfl, ?_⟩
            intro c' hc' e
            have := textOf_inj.mp e
            exact hd.1 (by rw [this]; exact List.mem_map_of_mem hc')
          · exact .inl ⟨h1, h2⟩
        · exact absurd rfl (h2 a List.mem_cons_self)
    · rw [if_neg hk]
      constructor
      · rintro (⟨h1, h2⟩ | ⟨h1, h2⟩)
        · exact .inl ⟨List.mem_cons_of_mem _ h1, h2⟩
        · refine .inr ⟨h1, ?_⟩
          intro c' hc'
          rcases List.mem_cons.mp hc' with rfl | hc'
          · exact fun e => hk e.symm
          · exact h2 c' hc'
      · rintro (⟨h1, h2⟩ | ⟨h1, h2⟩)
        · rcases List.mem_cons.mp h1 with rfl | h1
          · exact absurd h2.symm hk
          · exact .inl ⟨h1, h2⟩
        · exact .inr ⟨h1, fun c' hc' => h2 c' (List.mem_cons_of_mem _ hc')⟩

theorem put_put {β : Type} (f : Int64 → β) (k : Int64) (a b : β) : put (put f k a) k b = put f k b := by
  funext j; simp only [put]; split <;> rfl
theorem put_self {β : Type} (f : Int64 → β) (k : Int64) (a : β) : put f k a k = a := by simp [put]

theorem runs_createCollections (db : Int64) (cs : List CollectionInfo) (M : MState) (hdb : M.db db ≠ none)
    (hf : ∀ c ∈ cs, M.coll db c.id = none) (hd : (cs.map (·.id)).Nodup) (ht : ∀ c ∈ cs, c.Text) :
    Runs (createCollections db cs) M cs.length (.ok ())
      { M with colls := put M.colls db (addAll (M.colls db) cs) } := by
  induction cs generalizing M with
  | nil =>
    have : ({ M with colls := put M.colls db (addAll (M.colls db) []) } : MState) = M := by
      have : put M.colls db (addAll (M.colls db) []) = M.colls := by
        funext j; simp only [put, addAll, List.foldl_nil]; split
        · rename_i h; rw [h]
        · rfl
      rw [this]
    rw [this]
    exact Runs.pure _ _
  | cons c cs ih =>
    rw [List.map_cons, List.nodup_cons] at hd
    have e : (MetaCall.createCollection db c).sem M =
        (.ok (), { M with colls := put M.colls db ((M.colls db).set (textOf c.id) c) }) := by
      simp only [MetaCall.sem, ifDB]
      rw [if_neg hdb, if_neg (by rw [hf c List.mem_cons_self]; simp)]
    have h1 : Runs (Client.one (.createCollection db c)) M 1 (.ok ()) _ := Runs.one (ht c List.mem_cons_self) e
    have h2 := ih { M with colls := put M.colls db ((M.colls db).set (textOf c.id) c) } hdb (by
      intro c' hc'
      show (put M.colls db _ db).get _ = none
      rw [put_self, OMap.get_set, if_neg]
      · exact hf c' (List.mem_cons_of_mem _ hc')
      · intro e
        have := textOf_inj.mp e
        exact hd.1 (by rw [this]; exact List.mem_map_of_mem hc')) hd.2
      (fun c' hc' => ht c' (List.mem_cons_of_mem _ hc'))
    simp only [put_put, put_self] at h2
    have h3 := Runs.bind (f := fun _ => createCollections db cs) h1 h2
    exact h3.mono (by simp only [List.length_cons]; omega)

end Mondis.Ddl
