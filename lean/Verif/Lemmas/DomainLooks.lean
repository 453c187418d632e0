import Verif.Spec.Serial
import Verif.Lemmas.DomainIds
/-!
# The document process: what an operation depends on
-/
namespace Mondis.Props
open Mondis Prog Spec Doc Domain

variable {D : Type} {norm : D → Res D}

/-- The documents GetMany looks up: up to the first that is missing. -/
def lookedUp (s : IMap D) : List Int64 → List Int64
  | [] => []
  | i :: is => i :: (if s.get i = none then [] else lookedUp s is)

/-- The documents an operation looks up. -/
def looks (norm : D → Res D) (s : IMap D) : DocOp D → List Int64
  | .insertManaged _ did d | .update _ did d | .upsert _ did d => match norm d with
    | .ok _ => [did]
    | _ => []
  | .getOne _ did => [did]
  | .getMany _ dids => lookedUp s dids
  | _ => []

/-- The operation is about the documents it names. -/
def isPoint : DocOp D → Bool
  | .getAll _ | .count _ | .deleteAll _ => false
  | _ => true

theorem fetch_congr {s s' : IMap D} : ∀ {l : List Int64}, (∀ i ∈ lookedUp s l, s'.get i = s.get i) → fetch s' l = fetch s l
  | [], _ => rfl
  | i :: is, h => by
    have h0 := h i (by simp [lookedUp])
    unfold fetch
    rw [h0]
    cases hg : s.get i with
    | none => rfl
    | some d =>
      simp only
      rw [fetch_congr (s := s) (s' := s') (l := is)]
      intro j hj
      exact h j (by simp [lookedUp, hg, hj])

/-- What is not touched stays. -/
theorem untouched (op : DocOp D) (s : IMap D) {i : Int64} (h : i ∉ op.touches norm s) : (op.sem norm s).2.get i = s.get i := by
  cases op with
  | insert c did d =>
    simp only [DocOp.touches, DocOp.sem, storing] at h ⊢
    cases hn : norm d <;> simp only [hn] at h ⊢
    simp at h; simp [Ne.symm h]
  | insertManaged c did d =>
    simp only [DocOp.touches, DocOp.sem, storing] at h ⊢
    cases hn : norm d <;> simp only [hn] at h ⊢
    cases hg : s.get did <;> simp only [hg] at h ⊢
    simp at h; simp [Ne.symm h]
  | update c did d =>
    simp only [DocOp.touches, DocOp.sem, storing] at h ⊢
    cases hn : norm d <;> simp only [hn] at h ⊢
    cases hg : s.get did <;> simp only [hg] at h ⊢
    simp at h; simp [Ne.symm h]
  | upsert c did d =>
    simp only [DocOp.touches, DocOp.sem, storing] at h ⊢
    cases hn : norm d <;> simp only [hn] at h ⊢
    simp at h; simp [Ne.symm h]
  | delete c did =>
    simp only [DocOp.touches, DocOp.sem] at h ⊢
    simp at h; simp [Ne.symm h]
  | deleteAll c =>
    simp only [DocOp.touches, DocOp.sem] at h ⊢
    cases hg : s.get i with
    | none => rfl
    | some d => exact absurd (List.mem_map.mpr ⟨(i, d), (IMap.get_eq_some_iff _ _ _).mp hg, rfl⟩) h
  | getOne c did => simp only [DocOp.sem]; split <;> rfl
  | getMany c l => rfl
  | getAll c => rfl
  | count c => rfl

/-- An operation on documents it names gives the same on contents that agree where it looks. -/
theorem sem_congr (op : DocOp D) (hp : isPoint op = true) {s s' : IMap D} (h : ∀ i ∈ looks norm s op, s'.get i = s.get i) :
    (op.sem norm s').1 = (op.sem norm s).1 ∧ op.touches norm s' = op.touches norm s ∧
      ∀ i ∈ op.touches norm s, (op.sem norm s').2.get i = (op.sem norm s).2.get i := by
  cases op with
  | insert c did d =>
    simp only [DocOp.touches, DocOp.sem, storing]
    cases hn : norm d <;> simp
  | insertManaged c did d =>
    simp only [DocOp.touches, DocOp.sem, storing, looks] at h ⊢
    cases hn : norm d <;> simp only [hn] at h ⊢
    · have := h did (by simp)
      rw [this]
      cases hg : s.get did <;> simp
    · simp
    · simp
  | update c did d =>
    simp only [DocOp.touches, DocOp.sem, storing, looks] at h ⊢
    cases hn : norm d <;> simp only [hn] at h ⊢
    · have := h did (by simp)
      rw [this]
      cases hg : s.get did <;> simp
    · simp
    · simp
  | upsert c did d =>
    simp only [DocOp.touches, DocOp.sem, storing, looks] at h ⊢
    cases hn : norm d <;> simp only [hn] at h ⊢
    · have := h did (by simp)
      rw [this]
      simp
    · simp
    · simp
  | delete c did => simp [DocOp.touches, DocOp.sem]
  | getOne c did =>
    simp only [DocOp.touches, DocOp.sem, looks] at h ⊢
    have := h did (by simp)
    rw [this]
    cases hg : s.get did <;> simp
  | getMany c l =>
    simp only [DocOp.touches, DocOp.sem, looks] at h ⊢
    rw [fetch_congr h]
    simp
  | getAll c => cases hp
  | count c => cases hp
  | deleteAll c => cases hp

/-- The key of a document looked up was recorded as read, or is one the transaction wrote. -/
theorem reads_looks {C : Codec D} {A : Docs D} {t : Txn} (h : HoldsDocs C A t.view) (op : DocOp D) :
    ∀ i ∈ looks C.norm (A op.cid) op, documentKey op.cid i ∈ ((exec C op).run t).2.reads ∨
      documentKey op.cid i ∈ t.writes.map Prod.fst := by
  have hget : ∀ (t : Txn) (cid did : Int64), documentKey cid did ∈ (t.get (documentKey cid did)).2.reads ∨
      documentKey cid did ∈ t.writes.map Prod.fst := by
    intro t cid did
    by_cases hw : documentKey cid did ∈ t.writes.map Prod.fst
    · exact .inr hw
    · left
      unfold Txn.get
      rw [if_neg (documentKey_ne_nil _ _)]
      simp only [if_neg hw]
      split
      · split <;> simp
      · simp
  have upd : ∀ (cid did : Int64) (d : D) (mode : UpdateFor) (b : Bytes), C.marshal d = .ok b →
      documentKey cid did ∈ ((updateOne C cid did d mode).run t).2.reads ∨ documentKey cid did ∈ t.writes.map Prod.fst := by
    intro cid did d mode b hb
    rcases hget t cid did with hr | hr
    · left
      unfold updateOne
      simp only [run_bind, run_ofRes, hb, doc_seen h]
      exact reads_subset _ _ _ hr
    · exact .inr hr
  have lift : ∀ {α β : Type} (p : Prog α) (f : α → Prog β) (k : Bytes), k ∈ (p.run t).2.reads → k ∈ ((p >>= f).run t).2.reads := by
    intro α β p f k hk
    rw [run_bind]
    cases hx : p.run t with
    | mk r t' =>
      rw [hx] at hk
      cases r with
      | ok a => exact reads_subset _ _ _ hk
      | err e => exact hk
      | panic => exact hk
  have lift' : ∀ {α β : Type} (p : Prog α) (f : α → Prog β) (k : Bytes) (Q : Prop), k ∈ (p.run t).2.reads ∨ Q → k ∈ ((p >>= f).run t).2.reads ∨ Q :=
    fun p f k Q h => h.imp_left (lift p f k)
  intro i hi
  cases op with
  | insert c did d => cases hi
  | delete c did => cases hi
  | getAll c => cases hi
  | count c => cases hi
  | deleteAll c => cases hi
  | insertManaged c did d =>
    simp only [looks] at hi
    rcases codec_cases C d with ⟨b, d', c1, c2, c3⟩ | ⟨e, c1, c2⟩ | ⟨c1, c2⟩ <;> rw [c2] at hi
    · obtain rfl := List.mem_singleton.mp hi
      exact lift' _ _ _ _ (lift' _ _ _ _ (upd _ _ _ _ _ c1))
    · cases hi
    · cases hi
  | update c did d =>
    simp only [looks] at hi
    rcases codec_cases C d with ⟨b, d', c1, c2, c3⟩ | ⟨e, c1, c2⟩ | ⟨c1, c2⟩ <;> rw [c2] at hi
    · obtain rfl := List.mem_singleton.mp hi
      exact lift' _ _ _ _ (lift' _ _ _ _ (upd _ _ _ _ _ c1))
    · cases hi
    · cases hi
  | upsert c did d =>
    simp only [looks] at hi
    rcases codec_cases C d with ⟨b, d', c1, c2, c3⟩ | ⟨e, c1, c2⟩ | ⟨c1, c2⟩ <;> rw [c2] at hi
    · obtain rfl := List.mem_singleton.mp hi
      exact lift' _ _ _ _ (lift' _ _ _ _ (upd _ _ _ _ _ c1))
    · cases hi
    · cases hi
  | getOne c did =>
    obtain rfl := List.mem_singleton.mp hi
    refine lift' _ _ _ _ (lift' _ _ _ _ ?_)
    rcases hget t c i with hr | hr
    · left
      show documentKey c i ∈ ((getDoc (documentKey c i)).run t).2.reads
      unfold getDoc
      simp only [Prog.run]
      exact reads_subset _ _ _ hr
    · exact .inr hr
  | getMany c l =>
    refine lift' _ _ _ _ ?_
    show documentKey c i ∈ ((getMany C c l).run t).2.reads ∨ _
    clear lift lift' upd
    have hi : i ∈ lookedUp (A c) l := hi
    induction l generalizing t with
    | nil => cases hi
    | cons j l ih =>
      have hd := (h.live t.env.now).docs c j
      have hsn := t.get_snd (documentKey c j)
      have hrun : (getDoc (documentKey c j)).run t = (match (DB.live t.env.now t.view).get (documentKey c j) with
          | some v => .ok v
          | none => .err errDocNotFound, (t.get (documentKey c j)).2) := by
        unfold getDoc
        simp only [Prog.run]
        rw [live_get]
        unfold Txn.get
        rw [if_neg (documentKey_ne_nil _ _)]
        cases hg : t.view.get (documentKey c j) with
        | none => simp [Option.filter, Prog.run]
        | some v => by_cases hl : v.live t.env.now = true <;> simp [hl, Option.filter, Prog.run]
      unfold getMany
      simp only [run_bind, hrun]
      cases hg : (DB.live t.env.now t.view).get (documentKey c j) with
      | none =>
        rw [hg] at hd
        cases ha : (A c).get j with
        | some d => rw [ha] at hd; exact hd.elim
        | none =>
          simp only [lookedUp, ha, if_true, List.mem_singleton] at hi
          subst hi
          exact hget t c i
      | some v =>
        rw [hg] at hd
        cases ha : (A c).get j with
        | none => rw [ha] at hd; exact hd.elim
        | some d =>
          rw [ha] at hd
          have hd : C.unmarshal v.value = .ok d := hd
          simp only [run_ofRes, hd]
          simp only [lookedUp, ha, reduceCtorEq, if_false, List.mem_cons] at hi
          rcases hi with rfl | hi
          · rcases hget t c i with hr | hr
            · left
              have := reads_subset (getMany C c l) _ _ hr
              split <;> exact this
            · exact .inr hr
          · have hh : HoldsDocs C A (t.get (documentKey c j)).2.view := by rw [hsn.2.1]; exact h
            rcases ih hh hi hi with hr | hr
            · left
              split <;> exact hr
            · right; rw [hsn.2.2.1] at hr; exact hr
end Mondis.Props
