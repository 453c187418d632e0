import Verif.Lemmas.DocDBRun
/-!
# Package document: what happens to the keys of the index catalogue
-/
namespace Mondis.DocDB
open Mondis Prog Doc Spec Props Sequence

variable {D : Type} {C : Codec D} {IC : IndexCodec} {w w' : World} {g : Ghost D} {b : Nat}

/-- Nothing, or one commit that is not about indexes. -/
inductive Quiet (S : Store) : Store → Prop where
  | same : Quiet S S
  | push (db : DB) (ks : List Bytes) : (∀ k, Idx.IsIndexKey k → db.get k = S.db.get k) → Quiet S (S.push db ks)

theorem Bumped.quiet {S S' : Store} {kw : Bytes} (h : Bumped S (metaSequenceKey kw) S') : Quiet S S' := by
  cases h with
  | same => exact .same
  | push db hf => exact .push db _ (fun k hk => hf k (fun e => (index_side hk).2.2 kw e.symm))

/-- The pending calls that have still to commit are not more than before. -/
def Fewer (ps ps' : List (Option Pending)) : Prop :=
  ∀ (p : Nat) i name iid d t v, ps'[p]? = some (some ⟨i, name, .writing iid d t v⟩) → ps[p]? = some (some ⟨i, name, .writing iid d t v⟩)

theorem Fewer.refl (ps : List (Option Pending)) : Fewer ps ps := fun _ _ _ _ _ _ _ h => h

theorem Fewer.set (ps : List (Option Pending)) (p : Nat) {x : Option Pending} (hx : ∀ i name iid d t v, x ≠ some ⟨i, name, .writing iid d t v⟩) :
    Fewer ps (ps.set p x) := by
  intro q i name iid d t v h
  rw [List.getElem?_set] at h
  split at h
  · split at h
    · cases h; exact absurd rfl (hx i name iid d t v)
    · cases h
  · exact h

theorem Fewer.append (ps : List (Option Pending)) {x : Option Pending} (hx : ∀ i name iid d t v, x ≠ some ⟨i, name, .writing iid d t v⟩) :
    Fewer ps (ps ++ [x]) := by
  intro q i name iid d t v h
  rw [List.getElem?_append] at h
  split at h
  · exact h
  · have := List.mem_of_getElem? h
    cases List.mem_singleton.mp this
    exact absurd rfl (hx i name iid d t v)

/-- Quiet, in the state. -/
structure Hush (w w' : World) : Prop where
  store : Quiet w.store w'.store
  pend : Fewer w.pending w'.pending

theorem Hush.refl (w : World) : Hush w w := ⟨.same, .refl _⟩

theorem Hush.obj (h : Hush w w') (i : Nat) (o : Obj) : Hush w (w'.putObj i o) := ⟨h.store, h.pend⟩

theorem Hush.sess (h : Hush w w') (k : Nat) (s : Session) : Hush w (w'.putSession k s) := ⟨h.store, h.pend⟩

theorem draw_hush {out : List (Bytes × UInt64)} (h : SeqsOK w.store w.gens out b) {p : Nat} {c : Turn} {r : Res UInt64} (hd : w.draw p c = some (r, w')) : Hush w w' := by
  unfold World.draw at hd
  split at hd
  · cases hd
  rename_i s hs
  obtain ⟨kw, hkw⟩ := (h.gens p s hs).key
  split at hd
  · cases hd
    refine ⟨?_, .refl _⟩
    dsimp only
    split
    · split
      · refine .push _ _ (fun k hk => ?_)
        exact OldSeq.nextId_get _ _ _ (fun e => (index_side hk).2.2 kw (by rw [e, hkw]))
      · exact .same
    · exact .same
  · cases hd

theorem newSequence_hush {kw : Bytes} {bw : UInt64} {c : Turn} {r : Res Unit} (hd : w.newSequence (metaSequenceKey kw) bw c = some (r, w')) : Hush w w' := by
  unfold World.newSequence at hd
  split at hd
  · cases hd
    refine ⟨?_, .refl _⟩
    dsimp only
    split
    · refine .push _ _ (fun k hk => ?_)
      unfold Old.Seq.new
      split
      · rfl
      · exact OldSeq.updateLease_get _ _ _ (fun e => (index_side hk).2.2 kw e.symm)
    · exact .same
  · cases hd

theorem commit_hush {S S' : Store} {t : Txn} {v : Nat} {f : Option Err} {r : Res Unit} (h : S.commit t v f = (r, S'))
    (ht : ∀ k ∈ t.writes.map Prod.fst, ¬ Idx.IsIndexKey k) : Quiet S S' := by
  rcases commit_cases S t v f with ⟨c1, -⟩ | ⟨-, -, c3⟩
  · rw [h] at c1; cases c1; exact .same
  · rw [h] at c3; cases c3
    exact .push _ _ (fun k hk => get_applyWrites_of_not_mem (fun hm => ht k hm hk))

theorem doc_not_index (c i : Int64) : ¬ Idx.IsIndexKey (documentKey c i) := fun h => (index_side h).1 (dk_atDoc c i)

theorem releases_hush (env : Env) (l : List Nat) (w : World) : Hush w (l.foldl (fun w p => w.release env p) w) := by
  suffices H : ∀ w' : World, Hush w w' → Hush w (l.foldl (fun w p => w.release env p) w') from H w (.refl w)
  induction l with
  | nil => exact fun _ h => h
  | cons p l ih =>
    intro w' h
    refine ih _ ?_
    dsimp only
    unfold World.release
    split
    · exact h
    · exact ⟨h.store, h.pend⟩

theorem remember_hush (h : Hush w w') (i : Nat) (name : Bytes) (f : OMap IndexDef → OMap IndexDef) : Hush w (w'.remember i name f) := by
  unfold World.remember
  repeat' split
  all_goals first | exact h | exact h.obj _ _

/-- The events that do not write to the catalogue. -/
def tame : Ev D → Bool
  | .createIndex .. | .writeIndex .. | .dropIndex .. => false
  | _ => true

theorem step_hush (h : Kept C w g b) (e : Ev D) (he : tame e = true) : Hush w (w.step C IC e).2 := by
  cases e with
  | newDB c =>
    simp only [World.step]
    split
    · exact .refl _
    · rename_i h; obtain ⟨h1, h2⟩ := newSequence_hush h; exact ⟨h1, h2⟩
  | newDB2 i c =>
    simp only [World.step]
    repeat' split
    all_goals first | exact .refl _ | (rename_i h; exact (newSequence_hush h).obj _ _)
  | lookup i name how v env c =>
    simp only [World.step, World.lookup]
    repeat' split
    all_goals first | exact .refl _ | exact (Hush.refl _).obj _ _ | (rename_i hd; exact (draw_hush h.seqs hd).obj _ _) | (rename_i hd; exact draw_hush h.seqs hd)
  | register i fail =>
    simp only [World.step]
    split
    case h_2 => exact .refl _
    rename_i o ho
    split
    case h_2 => exact .refl _
    rename_i name t v u hm
    have hc := h.claims i name t v u ⟨o, ho, hm⟩
    have key : ∀ {S : Store} {r : Res Unit} {t' : Txn}, (setK (metaCollectionName2IDKey name) (Numeric.encode2Binary u [])).run t = (.ok (), t') →
        w.store.commit t' v fail = (r, S) → Quiet w.store S := by
      intro S r t' h1 h2
      refine commit_hush h2 ?_
      rw [(run_setK h1).1, hc.writes]
      intro k hk hi
      exact (index_side hi).2.1 name (by simpa using (List.mem_singleton.mp (by simpa using hk)).symm)
    unfold World.register
    repeat' split
    all_goals first
      | exact .refl _
      | exact (Hush.refl _).obj _ _
      | (rename_i h1 _ _ _ h2; exact ⟨key h1 h2, .refl _⟩)
      | (rename_i h1 _ _ h2; exact ⟨key h1 h2, .refl _⟩)
  | sequence i c =>
    simp only [World.step, World.sequence]
    repeat' split
    all_goals first | exact .refl _ | (rename_i hd; exact (newSequence_hush hd).obj _ _)
  | indexes i env =>
    simp only [World.step, World.indexes]
    repeat' split
    all_goals first | exact .refl _ | exact (Hush.refl _).obj _ _
  | begin env => exact ⟨.same, .refl _⟩
  | insert k i name doc how c =>
    simp only [World.step, World.insert]
    repeat' split
    all_goals first | exact .refl _ | (rename_i hd; exact draw_hush h.seqs hd) | (rename_i hd; exact (draw_hush h.seqs hd).sess _ _)
  | op k i name o how =>
    simp only [World.step]
    repeat' split
    all_goals first | exact .refl _ | exact (Hush.refl _).sess _ _
  | commit k fail =>
    simp only [World.step]
    split
    case h_2 => exact .refl _
    rename_i s hs
    split
    case isFalse => exact .refl _
    refine Hush.sess (w := w) (w' := { w with store := (w.store.commit s.txn s.v fail).2 }) ⟨?_, .refl _⟩ _ _
    refine commit_hush (r := (w.store.commit s.txn s.v fail).1) rfl ?_
    rw [(h.sess k s hs).keys]
    intro x hx
    obtain ⟨p, -, rfl⟩ := List.mem_map.mp hx
    exact doc_not_index _ _
  | discard k =>
    simp only [World.step]
    repeat' split
    all_goals first | exact .refl _ | exact (Hush.refl _).sess _ _
  | createIndex => cases he
  | writeIndex => cases he
  | dropIndex => cases he
  | finish p =>
    simp only [World.step, World.finish]
    repeat' split
    all_goals first
      | exact .refl _
      | (dsimp only; exact remember_hush (w := w) (w' := { w with pending := w.pending.set p none }) ⟨.same, .set _ _ (fun _ _ _ _ _ _ h => nomatch h)⟩ _ _ _)
  | getIndexes i name =>
    simp only [World.step]
    repeat' split
    all_goals exact .refl _
  | close i =>
    simp only [World.step]
    repeat' split
    all_goals first | exact .refl _ | exact (Hush.refl _).obj _ _
  | closed i env =>
    simp only [World.step]
    repeat' split
    all_goals first | exact .refl _ | exact (releases_hush _ _ _).obj _ _
  | crash i =>
    refine ⟨.same, ?_⟩
    intro p j name iid d t v hp
    simp only [World.step, List.getElem?_map, Option.map_eq_some_iff] at hp
    obtain ⟨q, h1, h2⟩ := hp
    rw [h1]
    split at h2
    · split at h2
      · cases h2
      · rw [h2]
    · cases h2

end Mondis.DocDB
