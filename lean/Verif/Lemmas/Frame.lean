import Verif.Lemmas.Prog
/-!
# Which keys a program may write, whatever it reads and whichever writes fail
-/
namespace Mondis
namespace Prog

/-- Every write of the program, on every path, is at a key in `P`; values are stored without
metadata. -/
def Writes {α : Type} (P : Bytes → Prop) : Prog α → Prop
  | done _ => True
  | get _ c => ∀ r, (c r).Writes P
  | set k _ vm c => P k ∧ vm = none ∧ ∀ r, (c r).Writes P
  | del k c => P k ∧ ∀ r, (c r).Writes P
  | scan _ c => ∀ r, (c r).Writes P

theorem Writes.mono {α : Type} {P P' : Bytes → Prop} (h : ∀ k, P k → P' k) {p : Prog α}
    (hp : p.Writes P) : p.Writes P' := by
  induction p with
  | done r => trivial
  | get k c ih => exact fun r => ih r (hp r)
  | set k v m c ih => exact ⟨h _ hp.1, hp.2.1, fun r => ih r (hp.2.2 r)⟩
  | del k c ih => exact ⟨h _ hp.1, fun r => ih r (hp.2 r)⟩
  | scan o c ih => exact fun r => ih r (hp r)

theorem Writes.andThen {α β : Type} {P : Bytes → Prop} {p : Prog α} {f : Res α → Prog β}
    (hp : p.Writes P) (hf : ∀ r, (f r).Writes P) : (p.andThen f).Writes P := by
  induction p with
  | done r => exact hf r
  | get k c ih => exact fun r => ih r (hp r)
  | set k v m c ih => exact ⟨hp.1, hp.2.1, fun r => ih r (hp.2.2 r)⟩
  | del k c ih => exact ⟨hp.1, fun r => ih r (hp.2 r)⟩
  | scan o c ih => exact fun r => ih r (hp r)

theorem Writes.bind {α β : Type} {P : Bytes → Prop} {p : Prog α} {f : α → Prog β}
    (hp : p.Writes P) (hf : ∀ a, (f a).Writes P) : (p >>= f).Writes P := by
  apply Writes.andThen hp
  intro r; cases r with
  | ok a => exact hf a
  | err e => trivial
  | panic => trivial

theorem writes_pure {α : Type} {P : Bytes → Prop} (a : α) : (pure a : Prog α).Writes P := trivial
theorem writes_fail {α : Type} {P : Bytes → Prop} (e : Err) : (fail e : Prog α).Writes P := trivial
theorem writes_ofRes {α : Type} {P : Bytes → Prop} (r : Res α) : (ofRes r : Prog α).Writes P :=
  trivial
theorem writes_getK {P : Bytes → Prop} (k : Bytes) : (getK k).Writes P := fun _ => trivial
theorem writes_getOpt {P : Bytes → Prop} (k : Bytes) : (getOpt k).Writes P := by
  intro r
  cases r with
  | ok v => trivial
  | panic => trivial
  | err e => cases e <;> trivial
theorem writes_scanK {P : Bytes → Prop} (o : ScanOption) : (scanK o).Writes P := fun _ => trivial
theorem writes_setK {P : Bytes → Prop} {k : Bytes} (v : Bytes) (h : P k) : (setK k v).Writes P :=
  ⟨h, rfl, fun _ => trivial⟩
theorem writes_delK {P : Bytes → Prop} {k : Bytes} (h : P k) : (delK k).Writes P :=
  ⟨h, fun _ => trivial⟩

/-- The pending writes of a run are the earlier ones followed by writes at keys in `P`, of values
that never expire. -/
theorem run_writes {α : Type} {P : Bytes → Prop} {p : Prog α} (hp : p.Writes P) (t : Txn) :
    ∃ ws, (p.run t).2.writes = t.writes ++ ws ∧
      ∀ w ∈ ws, P w.1 ∧ ∀ v, w.2 = some v → v.tag = 0 ∧ v.expiresAt = 0 := by
  induction p generalizing t with
  | done r => exact ⟨[], by simp [run], by simp⟩
  | get k c ih =>
    obtain ⟨ws, h1, h2⟩ := ih (t.get k).1 (hp _) (t.get k).2
    refine ⟨ws, ?_, h2⟩
    simp only [run]; rw [h1, (t.get_snd k).2.2.1]
  | set k v m c ih =>
    obtain ⟨hk, rfl, hc⟩ := hp
    obtain ⟨ws, h1, h2⟩ := ih (t.set k v none).1 (hc _) (t.set k v none).2
    simp only [run]
    rcases t.modify_cases k (some (mkVal t.env.now v none)) with
      ⟨e, -, -, -, -, h5, -⟩ | ⟨-, -, -, -, -, h5, -⟩
    · refine ⟨ws, ?_, h2⟩
      rw [h1]; simp only [Txn.set, h5]
    · refine ⟨(k, some (mkVal t.env.now v none)) :: ws, ?_, ?_⟩
      · rw [h1]; simp only [Txn.set, h5, List.append_assoc, List.singleton_append]
      · intro w hw
        rcases List.mem_cons.mp hw with rfl | hw
        · exact ⟨hk, by rintro _ ⟨⟩; exact ⟨rfl, rfl⟩⟩
        · exact h2 w hw
  | del k c ih =>
    obtain ⟨hk, hc⟩ := hp
    obtain ⟨ws, h1, h2⟩ := ih (t.delete k).1 (hc _) (t.delete k).2
    simp only [run]
    rcases t.modify_cases k none with
      ⟨e, -, -, -, -, h5, -⟩ | ⟨-, -, -, -, -, h5, -⟩
    · refine ⟨ws, ?_, h2⟩
      rw [h1]; simp only [Txn.delete, h5]
    · refine ⟨(k, none) :: ws, ?_, ?_⟩
      · rw [h1]; simp only [Txn.delete, h5, List.append_assoc, List.singleton_append]
      · intro w hw
        rcases List.mem_cons.mp hw with rfl | hw
        · exact ⟨hk, by rintro _ ⟨⟩⟩
        · exact h2 w hw
  | scan o c ih => exact ih _ (hp _) t

/-- Applying writes leaves keys that are not written alone. -/
theorem get_applyWrites_of_not_mem {db : DB} {ws : List (Bytes × Option Val)} {k : Bytes}
    (h : k ∉ ws.map Prod.fst) : (applyWrites db ws).get k = db.get k := by
  induction ws generalizing db with
  | nil => rfl
  | cons w ws ih =>
    simp only [List.map_cons, List.mem_cons, not_or] at h
    show (applyWrites (applyWrite db w) ws).get k = _
    rw [ih h.2]
    obtain ⟨a, b⟩ := w
    cases b with
    | none => simp only [applyWrite]; rw [OMap.get_del, if_neg (Ne.symm h.1)]
    | some v => simp only [applyWrite]; rw [OMap.get_set, if_neg (Ne.symm h.1)]

/-- What is stored at `k` afterwards was there before or was written. -/
theorem get_applyWrites_cases {db : DB} {ws : List (Bytes × Option Val)} {k : Bytes} {v : Val}
    (h : (applyWrites db ws).get k = some v) : db.get k = some v ∨ (k, some v) ∈ ws := by
  induction ws generalizing db with
  | nil => exact .inl h
  | cons w ws ih =>
    rcases ih (db := applyWrite db w) h with h | h
    · obtain ⟨a, b⟩ := w
      cases b with
      | none =>
        simp only [applyWrite] at h; rw [OMap.get_del] at h
        split at h
        · cases h
        · exact .inl h
      | some x =>
        simp only [applyWrite] at h; rw [OMap.get_set] at h
        split at h
        · rename_i e; cases h; subst e; exact .inr (by simp)
        · exact .inl h
    · exact .inr (by simp [h])

/-- **Frame**: keys outside `P` keep their stored entry in the transaction's view. -/
theorem run_frame {α : Type} {P : Bytes → Prop} {p : Prog α} (hp : p.Writes P) (t : Txn) {db : DB}
    (ht : t.view = applyWrites db t.writes) {k : Bytes} (hk : ¬ P k) :
    (p.run t).2.view.get k = t.view.get k := by
  obtain ⟨ws, h1, h2⟩ := run_writes hp t
  rw [run_view p t db ht, h1, applyWrites, List.foldl_append]
  have := get_applyWrites_of_not_mem (db := applyWrites db t.writes) (ws := ws) (k := k) (by
    intro h
    obtain ⟨w, hw, rfl⟩ := List.mem_map.mp h
    exact hk (h2 w hw).1)
  rw [ht]; exact this

end Prog
end Mondis
