import Verif.Spec.Domain
import Verif.Lemmas.DomainFrame
import Verif.Props.DmlInsert
/-!
# The document process: one operation in a transaction
-/
namespace Mondis.Props
open Mondis Prog Spec Doc Domain

variable {D : Type}

theorem run_existsK (k : Bytes) (hk : k ≠ []) (t : Txn) :
    (existsK k).run t = (.ok ((DB.live t.env.now t.view).get k).isSome, (t.get k).2) := by
  unfold existsK
  simp only [Prog.run]
  unfold Txn.get
  rw [if_neg hk, live_get]
  cases hg : t.view.get k with
  | none => simp [Option.filter, Prog.run]
  | some v => by_cases hl : v.live t.env.now = true <;> simp [hl, Option.filter, Prog.run]

theorem run_set_roomy (t : Txn) (k v : Bytes) (hu : t.env.update = true) (hr : Roomy t.env) (hk : keyErr k = none) :
    ∃ t', (setK k v).run t = (.ok (), t') ∧ t'.writes = t.writes ++ [(k, some { value := v })] := by
  refine ⟨_, by simp [setK, Prog.run, Txn.set, Txn.modify, hu, hk, hr t.attempts]; rfl, by simp [mkVal]⟩

theorem run_del_roomy (t : Txn) (k : Bytes) (hu : t.env.update = true) (hr : Roomy t.env) (hk : keyErr k = none) :
    ∃ t', (delK k).run t = (.ok (), t') ∧ t'.env = t.env ∧ t'.writes = t.writes ++ [(k, none)] := by
  refine ⟨_, by simp [delK, Prog.run, Txn.delete, Txn.modify, hu, hk, hr t.attempts]; rfl, by simp, by simp⟩

theorem run_set_ro (t : Txn) (k v : Bytes) (hu : t.env.update = false) : (setK k v).run t = (.err .readOnlyTxn, t) := by
  simp [setK, Prog.run, Txn.set, Txn.modify, hu]

theorem run_del_ro (t : Txn) (k : Bytes) (hu : t.env.update = false) : (delK k).run t = (.err .readOnlyTxn, t) := by
  simp [delK, Prog.run, Txn.delete, Txn.modify, hu]

theorem run_ofRes {α : Type} (r : Res α) (t : Txn) : (ofRes r).run t = (r, t) := rfl

theorem run_scanK (o : ScanOption) (t : Txn) : (scanK o).run t = (.ok (t.scan o), t) := rfl

theorem deleteEach_roomy (l : List (Bytes × Val)) (n : Nat) (t : Txn) (hu : t.env.update = true) (hr : Roomy t.env)
    (hk : ∀ e ∈ l, keyErr e.1 = none) :
    ((deleteEach l n).run t).2.writes = t.writes ++ l.map (fun e => (e.1, none)) := by
  induction l generalizing n t with
  | nil => simp [deleteEach]; rfl
  | cons e l ih =>
    obtain ⟨t', h1, h2, h3⟩ := run_del_roomy t e.1 hu hr (hk e (by simp))
    unfold deleteEach
    rw [run_bind, h1]
    show ((deleteEach l (n + 1)).run t').2.writes = _
    rw [ih _ _ (by rw [h2]; exact hu) (by rw [h2]; exact hr) (fun x hx => hk x (by simp [hx])), h3]
    simp

/-- The entries a transaction's scan of a collection hands over. -/
theorem scan_keys {C : Codec D} {A : Docs D} {t : Txn} (h : HoldsDocs C A t.view) (cid : Int64) :
    (t.scan { pfx := documentKeyPrefix cid }).map Prod.fst = (A cid).ents.map (fun p => documentKey cid p.1) := by
  have : t.scan { pfx := documentKeyPrefix cid } =
      (DB.live t.env.now t.view).ents.filter (fun e => Key.hasPrefix e.1 (documentKeyPrefix cid)) :=
    Doc.scan_eq t.env.prune (DB.live t.env.now t.view) cid
  rw [this]
  exact keys_of_scan (h.live _) cid

theorem doc_seen {C : Codec D} {A : Docs D} {t : Txn} (h : HoldsDocs C A t.view) (cid did : Int64) :
    (existsK (documentKey cid did)).run t = (.ok ((A cid).get did).isSome, (t.get (documentKey cid did)).2) := by
  rw [run_existsK _ (documentKey_ne_nil _ _), shows_isSome ((h.live _).docs cid did)]

/-- Operations that only read. -/
theorem reads_exec (C : Codec D) (op : DocOp D) (h : op.mutates = false) : (exec C op).Writes (fun _ => False) := by
  have sc : ∀ o, (scanK o).Writes (fun _ => False) := fun _ _ => trivial
  cases op with
  | getOne c i =>
    exact Writes.bind (Writes.bind (writes_getDoc _) (fun _ => writes_ofRes _)) (fun _ => trivial)
  | getMany c l => exact Writes.bind (writes_getMany C c l) (fun _ => trivial)
  | getAll c => exact Writes.bind (Writes.bind (sc _) (fun _ => writes_ofRes _)) (fun _ => trivial)
  | count c => exact Writes.bind (Writes.bind (sc _) (fun _ => trivial)) (fun _ => trivial)
  | insert => cases h
  | insertManaged => cases h
  | update => cases h
  | upsert => cases h
  | delete => cases h
  | deleteAll => cases h

/-- The writes of an operation in an update transaction with room. -/
theorem op_writes {C : Codec D} {A : Docs D} {t : Txn} (o : Op D) (cid : Int64) (hu : t.env.update = true) (hr : Roomy t.env)
    (h : HoldsDocs C A t.view) : ∃ ws, ((exec C (o.at cid)).run t).2.writes = t.writes ++ ws ∧
      ws.map Prod.fst = ((o.at cid).touches C.norm (A cid)).map (documentKey cid) ∧
      ∀ w ∈ ws, ∀ v, w.2 = some v → v.expiresAt = 0 := by
  obtain ⟨ws, h1, h2⟩ := exec_run_writes C (o.at cid) t
  refine ⟨ws, h1, ?_, fun w hw v hv => ((h2 w hw).2 v hv).2⟩
  have hsnd := fun k => t.get_snd k
  -- reads
  have reads : ∀ {α : Type} (p : Prog α) , p.Writes (fun _ => False) → (p.run t).2.writes = t.writes ++ ws → ws = [] := by
    intro α p hp hw
    obtain ⟨ws', h3, h4⟩ := run_writes hp t
    rw [hw] at h3
    have := List.append_cancel_left h3
    subst this
    cases hws : ws with
    | nil => rfl
    | cons w l => exact (h4 w (by rw [hws]; simp)).1.elim
  cases o with
  | getOne did => rw [reads _ (reads_exec C ((Op.getOne did : Op D).at cid) rfl) h1]; rfl
  | getMany dids => rw [reads _ (reads_exec C ((Op.getMany dids : Op D).at cid) rfl) h1]; rfl
  | getAll => rw [reads _ (reads_exec C ((Op.getAll : Op D).at cid) rfl) h1]; rfl
  | count => rw [reads _ (reads_exec C ((Op.count : Op D).at cid) rfl) h1]; rfl
  | delete did =>
    obtain ⟨t', e1, -, e3⟩ := run_del_roomy t (documentKey cid did) hu hr (documentKey_ok _ _)
    have : ((exec C ((Op.delete did : Op D).at cid)).run t).2.writes = t'.writes := by
      simp only [Op.at, exec, deleteOne]
      rw [run_bind, e1]; rfl
    rw [this, e3] at h1
    rw [← List.append_cancel_left h1]; rfl
  | deleteAll =>
    have : ((exec C ((Op.deleteAll : Op D).at cid)).run t).2.writes =
        ((deleteEach (t.scan { pfx := documentKeyPrefix cid }) 0).run t).2.writes := by
      simp only [Op.at, exec, Doc.deleteAll]
      simp only [run_bind, run_scanK]
      cases ((deleteEach (t.scan { pfx := documentKeyPrefix cid }) 0).run t).1 <;> rfl
    rw [this, deleteEach_roomy _ _ _ hu hr] at h1
    · rw [← List.append_cancel_left h1]
      have := scan_keys h cid
      simp only [List.map_map, DocOp.touches, Op.at] at this ⊢
      exact this
    · intro e he
      have : e.1 ∈ (t.scan { pfx := documentKeyPrefix cid }).map Prod.fst := List.mem_map_of_mem he
      rw [scan_keys h cid] at this
      obtain ⟨p, -, hp⟩ := List.mem_map.mp this
      rw [← hp]; exact documentKey_ok _ _
  | insertManaged did d =>
    simp only [Op.at, exec, insertOneManaged, updateOne, DocOp.touches] at h1 ⊢
    rcases codec_cases C d with ⟨b, d', c1, c2, c3⟩ | ⟨e, c1, c2⟩ | ⟨c1, c2⟩
    · cases hg : (A cid).get did with
      | some x =>
        simp only [run_bind, run_ofRes, c1, doc_seen h, hg] at h1
        simp only [Option.isSome_some, if_true, fail, Prog.run, (hsnd _).2.2.1] at h1
        have : ws = [] := by simpa using h1
        rw [this, c2]; rfl
      | none =>
        simp only [run_bind, run_ofRes, c1, doc_seen h, hg, Option.isSome_none] at h1
        obtain ⟨t', e1, e2⟩ := run_set_roomy (t.get (documentKey cid did)).2 (documentKey cid did) b
          (by rw [(hsnd _).1]; exact hu) (by rw [(hsnd _).1]; exact hr) (documentKey_ok _ _)
        simp only [Bool.false_eq_true, if_false, run_bind, e1] at h1
        have h1 : t'.writes = t.writes ++ ws := h1
        rw [e2, (hsnd _).2.2.1] at h1
        rw [← List.append_cancel_left h1, c2]; rfl
    · simp only [run_bind, run_ofRes, c1] at h1
      have : ws = [] := by simpa using h1
      rw [this, c2]; rfl
    · simp only [run_bind, run_ofRes, c1] at h1
      have : ws = [] := by simpa using h1
      rw [this, c2]; rfl
  | update did d =>
    simp only [Op.at, exec, Doc.update, updateOne, DocOp.touches] at h1 ⊢
    rcases codec_cases C d with ⟨b, d', c1, c2, c3⟩ | ⟨e, c1, c2⟩ | ⟨c1, c2⟩
    · cases hg : (A cid).get did with
      | none =>
        simp only [run_bind, run_ofRes, c1, doc_seen h, hg] at h1
        have h1 : (t.get (documentKey cid did)).2.writes = t.writes ++ ws := h1
        rw [(hsnd _).2.2.1] at h1
        have : ws = [] := by simpa using h1
        rw [this, c2]; rfl
      | some x =>
        simp only [run_bind, run_ofRes, c1, doc_seen h, hg, Option.isSome_some] at h1
        obtain ⟨t', e1, e2⟩ := run_set_roomy (t.get (documentKey cid did)).2 (documentKey cid did) b
          (by rw [(hsnd _).1]; exact hu) (by rw [(hsnd _).1]; exact hr) (documentKey_ok _ _)
        simp only [Bool.true_eq_false, if_false, run_bind, e1] at h1
        have h1 : t'.writes = t.writes ++ ws := h1
        rw [e2, (hsnd _).2.2.1] at h1
        rw [← List.append_cancel_left h1, c2]; rfl
    · simp only [run_bind, run_ofRes, c1] at h1
      have : ws = [] := by simpa using h1
      rw [this, c2]; rfl
    · simp only [run_bind, run_ofRes, c1] at h1
      have : ws = [] := by simpa using h1
      rw [this, c2]; rfl
  | upsert did d =>
    simp only [Op.at, exec, Doc.upsert, updateOne, DocOp.touches] at h1 ⊢
    rcases codec_cases C d with ⟨b, d', c1, c2, c3⟩ | ⟨e, c1, c2⟩ | ⟨c1, c2⟩
    · simp only [run_bind, run_ofRes, c1, doc_seen h] at h1
      obtain ⟨t', e1, e2⟩ := run_set_roomy (t.get (documentKey cid did)).2 (documentKey cid did) b
        (by rw [(hsnd _).1]; exact hu) (by rw [(hsnd _).1]; exact hr) (documentKey_ok _ _)
      simp only [e1] at h1
      have h1 : t'.writes = t.writes ++ ws := h1
      rw [e2, (hsnd _).2.2.1] at h1
      rw [← List.append_cancel_left h1, c2]; rfl
    · simp only [run_bind, run_ofRes, c1] at h1
      have : ws = [] := by simpa using h1
      rw [this, c2]; rfl
    · simp only [run_bind, run_ofRes, c1] at h1
      have : ws = [] := by simpa using h1
      rw [this, c2]; rfl

/-- A read-only transaction keeps its contents. -/
theorem run_ro {α : Type} (p : Prog α) (t : Txn) (hu : t.env.update = false) :
    (p.run t).2.view = t.view ∧ (p.run t).2.writes = t.writes := by
  induction p generalizing t with
  | done r => exact ⟨rfl, rfl⟩
  | get k c ih =>
    have := t.get_snd k
    have h := ih (t.get k).1 (t.get k).2 (by rw [this.1]; exact hu)
    simp only [Prog.run]
    rw [h.1, h.2]; exact ⟨this.2.1, this.2.2.1⟩
  | set k v m c ih => simp only [Prog.run, Txn.set, Txn.modify, hu]; exact ih _ t hu
  | del k c ih => simp only [Prog.run, Txn.delete, Txn.modify, hu]; exact ih _ t hu
  | scan o c ih => simp only [Prog.run]; exact ih _ t hu

/-- An operation in a read-only transaction: it answers as specified unless it would write. -/
theorem op_readOnly {C : Codec D} {A : Docs D} {t : Txn} {db : DB} (o : Op D) (cid : Int64) (hu : t.env.update = false)
    (hov : t.view = applyWrites db t.writes) (h : HoldsDocs C A t.view) :
    ((o.at cid).touches C.norm (A cid) ≠ [] → ((exec C (o.at cid)).run t).1 = .err .readOnlyTxn) ∧
    ((o.at cid).touches C.norm (A cid) = [] → ((exec C (o.at cid)).run t).1 = ((o.at cid).step C.norm A).1 ∧
      ((o.at cid).step C.norm A).2 = A) := by
  have hsnd := fun k => t.get_snd k
  have hu' : ∀ k, (t.get k).2.env.update = false := fun k => by rw [(hsnd k).1]; exact hu
  have same : ∀ op : DocOp D, op.cid = cid → (op.sem C.norm (A cid)).2 = A cid → (op.step C.norm A).2 = A := by
    intro op e1 e2
    unfold DocOp.step
    rw [e1, e2]; exact Docs.upd_same A cid
  have reads : ∀ op : DocOp D, op.cid = cid → op.mutates = false → op.touches C.norm (A cid) = [] →
      (op.sem C.norm (A cid)).2 = A cid →
      (op.touches C.norm (A cid) ≠ [] → ((exec C op).run t).1 = .err .readOnlyTxn) ∧
      (op.touches C.norm (A cid) = [] → ((exec C op).run t).1 = (op.step C.norm A).1 ∧ (op.step C.norm A).2 = A) := by
    intro op e1 e2 e3 e4
    refine ⟨fun e => absurd e3 e, fun _ => ⟨?_, same op e1 e4⟩⟩
    rcases docStep op hov h with ⟨hm, -⟩ | ⟨hr, -⟩
    · rw [e2] at hm; cases hm
    · exact hr
  cases o with
  | getOne did => exact reads (.getOne cid did) rfl rfl rfl (by simp only [DocOp.sem]; split <;> rfl)
  | getMany dids => exact reads (.getMany cid dids) rfl rfl rfl rfl
  | getAll => exact reads (.getAll cid) rfl rfl rfl rfl
  | count => exact reads (.count cid) rfl rfl rfl rfl
  | delete did =>
    refine ⟨fun _ => ?_, fun e => by cases e⟩
    simp only [Op.at, exec, deleteOne, run_bind, run_del_ro _ _ hu]
  | deleteAll =>
    have hk := scan_keys h cid
    simp only [Op.at, exec, Doc.deleteAll, run_bind, run_scanK, DocOp.touches]
    cases he : (A cid).ents with
    | nil =>
      rw [he] at hk
      have hs : t.scan { pfx := documentKeyPrefix cid } = [] := List.map_eq_nil_iff.mp hk
      rw [hs]
      refine ⟨fun e => absurd rfl e, fun _ => ⟨by simp [deleteEach, DocOp.step, DocOp.sem, DocOp.cid, he, Prog.run]; rfl, same _ rfl ?_⟩⟩
      show IMap.empty = A cid
      cases hA : A cid with
      | mk ents sorted => rw [hA] at he; simp only at he; subst he; rfl
    | cons p l =>
      refine ⟨fun _ => ?_, fun e => by simp at e⟩
      rw [he] at hk
      cases hs : t.scan { pfx := documentKeyPrefix cid } with
      | nil => rw [hs] at hk; simp at hk
      | cons x xs =>
        unfold deleteEach
        simp only [run_bind, run_del_ro _ _ hu]
  | insertManaged did d =>
    simp only [Op.at, exec, insertOneManaged, updateOne, DocOp.touches]
    rcases codec_cases C d with ⟨b, d', c1, c2, c3⟩ | ⟨e, c1, c2⟩ | ⟨c1, c2⟩
    · cases hg : (A cid).get did with
      | some x =>
        simp only [run_bind, run_ofRes, c1, doc_seen h, hg, c2]
        exact ⟨fun e => absurd rfl e, fun _ => ⟨by simp [fail, Prog.run, DocOp.step, DocOp.sem, DocOp.cid, storing, c2, hg], same _ rfl (by simp [DocOp.sem, storing, c2, hg])⟩⟩
      | none =>
        simp only [run_bind, run_ofRes, c1, doc_seen h, hg, c2]
        refine ⟨fun _ => ?_, fun e => by cases e⟩
        simp only [Option.isSome_none, Bool.false_eq_true, if_false, run_bind, run_set_ro _ _ _ (hu' _)]
    · simp only [run_bind, run_ofRes, c1, c2]
      exact ⟨fun e => absurd rfl e, fun _ => ⟨by simp [DocOp.step, DocOp.sem, storing, c2], same _ rfl (by simp [DocOp.sem, storing, c2])⟩⟩
    · simp only [run_bind, run_ofRes, c1, c2]
      exact ⟨fun e => absurd rfl e, fun _ => ⟨by simp [DocOp.step, DocOp.sem, storing, c2], same _ rfl (by simp [DocOp.sem, storing, c2])⟩⟩
  | update did d =>
    simp only [Op.at, exec, Doc.update, updateOne, DocOp.touches]
    rcases codec_cases C d with ⟨b, d', c1, c2, c3⟩ | ⟨e, c1, c2⟩ | ⟨c1, c2⟩
    · cases hg : (A cid).get did with
      | none =>
        simp only [run_bind, run_ofRes, c1, doc_seen h, hg, c2]
        exact ⟨fun e => absurd rfl e, fun _ => ⟨by simp [Prog.run, DocOp.step, DocOp.sem, DocOp.cid, storing, c2, hg]; rfl, same _ rfl (by simp [DocOp.sem, storing, c2, hg])⟩⟩
      | some x =>
        simp only [run_bind, run_ofRes, c1, doc_seen h, hg, c2]
        refine ⟨fun _ => ?_, fun e => by cases e⟩
        simp only [Option.isSome_some, Bool.true_eq_false, if_false, run_bind, run_set_ro _ _ _ (hu' _)]
    · simp only [run_bind, run_ofRes, c1, c2]
      exact ⟨fun e => absurd rfl e, fun _ => ⟨by simp [DocOp.step, DocOp.sem, storing, c2], same _ rfl (by simp [DocOp.sem, storing, c2])⟩⟩
    · simp only [run_bind, run_ofRes, c1, c2]
      exact ⟨fun e => absurd rfl e, fun _ => ⟨by simp [DocOp.step, DocOp.sem, storing, c2], same _ rfl (by simp [DocOp.sem, storing, c2])⟩⟩
  | upsert did d =>
    simp only [Op.at, exec, Doc.upsert, updateOne, DocOp.touches]
    rcases codec_cases C d with ⟨b, d', c1, c2, c3⟩ | ⟨e, c1, c2⟩ | ⟨c1, c2⟩
    · simp only [run_bind, run_ofRes, c1, doc_seen h, c2]
      refine ⟨fun _ => ?_, fun e => by cases e⟩
      simp only [run_bind, run_set_ro _ _ _ (hu' _)]
    · simp only [run_bind, run_ofRes, c1, c2]
      exact ⟨fun e => absurd rfl e, fun _ => ⟨by simp [DocOp.step, DocOp.sem, storing, c2], same _ rfl (by simp [DocOp.sem, storing, c2])⟩⟩
    · simp only [run_bind, run_ofRes, c1, c2]
      exact ⟨fun e => absurd rfl e, fun _ => ⟨by simp [DocOp.step, DocOp.sem, storing, c2], same _ rfl (by simp [DocOp.sem, storing, c2])⟩⟩

/-- An operation in an update transaction with room. -/
theorem op_update {C : Codec D} {A : Docs D} {t : Txn} {db : DB} (o : DocOp D) (hu : t.env.update = true) (hr : Roomy t.env)
    (hov : t.view = applyWrites db t.writes) (h : HoldsDocs C A t.view) :
    ((exec C o).run t).1 = (o.step C.norm A).1 ∧ HoldsDocs C (o.step C.norm A).2 ((exec C o).run t).2.view := by
  rcases docStep o hov h with ⟨-, did, e, hw, -⟩ | h
  · exact absurd hw (Env.Writable.not_err ⟨hu, documentKey_ok _ _, hr⟩ e)
  · exact h

end Mondis.Props
