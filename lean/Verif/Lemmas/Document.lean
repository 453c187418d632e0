import Verif.Model.Document
import Verif.Lemmas.Frame
import Verif.Lemmas.Scan
import Verif.Props.DocKeys
/-!
# Collections: what is stored and what each operation does to it
-/
namespace Mondis.Doc
open Mondis Prog Spec Memcomparable Props

variable {D : Type}

/-! ### Keys -/

theorem documentKey_ne_nil (cid did : Int64) : documentKey cid did ≠ [] := by
  rw [documentKey_eq]; simp [collectionPrefix]

theorem documentKey_inj {c c' d d' : Int64} (h : documentKey c d = documentKey c' d') : c = c' ∧ d = d' := by
  rw [documentKey_eq, documentKey_eq] at h
  have h := List.append_cancel_left h
  obtain ⟨rfl, h2⟩ := encodeInt64_append_inj h
  have h := List.append_cancel_left h2
  exact ⟨rfl, encodeInt64_inj h⟩

theorem documentKey_prefix {c c' d : Int64} :
    IsPrefixOf (documentKeyPrefix c) (documentKey c' d) ↔ c = c' := by
  constructor
  · rintro ⟨s, h⟩
    rw [documentKey_eq, documentKeyPrefix_eq, List.append_assoc, List.append_assoc] at h
    have h := List.append_cancel_left h
    exact (encodeInt64_append_inj h).1.symm
  · rintro rfl
    exact ⟨encodeInt64 [] d, by rw [documentKey_eq, documentKeyPrefix_eq]; simp⟩

theorem documentKey_lt {c d d' : Int64} : documentKey c d < documentKey c d' ↔ d < d' := by
  rw [documentKey_eq, documentKey_eq, append_lt, append_lt, append_lt]
  exact (C01_int64_order.1 d d').symm

/-- The engine never refuses a document key. -/
theorem documentKey_ok (c d : Int64) : keyErr (documentKey c d) = none := by
  have hl : (documentKey c d).length = 23 := by
    rw [documentKey_eq]; simp [collectionPrefix, documentPrefix, encodeInt64_len]
  have hp : Key.hasPrefix (documentKey c d) badgerPrefix = false := by
    rw [Bool.eq_false_iff]
    intro h
    obtain ⟨t, ht⟩ := (Key.hasPrefix_iff _ _).mp h
    rw [documentKey_eq] at ht
    simp [collectionPrefix, badgerPrefix] at ht
  unfold keyErr
  rw [if_neg (by omega), hp, if_neg (by simp), if_neg (by omega)]

/-- Why a write of a document can fail. -/
theorem writeErr_doc {env : Env} {c d : Int64} {e : Err} (h : env.WriteErr (documentKey c d) e) :
    (env.update = false ∧ e = .readOnlyTxn) ∨ (e = .txnTooBig ∧ ∃ n, env.tooBig n = true) := by
  rcases h with h | h | h
  · exact .inl h
  · rw [documentKey_ok] at h; cases h
  · exact .inr h

/-! ### Representation -/

/-- What is stored at a key reads as a document. -/
def Shows (C : Codec D) : Option Val → Option D → Prop
  | none, none => True
  | some v, some d => C.unmarshal v.value = .ok d
  | _, _ => False

/-- The entries of `m` hold exactly the documents in `A`. -/
structure Rep (C : Codec D) (A : Docs D) (m : DB) : Prop where
  docs : ∀ cid did, Shows C (m.get (documentKey cid did)) ((A cid).get did)
  clean : ∀ cid k v, m.get k = some v → IsPrefixOf (documentKeyPrefix cid) k → ∃ did, k = documentKey cid did

theorem rep_set {C : Codec D} {A : Docs D} {m : DB} (h : Rep C A m) {cid did : Int64} {v : Val} {d : D}
    (hv : C.unmarshal v.value = .ok d) : Rep C (A.upd cid ((A cid).set did d)) (m.set (documentKey cid did) v) where
  docs := by
    intro c i
    unfold Docs.upd
    rw [OMap.get_set]
    by_cases hk : documentKey cid did = documentKey c i
    · obtain ⟨rfl, rfl⟩ := documentKey_inj hk
      simp [Shows, hv]
    · rw [if_neg hk]
      by_cases hc : c = cid
      · subst hc
        have : did ≠ i := fun e => hk (by rw [e])
        simp only [if_true, IMap.get_set, if_neg this]
        exact h.docs c i
      · rw [if_neg hc]; exact h.docs c i
  clean := by
    intro c k w hg hp
    rw [OMap.get_set] at hg
    split at hg
    · rename_i e
      subst e
      obtain rfl := documentKey_prefix.mp hp
      exact ⟨did, rfl⟩
    · exact h.clean c k w hg hp

theorem rep_del {C : Codec D} {A : Docs D} {m : DB} (h : Rep C A m) (cid did : Int64) :
    Rep C (A.upd cid ((A cid).del did)) (m.del (documentKey cid did)) where
  docs := by
    intro c i
    unfold Docs.upd
    rw [OMap.get_del]
    by_cases hk : documentKey cid did = documentKey c i
    · obtain ⟨rfl, rfl⟩ := documentKey_inj hk
      simp [Shows]
    · rw [if_neg hk]
      by_cases hc : c = cid
      · subst hc
        have : did ≠ i := fun e => hk (by rw [e])
        simp only [if_true, IMap.get_del, if_neg this]
        exact h.docs c i
      · rw [if_neg hc]; exact h.docs c i
  clean := by
    intro c k w hg hp
    rw [OMap.get_del] at hg
    split at hg
    · cases hg
    · exact h.clean c k w hg hp

theorem Docs.upd_same (A : Docs D) (c : Int64) : A.upd c (A c) = A := by
  funext j; unfold Docs.upd; split
  · rename_i h; rw [h]
  · rfl

theorem rep_same {C : Codec D} {A : Docs D} {m : DB} (h : Rep C A m) (cid : Int64) : Rep C (A.upd cid (A cid)) m := by
  rw [Docs.upd_same]; exact h

theorem rep_congr {C : Codec D} {A : Docs D} {m m' : DB}
    (h : ∀ cid k, IsPrefixOf (documentKeyPrefix cid) k → m'.get k = m.get k) (hr : Rep C A m) : Rep C A m' where
  docs := by
    intro c i
    rw [h c _ (documentKey_prefix.mpr rfl)]
    exact hr.docs c i
  clean := by
    intro c k v hg hp
    rw [h c _ hp] at hg
    exact hr.clean c k v hg hp

/-- The stored entries of a collection, in key order, are its documents in id order. -/
theorem scan_docs {C : Codec D} {A : Docs D} {m : DB} (h : Rep C A m) (cid : Int64) :
    (m.ents.filter (fun e => Key.hasPrefix e.1 (documentKeyPrefix cid))).map
        (fun e => (e.1, C.unmarshal e.2.value)) =
      (A cid).ents.map (fun p => (documentKey cid p.1, Res.ok p.2)) := by
  apply OMap.ents_eq
  · rw [List.pairwise_map]; exact m.sorted.filter _
  · rw [List.pairwise_map]
    exact (A cid).sorted.imp (fun h => documentKey_lt.mpr h)
  · rintro ⟨k, r⟩
    simp only [List.mem_map, List.mem_filter, Prod.mk.injEq, Prod.exists]
    constructor
    · rintro ⟨k', v, ⟨hm, hp⟩, rfl, rfl⟩
      have hg := OMap.mem_get hm
      obtain ⟨did, rfl⟩ := h.clean cid k' v hg ((Key.hasPrefix_iff _ _).mp hp)
      have := h.docs cid did
      rw [hg] at this
      cases hd : (A cid).get did with
      | none => rw [hd] at this; exact this.elim
      | some d =>
        rw [hd] at this
        exact ⟨did, d, (IMap.get_eq_some_iff _ _ _).mp hd, rfl, this.symm⟩
    · rintro ⟨did, d, hm, rfl, rfl⟩
      have hd := IMap.mem_get hm
      have := h.docs cid did
      rw [hd] at this
      cases hg : m.get (documentKey cid did) with
      | none => rw [hg] at this; exact this.elim
      | some v =>
        rw [hg] at this
        exact ⟨_, v, ⟨(OMap.get_eq_some_iff _ _ _).mp hg,
          (Key.hasPrefix_iff _ _).mpr (documentKey_prefix.mpr rfl)⟩, rfl, this⟩

theorem scan_eq (prune : Bytes → Bool) (m : DB) (cid : Int64) :
    Txn.iterate prune m.ents { pfx := documentKeyPrefix cid } =
      m.ents.filter (fun e => Key.hasPrefix e.1 (documentKeyPrefix cid)) := by
  have := Scan.iterate_forward (prune := prune) m.sorted (documentKeyPrefix cid) [] (.inl rfl)
  simpa using this

theorem unmarshalAll_map {C : Codec D} {l : List (Bytes × Val)} {ds : List (Int64 × D)} {cid : Int64}
    (h : l.map (fun e => (e.1, C.unmarshal e.2.value)) = ds.map (fun p => (documentKey cid p.1, Res.ok p.2))) :
    unmarshalAll C l = .ok (ds.map Prod.snd) := by
  induction l generalizing ds with
  | nil => cases ds with
    | nil => rfl
    | cons _ _ => simp at h
  | cons e l ih => cases ds with
    | nil => simp at h
    | cons p ds =>
      simp only [List.map_cons, List.cons.injEq, Prod.mk.injEq] at h
      unfold unmarshalAll
      rw [h.1.2, ih h.2]
      simp

theorem keys_of_scan {C : Codec D} {A : Docs D} {m : DB} (h : Rep C A m) (cid : Int64) :
    (m.ents.filter (fun e => Key.hasPrefix e.1 (documentKeyPrefix cid))).map Prod.fst =
      (A cid).ents.map (fun p => documentKey cid p.1) := by
  have := congrArg (List.map Prod.fst) (scan_docs h cid)
  simpa [List.map_map, Function.comp_def] using this

/-! ### Programs -/

@[simp] theorem wp_existsK {env : Env} (k : Bytes) (hk : k ≠ []) (m : DB) (Q : Res Bool → DB → Prop) :
    (existsK k).wp env m Q ↔ Q (.ok (m.get k).isSome) m := by
  unfold existsK
  simp only [wp, readRes, if_neg hk]
  cases m.get k <;> rfl

theorem wp_getDoc {env : Env} (k : Bytes) (hk : k ≠ []) (m : DB) (Q : Res Val → DB → Prop) :
    (getDoc k).wp env m Q ↔ Q (match m.get k with | some v => .ok v | none => .err errDocNotFound) m := by
  unfold getDoc
  simp only [wp, readRes, if_neg hk]
  cases m.get k <;> rfl

/-- Failing write, or the specified answer and contents. -/
def Post (env : Env) (C : Codec D) (A : Docs D) (op : DocOp D) (r : Res (DocOut D)) (m : DB) : Prop :=
  (op.mutates = true ∧ ∃ did e, env.WriteErr (documentKey op.cid did) e ∧ r = .err e) ∨
    (r = (op.step C.norm A).1 ∧ Rep C (op.step C.norm A).2 m)

theorem shows_isSome {C : Codec D} {o : Option Val} {o' : Option D} (h : Shows C o o') : o.isSome = o'.isSome := by
  cases o <;> cases o' <;> simp_all [Shows]

theorem codec_cases (C : Codec D) (d : D) :
    (∃ b d', C.marshal d = .ok b ∧ C.norm d = .ok d' ∧ C.unmarshal b = .ok d') ∨
    (∃ e, C.marshal d = .err e ∧ C.norm d = .err e) ∨ (C.marshal d = .panic ∧ C.norm d = .panic) := by
  have := C.law d
  cases h : C.marshal d with
  | ok b =>
    rw [h] at this
    obtain ⟨h1, d', h2⟩ := this
    exact .inl ⟨b, d', rfl, h2, h1 ▸ h2⟩
  | err e => rw [h] at this; exact .inr (.inl ⟨e, rfl, this⟩)
  | panic => rw [h] at this; exact .inr (.inr ⟨rfl, this⟩)

theorem wp_deleteEach {env : Env} {C : Codec D} (ds : List (Int64 × D)) (cid : Int64) (l : List (Bytes × Val)) (n : Nat)
    (m : DB) (A : Docs D) (hk : l.map Prod.fst = ds.map (fun p => documentKey cid p.1)) (h : Rep C A m) :
    (deleteEach l n).wp env m (fun r m' => (∃ did e, env.WriteErr (documentKey cid did) e ∧ r = .err e) ∨
      (r = .ok (n + ds.length) ∧ Rep C (A.upd cid (ds.foldl (fun s p => s.del p.1) (A cid))) m')) := by
  induction l generalizing ds n m A with
  | nil => cases ds with
    | nil => exact .inr ⟨rfl, rep_same h cid⟩
    | cons _ _ => simp at hk
  | cons e l ih => cases ds with
    | nil => simp at hk
    | cons p ds =>
      simp only [List.map_cons, List.cons.injEq] at hk
      unfold deleteEach
      rw [wp_bind, wp_delK, hk.1]
      refine ⟨fun e he => .inl ⟨_, e, he, rfl⟩, fun _ _ => ?_⟩
      have := ih ds (n + 1) _ _ hk.2 (rep_del h cid p.1)
      refine wp_mono this ?_
      rintro r m' (hr | ⟨hr, hm⟩)
      · exact .inl hr
      · refine .inr ⟨by rw [hr]; simp; omega, ?_⟩
        have e1 : ((A.upd cid ((A cid).del p.1)) cid) = (A cid).del p.1 := by simp [Docs.upd]
        rw [e1] at hm
        have e2 : ∀ s, Docs.upd (A.upd cid ((A cid).del p.1)) cid s = A.upd cid s := by
          intro s; funext j; unfold Docs.upd; split <;> rfl
        rw [e2] at hm
        exact hm

theorem foldl_del_all (s : IMap D) : s.ents.foldl (fun (t : IMap D) p => t.del p.1) s = IMap.empty := by
  have h : ∀ (l : List (Int64 × D)) (t : IMap D) j, (l.foldl (fun (t : IMap D) p => t.del p.1) t).get j =
      if j ∈ l.map Prod.fst then none else t.get j := by
    intro l
    induction l with
    | nil => intro t j; simp
    | cons p l ih =>
      intro t j
      simp only [List.foldl_cons, ih, IMap.get_del, List.map_cons, List.mem_cons]
      by_cases h1 : j ∈ l.map Prod.fst
      · simp [h1]
      · by_cases h2 : p.1 = j
        · simp [h2]
        · simp [h1, h2, Ne.symm h2]
  apply IMap.ext
  intro j
  rw [h, IMap.get_empty]
  split
  · rfl
  · rename_i hj
    rw [IMap.mem_keys_iff] at hj
    simpa using hj

theorem wp_getMany {env : Env} {C : Codec D} {A : Docs D} {m : DB} (h : Rep C A m) (cid : Int64) (dids : List Int64) :
    (getMany C cid dids).wp env m (fun r m' => r = fetch (A cid) dids ∧ m' = m) := by
  induction dids with
  | nil => exact ⟨rfl, rfl⟩
  | cons i is ih =>
    unfold getMany fetch
    rw [wp_bind, wp_getDoc _ (documentKey_ne_nil _ _)]
    have hd := h.docs cid i
    cases hg : m.get (documentKey cid i) with
    | none =>
      cases ha : (A cid).get i with
      | none => exact ⟨rfl, rfl⟩
      | some d => rw [hg, ha] at hd; exact hd.elim
    | some v =>
      cases ha : (A cid).get i with
      | none => rw [hg, ha] at hd; exact hd.elim
      | some d =>
        rw [hg, ha] at hd
        simp only [Shows] at hd
        simp only [hd, wp_bind, wp_ofRes]
        refine wp_mono ih ?_
        rintro r m' ⟨rfl, rfl⟩
        cases fetch (A cid) is <;> exact ⟨rfl, rfl⟩

/-- **Step**: every operation answers as specified and leaves what is specified, or a write failed. -/
theorem step_refines {env : Env} {C : Codec D} {A : Docs D} {m : DB} (op : DocOp D) (h : Rep C A m) :
    (exec C op).wp env m (Post env C A op) := by
  have hnn := documentKey_ne_nil
  cases op with
  | insert cid did d =>
    simp only [exec, insertOne, wp_bind, wp_ofRes]
    rcases codec_cases C d with ⟨b, d', h1, h2, h3⟩ | ⟨e, h1, h2⟩ | ⟨h1, h2⟩ <;> rw [h1] <;> simp only
    · rw [wp_setK]
      refine ⟨fun e he => .inl ⟨rfl, did, e, he, rfl⟩, fun _ _ => .inr ⟨?_, ?_⟩⟩
      · simp [DocOp.step, DocOp.sem, storing, h2]
      · simp only [DocOp.step, DocOp.sem, storing, h2, DocOp.cid]
        exact rep_set h h3
    · exact .inr ⟨by simp [DocOp.step, DocOp.sem, storing, h2], by
        simp only [DocOp.step, DocOp.sem, storing, h2]; exact rep_same h _⟩
    · exact .inr ⟨by simp [DocOp.step, DocOp.sem, storing, h2], by
        simp only [DocOp.step, DocOp.sem, storing, h2]; exact rep_same h _⟩
  | insertManaged cid did d =>
    simp only [exec, insertOneManaged, updateOne, wp_bind, wp_ofRes]
    rcases codec_cases C d with ⟨b, d', h1, h2, h3⟩ | ⟨e, h1, h2⟩ | ⟨h1, h2⟩ <;> rw [h1] <;> simp only
    · rw [wp_existsK _ (hnn _ _), shows_isSome (h.docs cid did)]
      cases hg : (A cid).get did with
      | none =>
        simp only [Option.isSome_none, Bool.false_eq_true, if_false, wp_bind, wp_setK, wp_pure]
        refine ⟨fun e he => .inl ⟨rfl, did, e, he, rfl⟩, fun _ _ => .inr ⟨?_, ?_⟩⟩
        · simp [DocOp.step, DocOp.sem, storing, h2, DocOp.cid, hg]
        · simp only [DocOp.step, DocOp.sem, storing, h2, DocOp.cid, hg]
          exact rep_set h h3
      | some x =>
        simp only [Option.isSome_some, if_true, wp_fail]
        exact .inr ⟨by simp [DocOp.step, DocOp.sem, storing, h2, DocOp.cid, hg], by
          simp only [DocOp.step, DocOp.sem, storing, h2, DocOp.cid, hg]; exact rep_same h _⟩
    · exact .inr ⟨by simp [DocOp.step, DocOp.sem, storing, h2], by
        simp only [DocOp.step, DocOp.sem, storing, h2]; exact rep_same h _⟩
    · exact .inr ⟨by simp [DocOp.step, DocOp.sem, storing, h2], by
        simp only [DocOp.step, DocOp.sem, storing, h2]; exact rep_same h _⟩
  | update cid did d =>
    simp only [exec, Doc.update, updateOne, wp_bind, wp_ofRes]
    rcases codec_cases C d with ⟨b, d', h1, h2, h3⟩ | ⟨e, h1, h2⟩ | ⟨h1, h2⟩ <;> rw [h1] <;> simp only
    · rw [wp_existsK _ (hnn _ _), shows_isSome (h.docs cid did)]
      cases hg : (A cid).get did with
      | some x =>
        simp only [Option.isSome_some, Bool.true_eq_false, if_false, wp_bind, wp_setK, wp_pure]
        refine ⟨fun e he => .inl ⟨rfl, did, e, he, rfl⟩, fun _ _ => .inr ⟨?_, ?_⟩⟩
        · simp [DocOp.step, DocOp.sem, storing, h2, DocOp.cid, hg]
        · simp only [DocOp.step, DocOp.sem, storing, h2, DocOp.cid, hg]
          exact rep_set h h3
      | none =>
        simp only [Option.isSome_none, if_true, wp_pure]
        exact .inr ⟨by simp [DocOp.step, DocOp.sem, storing, h2, DocOp.cid, hg], by
          simp only [DocOp.step, DocOp.sem, storing, h2, DocOp.cid, hg]; exact rep_same h _⟩
    · exact .inr ⟨by simp [DocOp.step, DocOp.sem, storing, h2], by
        simp only [DocOp.step, DocOp.sem, storing, h2]; exact rep_same h _⟩
    · exact .inr ⟨by simp [DocOp.step, DocOp.sem, storing, h2], by
        simp only [DocOp.step, DocOp.sem, storing, h2]; exact rep_same h _⟩
  | upsert cid did d =>
    simp only [exec, Doc.upsert, updateOne, wp_bind, wp_ofRes]
    rcases codec_cases C d with ⟨b, d', h1, h2, h3⟩ | ⟨e, h1, h2⟩ | ⟨h1, h2⟩ <;> rw [h1] <;> simp only
    · rw [wp_existsK _ (hnn _ _), shows_isSome (h.docs cid did)]
      simp only [wp_setK, wp_pure]
      refine ⟨fun e he => .inl ⟨rfl, did, e, he, rfl⟩, fun _ _ => .inr ⟨?_, ?_⟩⟩
      · simp [DocOp.step, DocOp.sem, storing, h2, DocOp.cid]
      · simp only [DocOp.step, DocOp.sem, storing, h2, DocOp.cid]
        exact rep_set h h3
    · exact .inr ⟨by simp [DocOp.step, DocOp.sem, storing, h2], by
        simp only [DocOp.step, DocOp.sem, storing, h2]; exact rep_same h _⟩
    · exact .inr ⟨by simp [DocOp.step, DocOp.sem, storing, h2], by
        simp only [DocOp.step, DocOp.sem, storing, h2]; exact rep_same h _⟩
  | delete cid did =>
    simp only [exec, deleteOne, wp_bind, wp_delK, wp_pure]
    exact ⟨fun e he => .inl ⟨rfl, did, e, he, rfl⟩, fun _ _ => .inr ⟨rfl, rep_del h cid did⟩⟩
  | getOne cid did =>
    simp only [exec, Doc.getOne, wp_bind]
    rw [wp_getDoc _ (hnn _ _)]
    have hd := h.docs cid did
    cases hg : m.get (documentKey cid did) with
    | none =>
      cases ha : (A cid).get did with
      | none => exact .inr ⟨by simp [DocOp.step, DocOp.sem, DocOp.cid, ha],
          by simp only [DocOp.step, DocOp.sem, DocOp.cid, ha]; exact rep_same h _⟩
      | some d => rw [hg, ha] at hd; exact hd.elim
    | some v =>
      cases ha : (A cid).get did with
      | none => rw [hg, ha] at hd; exact hd.elim
      | some d =>
        rw [hg, ha] at hd
        simp only [Shows] at hd
        simp only [wp_ofRes, hd, wp_pure]
        exact .inr ⟨by simp [DocOp.step, DocOp.sem, DocOp.cid, ha],
          by simp only [DocOp.step, DocOp.sem, DocOp.cid, ha]; exact rep_same h _⟩
  | getMany cid dids =>
    simp only [exec, wp_bind]
    refine wp_mono (wp_getMany h cid dids) ?_
    rintro r m' ⟨rfl, rfl⟩
    cases hf : fetch (A cid) dids with
    | ok ds => exact .inr ⟨by simp [DocOp.step, DocOp.sem, DocOp.cid, hf, Res.map'], rep_same h _⟩
    | err e => exact .inr ⟨by simp [DocOp.step, DocOp.sem, DocOp.cid, hf, Res.map'], rep_same h _⟩
    | panic => exact .inr ⟨by simp [DocOp.step, DocOp.sem, DocOp.cid, hf, Res.map'], rep_same h _⟩
  | getAll cid =>
    simp only [exec, Doc.getAll, wp_bind, wp_scanK, wp_ofRes]
    rw [scan_eq, unmarshalAll_map (scan_docs h cid)]
    exact .inr ⟨rfl, rep_same h _⟩
  | count cid =>
    simp only [exec, Doc.count, wp_bind, wp_scanK, wp_pure]
    rw [scan_eq]
    have hl : (m.ents.filter (fun e => Key.hasPrefix e.1 (documentKeyPrefix cid))).length = (A cid).ents.length := by
      have := congrArg List.length (scan_docs h cid)
      simpa using this
    rw [hl]
    exact .inr ⟨rfl, rep_same h _⟩
  | deleteAll cid =>
    simp only [exec, Doc.deleteAll, wp_bind, wp_scanK]
    rw [scan_eq]
    refine wp_mono (wp_deleteEach (A cid).ents cid _ 0 m A (keys_of_scan h cid) h) ?_
    rintro r m' (⟨did, e, he, rfl⟩ | ⟨rfl, hm⟩)
    · exact .inl ⟨rfl, did, e, he, rfl⟩
    · refine .inr ⟨by simp [DocOp.step, DocOp.sem, DocOp.cid], ?_⟩
      rw [foldl_del_all] at hm
      exact hm

/-! ### Frame -/

theorem writes_existsK {P : Bytes → Prop} (k : Bytes) : (existsK k).Writes P := by
  intro r; cases r with
  | ok v => trivial
  | panic => trivial
  | err e => cases e <;> trivial

theorem writes_getDoc {P : Bytes → Prop} (k : Bytes) : (getDoc k).Writes P := by
  intro r; cases r with
  | ok v => trivial
  | panic => trivial
  | err e => cases e <;> trivial

theorem writes_deleteEach {P : Bytes → Prop} (l : List (Bytes × Val)) (n : Nat) (h : ∀ e ∈ l, P e.1) :
    (deleteEach l n).Writes P := by
  induction l generalizing n with
  | nil => trivial
  | cons e l ih =>
    exact Writes.bind (writes_delK (h e (by simp))) (fun _ => ih _ (fun x hx => h x (by simp [hx])))

theorem writes_getMany {P : Bytes → Prop} (C : Codec D) (cid : Int64) (dids : List Int64) :
    (getMany C cid dids).Writes P := by
  induction dids with
  | nil => trivial
  | cons i is ih =>
    exact Writes.bind (writes_getDoc _) (fun _ => Writes.bind (writes_ofRes _) (fun _ => Writes.bind ih (fun _ => trivial)))

theorem writes_updateOne {P : Bytes → Prop} (C : Codec D) (cid did : Int64) (d : D) (mode : UpdateFor)
    (h : P (documentKey cid did)) : (updateOne C cid did d mode).Writes P := by
  unfold updateOne
  refine Writes.bind (writes_ofRes _) (fun b => Writes.bind (writes_existsK _) (fun ex => ?_))
  cases mode with
  | update =>
    cases ex
    · trivial
    · exact Writes.bind (writes_setK _ h) (fun _ => trivial)
  | upsert => exact Writes.bind (writes_setK _ h) (fun _ => trivial)
  | insert =>
    cases ex
    · exact Writes.bind (writes_setK _ h) (fun _ => trivial)
    · trivial

/-- The pending writes of an operation: under the collection's document prefix only, of values that
never expire. -/
theorem exec_run_writes (C : Codec D) (op : DocOp D) (t : Txn) :
    ∃ ws, ((exec C op).run t).2.writes = t.writes ++ ws ∧
      ∀ w ∈ ws, IsPrefixOf (documentKeyPrefix op.cid) w.1 ∧ ∀ v, w.2 = some v → v.tag = 0 ∧ v.expiresAt = 0 := by
  have hk : ∀ c d, IsPrefixOf (documentKeyPrefix c) (documentKey c d) := fun _ _ => documentKey_prefix.mpr rfl
  cases op with
  | deleteAll cid =>
    have hr : ((exec C (.deleteAll cid)).run t).2 = ((deleteEach (t.scan { pfx := documentKeyPrefix cid }) 0).run t).2 := by
      simp only [exec, Doc.deleteAll]
      rw [run_bind, run_bind]
      simp only [scanK, run]
      split <;> rfl
    rw [hr]
    apply run_writes
    apply writes_deleteEach
    intro e he
    rw [Txn.scan] at he
    have : Txn.liveEnts t.env.now t.view = t.live.ents := rfl
    rw [this, scan_eq, List.mem_filter] at he
    exact (Key.hasPrefix_iff _ _).mp he.2
  | insert cid did d =>
    (refine run_writes ?_ t; exact Writes.bind (Writes.bind (writes_ofRes _) (fun _ => writes_setK _ (hk _ _))) (fun _ => trivial))
  | insertManaged cid did d =>
    (refine run_writes ?_ t; exact Writes.bind (Writes.bind (writes_updateOne C _ _ _ _ (hk _ _)) (fun _ => trivial)) (fun _ => trivial))
  | update cid did d =>
    (refine run_writes ?_ t; exact Writes.bind (Writes.bind (writes_updateOne C _ _ _ _ (hk _ _)) (fun _ => trivial)) (fun _ => trivial))
  | upsert cid did d =>
    (refine run_writes ?_ t; exact Writes.bind (Writes.bind (writes_updateOne C _ _ _ _ (hk _ _)) (fun _ => trivial)) (fun _ => trivial))
  | delete cid did => (refine run_writes ?_ t; exact Writes.bind (writes_delK (hk _ _)) (fun _ => trivial))
  | getOne cid did =>
    (refine run_writes ?_ t; exact Writes.bind (Writes.bind (writes_getDoc _) (fun _ => writes_ofRes _)) (fun _ => trivial))
  | getMany cid dids => (refine run_writes ?_ t; exact Writes.bind (writes_getMany _ _ _) (fun _ => trivial))
  | getAll cid =>
    (refine run_writes ?_ t; exact Writes.bind (Writes.bind (writes_scanK _) (fun _ => writes_ofRes _)) (fun _ => trivial))
  | count cid =>
    (refine run_writes ?_ t; exact Writes.bind (Writes.bind (writes_scanK _) (fun _ => trivial)) (fun _ => trivial))

end Mondis.Doc
