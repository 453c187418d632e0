import Verif.Lemmas.Document
import Verif.Lemmas.Util
import Verif.Props.Structure
import Verif.Props.Key
/-!
# C41–C44: collections

`runDocOps` runs operations in one transaction; `Spec.runDocs` is what they mean.
-/
namespace Mondis.Props
open Mondis.Doc Mondis.Memcomparable Mondis.Prog Mondis.Spec

variable {D : Type}

/-- Run operations in a transaction, whatever each of them answers. -/
def runDocOps (C : Codec D) : List (DocOp D) → Txn → List (Res (DocOut D)) × Txn
  | [], t => ([], t)
  | op :: ops, t =>
    let (r, t) := (Doc.exec C op).run t
    let (rs, t) := runDocOps C ops t
    (r :: rs, t)

/-- Transactions one after the other on a database, each with its own circumstances. -/
def runDocHistory (C : Codec D) : List (Env × DocScript D) → DB → List (List (Res (DocOut D))) × DB
  | [], db => ([], db)
  | (env, s) :: rest, db =>
    let (rs, t) := runDocOps C s.ops (Txn.start env db)
    let db' := if s.commits then (t.commit none db).2 else db
    let (rss, db'') := runDocHistory C rest db'
    (rs :: rss, db'')

/-- No document is stored. -/
def NoDocs (db : DB) : Prop := ∀ cid k, IsPrefixOf (documentKeyPrefix cid) k → db.get k = none

/-- The database holds exactly the documents `A`, none of which expires. -/
structure HoldsDocs (C : Codec D) (A : Docs D) (db : DB) : Prop where
  rep : Doc.Rep C A db
  noTTL : ∀ cid k v, IsPrefixOf (documentKeyPrefix cid) k → db.get k = some v → v.expiresAt = 0

theorem holdsDocs_init (C : Codec D) {db : DB} (h : NoDocs db) : HoldsDocs C Docs.init db where
  rep :=
    { docs := by
        intro c i
        rw [h c _ (documentKey_prefix.mpr rfl)]
        simp [Docs.init, Shows]
      clean := by
        intro c k v hg hp
        rw [h c k hp] at hg; cases hg }
  noTTL := by
    intro c k v hp hg
    rw [h c k hp] at hg; cases hg

theorem HoldsDocs.live {C : Codec D} {A : Docs D} {db : DB} (h : HoldsDocs C A db) (now : Int) :
    Doc.Rep C A (DB.live now db) :=
  Doc.rep_congr (fun c k hp => live_get_noTTL (fun v hv => h.noTTL c k v hp hv)) h.rep

/-- Every two document prefixes of different collections exclude each other. -/
theorem documentKeyPrefix_disjoint {c c' : Int64} {k : Bytes} (h : IsPrefixOf (documentKeyPrefix c) k)
    (h' : IsPrefixOf (documentKeyPrefix c') k) : c = c' := by
  obtain ⟨s, rfl⟩ := h
  obtain ⟨s', h'⟩ := h'
  rw [documentKeyPrefix_eq, documentKeyPrefix_eq] at h'
  simp only [List.append_assoc] at h'
  have h' := List.append_cancel_left h'
  exact (encodeInt64_append_inj h').1

/-- One operation in a transaction. -/
theorem docStep {C : Codec D} {A : Docs D} {t : Txn} {db : DB} (op : DocOp D)
    (hov : t.view = applyWrites db t.writes) (h : HoldsDocs C A t.view) :
    ((op.mutates = true ∧ ∃ did e, t.env.WriteErr (documentKey op.cid did) e ∧ ((Doc.exec C op).run t).1 = .err e) ∨
    (((Doc.exec C op).run t).1 = (op.step C.norm A).1 ∧
      HoldsDocs C (op.step C.norm A).2 ((Doc.exec C op).run t).2.view)) := by
  have hs := wp_sound (Doc.exec C op) t _ (Doc.step_refines (env := t.env) op (h.live t.env.now))
  rcases hs with hs | ⟨h1, h2⟩
  · exact .inl hs
  · have hn : ∀ cid k v, IsPrefixOf (documentKeyPrefix cid) k →
        ((Doc.exec C op).run t).2.view.get k = some v → v.expiresAt = 0 := by
      obtain ⟨ws, hw1, hw2⟩ := exec_run_writes C op t
      intro c k v hk hg
      rw [run_view _ _ db hov, hw1, applyWrites, List.foldl_append] at hg
      rcases get_applyWrites_cases hg with hg | hg
      · exact h.noTTL c k v hk (by rw [hov]; exact hg)
      · exact ((hw2 _ hg).2 v rfl).2
    refine .inr ⟨h1, ?_, hn⟩
    refine Doc.rep_congr (fun c k hp => ?_) h2
    exact (live_get_noTTL (fun v hv => hn c k v hp hv)).symm

/-- The answers agree up to the first failing write of the transaction: it is read-only or full. -/
inductive FollowsDocs (env : Env) : List (Res (DocOut D)) → List (Res (DocOut D)) → Prop
  | nil : FollowsDocs env [] []
  | same (r : Res (DocOut D)) {rs ss : List (Res (DocOut D))} : FollowsDocs env rs ss → FollowsDocs env (r :: rs) (r :: ss)
  | readOnly (s : Res (DocOut D)) (rs ss : List (Res (DocOut D))) : env.update = false →
      FollowsDocs env (.err .readOnlyTxn :: rs) (s :: ss)
  | tooBig (s : Res (DocOut D)) (rs ss : List (Res (DocOut D))) (n : Nat) : env.tooBig n = true →
      FollowsDocs env (.err .txnTooBig :: rs) (s :: ss)

/-- **C41** Any sequence of operations in one transaction, read-only or update, answers as specified up to
the first write that the transaction refuses. -/
theorem C41_transaction (C : Codec D) (ops : List (DocOp D)) {A : Docs D} {db : DB} (env : Env)
    (h : HoldsDocs C A db) : FollowsDocs env (runDocOps C ops (Txn.start env db)).1 (runDocs C.norm A ops).1 := by
  suffices H : ∀ (t : Txn) (A : Docs D), t.env = env → t.view = applyWrites db t.writes → HoldsDocs C A t.view →
      FollowsDocs env (runDocOps C ops t).1 (runDocs C.norm A ops).1 from H _ A rfl rfl h
  induction ops with
  | nil => intros; exact .nil
  | cons op ops ih =>
    intro t A he hov hh
    simp only [runDocOps, runDocs]
    rcases docStep op hov hh with ⟨-, did, e, hw, hr⟩ | ⟨hr, hh'⟩
    · rw [hr]
      rw [he] at hw
      rcases writeErr_doc hw with ⟨h1, rfl⟩ | ⟨rfl, n, h1⟩
      · exact .readOnly _ _ _ h1
      · exact .tooBig _ _ _ n h1
    · rw [hr]
      exact .same _ (ih _ _ (by rw [run_env]; exact he) (run_view _ _ db hov) hh')

theorem docs_exact (C : Codec D) (ops : List (DocOp D)) {A : Docs D} {db : DB} {t : Txn}
    (hu : t.env.update = true) (hb : ∀ n, t.env.tooBig n = false) (hov : t.view = applyWrites db t.writes)
    (h : HoldsDocs C A t.view) :
    (runDocOps C ops t).1 = (runDocs C.norm A ops).1 ∧
      HoldsDocs C (runDocs C.norm A ops).2 (runDocOps C ops t).2.view ∧
      (runDocOps C ops t).2.view = applyWrites db (runDocOps C ops t).2.writes := by
  induction ops generalizing A t with
  | nil => exact ⟨rfl, h, hov⟩
  | cons op ops ih =>
    simp only [runDocOps, runDocs]
    rcases docStep op hov h with ⟨-, did, e, hw, hr⟩ | ⟨hr, hh'⟩
    · exact absurd hw (Env.Writable.not_err ⟨hu, documentKey_ok _ _, hb⟩ e)
    · obtain ⟨h1, h2, h3⟩ := ih (by rw [run_env]; exact hu) (by rw [run_env]; exact hb) (run_view _ _ db hov) hh'
      exact ⟨by rw [hr, h1], h2, h3⟩

theorem commit_view {t : Txn} {db : DB} (h : t.view = applyWrites db t.writes) : (t.commit none db).2 = t.view := by
  rw [h]; unfold Txn.commit
  split
  · rename_i e; rw [e]; rfl
  · rfl

/-- **C41** Any history of update transactions, each a sequence of operations on any collections, committed
or thrown away, starting from a database without documents, answers as the specification does. -/
theorem C41_history (C : Codec D) (hist : List (Env × DocScript D)) (db : DB) (hfresh : NoDocs db)
    (hu : ∀ s ∈ hist, s.1.update = true) (hb : ∀ s ∈ hist, ∀ n, s.1.tooBig n = false) :
    (runDocHistory C hist db).1 = runDocScripts C.norm Docs.init (hist.map Prod.snd) := by
  suffices H : ∀ A, HoldsDocs C A db → (runDocHistory C hist db).1 = runDocScripts C.norm A (hist.map Prod.snd) from
    H _ (holdsDocs_init C hfresh)
  clear hfresh
  induction hist generalizing db with
  | nil => intros; rfl
  | cons s rest ih =>
    obtain ⟨env, sc⟩ := s
    intro A hh
    obtain ⟨h1, h2, h3⟩ := docs_exact C sc.ops (t := Txn.start env db) (db := db) (hu (env, sc) (by simp))
      (hb (env, sc) (by simp)) rfl hh
    simp only [runDocHistory, List.map_cons, runDocScripts]
    rw [h1]
    congr 1
    have ih := fun db' => ih db' (fun s hs => hu s (by simp [hs])) (fun s hs => hb s (by simp [hs]))
    cases sc.commits with
    | true =>
      simp only [if_true]
      rw [commit_view h3]
      exact ih _ _ h2
    | false => exact ih _ _ hh

/-- **C41** An operation called without a transaction either answers as specified and leaves the specified
contents, or answers an error (the transaction got too big, the engine refused the commit) and leaves the
database as it was; nothing outside the collection's documents is ever changed.  (For DeleteAll of
package document see C44.) -/
theorem C41_auto (dml : Bool) (C : Codec D) (op : DocOp D) (env : Env) (fail : Option Err) {A : Docs D} {db : DB}
    (h : HoldsDocs C A db) (hd : dml = true ∨ ∀ cid, op ≠ .deleteAll cid) :
    (((auto dml C op env fail db).1 = (op.step C.norm A).1 ∧
      HoldsDocs C (op.step C.norm A).2 (auto dml C op env fail db).2) ∨
     (∃ e, (auto dml C op env fail db).1 = .err e ∧ (e = .txnTooBig ∨ some e = fail) ∧
       (auto dml C op env fail db).2 = db)) ∧
    ∀ k, ¬ IsPrefixOf (documentKeyPrefix op.cid) k → (auto dml C op env fail db).2.get k = db.get k := by
  unfold auto
  cases hu : updates dml op with
  | true =>
    simp only [if_true, Util.runInNewUpdateTxn, Util.body]
    have hov := run_view (Doc.exec C op) (Txn.start { env with update := true } db) db rfl
    have hst := docStep (t := Txn.start { env with update := true } db) (db := db) op rfl h
    have hfr : ∀ k, ¬ IsPrefixOf (documentKeyPrefix op.cid) k →
        ((Doc.exec C op).run (Txn.start { env with update := true } db)).2.view.get k = db.get k := by
      intro k hk
      obtain ⟨ws, hw1, hw2⟩ := exec_run_writes C op (Txn.start { env with update := true } db)
      rw [hov, hw1]
      apply get_applyWrites_of_not_mem
      intro hm
      obtain ⟨w, hw, rfl⟩ := List.mem_map.mp hm
      exact hk (hw2 w (by simpa [Txn.start] using hw)).1
    have hsame : ∀ (r : Res (DocOut D)), (op.sem C.norm (A op.cid)).1 = r → (∀ a, r ≠ .ok a) →
        (op.sem C.norm (A op.cid)).2 = A op.cid := by
      intro r hr hne
      have key : ∀ d f, (storing C.norm (A op.cid) d f).1 = r →
          (∀ d', (f d').1 = r → (f d').2 = A op.cid) → (storing C.norm (A op.cid) d f).2 = A op.cid := by
        intro d f h1 h2
        unfold storing at h1 ⊢
        cases hn : C.norm d with
        | ok d' => rw [hn] at h1; exact h2 d' h1
        | err e => rfl
        | panic => rfl
      cases op with
      | insert c i d => exact key _ _ hr (fun d' hd' => absurd hd'.symm (hne _))
      | insertManaged c i d =>
        refine key _ _ hr (fun d' hd' => ?_)
        simp only [DocOp.cid] at hd' ⊢
        cases hg : (A c).get i with
        | none => rw [hg] at hd'; exact absurd hd'.symm (hne _)
        | some x => rfl
      | update c i d =>
        refine key _ _ hr (fun d' hd' => ?_)
        simp only [DocOp.cid] at hd' ⊢
        cases hg : (A c).get i with
        | none => rfl
        | some x => rw [hg] at hd'; exact absurd hd'.symm (hne _)
      | upsert c i d => exact key _ _ hr (fun d' hd' => absurd hd'.symm (hne _))
      | delete c i => exact absurd hr.symm (hne _)
      | getOne c i => simp only [DocOp.sem]; split <;> rfl
      | getMany c is => rfl
      | getAll c => rfl
      | count c => rfl
      | deleteAll c => exact absurd hr.symm (hne _)
    have hkeep : ∀ (r : Res (DocOut D)), (op.step C.norm A).1 = r → (∀ a, r ≠ .ok a) →
        HoldsDocs C (op.step C.norm A).2 db := by
      intro r hr hne
      have := hsame r hr hne
      simp only [DocOp.step, this]
      rw [Doc.Docs.upd_same]; exact h
    have hwe : ∀ e, (∃ did, ({ env with update := true } : Env).WriteErr (documentKey op.cid did) e) → e = .txnTooBig := by
      rintro e ⟨did, hw⟩
      rcases writeErr_doc hw with ⟨h1, -⟩ | ⟨h1, -⟩
      · cases h1
      · exact h1
    generalize hrun : (Doc.exec C op).run (Txn.start { env with update := true } db) = rt at *
    obtain ⟨r, t⟩ := rt
    simp only at hov hst hfr
    cases r with
    | ok a =>
      rcases hst with ⟨-, did, e, -, he⟩ | ⟨hr, hh⟩
      · cases he
      · cases hf : fail with
        | none =>
          have hc := commit_view hov
          have hok : (t.commit none db).1 = .ok () := by unfold Txn.commit; split <;> rfl
          have hx : t.commit none db = (.ok (), t.view) := Prod.ext hok hc
          simp only [hx]
          exact ⟨.inl ⟨hr, hh⟩, hfr⟩
        | some e =>
          simp only [Txn.commit]
          split
          · rename_i heq
            split at heq
            · cases heq
              rename_i hnil
              rw [hnil] at hov
              rw [hov] at hh
              exact ⟨.inl ⟨hr, hh⟩, fun _ _ => rfl⟩
            · cases heq
          · rename_i heq
            split at heq
            · cases heq
            · cases heq
              exact ⟨.inr ⟨_, rfl, .inr rfl, rfl⟩, fun _ _ => rfl⟩
          · rename_i heq
            split at heq <;> cases heq
    | err e =>
      rcases hst with ⟨-, did, e', hw, he⟩ | ⟨hr, hh⟩
      · cases he
        exact ⟨.inr ⟨e, rfl, .inl (hwe e ⟨did, hw⟩), rfl⟩, fun _ _ => rfl⟩
      · exact ⟨.inl ⟨hr, hkeep _ hr.symm (by simp)⟩, fun _ _ => rfl⟩
    | panic =>
      rcases hst with ⟨-, did, e', hw, he⟩ | ⟨hr, hh⟩
      · cases he
      · exact ⟨.inl ⟨hr, hkeep _ hr.symm (by simp)⟩, fun _ _ => rfl⟩
  | false =>
    simp only [Bool.false_eq_true, if_false, Util.runInNewTxn, Util.body]
    refine ⟨.inl ?_, by simp⟩
    have hst := docStep (t := Txn.start { env with update := false } db) (db := db) op rfl h
    have hro := run_readOnly (Doc.exec C op) (Txn.start { env with update := false } db) rfl rfl
    rcases hst with ⟨hm, -⟩ | ⟨hr, hh⟩
    · exfalso
      cases op with
      | deleteAll c =>
        rcases hd with rfl | hd
        · simp [updates] at hu
        · exact hd c rfl
      | getOne => cases hm
      | getMany => cases hm
      | getAll => cases hm
      | count => cases hm
      | insert => simp [updates] at hu
      | insertManaged => simp [updates] at hu
      | update => simp [updates] at hu
      | upsert => simp [updates] at hu
      | delete => simp [updates] at hu
    · refine ⟨hr, ?_⟩
      rw [hro.2] at hh
      exact hh

/-! ### The hypotheses can be met -/

/-- Documents are byte strings; the empty one is refused, and a leading zero is lost. -/
def demoCodec : Codec Bytes where
  marshal d := if d = [] then .err .parse else .ok (if d.head? = some 0 then d.tail else d)
  unmarshal b := .ok b
  norm d := if d = [] then .err .parse else .ok (if d.head? = some 0 then d.tail else d)
  law := by intro d; by_cases h : d = [] <;> simp [h]

set_option maxRecDepth 20000 in
/-- A history over two collections: a committed transaction, one thrown away, and a third. -/
example : (runDocHistory demoCodec [
    (calm, ⟨[.insert 1 1 [5], .insert 1 (-2) [0, 6], .insertManaged 2 1 [9], .insertManaged 1 1 [7], .upsert 1 3 []], true⟩),
    (calm, ⟨[.deleteAll 1, .count 1], false⟩),
    (calm, ⟨[.getAll 1, .update 1 4 [1], .upsert 1 4 [2], .getMany 1 [4, -2], .delete 1 1, .getOne 1 1, .deleteAll 1,
      .count 1, .count 2], true⟩)] OMap.empty).1 =
    [[.ok .unit, .ok .unit, .ok .unit, .err errDocExists, .err .parse],
     [.ok (.num 2), .ok (.num 0)],
     [.ok (.docs [[6], [5]]), .ok (.flag false), .ok (.flag true), .ok (.docs [[2], [6]]), .ok .unit, .err errDocNotFound,
      .ok (.num 2), .ok (.num 0), .ok (.num 1)]] := by
  rw [C41_history]
  · decide
  · intro c k _; simp
  · simp [calm]
  · simp [calm]

/-! ### C44 -/

/-- **C44** DeleteAll of package document, called without a transaction, never deletes anything: it answers 0
if the collection is empty and fails otherwise, because it opens a read-only transaction. -/
theorem C44_document_deleteAll (C : Codec D) (cid : Int64) (env : Env) (fail : Option Err) {A : Docs D} {db : DB}
    (h : HoldsDocs C A db) :
    (auto false C (.deleteAll cid) env fail db).2 = db ∧
    (auto false C (.deleteAll cid) env fail db).1 =
      if (A cid).ents = [] then .ok (.num 0) else .err .readOnlyTxn := by
  refine ⟨rfl, ?_⟩
  show ((Doc.exec C (.deleteAll cid)).run (Txn.start { env with update := false } db)).1 = _
  simp only [Doc.exec, Doc.deleteAll]
  rw [run_bind, run_bind]
  simp only [scanK, run]
  have hk := keys_of_scan (h.live env.now) cid
  have hs : (Txn.start { env with update := false } db).scan { pfx := documentKeyPrefix cid } =
      (DB.live env.now db).ents.filter (fun e => Key.hasPrefix e.1 (documentKeyPrefix cid)) :=
    scan_eq env.prune (DB.live env.now db) cid
  rw [hs]
  cases hl : (DB.live env.now db).ents.filter (fun e => Key.hasPrefix e.1 (documentKeyPrefix cid)) with
  | nil =>
    rw [hl] at hk
    have : (A cid).ents = [] := by
      cases he : (A cid).ents with
      | nil => rfl
      | cons _ _ => rw [he] at hk; simp at hk
    rw [if_pos this]; rfl
  | cons e l =>
    rw [hl] at hk
    have : (A cid).ents ≠ [] := by
      intro he; rw [he] at hk; simp at hk
    rw [if_neg this]; rfl

/-- The full removal is refuted by a collection with one document. -/
theorem C44_false : ∃ (A : Docs Bytes) (db : DB), HoldsDocs demoCodec A db ∧ ∀ env fail,
    (auto false demoCodec (.deleteAll 1) env fail db).1 = .err .readOnlyTxn ∧
    (auto false demoCodec (.count 1) env fail (auto false demoCodec (.deleteAll 1) env fail db).2).1 = .ok (.num 1) := by
  have h := docs_exact demoCodec [.insert 1 1 [5]] (A := Docs.init) (t := Txn.start calm OMap.empty) (db := OMap.empty)
    rfl (fun _ => rfl) rfl (holdsDocs_init demoCodec (by intro c k _; simp [Txn.start]))
  refine ⟨_, _, h.2.1, fun env fail => ?_⟩
  have h1 := C44_document_deleteAll demoCodec 1 env fail h.2.1
  rw [h1.1, h1.2]
  refine ⟨by decide, ?_⟩
  rcases (C41_auto false demoCodec (.count 1) env fail h.2.1 (.inr (by simp))).1 with ⟨h2, -⟩ | ⟨e, h2, -⟩
  · rw [h2]; decide
  · exfalso
    have : (auto false demoCodec (.count 1) env fail (runDocOps demoCodec [.insert 1 1 [5]]
      (Txn.start calm OMap.empty)).2.view).1 = .ok (.num ((Txn.start { env with update := false }
        (runDocOps demoCodec [.insert 1 1 [5]] (Txn.start calm OMap.empty)).2.view).scan
          { pfx := documentKeyPrefix 1 }).length) := rfl
    rw [this] at h2; cases h2

/-! ### C43 -/

/-- **C43** On a collection that has documents, GetDidRange answers its smallest and largest id (unless some
entry is stored exactly at the end of the collection's key range, which no key of the document layer is). -/
theorem C43_range {C : Codec D} {A : Docs D} {t : Txn} (cid : Int64) (h : HoldsDocs C A t.view)
    (hne : ∃ did, (A cid).get did ≠ none)
    (hgap : t.view.get (Key.prefixNext (documentKeyPrefix cid)) = none) :
    ∃ lo hi, ((getDidRange cid).run t).1 = .ok (lo, hi) ∧ (A cid).get lo ≠ none ∧ (A cid).get hi ≠ none ∧
      ∀ did, (A cid).get did ≠ none → lo ≤ did ∧ did ≤ hi := by
  have hrep := h.live t.env.now
  have hpne : documentKeyPrefix cid ≠ [] := by rw [documentKeyPrefix_eq]; simp [collectionPrefix]
  have hpe : documentKeyPrefix cid = (collectionPrefix ++ (encodeInt64 [] cid ++ [95])) ++ [100] := by
    rw [documentKeyPrefix_eq]; simp [documentPrefix]
  have hpn : Key.prefixNext (documentKeyPrefix cid) ≠ [] := by
    have h1 := C12_prefixNext_upper (documentKeyPrefix cid) ⟨100, by rw [hpe]; simp, by decide⟩ []
    intro e
    rw [e] at h1
    exact absurd h1 (List.not_lt_nil _)
  have hmem : ∀ did, (A cid).get did ≠ none → ∃ v, (documentKey cid did, v) ∈ t.live.ents := by
    intro did hd
    have := hrep.docs cid did
    cases hg : (DB.live t.env.now t.view).get (documentKey cid did) with
    | some v => exact ⟨v, (OMap.get_eq_some_iff _ _ _).mp hg⟩
    | none =>
      rw [hg] at this
      cases ha : (A cid).get did with
      | none => exact absurd ha hd
      | some d => rw [ha] at this; exact this.elim
  have hmem' : ∀ e ∈ t.live.ents, IsPrefixOf (documentKeyPrefix cid) e.1 →
      ∃ did, e.1 = documentKey cid did ∧ (A cid).get did ≠ none := by
    intro e he hp
    have hg : t.live.get e.1 = some e.2 := OMap.mem_get he
    obtain ⟨did, hk⟩ := hrep.clean cid e.1 e.2 hg hp
    refine ⟨did, hk, ?_⟩
    have := hrep.docs cid did
    rw [← hk] at this
    intro ha
    rw [ha] at this
    have hg' : (DB.live t.env.now t.view).get e.1 = some e.2 := hg
    rw [hg'] at this
    exact this
  have hexact : ∀ k, (documentKeyPrefix cid ≤ k ∧ k < Key.prefixNext (documentKeyPrefix cid)) ↔
      IsPrefixOf (documentKeyPrefix cid) k := by
    intro k
    rw [hpe]
    exact C12_prefixNext_exact _ 100 (by decide) k
  have hdk : ∀ did, documentKeyPrefix cid ≤ documentKey cid did ∧
      documentKey cid did < Key.prefixNext (documentKeyPrefix cid) :=
    fun did => (hexact _).mpr (documentKey_prefix.mpr rfl)
  obtain ⟨d0, hd0⟩ := hne
  -- smallest
  have hlo : ∃ lo e l, Txn.iterate t.env.prune t.live.ents { offset := documentKeyPrefix cid } = e :: l ∧
      e.1 = documentKey cid lo ∧ (A cid).get lo ≠ none ∧ ∀ did, (A cid).get did ≠ none → lo ≤ did := by
    have hf := Scan.iterate_forward (prune := t.env.prune) t.live.sorted [] (documentKeyPrefix cid)
      (.inr (List.nil_le _))
    rw [hf]
    simp only [Scan.hasPrefix_nil, Bool.true_and]
    have hin : ∀ did, (A cid).get did ≠ none →
        ∃ v, (documentKey cid did, v) ∈ t.live.ents.filter (fun e => decide (documentKeyPrefix cid ≤ e.1)) := by
      intro did hd
      obtain ⟨v, hv⟩ := hmem did hd
      exact ⟨v, List.mem_filter.mpr ⟨hv, by simpa using (hdk did).1⟩⟩
    have hsub : ∀ e ∈ t.live.ents.filter (fun e => decide (documentKeyPrefix cid ≤ e.1)),
        e ∈ t.live.ents ∧ documentKeyPrefix cid ≤ e.1 := by
      intro e he; rw [List.mem_filter] at he; exact ⟨he.1, by simpa using he.2⟩
    have hso := t.live.sorted.filter (fun e => decide (documentKeyPrefix cid ≤ e.1))
    generalize t.live.ents.filter (fun e => decide (documentKeyPrefix cid ≤ e.1)) = L at *
    cases L with
    | nil => obtain ⟨v, hv⟩ := hin d0 hd0; cases hv
    | cons e l =>
      have hle : ∀ did, (A cid).get did ≠ none → e.1 ≤ documentKey cid did := by
        intro did hd
        obtain ⟨v, hv⟩ := hin did hd
        rcases List.mem_cons.mp hv with hv | hv
        · rw [← hv]; exact List.le_refl _
        · exact List.le_of_lt ((List.pairwise_cons.mp hso).1 _ hv)
      obtain ⟨he, hpe⟩ := hsub e (by simp)
      have hp : IsPrefixOf (documentKeyPrefix cid) e.1 :=
        (hexact _).mp ⟨hpe, Std.lt_of_le_of_lt (hle d0 hd0) (hdk d0).2⟩
      obtain ⟨lo, hk, hlo⟩ := hmem' e he hp
      refine ⟨lo, e, l, rfl, hk, hlo, fun did hd => ?_⟩
      have := hle did hd
      rw [hk] at this
      rw [← Int64.not_lt]
      intro hlt
      exact absurd (documentKey_lt.mpr hlt) (List.not_lt.mpr this)
  -- largest
  have hhi : ∃ hi e l, Txn.iterate t.env.prune t.live.ents
      { reverse := true, offset := Key.prefixNext (documentKeyPrefix cid) } = e :: l ∧
      e.1 = documentKey cid hi ∧ (A cid).get hi ≠ none ∧ ∀ did, (A cid).get did ≠ none → did ≤ hi := by
    have hf := Scan.iterate_reverse_noprefix (prune := t.env.prune) t.live.sorted
      (Key.prefixNext (documentKeyPrefix cid)) hpn
    rw [hf]
    have hin : ∀ did, (A cid).get did ≠ none → ∃ v, (documentKey cid did, v) ∈
        (t.live.ents.filter (fun e => decide (e.1 ≤ Key.prefixNext (documentKeyPrefix cid)))).reverse := by
      intro did hd
      obtain ⟨v, hv⟩ := hmem did hd
      exact ⟨v, List.mem_reverse.mpr (List.mem_filter.mpr ⟨hv, by simpa using List.le_of_lt (hdk did).2⟩)⟩
    have hsub : ∀ e ∈ (t.live.ents.filter (fun e => decide (e.1 ≤ Key.prefixNext (documentKeyPrefix cid)))).reverse,
        e ∈ t.live.ents ∧ e.1 ≤ Key.prefixNext (documentKeyPrefix cid) := by
      intro e he; rw [List.mem_reverse, List.mem_filter] at he; exact ⟨he.1, by simpa using he.2⟩
    have hso := List.pairwise_reverse.mpr
      (t.live.sorted.filter (fun e => decide (e.1 ≤ Key.prefixNext (documentKeyPrefix cid))))
    generalize (t.live.ents.filter (fun e => decide (e.1 ≤ Key.prefixNext (documentKeyPrefix cid)))).reverse = L at *
    cases L with
    | nil => obtain ⟨v, hv⟩ := hin d0 hd0; cases hv
    | cons e l =>
      have hle : ∀ did, (A cid).get did ≠ none → documentKey cid did ≤ e.1 := by
        intro did hd
        obtain ⟨v, hv⟩ := hin did hd
        rcases List.mem_cons.mp hv with hv | hv
        · rw [← hv]; exact List.le_refl _
        · exact List.le_of_lt ((List.pairwise_cons.mp hso).1 _ hv)
      obtain ⟨he, hpe⟩ := hsub e (by simp)
      have hlt : e.1 < Key.prefixNext (documentKeyPrefix cid) := by
        rcases Std.le_iff_lt_or_eq.mp hpe with h1 | h1
        · exact h1
        · exfalso
          have hg : t.live.get e.1 = some e.2 := OMap.mem_get he
          rw [h1] at hg
          unfold Txn.live at hg
          rw [live_get, hgap] at hg
          cases hg
      have hp : IsPrefixOf (documentKeyPrefix cid) e.1 :=
        (hexact _).mp ⟨List.le_trans (hdk d0).1 (hle d0 hd0), hlt⟩
      obtain ⟨hi, hk, hhi⟩ := hmem' e he hp
      refine ⟨hi, e, l, rfl, hk, hhi, fun did hd => ?_⟩
      have := hle did hd
      rw [hk] at this
      rw [← Int64.not_lt]
      intro hlt
      exact absurd (documentKey_lt.mpr hlt) (List.not_lt.mpr this)
  obtain ⟨lo, e1, l1, hi1, hk1, ha1, hb1⟩ := hlo
  obtain ⟨hi, e2, l2, hi2, hk2, ha2, hb2⟩ := hhi
  refine ⟨lo, hi, ?_, ha1, ha2, fun did hd => ⟨hb1 did hd, hb2 did hd⟩⟩
  have hw : (getDidRange cid).wp t.env t.live (fun r _ => r = .ok (lo, hi)) := by
    have hdec : ∀ d, decodeDocumentKey (documentKey cid d) = .ok (cid, d) := by
      intro d
      exact (C40_document_decode _ cid d).mpr ⟨[], by simp⟩
    unfold getDidRange
    simp only [wp_bind, wp_scanK, hi1, hi2, hk1, hk2, hdec, wp_ofRes, wp_pure]
  exact wp_sound _ t _ hw

/-- On an empty collection GetDidRange answers ids of neighbouring collections: here collection 1 is empty,
collection 0 has document 3 and collection 2 has document 7. -/
theorem C43_empty_false :
    ((getDidRange 1).run (runDocOps demoCodec [.insert 0 3 [5], .insert 2 7 [5]] (Txn.start calm OMap.empty)).2).1 =
      .ok (7, 3) := by
  decide

end Mondis.Props
