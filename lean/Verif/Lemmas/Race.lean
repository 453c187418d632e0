import Verif.Lemmas.DdlHistory
import Verif.Lemmas.MetaTxn
import Verif.Spec.Race
/-!
# Transactions that list the databases and then write
-/
namespace Mondis.Race
open Mondis Schema Spec Meta Ddl Prog Structure

section
variable {J : Json} {α β : Type}

/-- The program with the answer to ListDatabases given. -/
def blind (a : Res (List DBInfo)) {α : Type} : Client α → Client α
  | .done r => .done r
  | .call .listDatabases k => blind a (k a)
  | .call c k => .call c (fun r => blind a (k r))

/-- Not a scan. -/
def Dry (β : Type) (c : MetaCall β) : Prop := c.scans = false

/-- Calls that read, without a scan, and calls that list the databases. -/
def Looks (β : Type) (c : MetaCall β) : Prop := match c with
  | .getDDLJobByIdx .. | .ddlJobQueueLen .. | .getHistoryDDLJob .. => True
  | _ => False

/-- The program lists the databases at most once, before it writes, and does not scan otherwise. -/
def Early {α : Type} : Client α → Prop
  | .done _ => True
  | .call .listDatabases k => ∀ r, (k r).Only Dry
  | .call c k => (Looks _ c ∧ ∀ r, Early (k r)) ∨ (Dry _ c ∧ ∀ r, (k r).Only Dry)

theorem looks_dry {c : MetaCall β} (h : Looks β c) : Dry β c := by cases c <;> first | exact h.elim | rfl

theorem early_of_dry {p : Client α} (h : p.Only Dry) : Early p := by
  cases p with
  | done r => trivial
  | call c k =>
    cases c <;> first | exact .inr h | (have h1 := h.1; cases h1; done)

theorem Early.bind {p : Client α} {f : α → Client β} (hp : Early p) (hf : ∀ a, (f a).Only Dry) : Early (p.bind f) := by
  induction p with
  | done r => cases r with
    | ok a => exact early_of_dry (hf a)
    | err e => trivial
    | panic => trivial
  | call c k ih =>
    cases c <;> first
      | exact fun r => Client.Only.bind (hp r) hf
      | exact hp.elim (fun h => .inl ⟨h.1, fun r => ih r (h.2 r)⟩) (fun h => .inr ⟨h.1, fun r => Client.Only.bind (h.2 r) hf⟩)

theorem Early.looks {c : MetaCall β} (hc : Looks β c) {f : β → Client α} (hf : ∀ a, Early (f a)) :
    Early ((Client.one c).bind f) := by
  have key : ∀ r : Res β, Early ((Client.done r).bind f) := by
    intro r
    cases r with
    | ok a => exact hf a
    | err e => trivial
    | panic => trivial
  cases c <;> first | exact hc.elim | exact .inl ⟨hc, key⟩

theorem dry_attempt {p : Client α} (h : p.Only Dry) : (attempt p).Only Dry := by
  induction p with
  | done r => trivial
  | call c k ih => exact ⟨h.1, fun r => ih r (h.2 r)⟩

theorem Early.attempt {p : Client α} (hp : Early p) : Early (attempt p) := by
  induction p with
  | done r => trivial
  | call c k ih =>
    cases c <;> first
      | exact fun r => dry_attempt (hp r)
      | exact hp.elim (fun h => .inl ⟨h.1, fun r => ih r (h.2 r)⟩) (fun h => .inr ⟨h.1, fun r => dry_attempt (h.2 r)⟩)

theorem early_list : Early (Client.one .listDatabases) := fun _ => trivial

theorem early_getDbInfo (n : Bytes) : Early (getDbInfo n) := early_list.bind fun _ => trivial

theorem early_check (n : Bytes) : Early (checkDBNameNotExists n) :=
  (early_getDbInfo n).bind fun r => by cases r <;> trivial

theorem dry_one {c : MetaCall β} (h : c.scans = false) : (Client.one c).Only Dry := Client.only_one h

theorem early_create (o : Order) (i : CreateSchemaInput) : Early (createSchema o i) := by
  unfold createSchema
  split
  · unfold createSchemaTxn
    refine Early.looks (c := .ddlJobQueueLen .default) trivial fun n => ?_
    split
    · trivial
    · refine (early_check _).bind fun _ => .bind (dry_one rfl) fun x => ?_
      simp only
      split
      · exact .bind (dry_one rfl) fun _ => trivial
      · trivial
      · trivial
  · trivial
  · trivial

theorem early_index (i : AddIndexInput) : Early (addIndexTxn i) := by
  unfold addIndexTxn
  refine Early.bind ?_ fun ex => ?_
  · unfold checkIndexNameNotExists
    refine (early_getDbInfo _).bind fun r => ?_
    cases r with
    | none => trivial
    | some d => simp only; split <;> trivial
  · split
    · trivial
    · exact .bind (dry_one rfl) fun x => .bind (dry_one rfl) fun _ => trivial

theorem early_getJob (id : Int64) : Early (getHistoryJob id) := .inl ⟨trivial, fun _ => trivial⟩

theorem dry_version (o : Order) (j : Job) : (updateSchemaVersion o j).Only Dry := by
  unfold updateSchemaVersion
  refine .bind (dry_one rfl) fun v => ?_
  split
  · exact dry_one rfl
  · trivial
  · trivial

theorem dry_collections (db : Int64) (l : List CollectionInfo) : (createCollections db l).Only Dry := by
  induction l with
  | nil => trivial
  | cons c l ih => exact .bind (dry_one rfl) fun _ => ih

theorem dry_updateColl (o : Order) (j : Job) (d : DBInfo) (c : CollectionInfo) : (updateCollectionInfo o j d c).Only Dry := by
  unfold updateCollectionInfo
  refine .bind (dry_one rfl) fun _ => ?_
  split
  · trivial
  · exact .bind (dry_one rfl) fun _ => dry_version o j

theorem early_run (o₁ o₂ o₃ : Order) (j : Job) : Early (runJob o₁ o₂ o₃ j) := by
  unfold runJob
  split
  · trivial
  · simp only
    split
    · unfold onCreateSchema
      split
      · refine Early.bind (Early.attempt (Early.bind (early_check _) fun _ => .bind (dry_one rfl) fun _ =>
          .bind (dry_collections _ _) fun _ => dry_version _ _)) fun r => ?_
        cases r <;> trivial
      · trivial
      · trivial
    · unfold onAddIndex
      split
      · simp only
        split
        · trivial
        · refine Early.bind (Early.attempt (early_getDbInfo _)) fun r => ?_
          have store : ∀ (job job' : Job) (d : DBInfo) (c : CollectionInfo),
              ((attempt (updateCollectionInfo o₂ job d c)).bind (fun
                | .ok _ => (pure { job := job' } : Client RunOut)
                | .err e => pure { job := job, err := some e }
                | .panic => .done .panic)).Only Dry := by
            intro job job' d c
            refine .bind (dry_attempt (dry_updateColl _ _ _ _)) fun r => ?_
            cases r <;> trivial
          split
          · split
            · trivial
            · split
              · split
                · trivial
                · split
                  · trivial
                  · exact store _ _ _ _
              · split
                · exact store _ _ _ _
                · trivial
              · split
                · exact store _ _ _ _
                · trivial
              · trivial
              · trivial
          · trivial
          · trivial
          · trivial
      · trivial
      · trivial
    · trivial

theorem dry_finish (j : Job) : (finishJob j).Only Dry := .bind (dry_one rfl) fun _ => dry_one rfl

theorem dry_settle (j : Job) (v : Vars) : (settle j v).Only Dry := by
  unfold settle
  simp only
  repeat' split
  all_goals first | exact dry_finish _ | exact dry_one rfl

theorem early_work (o₁ o₂ o₃ : Order) (v : Vars) : Early (workTxn o₁ o₂ o₃ v) := by
  unfold workTxn
  refine Early.looks (c := .getDDLJobByIdx .default 0) trivial fun r => ?_
  split
  · trivial
  · split
    · exact early_of_dry (.bind (dry_finish _) fun _ => trivial)
    · exact Early.bind (Early.attempt (early_run _ _ _ _)) fun r => .bind (dry_settle _ _) fun _ => trivial

/-- All reads. -/
theorem run_quiet {p : Prog α} (hp : p.Writes (fun _ => False)) (t : Txn) :
    (p.run t).2.view = t.view ∧ (p.run t).2.writes = t.writes ∧ (p.run t).2.env = t.env := by
  induction p generalizing t with
  | done r => exact ⟨rfl, rfl, rfl⟩
  | get k c ih =>
    obtain ⟨h1, h2, h3⟩ := ih (t.get k).1 (hp _) (t.get k).2
    have s := t.get_snd k
    simp only [Prog.run]
    exact ⟨by rw [h1, s.2.1], by rw [h2, s.2.2.1], by rw [h3, s.1]⟩
  | set k v m c ih => exact hp.1.elim
  | del k c ih => exact hp.1.elim
  | scan o c ih => exact ih _ (hp _) t

theorem code_call (c : MetaCall β) (k : Res β → Client α) :
    (Client.call c k).code J = ((MetaCode J c).prog Sequence.metaPrefix).andThen (fun r => (k r).code J) := by
  show ((MetaCode J c).andThen _).prog _ = _
  rw [prog_andThen]
  rfl

/-- What a listing of the databases answers. -/
def listing (J : Json) (t : Txn) : Res (List DBInfo) := (((MetaCode J .listDatabases).prog Sequence.metaPrefix).run t).1

/-- One scan, and then nothing but computation. -/
def JustScan {α : Type} (p : Prog α) : Prop := ∃ o g, p = .scan o g ∧ ∀ l, ∃ r, g l = .done r

theorem JustScan.andThen {p : Prog α} {f : Res α → Prog β} (h : JustScan p) (hf : ∀ r, ∃ r', f r = .done r') :
    JustScan (p.andThen f) := by
  obtain ⟨o, g, rfl, hg⟩ := h
  refine ⟨o, fun l => (g l).andThen f, rfl, fun l => ?_⟩
  obtain ⟨r, e⟩ := hg l
  obtain ⟨r', e'⟩ := hf r
  exact ⟨r', by show (g l).andThen f = _; rw [e]; exact e'⟩

theorem JustScan.bind {p : Prog α} {f : α → Prog β} (h : JustScan p) (hf : ∀ r, ∃ r', f r = .done r') :
    JustScan (p >>= f) := by
  refine h.andThen fun r => ?_
  cases r with
  | ok a => exact hf a
  | err e => exact ⟨_, rfl⟩
  | panic => exact ⟨_, rfl⟩

theorem list_shape (J : Json) : JustScan ((MetaCode J .listDatabases).prog Sequence.metaPrefix) := by
  have h1 : JustScan (Structure.exec Sequence.metaPrefix (.hgetAll dbsKey)) := by
    refine JustScan.bind (JustScan.bind ⟨_, _, rfl, fun l => ⟨_, rfl⟩⟩ fun r => ⟨_, rfl⟩) fun r => ⟨_, rfl⟩
  refine h1.andThen fun r => ?_
  rcases r with (x | e | _)
  · cases x <;> exact ⟨_, rfl⟩
  · exact ⟨_, rfl⟩
  · exact ⟨_, rfl⟩

theorem list_run (t : Txn) : ((MetaCode J .listDatabases).prog Sequence.metaPrefix).run t = (listing J t, t) := by
  obtain ⟨o, g, e, hg⟩ := list_shape J
  unfold listing
  rw [e]
  obtain ⟨r, hr⟩ := hg (t.scan o)
  show (g (t.scan o)).run t = (((g (t.scan o)).run t).1, t)
  rw [hr]
  rfl

theorem listing_congr {t t' : Txn} (hv : t'.view = t.view) (he : t'.env = t.env) : listing J t' = listing J t := by
  obtain ⟨o, g, e, hg⟩ := list_shape J
  unfold listing
  rw [e]
  have hs : t'.scan o = t.scan o := by unfold Txn.scan; rw [hv, he]
  show ((g (t'.scan o)).run t').1 = ((g (t.scan o)).run t).1
  rw [hs]
  obtain ⟨r, hr⟩ := hg (t.scan o)
  rw [hr]
  rfl

theorem quiet_meta (k : Bytes) : (loadListMeta k).Writes (fun _ => False) := by
  refine Prog.Writes.bind (writes_getOpt _) fun o => ?_
  cases o with
  | none => trivial
  | some v =>
    simp only
    split
    · trivial
    · exact Prog.Writes.bind (writes_ofRes _) fun _ => Prog.Writes.bind (writes_ofRes _) fun _ => trivial

theorem quiet_llen (pfx k : Bytes) : (exec pfx (.llen k)).Writes (fun _ => False) := by
  refine Prog.Writes.bind (Prog.Writes.bind (quiet_meta _) fun o => ?_) fun _ => trivial
  cases o <;> trivial

theorem quiet_lindex (pfx k : Bytes) (i : Int64) : (exec pfx (.lindex k i)).Writes (fun _ => False) := by
  refine Prog.Writes.bind (Prog.Writes.bind (quiet_meta _) fun o => ?_) fun _ => trivial
  cases o with
  | none => trivial
  | some m =>
    simp only
    split
    · exact Prog.Writes.bind (writes_getK _) fun _ => trivial
    · trivial

theorem quiet_hget (pfx k f : Bytes) : (exec pfx (.hget k f)).Writes (fun _ => False) :=
  Prog.Writes.bind (Prog.Writes.bind (writes_getK _) fun _ => trivial) fun _ => trivial

/-- Every operation of the program only reads. -/
def Quiet {α : Type} : SProg α → Prop
  | .done _ => True
  | .op o c => (exec Sequence.metaPrefix o).Writes (fun _ => False) ∧ ∀ r, Quiet (c r)

theorem Quiet.andThen {p : SProg α} {f : Res α → SProg β} (hp : Quiet p) (hf : ∀ r, Quiet (f r)) : Quiet (p.andThen f) := by
  induction p with
  | done r => exact hf r
  | op o c ih => exact ⟨hp.1, fun r => ih r (hp.2 r)⟩

theorem Quiet.bind {p : SProg α} {f : α → SProg β} (hp : Quiet p) (hf : ∀ r, Quiet (f r)) : Quiet (p >>= f) := by
  refine Quiet.andThen hp fun r => ?_
  cases r with
  | ok a => exact hf a
  | err e => trivial
  | panic => trivial

theorem Quiet.prog {p : SProg α} (hp : Quiet p) : (p.prog Sequence.metaPrefix).Writes (fun _ => False) := by
  induction p with
  | done r => trivial
  | op o c ih => exact Prog.Writes.andThen hp.1 fun r => ih r (hp.2 r)

theorem quiet_bytes {o : SOp} (h : (exec Sequence.metaPrefix o).Writes (fun _ => False)) : Quiet (SProg.bytesOp o) :=
  ⟨h, fun r => by rcases r with (x | e | _); cases x <;> trivial; all_goals trivial⟩

theorem quiet_notFound {p : SProg α} (h : Quiet p) : Quiet (notFoundNil p) := by
  refine h.andThen fun r => ?_
  rcases r with (a | e | _)
  · trivial
  · cases e <;> trivial
  · trivial

theorem looks_quiet {c : MetaCall β} (h : Looks β c) : ((MetaCode J c).prog Sequence.metaPrefix).Writes (fun _ => False) := by
  cases c <;> first | exact h.elim | skip
  · refine Quiet.prog (Quiet.bind (quiet_notFound (quiet_bytes (quiet_lindex _ _ _))) fun r => ?_)
    cases r with
    | none => trivial
    | some v => exact Quiet.bind (p := SProg.ofRes _) trivial fun _ => trivial
  · exact Quiet.prog (p := SProg.intOp _) ⟨quiet_llen _ _, fun r => by rcases r with (x | e | _); cases x <;> trivial; all_goals trivial⟩
  · refine Quiet.prog (Quiet.bind (quiet_notFound (quiet_bytes (quiet_hget _ _ _))) fun r => ?_)
    cases r with
    | none => trivial
    | some v => exact Quiet.bind (p := SProg.ofRes _) trivial fun _ => trivial

theorem blind_dry (a : Res (List DBInfo)) {p : Client α} (h : p.Only Dry) : blind a p = p := by
  induction p with
  | done r => rfl
  | call c k ih =>
    cases c <;> first
      | (have h1 := h.1; cases h1; done)
      | (show Client.call _ _ = Client.call _ _; congr 1; funext r; exact ih r (h.2 r))

theorem blind_only (a : Res (List DBInfo)) {p : Client α} (h : Early p) : (blind a p).Only Dry := by
  induction p with
  | done r => trivial
  | call c k ih =>
    cases c <;> first
      | (show (blind a (k a)).Only Dry; rw [blind_dry a (h a)]; exact h a)
      | (rcases h with h | h
         · exact ⟨looks_dry h.1, fun r => ih r (h.2 r)⟩
         · exact ⟨h.1, fun r => by show (blind a (k r)).Only Dry; rw [blind_dry a (h.2 r)]; exact h.2 r⟩)

/-- Given the answer to the listing the program runs in the same way. -/
theorem blind_run {p : Client α} (hp : Early p) (t : Txn) : (p.code J).run t = ((blind (listing J t) p).code J).run t := by
  induction p generalizing t with
  | done r => rfl
  | call c k ih =>
    have other : blind (listing J t) (Client.call c k) = .call c (fun r => blind (listing J t) (k r)) →
        ((Looks _ c ∧ ∀ r, Early (k r)) ∨ (Dry _ c ∧ ∀ r, (k r).Only Dry)) →
        ((Client.call c k).code J).run t = ((blind (listing J t) (Client.call c k)).code J).run t := by
      intro hb hp
      rw [hb, code_call, code_call, run_andThen, run_andThen]
      rcases hp with ⟨hl, hp⟩ | ⟨-, hp⟩
      · have hq := run_quiet (looks_quiet (J := J) hl) t
        rw [ih _ (hp _), listing_congr hq.1 hq.2.2]
      · rw [blind_dry _ (hp _)]
    cases c <;> first | exact other rfl hp | skip
    rw [code_call, run_andThen, list_run]
    show _ = ((blind (listing J t) (k (listing J t))).code J).run t
    rw [blind_dry _ (hp _)]

/-- A transaction that is accepted late does what the program, told the databases of its start, would do now. -/
theorem late_blind {p : Client α} (hp : Early p) (env : Env) (fail : Option Err) (snap db : DB)
    (h : ∀ k ∈ (Util.body env true (p.code J) snap).2.reads, snap.get k = db.get k) :
    lateTxn J env fail p snap db =
      Util.runInNewUpdateTxn env fail ((blind (listing J (Txn.start { env with update := true } snap)) p).code J) db db := by
  unfold lateTxn refusal
  rw [if_pos h]
  unfold Util.runInNewUpdateTxn
  have e : Util.body env true (p.code J) snap =
      Util.body env true ((blind (listing J (Txn.start { env with update := true } snap)) p).code J) snap := blind_run hp _
  rw [e] at h ⊢
  generalize hq : blind (listing J (Txn.start { env with update := true } snap)) p = q at h ⊢
  have hs : (q.code J).ScanFree := code_scanFree q (by rw [← hq]; exact blind_only _ hp)
  obtain ⟨g1, g2⟩ := replay (q.code J) hs { env with update := true } snap db h
  change (Util.body env true (q.code J) db).1 = (Util.body env true (q.code J) snap).1 at g1
  change (Util.body env true (q.code J) db).2.writes = (Util.body env true (q.code J) snap).2.writes at g2
  revert g1 g2
  generalize Util.body env true (q.code J) db = x
  generalize Util.body env true (q.code J) snap = y
  obtain ⟨r, t⟩ := x
  obtain ⟨r', t'⟩ := y
  intro g1 g2
  simp only at g1 g2
  subst g1
  cases r with
  | ok a => simp only [Txn.commit, g2]
  | err e => rfl
  | panic => rfl

/-- A transaction that would be accepted late and sees the databases there are now does what it would do now. -/
theorem late_now {p : Client α} (hp : Early p) (env : Env) (fail : Option Err) (snap db : DB)
    (h : ∀ k ∈ (Util.body env true (p.code J) snap).2.reads, snap.get k = db.get k)
    (hl : listing J (Txn.start { env with update := true } snap) = listing J (Txn.start { env with update := true } db)) :
    lateTxn J env fail p snap db = Util.runInNewUpdateTxn env fail (p.code J) db db := by
  rw [late_blind hp env fail snap db h, hl]
  unfold Util.runInNewUpdateTxn
  have e : Util.body env true (p.code J) db =
      Util.body env true ((blind (listing J (Txn.start { env with update := true } db)) p).code J) db := blind_run hp _
  rw [e]

/-- A transaction that is not accepted late leaves the store alone; it answers ErrConflict, or what it answered on its
snapshot, and then it has written nothing or failed by itself. -/
theorem late_refused {p : Client α} (env : Env) (fail : Option Err) (snap db : DB)
    (h : ¬ ∀ k ∈ (Util.body env true (p.code J) snap).2.reads, snap.get k = db.get k) :
    (lateTxn J env fail p snap db).2 = db ∧
      ((lateTxn J env fail p snap db).1 = .err .conflict ∨
        ((lateTxn J env fail p snap db).1 = (Util.body env true (p.code J) snap).1 ∧
          ((∃ a, (Util.body env true (p.code J) snap).1 = .ok a) → (Util.body env true (p.code J) snap).2.writes = []))) := by
  unfold lateTxn refusal
  rw [if_neg h]
  unfold Util.runInNewUpdateTxn
  generalize Util.body env true (p.code J) snap = y
  obtain ⟨r, t⟩ := y
  cases r with
  | ok a =>
    simp only [Txn.commit]
    by_cases hw : t.writes = []
    · rw [if_pos hw]
      exact ⟨rfl, .inr ⟨rfl, fun _ => hw⟩⟩
    · rw [if_neg hw]
      exact ⟨rfl, .inl rfl⟩
  | err e => exact ⟨rfl, .inr ⟨rfl, fun ⟨a, h⟩ => nomatch h⟩⟩
  | panic => exact ⟨rfl, .inr ⟨rfl, fun ⟨a, h⟩ => nomatch h⟩⟩

end
end Mondis.Race
