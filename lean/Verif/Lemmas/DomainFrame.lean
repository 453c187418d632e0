import Verif.Lemmas.DomainBare
import Verif.Lemmas.Document
/-!
# Documents and metadata do not meet

Package ddl only writes under "_md_m", transactions on documents only under "_md_c".
-/
namespace Mondis.Props
open Mondis Schema Spec Meta Ddl

theorem rep_agree {pfx : Bytes} {B : Int} {A : SState} {m m' : DB} (h : Structure.Rep pfx B A m)
    (he : ∀ k, IsPrefixOf pfx k → m'.get k = m.get k) : Structure.Rep pfx B A m' where
  str := fun key => (h.str key).congr (he _ (by rw [Structure.stringDataKey_eq]; exact ⟨_, rfl⟩))
  hash := fun key => (h.hash key).congr (by
    rintro k (rfl | ⟨f, rfl⟩)
    · exact he _ (by rw [Structure.hashMetaKey_eq]; exact ⟨_, rfl⟩)
    · exact he _ (by rw [Structure.hashDataKey_eq]; exact ⟨_, rfl⟩))
  hbound := h.hbound
  list := fun key => (h.list key).congr (by
    rintro k (rfl | ⟨f, rfl⟩)
    · exact he _ (by rw [Structure.listMetaKey_eq]; exact ⟨_, rfl⟩)
    · exact he _ (by rw [Structure.listDataKey_eq]; exact ⟨_, rfl⟩))
  lbound := h.lbound
  clean := by
    intro key k v hg hp
    rw [he k (by obtain ⟨r, e⟩ := hp; exact ⟨_, by rw [e, List.append_assoc]⟩)] at hg
    exact h.clean key k v hg hp

theorem _root_.Mondis.Keeps.agree {J : Json} {B : Nat} {M : MState} {db db' : DB} (h : Keeps J B M db)
    (he : ∀ k, IsPrefixOf Sequence.metaPrefix k → db'.get k = db.get k) : Keeps J B M db' where
  ex := by obtain ⟨A, h1, h2, h3⟩ := h.ex; exact ⟨A, rep_agree h1 he, h2, h3⟩
  noTTL := fun k v hk hv => h.noTTL k v hk (he k hk ▸ hv)

theorem Serves.agree {J : Json} {K B : Nat} {P : Proc} {w : Ddl.World} (h : Serves J K B P w) {db : DB}
    (he : ∀ k, IsPrefixOf Sequence.metaPrefix k → db.get k = w.db.get k) : Serves J K B P { w with db := db } := by
  obtain ⟨M, h1, h2, h3⟩ := h.kept
  exact h.same h1 (h2.agree he) h3

/-! ### What package ddl writes -/

theorem sprog_writes {α : Type} (pfx : Bytes) (p : SProg α) : (p.prog pfx).Writes (IsPrefixOf pfx) := by
  induction p with
  | done r => trivial
  | op o k ih =>
    refine Prog.Writes.andThen ((Structure.exec_writes pfx o).mono ?_) ih
    intro k hk
    obtain ⟨r, e⟩ := hk.prefix
    exact ⟨_, e⟩

theorem update_frame {α : Type} {P : Bytes → Prop} {p : Prog α} (hp : p.Writes P) (env : Env) (fail : Option Err) (db : DB)
    {k : Bytes} (hk : ¬ P k) : (Util.runInNewUpdateTxn env fail p db db).2.get k = db.get k := by
  unfold Util.runInNewUpdateTxn Util.body
  obtain ⟨ws, h1, h2⟩ := Prog.run_writes hp (Txn.start { env with update := true } db)
  cases hx : p.run (Txn.start { env with update := true } db) with
  | mk r t =>
    rw [hx] at h1
    cases r with
    | err e => rfl
    | panic => rfl
    | ok a =>
      have : ∀ r db', t.commit fail db = (r, db') → db'.get k = db.get k := by
        intro r db' hc
        unfold Txn.commit at hc
        split at hc
        · cases hc; rfl
        · split at hc
          · cases hc; rfl
          · cases hc
            refine Prog.get_applyWrites_of_not_mem ?_
            intro hm
            obtain ⟨w, hw, e⟩ := List.mem_map.mp hm
            rw [show t.writes = _ from h1] at hw
            exact hk (e ▸ (h2 w hw).1)
      cases hc : t.commit fail db with
      | mk r' db' =>
        have := this _ _ hc
        simp only [hc]
        cases r' <;> exact this

theorem metaTxn_frame (J : Json) {α : Type} (T : MetaTxn α) (db : DB) {k : Bytes} (hk : ¬ IsPrefixOf Sequence.metaPrefix k) :
    (T.run J db).2.get k = db.get k := by
  unfold Spec.MetaTxn.run
  split
  · exact update_frame (sprog_writes _ _) _ _ _ hk
  · rfl

theorem writes_of_andThen {α β : Type} {P : Bytes → Prop} {p : Prog α} {f : Res α → Prog β}
    (h : (p.andThen f).Writes P) : p.Writes P := by
  induction p with
  | done r => trivial
  | get k c ih => exact fun r => ih r (h r)
  | set k v m c ih => exact ⟨h.1, h.2.1, fun r => ih r (h.2.2 r)⟩
  | del k c ih => exact ⟨h.1, fun r => ih r (h.2 r)⟩
  | scan o c ih => exact fun r => ih r (h r)

theorem inc_writes (c : Sequence.Cell) (n : Int64) : (c.inc n).Writes (IsPrefixOf Sequence.metaPrefix) := by
  have : ∀ o : SOp, ∀ k, Structure.Own Sequence.metaPrefix o k → IsPrefixOf Sequence.metaPrefix k := by
    intro o k hk
    obtain ⟨r, e⟩ := hk.prefix
    exact ⟨_, e⟩
  cases c with
  | str k => exact (writes_of_andThen (Structure.exec_writes _ (.inc k n))).mono (this (.inc k n))
  | hash k f => exact (writes_of_andThen (Structure.exec_writes _ (.hinc k f n))).mono (this (.hinc k f n))

theorem renew_frame (s : Sequence.Seq) (env : Env) (fail : Option Err) (n : Int64) (db : DB) {k : Bytes}
    (hk : ¬ IsPrefixOf Sequence.metaPrefix k) : (s.renewLease ⟨env, db, fail⟩ n db).2.2.get k = db.get k := by
  have := update_frame (inc_writes s.cell (if n = 0 then s.bandwidth else n)) env fail db hk
  unfold Sequence.Seq.renewLease
  dsimp only
  cases hx : Util.runInNewUpdateTxn env fail (s.cell.inc (if n = 0 then s.bandwidth else n)) db db with
  | mk r db' => rw [hx] at this; cases r <;> exact this

theorem nextId_frame (s : Sequence.Seq) (env : Env) (fail : Option Err) (db : DB) {k : Bytes}
    (hk : ¬ IsPrefixOf Sequence.metaPrefix k) : (s.nextId ⟨env, db, fail⟩ db).2.2.get k = db.get k := by
  unfold Sequence.Seq.nextId
  split
  · rfl
  · split
    · rfl
    · have key : (if s.next ≥ s.leased then s.renewLease ⟨env, db, fail⟩ 0 db else (.ok (), s, db)).2.2.get k = db.get k := by
        split
        · exact renew_frame s env fail 0 db hk
        · rfl
      generalize (if s.next ≥ s.leased then s.renewLease ⟨env, db, fail⟩ 0 db else (.ok (), s, db)) = y at key
      obtain ⟨r, s', db'⟩ := y
      cases r <;> exact key

theorem createSequence_frame (d c : Int64) (env : Env) (fail : Option Err) (w : Ddl.World) {k : Bytes}
    (hk : ¬ IsPrefixOf Sequence.metaPrefix k) : (createSequence d c env fail w).2.db.get k = w.db.get k := by
  unfold createSequence
  split
  · rfl
  · have key : (Sequence.Seq.new (didCell d c) defaultDIDBandWidth ⟨env, w.db, fail⟩ w.db).2.2.get k = w.db.get k := by
      unfold Sequence.Seq.new
      split
      · rfl
      · split
        · rfl
        · exact renew_frame _ env fail 0 w.db hk
    generalize Sequence.Seq.new (didCell d c) defaultDIDBandWidth ⟨env, w.db, fail⟩ w.db = y at key
    obtain ⟨r, o, db'⟩ := y
    cases r <;> cases o <;> exact key

theorem afterCommit_frame (env : Env) (l : List (Int64 × Int64)) {k : Bytes} (hk : ¬ IsPrefixOf Sequence.metaPrefix k) :
    ∀ w : Ddl.World, (afterCommit env l w).db.get k = w.db.get k := by
  induction l with
  | nil => exact fun w => rfl
  | cons p l ih =>
    intro w
    obtain ⟨d, c⟩ := p
    have := createSequence_frame d c env none w hk
    simp only [afterCommit]
    generalize createSequence d c env none w = y at this
    obtain ⟨r, w'⟩ := y
    cases r with
    | ok u => exact (ih w').trans this
    | err e => exact this
    | panic => exact this

theorem initSequences_frame (env : Env) (fail : Int64 → Option Err) (l : List (Int64 × Int64)) {k : Bytes}
    (hk : ¬ IsPrefixOf Sequence.metaPrefix k) : ∀ w : Ddl.World, (initSequences env fail l w).2.db.get k = w.db.get k := by
  induction l with
  | nil => exact fun w => rfl
  | cons p l ih =>
    intro w
    obtain ⟨d, c⟩ := p
    have := createSequence_frame d c env (fail c) w hk
    simp only [initSequences]
    generalize createSequence d c env (fail c) w = y at this
    obtain ⟨r, w'⟩ := y
    cases r with
    | ok u => exact (ih w').trans this
    | err e => exact this
    | panic => exact this

/-- Package ddl leaves everything outside "_md_m" alone. -/
theorem ddl_frame (J : Json) (w : Ddl.World) (e : Ddl.Ev) {k : Bytes} (hk : ¬ IsPrefixOf Sequence.metaPrefix k) :
    (w.step J e).2.db.get k = w.db.get k := by
  cases e with
  | createSchema o i c => exact metaTxn_frame J _ _ hk
  | addIndex i c => exact metaTxn_frame J _ _ hk
  | getJob id c => exact metaTxn_frame J _ _ hk
  | crash => rfl
  | draw x c =>
    simp only [World.step]
    split
    · rfl
    · exact nextId_frame _ _ _ _ hk
  | work o₁ o₂ o₃ c env =>
    have := metaTxn_frame J ⟨true, c.env, c.fail, workTxn o₁ o₂ o₃ w.vars⟩ w.db hk
    simp only [World.step]
    split
    · rfl
    · split
      · exact (afterCommit_frame env _ hk _).trans this
      · exact this
  | init o env fail =>
    have := metaTxn_frame J ⟨true, env, none, Client.one .listDatabases⟩ w.db hk
    simp only [World.step]
    split
    · rename_i l _
      have h2 := initSequences_frame env fail (l.flatMap (fun d => ((o d).visit d.collections.ents).map (fun e => (d.id, e.2.id)))) hk
        { w with db := ((⟨true, env, none, Client.one .listDatabases⟩ : MetaTxn (List DBInfo)).run J w.db).2 }
      split <;> exact h2.trans this
    · exact this
    · exact this

/-! ### What transactions on documents write -/

/-- A key of a document. -/
def AtDoc (k : Bytes) : Prop := ∃ cid, IsPrefixOf (Doc.documentKeyPrefix cid) k

theorem docKey_not_meta {k : Bytes} (h : AtDoc k) : ¬ IsPrefixOf Sequence.metaPrefix k := by
  obtain ⟨cid, r, rfl⟩ := h
  rintro ⟨r', e⟩
  simp [Doc.documentKeyPrefix, Doc.collectionPrefix, Sequence.metaPrefix, Memcomparable.encodeInt64, Memcomparable.encodeUint64] at e

end Mondis.Props
