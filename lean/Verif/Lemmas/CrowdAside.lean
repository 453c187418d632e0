import Verif.Lemmas.Crowd
import Verif.Lemmas.Gets
/-!
# What documents leave alone, and what package ddl looks up
-/
namespace Mondis.Props
open Mondis Spec Schema Meta Ddl Domain Doc Structure

variable {D : Type} {J : Json} {C : Codec D} {K B : Nat}

/-- A key of package meta. -/
def MetaKey (k : Bytes) : Prop := IsPrefixOf Sequence.metaPrefix k

/-- A key of package meta that belongs to no single database. -/
def CommonKey (k : Bytes) : Prop := MetaKey k ∧ ∀ d, ¬ HKey Sequence.metaPrefix (dbKeyByID d) k

theorem hkey_kind {pfx key k : Bytes} (h : HKey pfx key k) : Kind pfx key k := by
  rcases h with h | ⟨f, h⟩
  · exact .inr (.inl h)
  · exact .inr (.inr (.inl ⟨f, h⟩))

/-- The keys of an operation on something else are not those of a database. -/
theorem own_common {o : SOp} (ho : ∀ d, o.key ≠ dbKeyByID d) {k : Bytes} (h : Own Sequence.metaPrefix o k) : CommonKey k := by
  obtain ⟨rest, e⟩ := h.prefix
  refine ⟨⟨_, e⟩, fun d hd => ho d ?_⟩
  obtain ⟨flag, t, rfl⟩ := (hkey_kind hd).eq
  refine kind_of_prefix (pfx := Sequence.metaPrefix) (flag := flag) (t := t) ⟨rest, ?_⟩
  rw [e, List.append_assoc]

/-- Every operation the program makes is in `R`. -/
def OnlyOps (R : SOp → Prop) {α : Type} : SProg α → Prop
  | .done _ => True
  | .op o c => R o ∧ ∀ r, OnlyOps R (c r)

theorem OnlyOps.andThen {R : SOp → Prop} {α β : Type} {p : SProg α} {f : Res α → SProg β} (hp : OnlyOps R p) (hf : ∀ r, OnlyOps R (f r)) :
    OnlyOps R (p.andThen f) := by
  induction p with
  | done r => exact hf r
  | op o c ih => exact ⟨hp.1, fun r => ih r (hp.2 r)⟩

theorem OnlyOps.bind {R : SOp → Prop} {α β : Type} {p : SProg α} {f : α → SProg β} (hp : OnlyOps R p) (hf : ∀ a, OnlyOps R (f a)) :
    OnlyOps R (p >>= f) := by
  refine OnlyOps.andThen hp (fun r => ?_)
  cases r with
  | ok a => exact hf a
  | err e => trivial
  | panic => trivial

theorem OnlyOps.gets {R : SOp → Prop} {P : Bytes → Prop} (h : ∀ o, R o → ∀ k, Own Sequence.metaPrefix o k → P k) {α : Type} {p : SProg α}
    (hp : OnlyOps R p) : (p.prog Sequence.metaPrefix).Gets P := by
  induction p with
  | done r => trivial
  | op o c ih => exact Prog.Gets.andThen ((exec_gets _ o).mono (h o hp.1)) (fun r => ih r (hp.2 r))

theorem onlyOps_any {α : Type} (p : SProg α) : OnlyOps (fun _ => True) p := by
  induction p with
  | done r => trivial
  | op o c ih => exact ⟨trivial, fun r => ih r⟩

/-- Operations on what belongs to no single database. -/
def OffBase (o : SOp) : Prop := ∀ d, o.key ≠ dbKeyByID d

theorem apart_global : ∀ d, globalIDKey ≠ dbKeyByID d := by
  intro d; simp [dbKeyByID, idKey, dbPrefix, globalIDKey]

theorem apart_list (l : ListKey) : ∀ d, l.key ≠ dbKeyByID d := by
  intro d; cases l <;> simp [ListKey.key, dbKeyByID, idKey, dbPrefix, ddlJobListKey, ddlJobAddIdxListKey]

/-- Calls of package meta that look at nothing of a single database. -/
def Common : (β : Type) → MetaCall β → Prop
  | _, .genGlobalIDs _ | _, .listDatabases | _, .enQueueDDLJob _ _ | _, .getHistoryDDLJob _ | _, .ddlJobQueueLen _ => True
  | _, _ => False

theorem onlyOps_notFound {α : Type} {R : SOp → Prop} {p : SProg α} (h : OnlyOps R p) : OnlyOps R (notFoundNil p) := by
  unfold notFoundNil
  refine OnlyOps.andThen h (fun r => ?_)
  rcases r with (x | e | _)
  · trivial
  · cases e <;> trivial
  · trivial

theorem ops_int {R : SOp → Prop} {o : SOp} (h : R o) : OnlyOps R (SProg.intOp o) := by
  refine ⟨h, fun r => ?_⟩
  rcases r with (x | e | _)
  · cases x <;> trivial
  · trivial
  · trivial

theorem ops_bytes {R : SOp → Prop} {o : SOp} (h : R o) : OnlyOps R (SProg.bytesOp o) := by
  refine ⟨h, fun r => ?_⟩
  rcases r with (x | e | _)
  · cases x <;> trivial
  · trivial
  · trivial

theorem ops_pairs {R : SOp → Prop} {o : SOp} (h : R o) : OnlyOps R (SProg.pairsOp o) := by
  refine ⟨h, fun r => ?_⟩
  rcases r with (x | e | _)
  · cases x <;> trivial
  · trivial
  · trivial

theorem common_ops (J : Json) {β : Type} {c : MetaCall β} (h : Common β c) : OnlyOps OffBase (MetaCode J c) := by
  cases c with
  | genGlobalIDs n => exact OnlyOps.bind (ops_int (o := .inc globalIDKey n) apart_global) (fun _ => trivial)
  | listDatabases => exact OnlyOps.bind (ops_pairs (o := .hgetAll dbsKey) fun d => (db_ne_dbs d).symm) (fun _ => trivial)
  | enQueueDDLJob l j => exact ⟨apart_list l, fun _ => trivial⟩
  | ddlJobQueueLen l => exact ops_int (o := .llen l.key) (apart_list l)
  | getHistoryDDLJob id =>
    refine OnlyOps.bind (p := notFoundNil (SProg.bytesOp (.hget ddlJobHistoryKey (jobIDKey id))))
      (onlyOps_notFound (ops_bytes fun d => (db_ne_history d).symm)) (fun o => ?_)
    cases o with
    | none => trivial
    | some v => exact OnlyOps.bind (p := SProg.ofRes _) trivial (fun _ => trivial)
  | _ => exact h.elim

theorem common_gets (J : Json) {α : Type} {p : Client α} (hp : p.Only Common) : (p.code J).Gets CommonKey := by
  refine OnlyOps.gets (R := OffBase) (fun o ho k hk => own_common ho hk) ?_
  induction p with
  | done r => trivial
  | call c k ih => exact OnlyOps.andThen (common_ops J hp.1) (fun r => ih r (hp.2 r))

theorem meta_gets (J : Json) {α : Type} (p : Client α) : (p.code J).Gets MetaKey := by
  refine OnlyOps.gets (R := fun _ => True) (fun o _ k hk => ?_) (onlyOps_any _)
  obtain ⟨r, e⟩ := hk.prefix
  exact ⟨_, e⟩

theorem common_getDbInfo (n : Bytes) : (getDbInfo n).Only Common :=
  .bind (Client.only_one (c := MetaCall.listDatabases) trivial) (fun _ => trivial)

theorem common_create (o : Order) (i : CreateSchemaInput) : (Ddl.createSchema o i).Only Common := by
  unfold Ddl.createSchema
  split
  · unfold createSchemaTxn
    refine .bind (Client.only_one (c := MetaCall.ddlJobQueueLen _) trivial) (fun n => ?_)
    split
    · trivial
    · refine .bind ?_ (fun _ => ?_)
      · unfold checkDBNameNotExists
        refine .bind (common_getDbInfo _) (fun o => ?_)
        cases o <;> trivial
      · refine .bind (Client.only_one (c := MetaCall.genGlobalIDs _) trivial) (fun x => ?_)
        dsimp only
        split
        · exact .bind (Client.only_one (c := MetaCall.enQueueDDLJob _ _) trivial) (fun _ => trivial)
        · trivial
        · trivial
  · trivial
  · trivial

theorem common_index (i : AddIndexInput) : (addIndexTxn i).Only Common := by
  unfold addIndexTxn
  refine .bind ?_ (fun ex => ?_)
  · unfold checkIndexNameNotExists
    refine .bind (common_getDbInfo _) (fun o => ?_)
    cases o with
    | none => trivial
    | some d =>
      dsimp only
      split <;> trivial
  · split
    · trivial
    · refine .bind (Client.only_one (c := MetaCall.genGlobalIDs _) trivial) (fun x => ?_)
      exact .bind (Client.only_one (c := MetaCall.enQueueDDLJob _ _) trivial) (fun _ => trivial)

theorem common_getJob (id : Int64) : (getHistoryJob id).Only Common := Client.only_one (c := MetaCall.getHistoryDDLJob _) trivial

/-! ### What transactions on documents write -/

theorem inc_did (d c n : Int64) : ((didCell d c).inc n).Writes (HKey Sequence.metaPrefix (dbKeyByID d)) :=
  writes_of_andThen (Structure.exec_writes _ (.hinc (dbKeyByID d) (didSequenceKeyByID c) n))

theorem renew_common (s : Sequence.Seq) {d c : Int64} (hs : s.cell = didCell d c) (env : Env) (fail : Option Err) (n : Int64) (db : DB) {k : Bytes}
    (hk : CommonKey k) : (s.renewLease ⟨env, db, fail⟩ n db).2.2.get k = db.get k := by
  have := update_frame (inc_did d c (if n = 0 then s.bandwidth else n)) env fail db (hk.2 d)
  rw [← hs] at this
  unfold Sequence.Seq.renewLease
  dsimp only
  cases hx : Util.runInNewUpdateTxn env fail (s.cell.inc (if n = 0 then s.bandwidth else n)) db db with
  | mk r db' => rw [hx] at this; cases r <;> exact this

theorem nextId_common (s : Sequence.Seq) {d c : Int64} (hs : s.cell = didCell d c) (env : Env) (fail : Option Err) (db : DB) {k : Bytes}
    (hk : CommonKey k) : (s.nextId ⟨env, db, fail⟩ db).2.2.get k = db.get k := by
  unfold Sequence.Seq.nextId
  split
  · rfl
  · split
    · rfl
    · have key : (if s.next ≥ s.leased then s.renewLease ⟨env, db, fail⟩ 0 db else (.ok (), s, db)).2.2.get k = db.get k := by
        split
        · exact renew_common s hs env fail 0 db hk
        · rfl
      generalize (if s.next ≥ s.leased then s.renewLease ⟨env, db, fail⟩ 0 db else (.ok (), s, db)) = y at key
      obtain ⟨r, s', db'⟩ := y
      cases r <;> exact key

/-- An event that is not one of package ddl leaves package meta's keys alone, but for the counters of document ids. -/
theorem aside_frame {S : Site D} {w : Domain.World} (H : Match J C K B S w) {e : Domain.Ev D} (he : ∀ d, e ≠ .ddl d) {key : Bytes}
    (hk : MetaKey key) (hi : (∃ j d c doc mark ci, e = .insert j d c doc mark ci) → CommonKey key) :
    (w.step J C e).2.ddl.db.get key = w.ddl.db.get key := by
  cases e with
  | ddl e => exact absurd rfl (he e)
  | reload env =>
    show (w.reload J env : Domain.Answer D × Domain.World).2.ddl.db.get key = _
    unfold Domain.World.reload
    split
    · rfl
    · split <;> rfl
  | publish =>
    simp only [Domain.World.step]
    split
    · rfl
    · split <;> rfl
  | begin u env => rfl
  | snapshot j =>
    simp only [Domain.World.step]
    split
    · split <;> rfl
    · rfl
  | insert j d c doc mark ci =>
    have hk' := hi ⟨_, _, _, _, _, _, rfl⟩
    simp only [Domain.World.step]
    split
    · split
      · split
        · rfl
        · rfl
        · rename_i s _ _ _ data _
          show (Dml.insertFunc d c data mark ⟨ci.env, w.ddl.db, ci.fail⟩ s.txn w.ddl.seqs w.ddl.db).2.2.2.get key = _
          unfold Dml.insertFunc
          split
          · rfl
          · rename_i x _
            dsimp only
            generalize (if mark = true then s.txn.referredCollections [x.id] else s.txn) = t
            split
            · rfl
            · rename_i q hq
              have hcell : ∃ d, q.cell = didCell d x.id := by
                have e : (bare w.ddl).seqs x.id = some { q with putbacks := [] } := by
                  show (w.ddl.seqs x.id).map _ = _
                  rw [hq]; rfl
                obtain ⟨d, -, hr⟩ := H.serves.seqs _ _ e
                exact ⟨d, hr.1⟩
              obtain ⟨d', hcell⟩ := hcell
              have hn := nextId_common q hcell ci.env ci.fail w.ddl.db hk'
              split
              · rename_i h; rw [h] at hn; exact hn
              · rename_i h; rw [h] at hn; exact hn
              · rename_i h; rw [h] at hn
                split <;> exact hn
      · rfl
    · rfl
  | op j d c o mark =>
    simp only [Domain.World.step]
    split
    · split <;> rfl
    · rfl
  | discard j =>
    simp only [Domain.World.step]
    split
    · split <;> rfl
    · rfl
  | commit j =>
    simp only [Domain.World.step]
    split
    · split
      · unfold Domain.World.commit
        split
        · rfl
        · split
          · rfl
          · rfl
          · rfl
          · split <;> rfl
      · rfl
    · rfl
  | finish j fail =>
    simp only [Domain.World.step]
    split
    · rename_i s hs
      split
      · obtain ⟨v, hv⟩ := H.session hs
        have hkeys := (H.visits j v s hv hs).keys
        have hc : (s.txn.kv.commit fail w.ddl.db).2.get key = w.ddl.db.get key := by
          unfold Txn.commit
          split
          · rfl
          · split
            · rfl
            · refine Prog.get_applyWrites_of_not_mem ?_
              rw [hkeys]
              intro hm
              obtain ⟨p, -, e⟩ := List.mem_map.mp hm
              exact docKey_not_meta ⟨p.1, _, rfl⟩ (e ▸ hk)
        unfold Domain.World.finish
        generalize s.txn.kv.commit fail w.ddl.db = y at hc
        obtain ⟨r, db'⟩ := y
        cases r <;> exact hc
      · rfl
    · rfl

end Mondis.Props
