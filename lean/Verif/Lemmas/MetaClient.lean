import Verif.Lemmas.MetaStep
import Verif.Lemmas.Sequence
import Verif.Model.Client
/-!
# Programs over package meta in a transaction
-/
namespace Mondis
open Spec Structure Props Schema Meta

/-! ### Operations that do not scan -/

/-- Operations that read single entries only. -/
def NoScan : SOp → Prop
  | .hclear _ | .hkeys _ | .hgetN _ _ | .hgetAll _ | .hgetNDesc _ _ => False
  | _ => True

section
open Prog

theorem sf_getOpt (k : Bytes) : (getOpt k).ScanFree := by
  intro r; cases r with
  | ok v => trivial
  | panic => trivial
  | err e => cases e <;> trivial

theorem sf_loadHashMeta (k : Bytes) : (loadHashMeta k).ScanFree := by
  unfold loadHashMeta
  apply ScanFree.bind (sf_getOpt _)
  intro o
  cases o with
  | none => trivial
  | some v => exact ScanFree.bind (p := ofRes _) trivial (fun _ => trivial)

theorem sf_loadListMeta (k : Bytes) : (loadListMeta k).ScanFree := by
  unfold loadListMeta
  apply ScanFree.bind (sf_getOpt _)
  intro o
  cases o with
  | none => trivial
  | some v =>
    simp only
    split
    · trivial
    · exact ScanFree.bind (p := ofRes _) trivial (fun _ => ScanFree.bind (p := ofRes _) trivial (fun _ => trivial))

theorem sf_getK (k : Bytes) : (getK k).ScanFree := fun _ => trivial
theorem sf_setK (k v : Bytes) : (setK k v).ScanFree := fun _ => trivial
theorem sf_delK (k : Bytes) : (delK k).ScanFree := fun _ => trivial

theorem sf_mapOut {α : Type} {f : α → Out} {p : Prog α} (h : p.ScanFree) : (mapOut f p).ScanFree := by
  unfold mapOut
  exact ScanFree.bind h (fun _ => trivial)

theorem sf_hdelLoop (pfx key : Bytes) (fs : List Bytes) (c : Int64) : (hdelLoop pfx key fs c).ScanFree := by
  induction fs generalizing c with
  | nil => trivial
  | cons f fs ih =>
    unfold hdelLoop
    apply ScanFree.bind (sf_getOpt _)
    intro o
    cases o with
    | none => exact ih _
    | some v => exact ScanFree.bind (sf_delK _) (fun _ => ih _)

theorem sf_hdel (pfx key : Bytes) (fs : List Bytes) : (hdel pfx key fs).ScanFree := by
  unfold hdel
  apply ScanFree.bind (sf_loadHashMeta _)
  intro o
  cases o with
  | none => trivial
  | some c =>
    apply ScanFree.bind (sf_hdelLoop _ _ _ _)
    intro n
    split
    · exact sf_delK _
    · exact sf_setK _ _

theorem sf_pushLoop (pfx key : Bytes) (left : Bool) (vs : List Bytes) (m : ListMetaData) :
    (listPushLoop pfx key left vs m).ScanFree := by
  induction vs generalizing m with
  | nil => trivial
  | cons v vs ih => exact ScanFree.bind (sf_setK _ _) (fun _ => ih _)

theorem sf_push (pfx key : Bytes) (left : Bool) (vs : List Bytes) : (listPush pfx key left vs).ScanFree := by
  unfold listPush
  split
  · trivial
  · exact ScanFree.bind (sf_loadListMeta _) (fun _ => ScanFree.bind (sf_pushLoop _ _ _ _ _) (fun _ => sf_setK _ _))

theorem sf_pop (pfx key : Bytes) (left : Bool) : (listPop pfx key left).ScanFree := by
  unfold listPop
  apply ScanFree.bind (sf_loadListMeta _)
  intro o
  cases o with
  | none => trivial
  | some m =>
    apply ScanFree.bind (sf_getK _)
    intro v
    apply ScanFree.bind (sf_delK _)
    intro _
    dsimp only
    (repeat' split) <;> first
      | exact ScanFree.bind (f := fun _ => pure v.value) (sf_setK _ _) (fun _ => trivial)
      | exact ScanFree.bind (f := fun _ => pure v.value) (sf_delK _) (fun _ => trivial)

theorem sf_getAllLoop (pfx key : Bytes) (n : Nat) (i : Int64) : (lgetAllLoop pfx key n i).ScanFree := by
  induction n generalizing i with
  | zero => trivial
  | succ n ih => exact ScanFree.bind (sf_getK _) (fun _ => ScanFree.bind (ih _) (fun _ => trivial))

theorem sf_clearLoop (pfx key : Bytes) (n : Nat) (i : Int64) : (lclearLoop pfx key n i).ScanFree := by
  induction n generalizing i with
  | zero => trivial
  | succ n ih => exact ScanFree.bind (sf_delK _) (fun _ => ih _)

theorem sf_exec {pfx : Bytes} (o : SOp) (h : NoScan o) : (exec pfx o).ScanFree := by
  cases o with
  | get k => exact sf_mapOut (ScanFree.bind (sf_getK _) (fun _ => trivial))
  | set k v => exact sf_mapOut (sf_setK _ _)
  | clear k => exact sf_mapOut (sf_delK _)
  | getInt k => exact sf_mapOut (ScanFree.bind (sf_getK _) (fun _ => trivial))
  | setInt k v => exact sf_mapOut (sf_setK _ _)
  | inc k s => exact sf_mapOut (inc_scanFree _ _)
  | hset k f v => exact sf_mapOut (Sequence.updateHash_scanFree _ _ _)
  | hget k f => exact sf_mapOut (ScanFree.bind (sf_getK _) (fun _ => trivial))
  | hgetInt k f =>
    refine sf_mapOut ?_
    unfold hgetInt64 hget
    exact ScanFree.bind (ScanFree.bind (sf_getK _) (fun _ => trivial)) (fun _ => trivial)
  | hsetInt k f v => exact sf_mapOut (p := hset _ _ _ _) (Sequence.updateHash_scanFree _ _ _)
  | hinc k f s => exact sf_mapOut (Sequence.updateHash_scanFree _ _ _)
  | hlen k => exact sf_mapOut (ScanFree.bind (sf_loadHashMeta _) (fun _ => trivial))
  | hdel k fs => exact sf_mapOut (sf_hdel _ _ _)
  | lpush k vs => exact sf_mapOut (sf_push _ _ _ _)
  | rpush k vs => exact sf_mapOut (sf_push _ _ _ _)
  | lpop k => exact sf_mapOut (sf_pop _ _ _)
  | rpop k => exact sf_mapOut (sf_pop _ _ _)
  | llen k =>
    refine sf_mapOut (ScanFree.bind (sf_loadListMeta _) (fun o => ?_))
    cases o <;> trivial
  | lgetAll k =>
    refine sf_mapOut (ScanFree.bind (sf_loadListMeta _) (fun o => ?_))
    cases o with
    | none => trivial
    | some m =>
      simp only
      split
      · trivial
      · exact sf_getAllLoop _ _ _ _
  | lindex k i =>
    refine sf_mapOut (ScanFree.bind (sf_loadListMeta _) (fun o => ?_))
    cases o with
    | none => trivial
    | some m =>
      simp only
      split
      · exact ScanFree.bind (sf_getK _) (fun _ => trivial)
      · trivial
  | lset k i v =>
    refine sf_mapOut (ScanFree.bind (sf_loadListMeta _) (fun o => ?_))
    cases o with
    | none => trivial
    | some m =>
      simp only
      split
      · exact sf_setK _ _
      · trivial
  | lclear k =>
    refine sf_mapOut (ScanFree.bind (sf_loadListMeta _) (fun o => ?_))
    cases o with
    | none => trivial
    | some m => exact ScanFree.bind (sf_clearLoop _ _ _ _) (fun _ => sf_delK _)
  | _ => exact h.elim

end

/-! ### What a program may do, whatever the answers -/

/-- `p` adds at most `n` elements; with `s = false` it does not scan, with `w = false` not write; its keys
are short and it hands on the errors of a transaction that is read-only or full. -/
def SProg.Well (s w : Bool) {α : Type} : Nat → SProg α → Prop
  | _, .done _ => True
  | n, .op o c => SProg.ShortOp o ∧ cost o ≤ n ∧ (s = false → NoScan o) ∧ (w = false → SProg.ReadOp o) ∧
      c (.err .readOnlyTxn) = .done (.err .readOnlyTxn) ∧ c (.err .txnTooBig) = .done (.err .txnTooBig) ∧
      ∀ r, (c r).Well s w (n - cost o)

namespace SProg

theorem Well.andThen {s w : Bool} {α β : Type} {p : SProg α} {f : Res α → SProg β} {n m : Nat} (hp : p.Well s w n)
    (h1 : f (.err .readOnlyTxn) = done (.err .readOnlyTxn)) (h2 : f (.err .txnTooBig) = done (.err .txnTooBig))
    (hf : ∀ k r, m ≤ k → (f r).Well s w k) : (p.andThen f).Well s w (n + m) := by
  induction p generalizing n with
  | done r => exact hf _ r (by omega)
  | op o c ih =>
    obtain ⟨a1, a2, a3, a4, a5, a6, a7⟩ := hp
    refine ⟨a1, by omega, a3, a4, ?_, ?_, fun r => ?_⟩
    · show (c _).andThen f = _; rw [a5]; exact h1
    · show (c _).andThen f = _; rw [a6]; exact h2
    · have := ih r (a7 r)
      rwa [show n - cost o + m = n + m - cost o by omega] at this

theorem Well.mono {s w : Bool} {α : Type} {p : SProg α} {n m : Nat} (hp : p.Well s w n) (h : n ≤ m) : p.Well s w m := by
  induction p generalizing n m with
  | done r => trivial
  | op o c ih =>
    obtain ⟨a1, a2, a3, a4, a5, a6, a7⟩ := hp
    exact ⟨a1, by omega, a3, a4, a5, a6, fun r => ih r (a7 r) (by omega)⟩

theorem Well.bind {s w : Bool} {α β : Type} {p : SProg α} {f : α → SProg β} {n m : Nat} (hp : p.Well s w n)
    (hf : ∀ a, (f a).Well s w m) : (p >>= f).Well s w (n + m) := by
  refine Well.andThen hp rfl rfl ?_
  intro k r hk
  cases r with
  | ok a => exact (hf a).mono hk
  | err e => trivial
  | panic => trivial

theorem Well.spent {s w : Bool} {α : Type} {p : SProg α} {n : Nat} (hp : p.Well s w n) (A : SState) : p.spent A ≤ n := by
  induction p generalizing n A with
  | done r => exact Nat.zero_le _
  | op o c ih =>
    obtain ⟨_, a2, _, _, _, _, a7⟩ := hp
    have := ih _ (a7 (o.step A).1) (o.step A).2
    simp only [SProg.spent]
    omega

theorem Well.plain {s w : Bool} {α : Type} {p : SProg α} {n : Nat} (hp : p.Well s w n) : p.Plain := by
  induction p generalizing n with
  | done r => trivial
  | op o c ih => exact ⟨hp.1, fun r => ih r (hp.2.2.2.2.2.2 r)⟩

theorem Well.handsOn {s w : Bool} {α : Type} {p : SProg α} {n : Nat} (hp : p.Well s w n) : p.HandsOn := by
  induction p generalizing n with
  | done r => trivial
  | op o c ih => exact ⟨hp.2.2.2.2.1, hp.2.2.2.2.2.1, fun r => ih r (hp.2.2.2.2.2.2 r)⟩

theorem Well.reads {s : Bool} {α : Type} {p : SProg α} {n : Nat} (hp : p.Well s false n) : p.Reads := by
  induction p generalizing n with
  | done r => trivial
  | op o c ih => exact ⟨hp.2.2.2.1 rfl, fun r => ih r (hp.2.2.2.2.2.2 r)⟩

theorem Well.scanFree {w : Bool} {α : Type} {p : SProg α} {n : Nat} (hp : p.Well false w n) :
    (p.prog Sequence.metaPrefix).ScanFree := by
  induction p generalizing n with
  | done r => trivial
  | op o c ih => exact Prog.ScanFree.andThen (sf_exec o (hp.2.2.1 rfl)) (fun r => ih r (hp.2.2.2.2.2.2 r))

theorem well_unitOp {s w : Bool} {o : SOp} {n : Nat} (h1 : ShortOp o) (h2 : cost o ≤ n) (h3 : s = false → NoScan o)
    (h4 : w = false → ReadOp o) : (unitOp o).Well s w n := ⟨h1, h2, h3, h4, rfl, rfl, fun _ => trivial⟩
theorem well_bytesOp {s w : Bool} {o : SOp} {n : Nat} (h1 : ShortOp o) (h2 : cost o ≤ n) (h3 : s = false → NoScan o)
    (h4 : w = false → ReadOp o) : (bytesOp o).Well s w n :=
  ⟨h1, h2, h3, h4, rfl, rfl, fun r => by rcases r with (x | e | _); cases x <;> trivial; all_goals trivial⟩
theorem well_intOp {s w : Bool} {o : SOp} {n : Nat} (h1 : ShortOp o) (h2 : cost o ≤ n) (h3 : s = false → NoScan o)
    (h4 : w = false → ReadOp o) : (intOp o).Well s w n :=
  ⟨h1, h2, h3, h4, rfl, rfl, fun r => by rcases r with (x | e | _); cases x <;> trivial; all_goals trivial⟩
theorem well_listOp {s w : Bool} {o : SOp} {n : Nat} (h1 : ShortOp o) (h2 : cost o ≤ n) (h3 : s = false → NoScan o)
    (h4 : w = false → ReadOp o) : (listOp o).Well s w n :=
  ⟨h1, h2, h3, h4, rfl, rfl, fun r => by rcases r with (x | e | _); cases x <;> trivial; all_goals trivial⟩
theorem well_pairsOp {s w : Bool} {o : SOp} {n : Nat} (h1 : ShortOp o) (h2 : cost o ≤ n) (h3 : s = false → NoScan o)
    (h4 : w = false → ReadOp o) : (pairsOp o).Well s w n :=
  ⟨h1, h2, h3, h4, rfl, rfl, fun r => by rcases r with (x | e | _); cases x <;> trivial; all_goals trivial⟩

theorem well_notFoundIs {s w : Bool} {α : Type} {p : SProg α} {n : Nat} {e : Err} (hp : p.Well s w n) :
    (notFoundIs e p).Well s w n := by
  refine Well.andThen (m := 0) hp rfl rfl ?_
  intro k r _
  rcases r with (a | e | _)
  · trivial
  · cases e <;> trivial
  · trivial

theorem well_notFoundNil {s w : Bool} {α : Type} {p : SProg α} {n : Nat} (hp : p.Well s w n) :
    (notFoundNil p).Well s w n := by
  refine Well.andThen (m := 0) hp rfl rfl ?_
  intro k r _
  rcases r with (a | e | _)
  · trivial
  · cases e <;> trivial
  · trivial

theorem well_mustBeAbsent {s w : Bool} {α : Type} {p : SProg α} {n : Nat} {e : Err} (hp : p.Well s w n) :
    (mustBeAbsent e p).Well s w n := by
  refine Well.andThen (m := 0) hp rfl rfl ?_
  intro k r _
  rcases r with (a | e | _)
  · trivial
  · cases e <;> trivial
  · trivial

end SProg

section
open SProg

theorem db_short (id : Int64) : (dbKeyByID id).length ≤ 100 := by
  have := format_length id
  simp [dbKeyByID, idKey, dbPrefix]; omega
theorem coll_short (id : Int64) : (collectionInfoKeyByID id).length ≤ 100 := by
  have := format_length id
  simp [collectionInfoKeyByID, idKey, collectionInfoPrefix]; omega
theorem did_short (id : Int64) : (didSequenceKeyByID id).length ≤ 100 := by
  have := format_length id
  simp [didSequenceKeyByID, idKey, didSequencePrefix]; omega
theorem diff_short (id : Int64) : (schemaDiffKey id).length ≤ 100 := by
  have := format_length id
  simp [schemaDiffKey, idKey, schemaDiffPrefix]; omega
theorem job_short (id : Int64) : (jobIDKey id).length ≤ 100 := by
  simp [jobIDKey, Numeric.encode2Binary, Memcomparable.putUint64]
theorem jobEnd_short (id : Int64) : (jobEndKey id).length ≤ 100 := by
  simp [jobEndKey, Numeric.encode2Binary, Memcomparable.putUint64]
theorem list_short (l : ListKey) : l.key.length ≤ 100 := by cases l <;> decide

theorem well_checkDB {s w : Bool} (id : Int64) : (checkDBExists (dbKeyByID id)).Well s w 0 :=
  Well.bind (m := 0) (well_notFoundIs (well_bytesOp (show dbsKey.length ≤ 100 by decide) (by simp [cost]) (fun _ => trivial) (fun _ => trivial)))
    (fun _ => trivial)
theorem well_checkNoDB {s w : Bool} (id : Int64) : (checkDBNotExists (dbKeyByID id)).Well s w 0 :=
  well_mustBeAbsent (well_bytesOp (show dbsKey.length ≤ 100 by decide) (by simp [cost]) (fun _ => trivial) (fun _ => trivial))
theorem well_checkColl {s w : Bool} (db id : Int64) :
    (checkCollectionExists (dbKeyByID db) (collectionInfoKeyByID id)).Well s w 0 :=
  Well.bind (m := 0) (well_notFoundIs (well_bytesOp (db_short db) (by simp [cost]) (fun _ => trivial) (fun _ => trivial)))
    (fun _ => trivial)
theorem well_checkNoColl {s w : Bool} (db id : Int64) :
    (checkCollectionNotExists (dbKeyByID db) (collectionInfoKeyByID id)).Well s w 0 :=
  well_mustBeAbsent (well_bytesOp (db_short db) (by simp [cost]) (fun _ => trivial) (fun _ => trivial))

theorem well_pure {s w : Bool} {α : Type} {n : Nat} (a : α) : (pure a : SProg α).Well s w n := trivial
theorem well_ofRes {s w : Bool} {α : Type} {n : Nat} (a : Res α) : (ofRes a).Well s w n := trivial

theorem tt {p : Prop} (h : true = false) : p := absurd h (by decide)

theorem call_well (J : Json) {β : Type} (c : MetaCall β) : (MetaCode J c).Well c.scans c.writes 2 := by
  have hj := fun j => J.job_ne j
  cases c with
  | getGlobalID => exact well_intOp (show globalIDKey.length ≤ 100 by decide) (by simp [cost]) (fun _ => trivial) (fun _ => trivial)
  | genGlobalID => exact well_intOp (show globalIDKey.length ≤ 100 by decide) (by simp [cost]) (fun _ => trivial) tt
  | genGlobalIDs n =>
    exact Well.bind (n := 2) (m := 0) (well_intOp (show globalIDKey.length ≤ 100 by decide) (by simp [cost]) (fun _ => trivial) tt) (fun _ => trivial)
  | getSchemaVersion =>
    exact Well.bind (n := 2) (m := 0) (well_notFoundNil (well_intOp (show schemaVersionKey.length ≤ 100 by decide) (by simp [cost]) (fun _ => trivial) (fun _ => trivial))) (fun _ => trivial)
  | genSchemaVersion => exact well_intOp (show schemaVersionKey.length ≤ 100 by decide) (by simp [cost]) (fun _ => trivial) tt
  | createDatabase d =>
    exact Well.bind (n := 0) (m := 2) (well_checkNoDB _) (fun _ => well_unitOp ⟨by decide, db_short _, J.db_ne d⟩ (by simp [cost]) (fun _ => trivial) tt)
  | updateDatabase d =>
    exact Well.bind (n := 0) (m := 2) (well_checkDB _) (fun _ => well_unitOp ⟨by decide, db_short _, J.db_ne d⟩ (by simp [cost]) (fun _ => trivial) tt)
  | createCollection db c =>
    exact Well.bind (n := 0) (m := 2) (well_checkDB _) (fun _ => Well.bind (n := 0) (m := 2) (well_checkNoColl _ _)
      (fun _ => well_unitOp ⟨db_short _, coll_short _, J.coll_ne c⟩ (by simp [cost]) (fun _ => trivial) tt))
  | dropDatabase db =>
    exact Well.bind (n := 0) (m := 2) (well_checkDB _) (fun _ => Well.bind (n := 0) (m := 2)
      (well_unitOp (db_short _) (by simp [cost]) tt tt)
      (fun _ => well_unitOp ⟨by decide, by simpa using db_short _⟩ (by simp [cost]) (fun _ => trivial) tt))
  | dropCollection db c del =>
    refine Well.bind (n := 0) (m := 2) (well_checkDB _) (fun _ => Well.bind (n := 0) (m := 2) (well_checkColl _ _)
      (fun _ => Well.bind (n := 0) (m := 2)
        (well_unitOp ⟨db_short _, by simpa using coll_short _⟩ (by simp [cost]) (fun _ => trivial) tt) (fun _ => ?_)))
    cases del with
    | false => trivial
    | true => exact well_unitOp ⟨db_short _, by simpa using did_short _⟩ (by simp [cost]) (fun _ => trivial) tt
  | updateCollection db c =>
    exact Well.bind (n := 0) (m := 2) (well_checkDB _) (fun _ => Well.bind (n := 0) (m := 2) (well_checkColl _ _)
      (fun _ => well_unitOp ⟨db_short _, coll_short _, J.coll_ne c⟩ (by simp [cost]) (fun _ => trivial) tt))
  | listCollections db =>
    exact Well.bind (n := 0) (m := 2) (well_checkDB _) (fun _ => Well.bind (n := 0) (m := 2)
      (well_pairsOp (db_short _) (by simp [cost]) tt (fun _ => trivial)) (fun _ => trivial))
  | listDatabases =>
    exact Well.bind (n := 0) (m := 2)
      (well_pairsOp (show dbsKey.length ≤ 100 by decide) (by simp [cost]) tt (fun _ => trivial)) (fun _ => trivial)
  | getDatabase db =>
    exact Well.bind (n := 2) (m := 0) (well_notFoundIs (well_bytesOp (show dbsKey.length ≤ 100 by decide) (by simp [cost]) (fun _ => trivial) (fun _ => trivial))) (fun _ => trivial)
  | getCollection db c =>
    exact Well.bind (n := 0) (m := 2) (well_checkDB _) (fun _ => Well.bind (n := 2) (m := 0)
      (well_notFoundIs (well_bytesOp (db_short _) (by simp [cost]) (fun _ => trivial) (fun _ => trivial))) (fun _ => trivial))
  | getBootstrapVersion =>
    exact Well.bind (n := 2) (m := 0) (well_notFoundNil (well_intOp (show bootstrapKey.length ≤ 100 by decide) (by simp [cost]) (fun _ => trivial) (fun _ => trivial))) (fun _ => trivial)
  | finishBootstrap v => exact well_unitOp (show bootstrapKey.length ≤ 100 by decide) (by simp [cost]) (fun _ => trivial) tt
  | getSchemaDiff v =>
    refine Well.bind (n := 2) (m := 0) (well_notFoundNil (well_bytesOp (diff_short v) (by simp [cost]) (fun _ => trivial) (fun _ => trivial))) (fun o => ?_)
    cases o with
    | none => trivial
    | some d => exact Well.bind (n := 0) (m := 0) (well_ofRes _) (fun _ => trivial)
  | setSchemaDiff d => exact well_unitOp (diff_short _) (by simp [cost]) (fun _ => trivial) tt
  | enQueueDDLJob l j => exact well_unitOp (list_short l) (by simp [cost]) (fun _ => trivial) tt
  | deQueueDDLJob l =>
    refine Well.bind (n := 2) (m := 0) (well_notFoundNil (well_bytesOp (list_short l) (by simp [cost]) (fun _ => trivial) tt)) (fun o => ?_)
    cases o with
    | none => trivial
    | some d => exact Well.bind (n := 0) (m := 0) (well_ofRes _) (fun _ => trivial)
  | getDDLJobByIdx l i =>
    refine Well.bind (n := 2) (m := 0) (well_notFoundNil (well_bytesOp (list_short l) (by simp [cost]) (fun _ => trivial) (fun _ => trivial))) (fun o => ?_)
    cases o with
    | none => trivial
    | some d => exact Well.bind (n := 0) (m := 0) (well_ofRes _) (fun _ => trivial)
  | updateDDLJob l i j => exact well_notFoundIs (well_unitOp (list_short l) (by simp [cost]) (fun _ => trivial) tt)
  | ddlJobQueueLen l => exact well_intOp (list_short l) (by simp [cost]) (fun _ => trivial) (fun _ => trivial)
  | getAllDDLJobsInQueue l =>
    exact Well.bind (n := 2) (m := 0) (well_listOp (list_short l) (by simp [cost]) (fun _ => trivial) (fun _ => trivial)) (fun _ => trivial)
  | addHistoryDDLJob j => exact well_unitOp ⟨by decide, job_short _, hj _⟩ (by simp [cost]) (fun _ => trivial) tt
  | getHistoryDDLJob id =>
    refine Well.bind (n := 2) (m := 0) (well_notFoundNil (well_bytesOp (show ddlJobHistoryKey.length ≤ 100 by decide) (by simp [cost]) (fun _ => trivial) (fun _ => trivial))) (fun o => ?_)
    cases o with
    | none => trivial
    | some d => exact Well.bind (n := 0) (m := 0) (well_ofRes _) (fun _ => trivial)
  | getAllHistoryDDLJobs =>
    exact Well.bind (n := 2) (m := 0) (well_pairsOp (show ddlJobHistoryKey.length ≤ 100 by decide) (by simp [cost]) tt (fun _ => trivial)) (fun _ => trivial)
  | getLastNHistoryDDLJobs n =>
    exact Well.bind (n := 2) (m := 0) (well_pairsOp (show ddlJobHistoryKey.length ≤ 100 by decide) (by simp [cost]) tt (fun _ => trivial)) (fun _ => trivial)
  | updateDDLReorgStartHandle id st => exact well_unitOp ⟨by decide, job_short _, Sequence.encode2Human_ne _⟩ (by simp [cost]) (fun _ => trivial) tt
  | updateDDLReorgHandle id st e =>
    exact Well.bind (n := 1) (m := 1) (well_unitOp ⟨by decide, job_short _, Sequence.encode2Human_ne _⟩ (by simp [cost]) (fun _ => trivial) tt)
      (fun _ => well_unitOp ⟨by decide, jobEnd_short _, Sequence.encode2Human_ne _⟩ (by simp [cost]) (fun _ => trivial) tt)
  | removeDDLReorgHandle id =>
    exact Well.bind (n := 1) (m := 1) (well_unitOp ⟨by decide, by simpa using job_short _⟩ (by simp [cost]) (fun _ => trivial) tt)
      (fun _ => well_unitOp ⟨by decide, by simpa using jobEnd_short _⟩ (by simp [cost]) (fun _ => trivial) tt)
  | getDDLReorgHandle id =>
    exact Well.bind (n := 1) (m := 1) (well_intOp (show ddlJobReorgKey.length ≤ 100 by decide) (by simp [cost]) (fun _ => trivial) (fun _ => trivial))
      (fun _ => Well.bind (n := 1) (m := 0) (well_intOp (show ddlJobReorgKey.length ≤ 100 by decide) (by simp [cost]) (fun _ => trivial) (fun _ => trivial)) (fun _ => trivial))
  | incDidSequence db c st => exact well_intOp ⟨db_short _, did_short _⟩ (by simp [cost]) (fun _ => trivial) tt

end
end Mondis
