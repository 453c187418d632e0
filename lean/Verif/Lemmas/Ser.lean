import Verif.Model.Job
import Verif.Lemmas.Numeric
/-!
# An encoding that meets the contract `Json`

Not a model of anything: it only shows that the contract assumed of encoding/json can be met, and serves in
examples.
-/
namespace Mondis
open Schema

/-- A self-delimiting encoding. -/
class Ser (α : Type) where
  enc : α → Bytes
  dec : Bytes → Option (α × Bytes)
  law : ∀ a r, dec (enc a ++ r) = some (a, r)

namespace Ser

/-- Unary numbers. -/
def encNat : Nat → Bytes
  | 0 => [0]
  | n + 1 => 1 :: encNat n

/-- Unary numbers. -/
def decNat : Bytes → Option (Nat × Bytes)
  | [] => none
  | b :: r => if b = 0 then some (0, r) else (decNat r).map (fun x => (x.1 + 1, x.2))

instance : Ser Nat where
  enc := encNat
  dec := decNat
  law := by
    intro n r
    induction n with
    | zero => simp [encNat, decNat]
    | succ n ih => simp [encNat, decNat, ih]

instance : Ser UInt8 where
  enc b := [b]
  dec l := match l with
    | [] => none
    | b :: r => some (b, r)
  law := by intros; rfl

/-- Encode through another type. -/
def via {α β : Type} [Ser β] (f : α → β) (g : β → Option α) (h : ∀ a, g (f a) = some a) : Ser α where
  enc a := enc (f a)
  dec l := match dec l with
    | none => none
    | some (b, r) => (g b).map (fun a => (a, r))
  law := by intro a r; simp [law, h]

instance {α β : Type} [Ser α] [Ser β] : Ser (α × β) where
  enc x := enc x.1 ++ enc x.2
  dec l := match dec (α := α) l with
    | none => none
    | some (a, r) => match dec (α := β) r with
      | none => none
      | some (b, r) => some ((a, b), r)
  law := by intro a r; simp [law, List.append_assoc]

/-- `n` elements. -/
def decN {α : Type} [Ser α] : Nat → Bytes → Option (List α × Bytes)
  | 0, l => some ([], l)
  | n + 1, l => match dec (α := α) l with
    | none => none
    | some (a, r) => (decN n r).map (fun x => (a :: x.1, x.2))

/-- The elements one after the other. -/
def encL {α : Type} [Ser α] : List α → Bytes
  | [] => []
  | a :: l => enc a ++ encL l

theorem decN_encL {α : Type} [Ser α] (l : List α) (r : Bytes) : decN l.length (encL l ++ r) = some (l, r) := by
  induction l with
  | nil => rfl
  | cons a l ih => simp [encL, decN, law, List.append_assoc, ih]

instance {α : Type} [Ser α] : Ser (List α) where
  enc l := enc l.length ++ encL l
  dec l := match dec (α := Nat) l with
    | none => none
    | some (n, r) => decN n r
  law := by intro l r; simp [law, List.append_assoc, decN_encL]

instance : Ser Int64 := via Numeric.formatInt (fun b => match Numeric.parseInt b with
  | .ok i => some i
  | _ => none) (by intro i; simp only [Numeric.parse_format])

instance : Ser Bool := via (fun b => if b then (1 : UInt8) else 0) (fun b => some (b == 1)) (by decide)

instance {α : Type} [Ser α] : Ser (Option α) := via Option.toList (fun l => some l.head?) (by intro a; cases a <;> rfl)

instance {α : Type} [Ser α] : Ser (OMap α) := via OMap.ents
  (fun l => if h : l.Pairwise (fun a b => a.1 < b.1) then some ⟨l, h⟩ else none)
  (by intro m; simp [m.sorted])

instance : Ser SchemaState := via (fun s => match s with
    | .absent => (0 : UInt8) | .deleteOnly => 1 | .writeOnly => 2 | .writeReorganization => 3 | .other => 4 | .public => 5)
  (fun b => some (if b = 0 then .absent else if b = 1 then .deleteOnly else if b = 2 then .writeOnly
    else if b = 3 then .writeReorganization else if b = 4 then .other else .public))
  (by intro s; cases s <;> rfl)

instance : Ser JobState := via (fun s => match s with
    | .none => (0 : UInt8) | .running => 1 | .rollingback => 2 | .rollbackDone => 3 | .done => 4 | .cancelled => 5
    | .synced => 6 | .cancelling => 7)
  (fun b => some (if b = 0 then .none else if b = 1 then .running else if b = 2 then .rollingback
    else if b = 3 then .rollbackDone else if b = 4 then .done else if b = 5 then .cancelled else if b = 6 then .synced
    else .cancelling))
  (by intro s; cases s <;> rfl)

instance : Ser ActionType := via (fun s => match s with
    | .none => ((0 : UInt8), (0 : UInt8)) | .createSchema => (1, 0) | .dropSchema => (2, 0) | .createCollection => (3, 0)
    | .dropCollection => (4, 0) | .addIndex => (5, 0) | .dropIndex => (6, 0) | .truncateCollection => (7, 0)
    | .renameCollection => (8, 0) | .other n => (9, n))
  (fun b => some (if b.1 = 0 then .none else if b.1 = 1 then .createSchema else if b.1 = 2 then .dropSchema
    else if b.1 = 3 then .createCollection else if b.1 = 4 then .dropCollection else if b.1 = 5 then .addIndex
    else if b.1 = 6 then .dropIndex else if b.1 = 7 then .truncateCollection else if b.1 = 8 then .renameCollection
    else .other b.2))
  (by intro s; cases s <;> rfl)

instance : Ser IndexInfoRedundant := via (fun r => (r.collection, r.db, r.cid)) (fun x => some ⟨x.1, x.2.1, x.2.2⟩)
  (by intro _; rfl)
instance : Ser IndexInfo := via (fun i => (i.id, i.name, i.jobRedundant, i.columns, i.unique, i.state))
  (fun x => some ⟨x.1, x.2.1, x.2.2.1, x.2.2.2.1, x.2.2.2.2.1, x.2.2.2.2.2⟩) (by intro _; rfl)
instance : Ser CollectionInfo := via (fun i => (i.id, i.name, i.indices, i.indexOrder, i.state))
  (fun x => some ⟨x.1, x.2.1, x.2.2.1, x.2.2.2.1, x.2.2.2.2⟩) (by intro _; rfl)
instance : Ser DBInfo := via (fun i => (i.id, i.name, i.collections, i.collectionOrder, i.state))
  (fun x => some ⟨x.1, x.2.1, x.2.2.1, x.2.2.2.1, x.2.2.2.2⟩) (by intro _; rfl)

instance : Ser JobArg := via (fun a => match a with
    | .null => ((none : Option DBInfo), (none : Option IndexInfo)) | .db d => (some d, none) | .idx i => (none, some i))
  (fun x => some (match x with
    | (some d, _) => .db d
    | (none, some i) => .idx i
    | (none, none) => .null))
  (by intro a; cases a <;> rfl)

instance : Ser StoredDiff := via (fun d => (d.version, d.type, d.collectionIDs, d.raw))
  (fun x => some ⟨x.1, x.2.1, x.2.2.1, x.2.2.2⟩) (by intro _; rfl)

instance : Ser UInt64 := via (fun n => n.toInt64) (fun n => some n.toUInt64) (by intro n; simp)

/-- Turn a decoder for the whole input into a result. -/
def read {α : Type} [Ser α] : Bytes → Res α
  | [] => .err .parse
  | _ :: l => match dec (α := α) l with
    | some (a, _) => .ok a
    | none => .err .parse

/-- One byte, then the encoding. -/
def write {α : Type} [Ser α] (a : α) : Bytes := 123 :: enc a

theorem read_write {α : Type} [Ser α] (a : α) : read (write a) = .ok a := by
  have := law a []
  rw [List.append_nil] at this
  simp [read, write, this]

end Ser

/-- The parts of a job that are stored: whether there is an error, and the rest without Arg. -/
abbrev JobParts := Bool × Int64 × ActionType × JobState × Int64 × Option JobArg × SchemaState × UInt64 × Int64

/-- The parts of a job. -/
def jobParts (j : Job) : JobParts :=
  (j.error.isSome, j.id, j.type, j.state, j.errorCount, j.raw, j.schemaState, j.startTS, j.dependencyID)

/-- A concrete encoding meeting the contract. -/
def plainJson : Json where
  db := Ser.write
  undb := Ser.read
  coll := Ser.write
  uncoll := Ser.read
  job j := Ser.write (jobParts j)
  unjob b := match Ser.read (α := JobParts) b with
    | .ok (e, id, type, state, count, raw, ss, ts, dep) =>
      if e then .err .parse else .ok ⟨id, type, state, none, count, .null, raw, ss, ts, dep⟩
    | .err e => .err e
    | .panic => .panic
  diff := Ser.write
  undiff := Ser.read
  db_ne _ := by simp [Ser.write]
  coll_ne _ := by simp [Ser.write]
  job_ne _ := by simp [Ser.write]
  diff_ne _ := by simp [Ser.write]
  undb_db d _ := Ser.read_write d
  uncoll_coll d _ := Ser.read_write d
  undiff_diff d _ := Ser.read_write d
  unjob_job j _ _ he := by rw [Ser.read_write]; simp [jobParts, he]
  job_arg j a := rfl
  unjob_error j he := by
    rw [Ser.read_write]
    have : j.error.isSome = true := by cases h : j.error with
      | none => exact absurd h he
      | some e => rfl
    simp [jobParts, this]
  unjob_nil := rfl

end Mondis
