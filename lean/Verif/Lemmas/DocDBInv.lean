import Verif.Lemmas.DocDBStore
import Verif.Lemmas.DomainChain
/-!
# Package document: what holds in every state
-/
namespace Mondis.DocDB
open Mondis Prog Doc Spec Props

variable {D : Type}

/-! ### Keys -/

theorem seq_side (kw : Bytes) : ¬ AtDoc (metaSequenceKey kw) := by
  rintro ⟨cid, t, h⟩
  rw [documentKeyPrefix_eq] at h
  simp [collectionPrefix, metaSequenceKey, metaSequencePrefix, metaPrefix] at h

theorem name_side (n : Bytes) : ¬ AtDoc (metaCollectionName2IDKey n) := by
  rintro ⟨cid, t, h⟩
  rw [documentKeyPrefix_eq, cnameKey_eq] at h
  simp [collectionPrefix, metaCName2IDPrefix, metaPrefix] at h

theorem name_ne_seq (n kw : Bytes) : metaCollectionName2IDKey n ≠ metaSequenceKey kw := by
  rw [cnameKey_eq]
  intro h
  simp [metaCName2IDPrefix, metaSequenceKey, metaSequencePrefix, metaPrefix] at h

theorem indexNameKeyPrefix_eq (cid : Int64) : indexNameKeyPrefix cid = collectionPrefix ++ (Memcomparable.encodeInt64 [] cid ++ indexNamePrefix) := by
  unfold indexNameKeyPrefix
  rw [(C01_int64_append collectionPrefix cid).1]
  simp only [List.append_assoc]

theorem index_side {k : Bytes} (h : Idx.IsIndexKey k) : ¬ AtDoc k ∧ (∀ n, metaCollectionName2IDKey n ≠ k) ∧ ∀ kw, metaSequenceKey kw ≠ k := by
  rcases h with ⟨cid, t, rfl⟩ | ⟨i, rfl⟩ | ⟨cid, fs, h⟩
  · rw [indexNameKeyPrefix_eq]
    refine ⟨?_, ?_, ?_⟩
    · rintro ⟨c, t', h⟩
      rw [documentKeyPrefix_eq] at h
      simp only [List.append_assoc] at h
      have h := List.append_cancel_left h
      obtain ⟨-, h⟩ := encodeInt64_append_inj h
      simp [documentPrefix, indexNamePrefix] at h
    · intro n h
      rw [cnameKey_eq] at h
      simp [collectionPrefix, metaCName2IDPrefix, metaPrefix] at h
    · intro kw h
      simp [collectionPrefix, metaSequenceKey, metaSequencePrefix, metaPrefix] at h
  · refine ⟨?_, ?_, ?_⟩
    · rintro ⟨c, t', h⟩
      rw [documentKeyPrefix_eq, metaIndexKey_eq] at h
      simp [collectionPrefix, metaIndexPrefix, metaPrefix] at h
    · intro n h
      rw [cnameKey_eq, metaIndexKey_eq] at h
      simp [metaIndexPrefix, metaCName2IDPrefix, metaPrefix] at h
    · intro kw h
      rw [metaIndexKey_eq] at h
      simp [metaIndexPrefix, metaSequenceKey, metaSequencePrefix, metaPrefix] at h
  · obtain ⟨r, rfl⟩ := Idx.ci_form h
    refine ⟨?_, ?_, ?_⟩
    · rintro ⟨c, t', h⟩
      rw [documentKeyPrefix_eq] at h
      simp only [List.append_assoc] at h
      have h := List.append_cancel_left h
      obtain ⟨-, h⟩ := encodeInt64_append_inj h
      simp [documentPrefix, columnsIndexedPrefix] at h
    · intro n h
      rw [cnameKey_eq] at h
      simp [collectionPrefix, metaCName2IDPrefix, metaPrefix] at h
    · intro kw h
      simp [collectionPrefix, metaSequenceKey, metaSequencePrefix, metaPrefix] at h

/-! ### Collection names -/

/-- The names and their numbers. -/
structure Names (S : Store) (out : List (Bytes × UInt64)) : Prop where
  form : ∀ n, n ≤ S.now → ∀ name v, (S.data n).get (metaCollectionName2IDKey name) = some v →
    ∃ u, Cid.Entry v u ∧ (collectionSequenceKey, u) ∈ out
  perm : ∀ n m, n ≤ m → m ≤ S.now → ∀ name v, (S.data n).get (metaCollectionName2IDKey name) = some v →
    (S.data m).get (metaCollectionName2IDKey name) = some v
  inj : ∀ name name' v v' u, S.db.get (metaCollectionName2IDKey name) = some v → S.db.get (metaCollectionName2IDKey name') = some v' →
    Cid.Entry v u → Cid.Entry v' u → name = name'

theorem numberOf_entry {db : DB} {name : Bytes} {v : Val} {u : UInt64} (h : db.get (metaCollectionName2IDKey name) = some v)
    (he : Cid.Entry v u) : numberOf db name = some u.toInt64 := by
  unfold numberOf
  rw [h]
  simp only
  rw [he.2, C10_binary_roundtrip]

theorem Names.of_number {S : Store} {out : List (Bytes × UInt64)} (h : Names S out) {n : Nat} (hn : n ≤ S.now) {name : Bytes} {x : Int64}
    (hx : numberOf (S.data n) name = some x) : ∃ v u, (S.data n).get (metaCollectionName2IDKey name) = some v ∧ Cid.Entry v u ∧
      x = u.toInt64 ∧ (collectionSequenceKey, u) ∈ out := by
  cases hg : (S.data n).get (metaCollectionName2IDKey name) with
  | none => unfold numberOf at hx; rw [hg] at hx; cases hx
  | some v =>
    obtain ⟨u, h1, h2⟩ := h.form n hn name v hg
    rw [numberOf_entry hg h1] at hx
    cases hx
    exact ⟨v, u, rfl, h1, rfl, h2⟩

theorem Names.keep {S : Store} {out : List (Bytes × UInt64)} (h : Names S out) {n m : Nat} (hnm : n ≤ m) (hm : m ≤ S.now) {name : Bytes}
    {x : Int64} (hx : numberOf (S.data n) name = some x) : numberOf (S.data m) name = some x := by
  obtain ⟨v, u, h1, h2, rfl, -⟩ := h.of_number (Nat.le_trans hnm hm) hx
  exact numberOf_entry (h.perm n m hnm hm name v h1) h2

theorem Names.one {S : Store} {out : List (Bytes × UInt64)} (h : Names S out) {name name' : Bytes}
    {x : Int64} (hx : numberOf S.db name = some x) (hx' : numberOf S.db name' = some x) : name = name' := by
  obtain ⟨v, u, h1, h2, e, -⟩ := h.of_number (Nat.le_refl _) hx
  obtain ⟨v', u', h1', h2', e', -⟩ := h.of_number (Nat.le_refl _) hx'
  rw [e] at e'
  have := Cid.toInt64_inj e'
  subst this
  exact h.inj name name' v v' u h1 h1' h2 h2'

/-! ### Stores that follow one another -/

/-- The later store. -/
structure StoreLe (S S' : Store) : Prop where
  now : S.now ≤ S'.now
  data : ∀ n, n ≤ S.now → S'.data n = S.data n

theorem StoreLe.refl (S : Store) : StoreLe S S := ⟨Nat.le_refl _, fun _ _ => rfl⟩

theorem StoreLe.trans {S S' S'' : Store} (h : StoreLe S S') (h' : StoreLe S' S'') : StoreLe S S'' :=
  ⟨Nat.le_trans h.now h'.now, fun n hn => (h'.data n (Nat.le_trans hn h.now)).trans (h.data n hn)⟩

theorem StoreLe.push (S : Store) (db : DB) (ks : List Bytes) : StoreLe S (S.push db ks) :=
  ⟨Nat.le_succ _, fun _ hn => data_push _ _ _ hn⟩

/-- The store changes away from documents and names. -/
inductive Aside (S : Store) : Store → Prop where
  | same : Aside S S
  | push (db : DB) (ks : List Bytes) : (∀ k, k ∉ ks → db.get k = S.db.get k) →
      (∀ k ∈ ks, ¬ AtDoc k ∧ ∀ n, metaCollectionName2IDKey n ≠ k) → Aside S (S.push db ks)

theorem Bumped.aside {S S' : Store} {kw : Bytes} (h : Bumped S (metaSequenceKey kw) S') : Aside S S' := by
  cases h with
  | same => exact .same
  | push db hf =>
    refine .push db _ (fun k hk => hf k (by simpa using hk)) ?_
    intro k hk
    rw [List.mem_singleton.mp hk]
    exact ⟨seq_side kw, fun n => name_ne_seq n kw⟩

theorem Aside.le {S S' : Store} (h : Aside S S') : StoreLe S S' := by
  cases h with
  | same => exact .refl S
  | push db ks => exact .push S db ks

theorem Names.push {S : Store} {out out' : List (Bytes × UInt64)} (h : Names S out) (ho : ∀ x ∈ out, x ∈ out') {db : DB} {ks : List Bytes}
    (hs : ∀ name, db.get (metaCollectionName2IDKey name) = S.db.get (metaCollectionName2IDKey name)) : Names (S.push db ks) out' := by
  have hd : ∀ n, n ≤ S.now + 1 → ∃ m, m ≤ S.now ∧ (n ≤ S.now → m = n) ∧ (n = S.now + 1 → m = S.now) ∧
      ∀ name, ((S.push db ks).data n).get (metaCollectionName2IDKey name) = (S.data m).get (metaCollectionName2IDKey name) := by
    intro n hn
    rcases Nat.lt_or_ge S.now n with hl | hl
    · have : n = S.now + 1 := by omega
      subst this
      exact ⟨S.now, Nat.le_refl _, fun h => by omega, fun _ => rfl, fun name => by rw [data_push_new]; exact hs name⟩
    · exact ⟨n, hl, fun _ => rfl, fun h => by omega, fun name => by rw [data_push _ _ _ hl]⟩
  refine ⟨?_, ?_, ?_⟩
  · intro n hn name v hv
    obtain ⟨m, h1, -, -, h2⟩ := hd n hn
    rw [h2] at hv
    obtain ⟨u, h3, h4⟩ := h.form m h1 name v hv
    exact ⟨u, h3, ho _ h4⟩
  · intro n m hnm hm name v hv
    rw [now_push] at hm
    obtain ⟨n', a1, a2, a3, a4⟩ := hd n (by omega)
    obtain ⟨m', b1, b2, b3, b4⟩ := hd m hm
    rw [a4] at hv
    rw [b4]
    exact h.perm n' m' (by omega) b1 name v hv
  · intro name name' v v' u h1 h2
    rw [db_push, hs] at h1 h2
    exact h.inj name name' v v' u h1 h2

theorem Names.aside {S S' : Store} {out out' : List (Bytes × UInt64)} (h : Names S out) (ha : Aside S S') (ho : ∀ x ∈ out, x ∈ out') :
    Names S' out' ∧ ∀ name, S'.db.get (metaCollectionName2IDKey name) = S.db.get (metaCollectionName2IDKey name) := by
  cases ha with
  | same => exact ⟨⟨fun n hn name v hv => by
      obtain ⟨u, h1, h2⟩ := h.form n hn name v hv
      exact ⟨u, h1, ho _ h2⟩, h.perm, h.inj⟩, fun _ => rfl⟩
  | push db ks hf hk =>
    have hs : ∀ name, db.get (metaCollectionName2IDKey name) = S.db.get (metaCollectionName2IDKey name) := by
      intro name
      refine hf _ (fun hm => ?_)
      exact (hk _ hm).2 name rfl
    exact ⟨h.push ho hs, fun name => by rw [db_push]; exact hs name⟩

theorem numberOf_congr {db db' : DB} {name : Bytes} (h : db'.get (metaCollectionName2IDKey name) = db.get (metaCollectionName2IDKey name)) :
    numberOf db' name = numberOf db name := by
  unfold numberOf; rw [h]

/-! ### Objects -/

/-- There is a sequence with this number and key. -/
def SeqAt (gs : List Gen) (p : Nat) (key : Bytes) : Prop := ∃ g, gs[p]? = some g ∧ g.seq.key = key

theorem SeqAt.mono {gs gs' : List Gen} {p : Nat} {key : Bytes} (h : SeqAt gs p key) (hk : KeysLe gs gs') : SeqAt gs' p key := by
  obtain ⟨g, h1, h2⟩ := h
  obtain ⟨g', h3, h4⟩ := hk p g h1
  exact ⟨g', h3, h4.trans h2⟩

structure ObjOK (db : DB) (gs : List Gen) (o : Obj) : Prop where
  cseq : SeqAt gs o.cseq collectionSequenceKey
  iseq : ∀ q, o.iseq = some q → SeqAt gs q indexSequenceKey
  colls : ∀ name cl, o.colls.get name = some cl → numberOf db name = some cl.cid ∧ SeqAt gs cl.seq (metaSequenceKey name)
  known : ∀ name cid, o.making = some (.known name cid) → numberOf db name = some cid
  counted : ∀ name cid p, o.making = some (.counted name cid p) → numberOf db name = some cid ∧ SeqAt gs p (metaSequenceKey name)

theorem ObjOK.mono {db db' : DB} {gs gs' : List Gen} {o : Obj} (h : ObjOK db gs o) (hn : ∀ name x, numberOf db name = some x → numberOf db' name = some x)
    (hk : KeysLe gs gs') : ObjOK db' gs' o where
  cseq := h.cseq.mono hk
  iseq := fun q hq => (h.iseq q hq).mono hk
  colls := fun name cl hc => ⟨hn _ _ (h.colls name cl hc).1, (h.colls name cl hc).2.mono hk⟩
  known := fun name cid hm => hn _ _ (h.known name cid hm)
  counted := fun name cid p hm => ⟨hn _ _ (h.counted name cid p hm).1, (h.counted name cid p hm).2.mono hk⟩

/-- Object `i` is about to store `u` under this name. -/
def Claim (objs : List (Option Obj)) (i : Nat) (name : Bytes) (t : Txn) (v : Nat) (u : UInt64) : Prop :=
  ∃ o, (objs[i]?).join = some o ∧ o.making = some (.drawn name t v u)

structure ClaimOK (S : Store) (out : List (Bytes × UInt64)) (name : Bytes) (t : Txn) (v : Nat) (u : UInt64) : Prop where
  out : (collectionSequenceKey, u) ∈ out
  free : ∀ name' v', S.db.get (metaCollectionName2IDKey name') = some v' → ¬ Cid.Entry v' u
  le : v ≤ S.now
  writes : t.writes = []
  reads : metaCollectionName2IDKey name ∈ t.reads
  absent : (S.data v).get (metaCollectionName2IDKey name) = none

/-! ### Transactions -/

/-- What a transaction did. -/
structure Trace (D : Type) where
  recs : List (Rec D) := []
  looked : List (Int64 × Int64) := []
  docs : Docs D := Docs.init
  touched : List (Int64 × Int64) := []

def Trace.visit (t : Trace D) : Visit D := { schema := none, update := true, docs := t.docs, touched := t.touched }

structure Sess (C : Codec D) (S : Store) (A : Nat → Docs D) (s : Session) (t : Trace D) : Prop where
  le : s.v ≤ S.now
  roomy : Roomy s.txn.env
  recs : ∀ q ∈ t.recs, q.1.db = [] ∧ (∀ x, q.2 = some x → numberOf S.db q.1.coll = some x) ∧
    (q.2 = none → (∀ m, q.1.call.sem C.norm m = (q.1.answer, m)) ∧ q.1.wrote = false)
  tale : s.txn.env.update = true → Tale C.norm t.visit t.recs t.looked (A s.v)
  heard : s.txn.env.update = false → s.txn.writes = [] ∧ t.docs = A s.v ∧ ∀ q ∈ t.recs, Heard C.norm (A s.v) q
  idle : s.txn.env.update = false → ∀ q ∈ t.recs, q.1.wrote = false
  view : s.txn.view = applyWrites (S.data s.v) s.txn.writes
  holds : HoldsDocs C t.docs s.txn.view
  keys : s.txn.writes.map Prod.fst = t.touched.map (fun p => documentKey p.1 p.2)
  reads : ∀ p ∈ t.looked, documentKey p.1 p.2 ∈ s.txn.reads
  done : ∀ n, s.phase = .committed n → s.v < n ∧ n ≤ S.now ∧ s.txn.env.update = true ∧ Merged t.touched t.docs (A (n - 1)) (A n) ∧
    ∀ p ∈ t.looked, (A (n - 1) p.1).get p.2 = (A s.v p.1).get p.2

/-- The histories of documents agree so far. -/
def Agree (n : Nat) (A A' : Nat → Docs D) : Prop := ∀ m, m ≤ n → A' m = A m

theorem Sess.mono {C : Codec D} {S S' : Store} {A A' : Nat → Docs D} {s : Session} {t : Trace D} (h : Sess C S A s t) (hle : StoreLe S S')
    (hn : ∀ name x, numberOf S.db name = some x → numberOf S'.db name = some x) (ha : Agree S.now A A') : Sess C S' A' s t where
  le := Nat.le_trans h.le hle.now
  roomy := h.roomy
  recs := fun q hq => ⟨(h.recs q hq).1, fun x hx => hn _ _ ((h.recs q hq).2.1 x hx), (h.recs q hq).2.2⟩
  tale := fun hu => by rw [ha _ h.le]; exact h.tale hu
  heard := fun hu => by rw [ha _ h.le]; exact h.heard hu
  idle := h.idle
  view := by rw [hle.data _ h.le]; exact h.view
  holds := h.holds
  keys := h.keys
  reads := h.reads
  done := fun n hp => by
    obtain ⟨h1, h2, h3, h4, h5⟩ := h.done n hp
    refine ⟨h1, Nat.le_trans h2 hle.now, h3, ?_, ?_⟩
    · rw [ha _ h2, ha _ (by omega)]; exact h4
    · rw [ha _ (by omega), ha _ h.le]; exact h5

/-! ### Everything -/

structure Ghost (D : Type) where
  docs : Nat → Docs D
  out : List (Bytes × UInt64) := []
  tr : Nat → Trace D := fun _ => {}
  commits : List Nat := []

def Ghost.put (g : Ghost D) (k : Nat) (t : Trace D) : Ghost D := { g with tr := fun j => if j = k then t else g.tr j }

/-- The committed transactions that wrote something. -/
def Ghost.writers (g : Ghost D) : List Nat := g.commits.filter (fun k => ((g.tr k).recs.map Prod.fst).any Said.wrote)

/-- No transaction counted or emptied what another, committed in the meantime, wrote to. -/
def Calm (w : World) (g : Ghost D) : Prop :=
  ∀ j k, Overlap w j k → ∀ q ∈ (g.tr k).recs, q.1.call.point = false → ∀ r ∈ (g.tr j).recs, r.1.wrote = true → r.1.coll ≠ q.1.coll

structure Kept (C : Codec D) (w : World) (g : Ghost D) (b : Nat) : Prop where
  seqs : SeqsOK w.store w.gens g.out b
  names : Names w.store g.out
  claims : ∀ i name t v u, Claim w.objs i name t v u → ClaimOK w.store g.out name t v u
  apart : ∀ i j name t v u name' t' v' u', Claim w.objs i name t v u → Claim w.objs j name' t' v' u' → i ≠ j → u ≠ u'
  objs : ∀ (i : Nat) o, (w.objs[i]?).join = some o → ObjOK w.store.db w.gens o
  docs : ∀ n, n ≤ w.store.now → HoldsDocs C (g.docs n) (w.store.data n)
  owned : ∀ n, n ≤ w.store.now → ∀ x i, (g.docs n x).get i ≠ none → ∃ name, numberOf (w.store.data n) name = some x
  sess : ∀ (k : Nat) s, w.sessions[k]? = some s → Sess C w.store g.docs s (g.tr k)
  blank : ∀ k, w.sessions.length ≤ k → g.tr k = {}
  steps : ∀ n, n < w.store.now → g.docs (n + 1) = g.docs n ∨ ∃ (k : Nat) (s : Session), w.sessions[k]? = some s ∧ s.phase = .committed (n + 1)
  pend : ∀ i name iid d t v, some ⟨i, name, .writing iid d t v⟩ ∈ w.pending → ∀ k ∈ t.writes.map Prod.fst, Idx.IsIndexKey k
  commits : ∀ k ∈ g.commits, ∃ s, w.sessions[k]? = some s ∧ s.phase ≠ .live
  chain : Calm w g → Chain C.norm Docs.init (g.writers.map (fun k => (g.tr k).recs)) (g.docs w.store.now)

variable {C : Codec D} {w w' : World} {g : Ghost D} {b : Nat}

theorem Kept.number (h : Kept C w g b) {name : Bytes} {x : Int64} {n : Nat} (hn : n ≤ w.store.now) (hx : numberOf (w.store.data n) name = some x) :
    numberOf w.store.db name = some x := h.names.keep hn (Nat.le_refl _) hx

/-- Something happened away from documents and names. -/
theorem Kept.aside (h : Kept C w g b) {S : Store} {gs : List Gen} {out : List (Bytes × UInt64)} {b' : Nat} (ha : Aside w.store S)
    (hk : KeysLe w.gens gs) (hs : SeqsOK S gs out b') (ho : ∀ x ∈ g.out, x ∈ out) :
    ∃ A, Kept C { w with store := S, gens := gs } { g with docs := A, out := out } b' := by
  let A : Nat → Docs D := fun n => if n ≤ w.store.now then g.docs n else g.docs w.store.now
  have hA : Agree w.store.now g.docs A := fun m hm => if_pos hm
  obtain ⟨hn, hname⟩ := h.names.aside ha ho
  have hle := ha.le
  have hnum : ∀ name x, numberOf w.store.db name = some x → numberOf S.db name = some x := fun name x hx => by
    rw [numberOf_congr (hname name)]; exact hx
  have hlast : ∀ n, n ≤ S.now → (n ≤ w.store.now ∨ (n = w.store.now + 1 ∧ w.store.now < n ∧ A n = g.docs w.store.now ∧
      (∀ k, AtDoc k → (S.data n).get k = (w.store.data w.store.now).get k) ∧
      ∀ name, numberOf (S.data n) name = numberOf w.store.db name)) := by
    intro n hn
    rcases Nat.lt_or_ge w.store.now n with hl | hl
    · right
      cases ha with
      | same => omega
      | push db ks hf hk =>
        have : n = w.store.now + 1 := by rw [now_push] at hn; omega
        subst this
        refine ⟨rfl, hl, if_neg (by omega), ?_, ?_⟩
        · intro k hd
          rw [data_push_new]
          exact hf k (fun hm => (hk k hm).1 hd)
        · intro name
          rw [data_push_new]
          refine numberOf_congr ?_
          exact hf _ (fun hm => (hk _ hm).2 name rfl)
    · exact .inl hl
  refine ⟨A, hs, hn, ?_, h.apart, ?_, ?_, ?_, ?_, h.blank, ?_, h.pend, h.commits, ?_⟩
  · intro i name t v u hc
    obtain ⟨c1, c2, c3, c4, c5, c6⟩ := h.claims i name t v u hc
    refine ⟨ho _ c1, ?_, Nat.le_trans c3 hle.now, c4, c5, ?_⟩
    · intro name' v' hv'
      rw [hname] at hv'
      exact c2 name' v' hv'
    · show (S.data v).get _ = none
      rw [hle.data v c3]; exact c6
  · intro i o hi
    exact (h.objs i o hi).mono hnum hk
  · intro n hn'
    rcases hlast n hn' with hl | ⟨rfl, -, h2, h3, -⟩
    · show HoldsDocs C (A n) (S.data n)
      rw [hA n hl, hle.data n hl]; exact h.docs n hl
    · show HoldsDocs C (A _) (S.data _)
      rw [h2]
      exact holdsDocs_agree (h.docs _ (Nat.le_refl _)) h3
  · intro n hn' x i hne
    rcases hlast n hn' with hl | ⟨rfl, -, h2, -, h4⟩
    · have hne : (A n x).get i ≠ none := hne
      show ∃ name, numberOf (S.data n) name = some x
      rw [hA n hl] at hne
      rw [hle.data n hl]; exact h.owned n hl x i hne
    · have hne : (A _ x).get i ≠ none := hne
      rw [h2] at hne
      obtain ⟨name, hx⟩ := h.owned _ (Nat.le_refl _) x i hne
      exact ⟨name, (h4 name).trans hx⟩
  · intro k s hk'
    exact (h.sess k s hk').mono hle hnum hA
  · intro n hn'
    have hn' : n < S.now := hn'
    rcases hlast (n + 1) hn' with hl | ⟨h1, -, h2, -⟩
    · show A (n + 1) = A n ∨ _
      rw [hA _ hl, hA n (by omega)]
      exact h.steps n (by omega)
    · left
      show A (n + 1) = A n
      rw [h2, hA n (by omega), show n = w.store.now by omega]
  · intro hc
    have := h.chain hc
    show Chain _ _ _ (A S.now)
    rcases hlast S.now (Nat.le_refl _) with hl | ⟨-, -, h2, -⟩
    · rw [hA _ hl, show S.now = w.store.now from Nat.le_antisymm hl hle.now]
      exact this
    · rw [h2]; exact this

end Mondis.DocDB
