import Verif.Lemmas.DomainAsk
import Verif.Props.DomainExamples
/-!
# C77: indexes as package dml shows them; C43: GetDidRange in a process serving documents
-/
namespace Mondis.Props
open Mondis Spec Schema Meta Ddl Domain Doc

set_option maxRecDepth 100000

variable {D : Type} {J : Json} {C : Codec D} {K : Nat}

/-- A process on a new database. -/
def newSite : Domain.World := { ddl := { db := OMap.empty } }

/-! ## C77 -/

/-- The schema has this index of this collection under this name. -/
def HasIndex (c : Option MetaCache) (db coll name : Bytes) (i : IndexInfo) : Prop :=
  ∃ s d ci m dbs, c = some s ∧ s.dbs = some dbs ∧ dbs.get db = some d ∧ d.collections.get coll = some ci ∧ ci.indices = some m ∧
    m.get name = some i

/-- The schema has this collection. -/
def HasCollection (c : Option MetaCache) (db coll : Bytes) (id : Int64) : Prop :=
  ∃ s d ci dbs, c = some s ∧ s.dbs = some dbs ∧ dbs.get db = some d ∧ d.collections.get coll = some ci ∧ ci.id = id

theorem info_iff (c : Option MetaCache) (db coll : Bytes) (ci : CollectionInfo) : MetaCache.collectionInfo c db coll = some ci ↔
    ∃ s d dbs, c = some s ∧ s.dbs = some dbs ∧ dbs.get db = some d ∧ d.collections.get coll = some ci := by
  unfold MetaCache.collectionInfo MetaCache.db
  simp only [Option.bind_eq_some_iff]
  constructor
  · rintro ⟨s, h1, d, ⟨dbs, h2, h3⟩, h4⟩; exact ⟨s, d, dbs, h1, h2, h3, h4⟩
  · rintro ⟨s, d, dbs, h1, h2, h3, h4⟩; exact ⟨s, h1, d, ⟨dbs, h2, h3⟩, h4⟩

theorem index_iff (c : Option MetaCache) (db coll name : Bytes) (i : IndexInfo) : HasIndex c db coll name i ↔
    ∃ ci, MetaCache.collectionInfo c db coll = some ci ∧ ∃ m, ci.indices = some m ∧ m.get name = some i := by
  constructor
  · rintro ⟨s, d, ci, m, dbs, h1, h2, h3, h4, h5, h6⟩
    exact ⟨ci, (info_iff c db coll ci).mpr ⟨s, d, dbs, h1, h2, h3, h4⟩, m, h5, h6⟩
  · rintro ⟨ci, h, m, h5, h6⟩
    obtain ⟨s, d, dbs, h1, h2, h3, h4⟩ := (info_iff c db coll ci).mp h
    exact ⟨s, d, ci, m, dbs, h1, h2, h3, h4, h5, h6⟩

/-- C77: Index finds the indexes of the published schema and no others, and answers nothing but found or not. -/
theorem C77_find (h : Handle) (db coll name : Bytes) :
    (findIndex h db coll name = .ok () ↔ ∃ i, HasIndex h.cache db coll name i) ∧
    (findIndex h db coll name = .err errIndexNotExists ↔ ¬ ∃ i, HasIndex h.cache db coll name i) := by
  have hiff : MetaCache.checkIndexExists h.cache db coll name = true ↔ ∃ i, HasIndex h.cache db coll name i := by
    simp only [index_iff]
    unfold MetaCache.checkIndexExists
    rw [Option.isSome_iff_exists]
    simp only [Option.bind_eq_some_iff]
  unfold findIndex
  rw [← hiff]
  cases MetaCache.checkIndexExists h.cache db coll name <;> simp

/-- C77: GetIndices answers an error exactly if the schema the transaction began with does not have the collection; otherwise
each index this schema has of the collection, once.  It does nothing to the transaction except that, if the caller gave it,
the collection is among those it referred to. -/
theorem C77_lists (db coll : Bytes) (mark : Bool) (t : Dml.DTxn Dml.Seqs) :
    ((∀ id, ¬ HasCollection t.start db coll id) ∧ getIndices db coll mark t = (.err Dml.errCollectionNotExists, t)) ∨
    ∃ id l, ∃ names : List Bytes, HasCollection t.start db coll id ∧ (getIndices db coll mark t).1 = .ok l ∧ names.Nodup ∧ names.length = l.length ∧
      (∀ p : Bytes × IndexInfo, p ∈ names.zip l ↔ HasIndex t.start db coll p.1 p.2) ∧
      (getIndices db coll mark t).2 = { t with referred := t.referred ++ if mark then [id] else [] } := by
  unfold getIndices
  cases hc : MetaCache.collectionInfo t.start db coll with
  | none =>
    left
    refine ⟨?_, rfl⟩
    rintro id ⟨s, d, ci, dbs, h1, h2, h3, h4, -⟩
    rw [(info_iff _ _ _ ci).mpr ⟨s, d, dbs, h1, h2, h3, h4⟩] at hc
    cases hc
  | some ci =>
    right
    obtain ⟨s, d, dbs, h1, h2, h3, h4⟩ := (info_iff _ _ _ ci).mp hc
    refine ⟨ci.id, _, (ci.indices.getD OMap.empty).ents.map Prod.fst, ⟨s, d, ci, dbs, h1, h2, h3, h4, rfl⟩, rfl, ?_, by simp, ?_, ?_⟩
    · exact List.pairwise_map.mpr ((ci.indices.getD OMap.empty).sorted.imp (fun h e => by rw [e] at h; exact absurd h (List.lt_irrefl _)))
    · intro p
      rw [index_iff]
      have hz : ∀ m : OMap IndexInfo, (m.ents.map Prod.fst).zip (m.ents.map Prod.snd) = m.ents := fun m =>
        (List.zip_of_prod rfl rfl).symm
      rw [hz]
      constructor
      · intro hp
        refine ⟨ci, hc, ?_⟩
        cases hi : ci.indices with
        | none => rw [hi] at hp; exact absurd hp List.not_mem_nil
        | some m => rw [hi] at hp; exact ⟨m, rfl, OMap.mem_get hp⟩
      · rintro ⟨ci', hc', m, hm, hg⟩
        rw [hc] at hc'
        cases hc'
        rw [hm]
        exact (OMap.get_eq_some_iff _ _ _).mp hg
    · cases mark
      · simp
      · rfl

/-- C77, C43: in every history the calls are answered as the specification says, and it goes on as if they had not been made. -/
theorem C77_refines {l : List (Act D)} (hb : DomainBrief K (eventsOf l)) :
    ∃ S, Site.Acts C.norm {} l (runActs J C l newSite).1 S ∧ HoldsDocs C S.docs (runActs J C l newSite).2.ddl.db := by
  obtain ⟨S, h1, h2, -⟩ := acts_match J C hb
  exact ⟨S, h1, h2.docs⟩

/-- C77: no history ever shows an index: Index finds none and GetIndices lists none, in whatever transaction. -/
theorem C77_no_index {l : List (Act D)} (hb : DomainBrief K (eventsOf l)) (db coll name : Bytes) :
    findIndex (runActs J C l newSite).2.handle db coll name = .err errIndexNotExists ∧
    ∀ k s mark, (runActs J C l newSite).2.session k = some s →
      (getIndices db coll mark s.txn).1 = .ok [] ∨ (getIndices db coll mark s.txn).1 = .err Dml.errCollectionNotExists := by
  obtain ⟨S, -, h, -⟩ := acts_match J C hb
  refine ⟨h.findIndex db coll name, ?_⟩
  intro k s mark hs
  obtain ⟨v, hv⟩ := h.session hs
  have hm := h.visits k v s hv hs
  unfold getIndices
  cases hc : MetaCache.collectionInfo s.txn.start db coll with
  | none => exact .inr rfl
  | some ci =>
    left
    dsimp only
    rw [hm.shows.noIndex h.serves.sane.plain hc]
    rfl

/-! ## C43 -/

/-- In this transaction GetOne finds the document. -/
def Finds (C : Codec D) (db coll : Bytes) (t : Dml.DTxn Dml.Seqs) (did : Int64) : Prop :=
  ∃ d mark, (runOp C db coll (.getOne did) mark t).1 = .ok (.doc d)

theorem finds_iff {B : Nat} {S : Site D} {w : Domain.World} (h : Match J C K B S w) {k : Nat} {v : Visit D} {s : Session} (hv : S.visit k = some v)
    (hs : w.session k = some s) (hp : v.phase = .ready) (db coll : Bytes) (did : Int64) :
    Finds C db coll s.txn did ↔ ∃ x, collectionIn S.proc.state.dbs v.schema db coll = some x ∧ (v.docs x).get did ≠ none := by
  have hop : ∀ mark, (runOp C db coll (.getOne did) mark s.txn).1 = (S.operate C.norm v db coll (.getOne did)).1 :=
    fun mark => (h.op hv hs hp db coll (.getOne did) mark).1
  unfold Finds
  simp only [hop]
  unfold Site.operate
  simp only [docStorable]
  cases hc : collectionIn S.proc.state.dbs v.schema db coll with
  | none => simp
  | some x =>
    simp only [Op.at, DocOp.touches, or_true, if_true, DocOp.step, DocOp.sem, DocOp.cid]
    cases hg : (v.docs x).get did with
    | none =>
      simp only [reduceCtorEq, exists_false, false_iff]
      rintro ⟨y, e, h⟩
      cases e
      exact h hg
    | some d => exact ⟨fun _ => ⟨x, rfl, by rw [hg]; simp⟩, fun _ => ⟨d, true, rfl⟩⟩

/-- C43: in every history, for a collection in which the transaction finds a document GetDidRange answers the smallest and the
largest id of those it finds. -/
theorem C43_in_history {l : List (Act D)} (hb : DomainBrief K (eventsOf l)) {k : Nat} {s : Session}
    (hs : (runActs J C l newSite).2.session k = some s) (hp : s.phase = .ready) (db coll : Bytes) (mark : Bool)
    (hne : ∃ did, Finds C db coll s.txn did) :
    ∃ lo hi, (Domain.getDidRange db coll mark s.txn).1 = .ok (lo, hi) ∧ Finds C db coll s.txn lo ∧ Finds C db coll s.txn hi ∧
      ∀ did, Finds C db coll s.txn did → lo ≤ did ∧ did ≤ hi := by
  obtain ⟨S, -, h, ho⟩ := acts_match J C hb
  obtain ⟨v, hv⟩ := h.session hs
  have hp' : v.phase = .ready := (h.visits k v s hv hs).phase ▸ hp
  have hf := fun did => finds_iff h hv hs hp' db coll did
  simp only [hf] at hne ⊢
  obtain ⟨did, x, hx, hd⟩ := hne
  have ha := (h.ask ho (.range k db coll mark)).1
  simp only [Domain.World.ask, show (runActs J C l { ddl := { db := OMap.empty } }).2.session k = some s from hs, if_pos hp] at ha
  generalize (Domain.getDidRange db coll mark s.txn).1 = r at ha ⊢
  have hone : ∀ did', (∃ y, collectionIn S.proc.state.dbs v.schema db coll = some y ∧ (v.docs y).get did' ≠ none) ↔ (v.docs x).get did' ≠ none := by
    intro did'
    rw [hx]
    exact ⟨fun ⟨y, e, h⟩ => by cases e; exact h, fun h => ⟨x, rfl, h⟩⟩
  simp only [hone]
  cases ha with
  | rangeNowhere hv' _ hn => rw [hv] at hv'; cases hv'; rw [hx] at hn; cases hn
  | range hv' _ hx' hr =>
    rw [hv] at hv'; cases hv'
    rw [hx] at hx'; cases hx'
    cases hr with
    | beyond hn => exact absurd (hn x did (Int64.le_refl _)) hd
    | before lo _ hn => exact absurd (hn x did (Int64.le_refl _)) hd
    | ok lo hi h1 h2 =>
      obtain ⟨c, a1, a2, a3⟩ := h1
      obtain ⟨c', b1, b2, b3⟩ := h2
      have e1 : c = x := by
        rcases a3 x did (Int64.le_refl _) hd with h | ⟨h, -⟩
        · exact absurd h (Int64.not_lt.mpr a1)
        · exact h
      have e2 : c' = x := by
        rcases b3 x did (Int64.le_refl _) hd with h | ⟨h, -⟩
        · exact absurd h (Int64.not_lt.mpr b1)
        · exact h.symm
      subst e1
      subst e2
      refine ⟨lo, hi, rfl, a2, b2, fun did' hd' => ⟨?_, ?_⟩⟩
      · rcases a3 c' did' (Int64.le_refl _) hd' with h | ⟨-, h⟩
        · exact absurd h Int64.lt_irrefl
        · exact h
      · rcases b3 c' did' (Int64.le_refl _) hd' with h | ⟨-, h⟩
        · exact absurd h Int64.lt_irrefl
        · exact h

/-- C43: a transaction that finds nothing in the collection either gets the error for an invalid key, or ids that are not
those of documents it would find there. -/
theorem C43_nothing {l : List (Act D)} (hb : DomainBrief K (eventsOf l)) {k : Nat} {s : Session}
    (hs : (runActs J C l newSite).2.session k = some s) (hp : s.phase = .ready) (db coll : Bytes) (mark : Bool)
    (hex : ∃ id, HasCollection s.txn.start db coll id) (hne : ∀ did, ¬ Finds C db coll s.txn did) :
    (Domain.getDidRange db coll mark s.txn).1 = .err errInvalidKey ∨
    ∃ lo hi, (Domain.getDidRange db coll mark s.txn).1 = .ok (lo, hi) ∧ ¬ Finds C db coll s.txn lo ∧ ¬ Finds C db coll s.txn hi := by
  obtain ⟨S, -, h, ho⟩ := acts_match J C hb
  obtain ⟨v, hv⟩ := h.session hs
  have hm := h.visits k v s hv hs
  have ha := (h.ask ho (.range k db coll mark)).1
  simp only [Domain.World.ask, show (runActs J C l { ddl := { db := OMap.empty } }).2.session k = some s from hs, if_pos hp] at ha
  obtain ⟨id, st, d, ci, dbs, h1, h2, h3, h4, h5⟩ := hex
  have hcoll := hm.shows.collection db coll
  rw [(info_iff _ _ _ ci).mpr ⟨st, d, dbs, h1, h2, h3, h4⟩] at hcoll
  generalize (Domain.getDidRange db coll mark s.txn).1 = r at ha ⊢
  cases ha with
  | rangeNowhere hv' _ hn => rw [hv] at hv'; cases hv'; rw [hn] at hcoll; cases hcoll
  | range hv' _ hx' hr =>
    cases hr with
    | beyond hn => exact .inl rfl
    | before lo _ hn => exact .inr ⟨lo, 0, rfl, hne lo, hne 0⟩
    | ok lo hi h1 h2 => exact .inr ⟨lo, hi, rfl, hne lo, hne hi⟩

/-! ## Cases -/

/-- The reply to GetDidRange. -/
def rangeGiven : Reply Bytes → Option (Res (Int64 × Int64))
  | .ask (.range r) => some r
  | _ => none
def indicesGiven : Reply Bytes → Option (Res (List IndexInfo))
  | .ask (.indices r) => some r
  | _ => none

/-- Database "a" with collections "x" and "y" is known, and transaction 1 is open. -/
def readied : List (Act Bytes) := (opened ++ refresh ++ [Domain.Ev.begin true plainEnv, .snapshot 1]).map .ev

/-- Documents 5 and 9 in "y". -/
def twoStored : List (Act Bytes) := [.ev (.op 1 nameA nameY (.upsert 9 [1]) true), .ev (.op 1 nameA nameY (.upsert 5 [2]) true)]

theorem readied_brief (l : List (Domain.Op Bytes)) (hl : l.length ≤ 10) :
    DomainBrief 2 (opened ++ refresh ++ [.begin true plainEnv, .snapshot 1] ++ l.map (fun o => .op 1 nameA nameY o true)) := by
  refine ⟨fits_append (fits_append (fits_append opened_fits refresh_fits) ?_) ?_, ?_⟩
  · intro e he
    simp only [List.mem_cons, List.not_mem_nil, or_false] at he
    rcases he with rfl | rfl
    · exact roomy
    · trivial
  · intro e he
    obtain ⟨o, -, rfl⟩ := List.mem_map.mp he
    trivial
  · have hn : (opened ++ refresh ++ [.begin true plainEnv, .snapshot 1] ++ l.map (fun o => .op 1 nameA nameY o true) : List (Domain.Ev Bytes)).length = 7 + 3 + 2 + l.length := by
      simp only [List.length_append, List.length_map]; rfl
    rw [hn]
    have : (7 + 3 + 2 + l.length) * (4 * (7 + 3 + 2 + l.length + 1) * (2 + 300)) ≤ 22 * (4 * 23 * 302) :=
      Nat.mul_le_mul (by omega) (Nat.mul_le_mul (by omega) (by omega))
    omega

theorem twoStored_brief : DomainBrief 2 (eventsOf (readied ++ twoStored)) := readied_brief [.upsert 9 [1], .upsert 5 [2]] (by decide)

/-- What GetDidRange, and GetIndices, answer after this. -/
def rangeAfter (l : List (Act Bytes)) (coll : Bytes) : Option (Res (Int64 × Int64)) :=
  (runActs plainJson demoCodec (l ++ [.ask (.range 1 nameA coll true)]) newSite).1.getLast?.bind rangeGiven
def indicesAfter (l : List (Act Bytes)) (coll : Bytes) : Option (Res (List IndexInfo)) :=
  (runActs plainJson demoCodec (l ++ [.ask (.indices 1 nameA coll true)]) newSite).1.getLast?.bind indicesGiven

/-- C43_in_history's case, and on the empty collections: "x" comes before "y", whose first id it gets, and a collection
after which there are no documents gets an error. -/
example : rangeAfter (readied ++ twoStored) nameY = some (.ok (5, 9)) ∧ rangeAfter (readied ++ twoStored) nameX = some (.ok (5, 0)) ∧
    rangeAfter readied nameY = some (.err errInvalidKey) ∧ indicesAfter readied nameX = some (.ok []) ∧
    indicesAfter readied nameA = some (.err Dml.errCollectionNotExists) := by
  refine ⟨?_, ?_, ?_, ?_, ?_⟩ <;> decide +kernel

/-- The hypotheses of C43_in_history are met: the transaction of `twoStored` finds document 9 in "y". -/
example : ∃ s, (runActs plainJson demoCodec (readied ++ twoStored) newSite).2.session 1 = some s ∧ s.phase = .ready ∧
    ∃ did, Finds demoCodec nameA nameY s.txn did := by
  cases hs : (runActs plainJson demoCodec (readied ++ twoStored) newSite).2.session 1 with
  | none =>
    have : ((runActs plainJson demoCodec (readied ++ twoStored) newSite).2.session 1).isSome = true := by decide +kernel
    rw [hs] at this; cases this
  | some s =>
    have hp : ((runActs plainJson demoCodec (readied ++ twoStored) newSite).2.session 1).map (·.phase) = some .ready := by decide +kernel
    have hf : ((runActs plainJson demoCodec (readied ++ twoStored) newSite).2.session 1).map
        (fun s => (runOp demoCodec nameA nameY (.getOne 9) true s.txn).1) = some (.ok (.doc [1])) := by decide +kernel
    rw [hs] at hp hf
    exact ⟨s, rfl, Option.some.inj hp, 9, [1], true, Option.some.inj hf⟩

/-- A schema with an index, as C77_find and C77_lists allow. -/
def indexed : MetaCache := MetaCache.new 1 [{ name := nameA, collections := OMap.empty.set nameX { id := 2, indices := some (OMap.empty.set [1] { id := 3, name := [1] }) } }]

example : findIndex { cache := some indexed } nameA nameX [1] = .ok () ∧ findIndex { cache := some indexed } nameA nameX [2] = .err errIndexNotExists ∧
    (getIndices nameA nameX true { kv := Txn.start plainEnv OMap.empty, start := some indexed, update := false }).1 = .ok [{ id := 3, name := [1] }] := by
  refine ⟨?_, ?_, ?_⟩ <;> decide

end Mondis.Props
