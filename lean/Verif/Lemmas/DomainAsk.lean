import Verif.Lemmas.DomainRange
import Verif.Lemmas.DomainEvents
import Verif.Props.Domain
/-!
# Index, GetIndices and GetDidRange in a process serving documents
-/
namespace Mondis.Props
open Mondis Spec Schema Meta Ddl Domain Doc

variable {D : Type} {J : Json} {C : Codec D} {K B : Nat} {S : Site D} {w : Domain.World}

/-! ### What is stored -/

/-- Outside the documents nothing has changed. -/
def SameElse (db db' : DB) : Prop := ∀ k, ¬ AtDoc k → db'.get k = db.get k

theorem OnlyOurs.same {db db' : DB} (h : OnlyOurs db) (he : SameElse db db') : OnlyOurs db' := by
  intro k v hv
  by_cases hk : AtDoc k
  · exact .inl hk
  · rw [he k hk] at hv; exact h k v hv

theorem SomeMeta.same {db db' : DB} (h : SomeMeta db) (he : SameElse db db') : SomeMeta db' := by
  obtain ⟨k, v, h1, h2, h3⟩ := h
  exact ⟨k, v, h1, by rw [he k (fun hd => docKey_not_meta hd h1)]; exact h2, h3⟩

theorem OnlyOurs.meta' {db db' : DB} (h : OnlyOurs db) (he : ∀ k, ¬ IsPrefixOf Sequence.metaPrefix k → db'.get k = db.get k) : OnlyOurs db' := by
  intro k v hv
  by_cases hk : IsPrefixOf Sequence.metaPrefix k
  · exact .inr hk
  · rw [he k hk] at hv; exact h k v hv

theorem sameElse_writes (db : DB) {ws : List (Bytes × Option Val)} (h : ∀ x ∈ ws, AtDoc x.1) : SameElse db (applyWrites db ws) := by
  intro k hk
  refine Prog.get_applyWrites_of_not_mem ?_
  intro hm
  obtain ⟨x, hx, rfl⟩ := List.mem_map.mp hm
  exact hk (h x hx)

/-- A transaction goes on: more writes, at documents. -/
theorem sameElse_more {snap : DB} {t t' : Mondis.Txn} {ws : List (Bytes × Option Val)} (h : t.view = applyWrites snap t.writes)
    (h' : t'.view = applyWrites snap t'.writes) (hw : t'.writes = t.writes ++ ws) (hd : ∀ x ∈ ws, AtDoc x.1) : SameElse t.view t'.view := by
  have : t'.view = applyWrites t.view ws := by rw [h', hw, h, applyWrites, List.foldl_append]; rfl
  rw [this]
  exact sameElse_writes _ hd

theorem runOp_else (db coll : Bytes) (o : Op D) (mark : Bool) (t : Dml.DTxn Dml.Seqs) (h : ∃ snap, t.kv.view = applyWrites snap t.kv.writes) :
    SameElse t.kv.view (runOp C db coll o mark t).2.kv.view ∧ (runOp C db coll o mark t).2.start = t.start := by
  obtain ⟨snap, h⟩ := h
  unfold runOp
  split
  · exact ⟨fun _ _ => rfl, rfl⟩
  · exact ⟨fun _ _ => rfl, rfl⟩
  · unfold Dml.withCollection
    split
    · cases mark <;> exact ⟨fun _ _ => rfl, rfl⟩
    · rename_i ci _
      obtain ⟨ws, h1, h2⟩ := exec_run_writes C (o.at ci.id) t.kv
      have hv := Prog.run_view (exec C (o.at ci.id)) t.kv snap h
      have := sameElse_more h hv h1 (fun x hx => ⟨_, (h2 x hx).1⟩)
      cases mark <;> exact ⟨this, rfl⟩

theorem insertFunc_else (db coll data : Bytes) (mark : Bool) (c : Ddl.Circ) (t : Dml.DTxn Dml.Seqs) (q : Dml.Seqs) (d : DB)
    (h : ∃ snap, t.kv.view = applyWrites snap t.kv.writes) :
    SameElse t.kv.view (Dml.insertFunc db coll data mark ⟨c.env, d, c.fail⟩ t q d).2.1.kv.view ∧
    (Dml.insertFunc db coll data mark ⟨c.env, d, c.fail⟩ t q d).2.1.start = t.start ∧
    ∀ k, ¬ IsPrefixOf Sequence.metaPrefix k → (Dml.insertFunc db coll data mark ⟨c.env, d, c.fail⟩ t q d).2.2.2.get k = d.get k := by
  obtain ⟨snap, h⟩ := h
  unfold Dml.insertFunc
  split
  · exact ⟨fun _ _ => rfl, rfl, fun _ _ => rfl⟩
  · rename_i ci _
    have hm : ∀ b : Bool, (if b then t.referredCollections [ci.id] else t).kv = t.kv ∧ (if b then t.referredCollections [ci.id] else t).start = t.start := by
      intro b; cases b <;> exact ⟨rfl, rfl⟩
    dsimp only
    split
    · rw [(hm mark).1, (hm mark).2]; exact ⟨fun _ _ => rfl, rfl, fun _ _ => rfl⟩
    · rename_i s _
      have hf := fun k hk => nextId_frame s c.env c.fail d (k := k) hk
      split
      · rename_i he; rw [he] at hf; rw [(hm mark).1, (hm mark).2]; exact ⟨fun _ _ => rfl, rfl, hf⟩
      · rename_i he; rw [he] at hf; rw [(hm mark).1, (hm mark).2]; exact ⟨fun _ _ => rfl, rfl, hf⟩
      · rename_i did _ _ he
        rw [he] at hf
        obtain ⟨ws, h1, h2⟩ := Prog.run_writes (P := AtDoc) (p := Prog.setK (documentKey ci.id did) data)
          (Prog.writes_setK _ ⟨ci.id, documentKey_prefix.mpr rfl⟩) t.kv
        have hv := Prog.run_view (Prog.setK (documentKey ci.id did) data) t.kv snap h
        have := sameElse_more h hv h1 (fun x hx => (h2 x hx).1)
        have ha : ∀ (t₁ : Dml.DTxn Dml.Seqs) f t₂, t₁.addCancelFunc f = .ok t₂ → t₂.kv = t₁.kv ∧ t₂.start = t₁.start := by
          intro t₁ f t₂ e
          unfold Dml.DTxn.addCancelFunc at e
          split at e <;> cases e
          exact ⟨rfl, rfl⟩
        rw [(hm mark).1]
        split
        · rename_i e
          obtain ⟨e1, e2⟩ := ha _ _ _ e
          dsimp only at e1 e2 ⊢
          rw [e1, e2]
          exact ⟨this, (hm mark).2, hf⟩
        · exact ⟨this, (hm mark).2, hf⟩

/-- A schema was published: its version is stored. -/
theorem Match.someMeta (h : Match J C K B S w) {k : Nat} {s : Session} (hs : w.session k = some s) (hst : s.txn.start ≠ none) :
    SomeMeta w.ddl.db := by
  obtain ⟨v, hv⟩ := h.session hs
  have hsh := (h.visits k v s hv hs).shows
  have hpos : 0 < S.proc.state.dbs.length := by
    cases hc : s.txn.start with
    | none => exact absurd hc hst
    | some c =>
      rw [hc] at hsh
      cases hn : v.schema with
      | none => rw [hn] at hsh; exact hsh.elim
      | some n =>
        rw [hn] at hsh
        obtain ⟨v₀, hp⟩ := hsh
        have := hp.pos; have := hp.le; omega
  obtain ⟨M, hM, hk, -⟩ := h.serves.kept
  obtain ⟨A, hr, -, ha⟩ := hk.ex
  have hle := h.serves.sane.count
  have hsm := h.serves.sane.small
  have hver : M.version ≠ none := by
    intro e
    have := hM.version
    rw [e] at this
    have := congrArg Int64.toInt this
    rw [Int64.toInt_ofNat_of_lt (by omega)] at this
    simp at this
    omega
  cases hvv : M.version with
  | none => exact absurd hvv hver
  | some x =>
    have h1 := ha.version
    have h2 := hr.str schemaVersionKey
    unfold Structure.StrRep at h2
    rw [h1, hvv] at h2
    have hkey : IsPrefixOf Sequence.metaPrefix (Structure.stringDataKey Sequence.metaPrefix schemaVersionKey) := by
      rw [Structure.stringDataKey_eq]; exact ⟨_, rfl⟩
    cases hg : (bare w.ddl).db.get (Structure.stringDataKey Sequence.metaPrefix schemaVersionKey) with
    | none => rw [hg] at h2; cases h2
    | some y => exact ⟨_, y, hkey, hg, hk.noTTL _ _ hkey hg⟩

/-- Nothing but metadata and documents is stored or seen; a transaction that knows a schema sees some metadata. -/
structure Ours (w : Domain.World) : Prop where
  db : OnlyOurs w.ddl.db
  views : ∀ k s, w.session k = some s → OnlyOurs s.txn.kv.view ∧ (s.phase ≠ .fresh → s.txn.start ≠ none → SomeMeta s.txn.kv.view)

theorem ours_start : Ours { ddl := { db := OMap.empty } } where
  db := fun k v h => by simp at h
  views := fun k s h => by simp [Domain.World.session] at h

theorem Ours.put {w' : Domain.World} (h : Ours w) (hd : OnlyOurs w'.ddl.db) (hw : w'.sessions = w.sessions) {k : Nat} {s s' : Session} (hs : w.session k = some s)
    (h' : OnlyOurs s'.txn.kv.view ∧ (s'.phase ≠ .fresh → s'.txn.start ≠ none → SomeMeta s'.txn.kv.view)) : Ours (w'.put k s') where
  db := hd
  views := by
    have hs' : w'.session k = some s := by unfold Domain.World.session; rw [hw]; exact hs
    intro j x hx
    rw [World.session_put hs'] at hx
    by_cases e : k = j
    · rw [if_pos e] at hx; cases hx; exact h'
    · rw [if_neg e] at hx
      unfold Domain.World.session at hx
      rw [hw] at hx
      exact h.views j x hx

theorem Ours.step (h : Ours w) (hm : Match J C K B S w) (e : Domain.Ev D) : Ours (w.step J C e).2 := by
  have hkeep : ∀ w' : Domain.World, w'.sessions = w.sessions → OnlyOurs w'.ddl.db → Ours w' := by
    intro w' h1 h2
    refine ⟨h2, fun k s hs => ?_⟩
    unfold Domain.World.session at hs
    rw [h1] at hs
    exact h.views k s hs
  have hput := fun {k s s'} w' h1 h2 h3 h4 => h.put (w' := w') (k := k) (s := s) (s' := s') h1 h2 h3 h4
  have hover : ∀ {k s}, w.session k = some s → ∃ snap, s.txn.kv.view = applyWrites snap s.txn.kv.writes := by
    intro k s hs
    obtain ⟨v, hv⟩ := hm.session hs
    exact (hm.visits k v s hv hs).over
  have hready : ∀ p : Phase, p = .ready → p ≠ .fresh := by rintro p rfl; decide
  cases e with
  | ddl e =>
    have hf := h.db.meta' (fun k hk => ddl_frame J w.ddl e hk)
    cases e with
    | crash =>
      refine ⟨hf, fun k s hs => ?_⟩
      simp only [Domain.World.step, Domain.World.session, List.getElem?_map] at hs
      cases hg : w.sessions[k]? <;> rw [hg] at hs <;> cases hs
    | _ =>
      simp only [Domain.World.step]
      split
      · exact h
      · exact hkeep _ rfl hf
  | reload env =>
    simp only [Domain.World.step, Domain.World.reload]
    split
    · exact h
    · split <;> exact hkeep _ rfl h.db
  | publish =>
    simp only [Domain.World.step]
    split
    · exact h
    · split
      · exact h
      · exact hkeep _ rfl h.db
  | begin u env =>
    refine ⟨h.db, fun k s hs => ?_⟩
    simp only [Domain.World.step, Domain.World.session] at hs
    rw [List.getElem?_append] at hs
    split at hs
    · exact h.views k s hs
    · cases hk : k - w.sessions.length with
      | succ n => rw [hk] at hs; simp at hs
      | zero =>
        rw [hk] at hs
        simp only [List.getElem?_cons_zero, Option.join_some, Option.some.injEq] at hs
        subst hs
        exact ⟨h.db, fun hp => absurd rfl hp⟩
  | snapshot k =>
    simp only [Domain.World.step]
    cases hs : w.session k with
    | none => exact h
    | some s =>
      dsimp only
      split
      · exact hput w h.db rfl hs ⟨h.db, fun _ hst => hm.someMeta hs hst⟩
      · exact h
  | insert k db coll doc mark c =>
    simp only [Domain.World.step]
    cases hs : w.session k with
    | none => exact h
    | some s =>
      dsimp only
      split
      · rename_i hp
        split
        · exact h
        · exact h
        · rename_i data _
          obtain ⟨h1, h2, h3⟩ := insertFunc_else db coll data mark c s.txn w.ddl.seqs w.ddl.db (hover hs)
          refine hput _ (h.db.meta' h3) rfl hs ⟨(h.views k s hs).1.same h1, fun _ hst => ?_⟩
          dsimp only at hst
          rw [h2] at hst
          exact ((h.views k s hs).2 (hready _ hp) hst).same h1
      · exact h
  | op k db coll o mark =>
    simp only [Domain.World.step]
    cases hs : w.session k with
    | none => exact h
    | some s =>
      dsimp only
      split
      · rename_i hp
        obtain ⟨h1, h2⟩ := runOp_else (C := C) db coll o mark s.txn (hover hs)
        refine hput w h.db rfl hs ⟨(h.views k s hs).1.same h1, fun _ hst => ?_⟩
        dsimp only at hst
        rw [h2] at hst
        exact ((h.views k s hs).2 (hready _ hp) hst).same h1
      · exact h
  | discard k =>
    simp only [Domain.World.step]
    cases hs : w.session k with
    | none => exact h
    | some s =>
      dsimp only
      split
      · rename_i hp
        exact hput w h.db rfl hs ⟨(h.views k s hs).1, fun _ hst => (h.views k s hs).2 (hready _ hp) hst⟩
      · exact h
  | commit k =>
    simp only [Domain.World.step]
    cases hs : w.session k with
    | none => exact h
    | some s =>
      dsimp only
      split
      · rename_i hp
        have hp : s.phase ≠ .fresh := by rcases hp with hp | hp <;> rw [hp] <;> decide
        have hv := h.views k s hs
        unfold Domain.World.commit
        split
        · exact h
        · split
          · exact hkeep _ rfl h.db
          · exact hput _ h.db rfl hs ⟨hv.1, fun _ hst => hv.2 hp hst⟩
          · exact hput _ h.db rfl hs ⟨hv.1, fun _ hst => hv.2 hp hst⟩
          · split
            · exact hkeep _ rfl h.db
            · exact hput _ h.db rfl hs ⟨hv.1, fun _ hst => hv.2 hp hst⟩
      · exact h
  | finish k fail =>
    simp only [Domain.World.step]
    cases hs : w.session k with
    | none => exact h
    | some s =>
      dsimp only
      split
      · rename_i hp
        have hp : s.phase ≠ .fresh := by rw [hp]; decide
        have hv := h.views k s hs
        have hdb : OnlyOurs (s.txn.kv.commit fail w.ddl.db).2 := by
          obtain ⟨v, hvv⟩ := hm.session hs
          have hkeys := (hm.visits k v s hvv hs).keys
          unfold Mondis.Txn.commit
          split
          · exact h.db
          · split
            · exact h.db
            · refine h.db.same (sameElse_writes _ ?_)
              intro x hx
              have : x.1 ∈ s.txn.kv.writes.map Prod.fst := List.mem_map.mpr ⟨x, hx, rfl⟩
              rw [hkeys] at this
              obtain ⟨p, -, e⟩ := List.mem_map.mp this
              exact ⟨p.1, by rw [← e]; exact documentKey_prefix.mpr rfl⟩
        unfold Domain.World.finish
        split <;> rename_i he <;> rw [he] at hdb <;> exact hput _ hdb rfl hs ⟨hv.1, fun _ hst => hv.2 hp hst⟩
      · exact h

/-! ### Indexes -/

theorem Pic.noIndex {dbs : List DBInfo} {v₀ n : Nat} {c : MetaCache} (h : Pic dbs v₀ n c) (hp : ∀ d ∈ dbs, Plain d) {db coll : Bytes}
    {ci : CollectionInfo} (hc : MetaCache.collectionInfo (some c) db coll = some ci) : ci.indices.getD OMap.empty = OMap.empty := by
  have hd := h.dbs db
  unfold MetaCache.collectionInfo at hc
  simp only [Option.bind_some] at hc
  cases h1 : c.db db with
  | none => rw [h1] at hc; cases hc
  | some x =>
    rw [h1] at hc hd
    simp only [Option.bind_some] at hc
    cases h2 : (dbs.take n).find? (fun d => decide (d.name = db)) with
    | none => rw [h2] at hd; cases hd
    | some y =>
      rw [h2] at hd
      simp only [Option.map_some, Option.some.injEq] at hd
      have hy : y ∈ dbs := List.mem_of_mem_take (List.mem_of_find?_eq_some h2)
      have hg := congrArg (fun d => d.collections.get coll) hd
      simp only [blankDB, get_mapVals] at hg
      rw [hc] at hg
      cases h3 : y.collections.get coll with
      | none => rw [h3] at hg; cases hg
      | some ci' =>
        rw [h3] at hg
        simp only [Option.map_some, Option.some.injEq] at hg
        have hi := congrArg CollectionInfo.indices hg
        simp only [blankColl, (hp y hy).noIndex coll ci' h3, Option.getD_none, Option.some.injEq] at hi
        apply OMap.ext
        intro k
        have hk := congrArg (fun m : OMap IndexInfo => m.get k) hi
        simp only [get_mapVals, OMap.get_empty, Option.map_none, Option.map_eq_none_iff] at hk
        rw [hk, OMap.get_empty]

theorem SchemaIs.noIndex {dbs : List DBInfo} {n : Option Nat} {c : Option MetaCache} (h : SchemaIs dbs n c) (hp : ∀ d ∈ dbs, Plain d)
    {db coll : Bytes} {ci : CollectionInfo} (hc : MetaCache.collectionInfo c db coll = some ci) : ci.indices.getD OMap.empty = OMap.empty := by
  cases c with
  | none => cases hc
  | some c => cases n with
    | none => exact h.elim
    | some n => obtain ⟨v₀, h⟩ := h; exact h.noIndex hp hc

theorem Match.findIndex (h : Match J C K B S w) (db coll name : Bytes) : Domain.findIndex w.handle db coll name = .err errIndexNotExists := by
  have : MetaCache.checkIndexExists w.handle.cache db coll name = false := by
    unfold MetaCache.checkIndexExists
    cases hc : MetaCache.collectionInfo w.handle.cache db coll with
    | none => rfl
    | some ci =>
      have hi := (h.schemaIs).noIndex h.serves.sane.plain hc
      simp only [Option.bind_some]
      cases hx : ci.indices with
      | none => rfl
      | some m => rw [hx] at hi; simp only [Option.getD_some] at hi; rw [hi]; simp
  unfold Domain.findIndex
  rw [this]; rfl

/-- The transaction as it was, but for what it referred to. -/
theorem Match.mark (h : Match J C K B S w) {k : Nat} {v : Visit D} {s : Session} (hv : S.visit k = some v) (hs : w.session k = some s)
    {db coll : Bytes} {x : Int64} (hx : collectionIn S.proc.state.dbs v.schema db coll = some x) (mark : Bool) :
    Match J C K B S (w.put k { s with txn := if mark then s.txn.referredCollections [x] else s.txn }) :=
  h.putSame hv hs ((h.visits k v s hv hs).mark hx mark)

theorem Ours.mark (h : Ours w) {k : Nat} {s : Session} (hs : w.session k = some s) (x : Int64) (mark : Bool) :
    Ours (w.put k { s with txn := if mark then s.txn.referredCollections [x] else s.txn }) := by
  refine h.put h.db rfl hs ?_
  cases mark <;> exact h.views k s hs

/-- GetDidRange only reads. -/
theorem range_txn (x : Int64) (t : Mondis.Txn) : ((Doc.getDidRange x).run t).2 = t := by
  have hof : ∀ {α : Type} (r : Res α), ((Prog.ofRes r).run t).2 = t := fun r => by cases r <;> rfl
  have hb : ∀ {α β : Type} (p : Prog α) (f : α → Prog β), (p.run t).2 = t → (∀ a, ((f a).run t).2 = t) → ((p >>= f).run t).2 = t := by
    intro α β p f hp hf
    rw [Prog.run_bind]
    cases hx : p.run t with
    | mk r t' =>
      rw [hx] at hp
      dsimp only at hp
      subst hp
      cases r with
      | ok a => exact hf a
      | err e => rfl
      | panic => rfl
  unfold Doc.getDidRange
  refine hb _ _ rfl (fun l => ?_)
  have hrest : ∀ min : Int64, ((do
      let l ← Prog.scanK { reverse := true, offset := Key.prefixNext (documentKeyPrefix x) }
      match l with
        | [] => do
          let max ← pure 0
          pure (min, max)
        | e :: _ => do
          let r ← Prog.ofRes (decodeDocumentKey e.1)
          let max ← pure r.2
          pure (min, max) : Prog (Int64 × Int64)).run t).2 = t := by
    intro min
    refine hb _ _ rfl (fun l => ?_)
    cases l with
    | nil => rfl
    | cons e l => exact hb _ _ (hof _) (fun _ => rfl)
  cases l with
  | nil => exact hrest 0
  | cons e l => exact hb _ _ (hof _) (fun r => hrest r.2)

/-- One of these calls. -/
theorem Match.ask (h : Match J C K B S w) (ho : Ours w) (q : Ask) :
    S.Tells q (w.ask q).1 ∧ Match J C K B S (w.ask q).2 ∧ Ours (w.ask q).2 := by
  have hno : ∀ {k s}, w.session k = some s → s.phase ≠ .ready → ∀ v, S.visit k = some v → v.phase ≠ .ready := by
    intro k s hs hp v hv
    rw [← (h.visits k v s hv hs).phase]; exact hp
  cases q with
  | index db coll name =>
    refine ⟨?_, h, ho⟩
    show S.Tells _ (.found (Domain.findIndex w.handle db coll name))
    rw [h.findIndex]
    exact .index
  | indices k db coll mark =>
    simp only [Domain.World.ask]
    cases hs : w.session k with
    | none => exact ⟨.indicesNot (h.noSession hs), h, ho⟩
    | some s =>
      obtain ⟨v, hv⟩ := h.session hs
      have hm := h.visits k v s hv hs
      by_cases hp : s.phase = .ready
      · simp only [if_pos hp]
        have hcoll := hm.shows.collection db coll
        unfold Domain.getIndices
        cases hc : MetaCache.collectionInfo s.txn.start db coll with
        | none =>
          rw [hc] at hcoll
          exact ⟨.indicesNowhere hv (hm.phase ▸ hp) hcoll.symm, h.putSame hv hs hm, ho.put ho.db rfl hs (ho.views k s hs)⟩
        | some ci =>
          rw [hc] at hcoll
          have hi := hm.shows.noIndex h.serves.sane.plain hc
          dsimp only
          rw [hi]
          exact ⟨.indices hv (hm.phase ▸ hp) hcoll.symm, h.mark hv hs hcoll.symm mark, ho.mark hs ci.id mark⟩
      · simp only [if_neg hp]
        exact ⟨.indicesNot (hno hs hp), h, ho⟩
  | range k db coll mark =>
    simp only [Domain.World.ask]
    cases hs : w.session k with
    | none => exact ⟨.rangeNot (h.noSession hs), h, ho⟩
    | some s =>
      obtain ⟨v, hv⟩ := h.session hs
      have hm := h.visits k v s hv hs
      by_cases hp : s.phase = .ready
      · simp only [if_pos hp]
        have hcoll := hm.shows.collection db coll
        unfold Domain.getDidRange Dml.withCollection
        cases hc : MetaCache.collectionInfo s.txn.start db coll with
        | none =>
          rw [hc] at hcoll
          refine ⟨.rangeNowhere hv (hm.phase ▸ hp) hcoll.symm, ?_, ?_⟩
          · cases mark <;> exact h.putSame hv hs hm
          · cases mark <;> exact ho.put ho.db rfl hs (ho.views k s hs)
        | some ci =>
          rw [hc] at hcoll
          have hst : s.txn.start ≠ none := by intro e; rw [e] at hc; cases hc
          have hr := range_exact (C := C) (A := v.docs) ci.id hm.docs (ho.views k s hs).1
            ((ho.views k s hs).2 (by rw [hp]; decide) hst)
          have ht := range_txn ci.id s.txn.kv
          dsimp only
          have hkv : (s.txn.referredCollections [ci.id]).kv = s.txn.kv := rfl
          rw [hkv]
          generalize (Doc.getDidRange ci.id).run s.txn.kv = y at hr ht ⊢
          obtain ⟨r, kv⟩ := y
          dsimp only at hr ht ⊢
          subst ht
          refine ⟨.range hv (hm.phase ▸ hp) hcoll.symm hr, ?_, ?_⟩
          · have := h.mark hv hs hcoll.symm mark
            cases mark <;> exact this
          · have := ho.mark hs ci.id mark
            cases mark <;> exact this
      · simp only [if_neg hp]
        exact ⟨.rangeNot (hno hs hp), h, ho⟩

/-! ### Histories -/

theorem acts_match_from (J : Json) (C : Codec D) (c : Nat) (l : List (Act D)) : ∀ {B : Nat} {S : Site D} {w : Domain.World},
    Match J C K B S w → Ours w → (∀ e ∈ eventsOf l, DomainFits K e) → B + (eventsOf l).length * c < 2 ^ 63 →
    4 * K + 1026 + 2 * (S.proc.state.lastID + (eventsOf l).length * (K + 2)) ≤ c →
    S.proc.state.lastID + (eventsOf l).length * (K + 2) < 2 ^ 63 →
    ∃ S', S.Acts C.norm l (runActs J C l w).1 S' ∧ Match J C K (B + (eventsOf l).length * c) S' (runActs J C l w).2 ∧
      Ours (runActs J C l w).2 := by
  induction l with
  | nil => exact fun h ho _ _ _ _ => ⟨_, .nil, h.mono (by simp), ho⟩
  | cons a l ih =>
    intro B S w h ho hf hB hc hid
    cases a with
    | ask q =>
      obtain ⟨h1, h2, h3⟩ := h.ask ho q
      obtain ⟨R, h4, h5⟩ := ih h2 h3 hf hB hc hid
      exact ⟨R, .ask h1 h4, h5⟩
    | ev e =>
      have hl : eventsOf (Act.ev e :: l) = e :: eventsOf l := rfl
      rw [hl] at hf hB hc hid ⊢
      rw [List.length_cons] at hB hc hid ⊢
      have e1 : ((eventsOf l).length + 1) * (K + 2) = (eventsOf l).length * (K + 2) + (K + 2) := Nat.succ_mul _ _
      have e2 : ((eventsOf l).length + 1) * c = (eventsOf l).length * c + c := Nat.succ_mul _ _
      rw [e1] at hc hid
      rw [e2] at hB ⊢
      have hcost : cost K S.proc.state ≤ c := by unfold cost; omega
      obtain ⟨Q, h1, h2, h3⟩ := h.step e (hf e List.mem_cons_self) (by omega) (by omega)
      obtain ⟨R, h4, h5, h6⟩ := ih (h2.mono (B' := B + c) (by omega)) (ho.step h e) (fun e he => hf e (List.mem_cons_of_mem _ he))
        (by omega) (by omega) (by omega)
      refine ⟨R, .ev h1 h4, ?_, h6⟩
      have : B + ((eventsOf l).length * c + c) = B + c + (eventsOf l).length * c := by omega
      rw [this]; exact h5

/-- Every history on a new database. -/
theorem acts_match (J : Json) (C : Codec D) {K : Nat} {l : List (Act D)} (hb : DomainBrief K (eventsOf l)) :
    ∃ S, Site.Acts C.norm {} l (runActs J C l { ddl := { db := OMap.empty } }).1 S ∧
      Match J C K (2 ^ 62) S (runActs J C l { ddl := { db := OMap.empty } }).2 ∧ Ours (runActs J C l { ddl := { db := OMap.empty } }).2 := by
  have hm := match_start J C K (db := OMap.empty) (fun k _ => OMap.get_empty k) (fun _ k _ => OMap.get_empty k)
  by_cases hpos : 1 ≤ (eventsOf l).length
  · obtain ⟨b1, b2⟩ := domain_budget hb.2 hpos
    obtain ⟨S, h1, h2, h3⟩ := acts_match_from J C _ l hm ours_start hb.1 (by have := hb.2; omega) b1 b2
    exact ⟨S, h1, h2.mono (by have := hb.2; omega), h3⟩
  · have hz : (eventsOf l).length = 0 := by omega
    obtain ⟨S, h1, h2, h3⟩ := acts_match_from J C (4 * K + 1026) l hm ours_start hb.1 (by rw [hz]; omega) (by rw [hz]; simp) (by rw [hz]; simp)
    exact ⟨S, h1, h2.mono (by rw [hz]; omega), h3⟩

end Mondis.Props
