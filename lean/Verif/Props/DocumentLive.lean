import Verif.Props.DocumentIndex
/-!
# C79: package document, when nothing is in the way

What a caller gets who is alone for the time of his calls and whom the engine does not refuse.
-/
namespace Mondis.DocDB
open Mondis Prog Doc Spec Props Sequence

variable {D : Type} {C : Codec D} {IC : IndexCodec} {w w' : World} {db : DB} {l : List (Ev D)} {g : Ghost D} {b : Nat}

/-! ### Sequences -/

/-- A renewal that is not refused. -/
theorem renew_quiet (s : Old.Seq) (c : Circ) (db : DB) {n : UInt64} (hk : keyErr s.key = none) (hn : stored64 s.key c.snap = some n)
    (hf : c.fail = none) (hr : Roomy c.env) : (s.updateLease c db).1 = .ok () := by
  have hne : s.key ≠ [] := by
    intro e
    rw [e] at hk
    exact absurd hk (by decide)
  have hw : ∀ (t : Txn) (x : Bytes), t.env.update = true → Roomy t.env →
      (t.set s.key x none).1 = .ok () ∧ (t.set s.key x none).2.writes ≠ [] := by
    intro t x hu hr
    simp [Txn.set, Txn.modify, hu, hk, hr t.attempts]
  have hg : ∀ t : Txn, (t.get s.key).2.env = t.env := by
    intro t
    unfold Txn.get
    rw [if_neg hne]
    dsimp only
    repeat' split
    all_goals rfl
  unfold Old.Seq.updateLease
  unfold stored64 at hn
  have key : ∃ m t, Util.body c.env true (Old.lease s.key s.bandwidth s.next) c.snap = (.ok (m, .ok ()), t) ∧ t.writes ≠ [] := by
    unfold Util.body Old.lease
    simp only [Prog.run]
    have hr' : Roomy ({ c.env with update := true } : Env) := hr
    have he := hg (Txn.start { c.env with update := true } c.snap)
    cases hs : c.snap.get s.key with
    | none =>
      have : ((Txn.start { c.env with update := true } c.snap).get s.key).1 = .err .keyNotFound := by
        simp [Txn.get, hne, Txn.start, hs]
      rw [this]
      simp only [Prog.run]
      obtain ⟨h1, h2⟩ := hw _ (Numeric.encode2Binary (0 + s.bandwidth) []) (by rw [he]; rfl) (by rw [he]; exact hr')
      exact ⟨_, _, by rw [h1], h2⟩
    | some v =>
      rw [hs] at hn
      simp only at hn
      split at hn
      case isFalse => cases hn
      rename_i h0
      have : ((Txn.start { c.env with update := true } c.snap).get s.key).1 = .ok v := by
        simp [Txn.get, hne, Txn.start, hs, Val.live, h0]
      rw [this]
      simp only
      split at hn
      case h_2 => cases hn
      rename_i m hm
      rw [hm]
      simp only [Prog.run]
      obtain ⟨h1, h2⟩ := hw _ (Numeric.encode2Binary (m + s.bandwidth) []) (by rw [he]; rfl) (by rw [he]; exact hr')
      exact ⟨_, _, by rw [h1], h2⟩
  obtain ⟨m, t, h1, h2⟩ := key
  rw [h1, hf]
  simp only [Txn.commit, if_neg h2]

/-- Alone, and not refused. -/
def Turn.calm (w : World) (env : Env) : Turn := ⟨w.store.now, env, none⟩

theorem draw_quiet {out : List (Bytes × UInt64)} (h : SeqsOK w.store w.gens out b) {p : Nat} {kw : Bytes} (hp : SeqAt w.gens p (metaSequenceKey kw))
    (hk : keyErr (metaSequenceKey kw) = none) (env : Env) (hr : Roomy env) : ∃ u w', w.draw p (.calm w env) = some (.ok u, w') := by
  obtain ⟨s, h1, h2⟩ := hp
  obtain ⟨n, hn⟩ := h.count kw w.store.now (Nat.le_refl _)
  have hq : (s.seq.updateLease (w.store.circ s.seq.key (.calm w env)) w.store.db).1 = .ok () := by
    refine renew_quiet s.seq _ _ (n := n) (by rw [h2]; exact hk) (by rw [h2]; exact hn) ?_ hr
    simp only [Store.circ, Turn.calm, clash_now]
    rfl
  have hok : ∃ u, (s.seq.nextId (w.store.circ s.seq.key (.calm w env)) w.store.db).1 = .ok u := by
    unfold Old.Seq.nextId
    split
    · rename_i r sq db' heq
      split at heq
      · rw [heq] at hq
        simp only at hq
        subst hq
        exact ⟨_, rfl⟩
      · cases heq
        exact ⟨_, rfl⟩
  obtain ⟨u, hu⟩ := hok
  unfold World.draw
  rw [h1]
  simp only
  rw [if_pos ⟨(h.gens p s h1).since, Nat.le_refl _⟩]
  exact ⟨u, _, by rw [hu]⟩

theorem newSequence_quiet {out : List (Bytes × UInt64)} (h : SeqsOK w.store w.gens out b) {kw : Bytes} (bw : UInt64) (hbw : bw ≠ 0)
    (hk : keyErr (metaSequenceKey kw) = none) (env : Env) (hr : Roomy env) :
    ∃ w', w.newSequence (metaSequenceKey kw) bw (.calm w env) = some (.ok (), w') := by
  obtain ⟨n, hn⟩ := h.count kw w.store.now (Nat.le_refl _)
  have hq : (Old.Seq.updateLease { key := metaSequenceKey kw, bandwidth := bw } (w.store.circ (metaSequenceKey kw) (.calm w env)) w.store.db).1 = .ok () := by
    refine renew_quiet _ _ _ (n := n) hk hn ?_ hr
    simp only [Store.circ, Turn.calm, clash_now]
    rfl
  have hok : (Old.Seq.new (metaSequenceKey kw) bw (w.store.circ (metaSequenceKey kw) (.calm w env)) w.store.db).1 = .ok () := by
    unfold Old.Seq.new
    rw [if_neg hbw]
    exact hq
  unfold World.newSequence
  rw [if_pos (show (Turn.calm w env).v ≤ w.store.now from Nat.le_refl _)]
  dsimp only
  rw [hok]
  exact ⟨_, rfl⟩

/-! ### Names -/

/-- A name that Collection can store. -/
structure Storable (name : Bytes) : Prop where
  some : name ≠ []
  free : reserved name = false
  short : name.length ≤ 57000

theorem Storable.nameKey {name : Bytes} (h : Storable name) : keyErr (metaCollectionName2IDKey name) = none := by
  have hl := C06_encoded_length name
  have hs := h.short
  have h1 : (metaCollectionName2IDKey name).length = 11 + (Memcomparable.encodeBytes [] name).length := by
    rw [cnameKey_eq, List.length_append]; rfl
  have h2 : Memcomparable.encodedBytesLength name.length ≤ 64989 := by
    unfold Memcomparable.encodedBytesLength
    simp only [Memcomparable.encGroupSize]
    omega
  unfold keyErr
  rw [if_neg (by omega), if_neg (by rw [cnameKey_eq]; simp [Doc.metaCName2IDPrefix, Doc.metaPrefix, Key.hasPrefix, badgerPrefix]), if_neg (by omega)]

theorem seqKey_ok {name : Bytes} (hs : name.length ≤ 57000) : keyErr (metaSequenceKey name) = none := by
  have h1 : (metaSequenceKey name).length = 7 + name.length := by
    unfold metaSequenceKey
    rw [List.length_append]; rfl
  unfold keyErr
  rw [if_neg (by omega), if_neg (by simp [metaSequenceKey, metaSequencePrefix, Doc.metaPrefix, Key.hasPrefix, badgerPrefix]), if_neg (by omega)]

/-! ### Collection -/

/-- The object can be used: NewDB has returned, Close was not called, and no call of Collection is under way. -/
structure Ready (w : World) (i : Nat) (o : Obj) : Prop where
  obj : w.obj i = some o
  st : o.st = .open
  iseq : o.iseq.isSome
  making : o.making = none

theorem obj_lt {i : Nat} {o : Obj} (h : w.obj i = some o) : i < w.objs.length := by
  unfold World.obj at h
  cases hx : w.objs[i]? with
  | none => rw [hx] at h; cases h
  | some y => exact (List.getElem?_eq_some_iff.mp hx).1

theorem obj_put {i : Nat} (h : i < w.objs.length) (o : Obj) : (w.putObj i o).obj i = some o := by
  show ((w.objs.set i _)[i]?).join = _
  rw [List.getElem?_set, if_pos rfl, if_pos h]; rfl

/-- C79: Collection, for a name that the object has opened before, gives the Collection object again and does nothing. -/
theorem C79_again {i : Nat} {o : Obj} (h : Ready w i o) {name : Bytes} (hn : Storable name) (hc : (o.colls.get name).isSome)
    (v : Nat) (env : Env) (c : Turn) : w.step C IC (.lookup i name .usual v env c) = (.handle (.ok ()), w) := by
  simp only [World.step, h.obj, h.iseq, if_true, World.lookup, if_neg hn.some, hn.free, h.st, checkState, h.making, hc]
  rfl

theorem clash_bumped {S S' : Store} {kw : Bytes} (h : Bumped S (metaSequenceKey kw) S') {k : Bytes} (hk : k ≠ metaSequenceKey kw) :
    S'.clash [k] S.now = false := by
  cases h with
  | same => exact clash_now _ _
  | push db hf =>
    unfold Store.clash
    rw [List.any_eq_false]
    intro n hn
    have hn := List.mem_range.mp hn
    rw [now_push] at hn
    by_cases hv : S.now ≤ n
    · have : n = S.now := by omega
      subst this
      have : (S.push db [metaSequenceKey kw]).wrote (S.now + 1) = [metaSequenceKey kw] := if_pos rfl
      rw [this]
      simp only [List.any_cons, List.any_nil, Bool.or_false]
      have hne : ¬ metaSequenceKey kw = k := fun e => hk e.symm
      simp [hne]
    · simp [hv]

/-- The first part of Collection, alone. -/
theorem lookup_quiet (h : Kept C w g b) (hb : b + 1000 < 2 ^ 64) {i : Nat} {o : Obj} (ho : Ready w i o) {name : Bytes} (hn : Storable name) (hc : o.colls.get name = none)
    (env : Env) (hr : Roomy env) : ∃ m w', w.step C IC (.lookup i name .usual w.store.now env (.calm w env)) = (.none, w') ∧
      w'.obj i = some { o with making := some m } ∧
      ((∃ cid, m = .known name cid) ∨ ∃ t u, m = .drawn name t w.store.now u ∧ t.reads = [metaCollectionName2IDKey name] ∧
        t.env = { env with update := true } ∧ w'.store.clash [metaCollectionName2IDKey name] w.store.now = false) := by
  have hlt := obj_lt ho.obj
  simp only [World.step, ho.obj, ho.iseq, if_true, World.lookup, if_neg hn.some, hn.free, ho.st, checkState, ho.making, hc, enter]
  simp only [Bool.false_eq_true, if_false, Option.isSome_none, Nat.lt_irrefl]
  have hne := Cid.cn_ne_nil name
  obtain ⟨u, w', hd⟩ := draw_quiet h.seqs (h.objs i o ho.obj).cseq (seqKey_ok (by decide)) env hr
  obtain ⟨s, hs1, hs2⟩ := (h.objs i o ho.obj).cseq
  obtain ⟨d1, -, d3, -⟩ := draw_ok h.seqs hb hd hs1
  rw [hs2] at d1
  have hlt' : i < w'.objs.length := by rw [d3]; exact hlt
  cases hg : w.store.db.get (metaCollectionName2IDKey name) with
  | some x =>
    obtain ⟨y, hy, -⟩ := h.names.form w.store.now (Nat.le_refl _) name x hg
    have hrun : ((getK (metaCollectionName2IDKey name)).run (Txn.start { env with update := true } (w.store.data w.store.now))).1 = .ok x := by
      simp only [getK, Prog.run, Txn.get, if_neg hne, Txn.start]
      rw [show (w.store.data w.store.now).get (metaCollectionName2IDKey name) = some x from hg]
      simp [entry_live hy]
    generalize (getK (metaCollectionName2IDKey name)).run (Txn.start { env with update := true } (w.store.data w.store.now)) = z at hrun
    obtain ⟨r, t⟩ := z
    simp only at hrun
    subst hrun
    simp only [hy.2, C10_binary_roundtrip]
    exact ⟨_, _, rfl, obj_put hlt _, .inl ⟨_, rfl⟩⟩
  | none =>
    have hrun : (getK (metaCollectionName2IDKey name)).run (Txn.start { env with update := true } (w.store.data w.store.now)) =
        (.err .keyNotFound, { Txn.start { env with update := true } (w.store.data w.store.now) with reads := [metaCollectionName2IDKey name] }) := by
      simp only [getK, Prog.run, Txn.get, if_neg hne, Txn.start]
      rw [show (w.store.data w.store.now).get (metaCollectionName2IDKey name) = none from hg]
      simp
    rw [hrun]
    simp only [hd]
    exact ⟨_, _, rfl, obj_put hlt' _, .inr ⟨_, _, rfl, rfl, rfl, clash_bumped d1 (name_ne_seq _ _)⟩⟩

/-- The second part. -/
theorem register_quiet {i : Nat} {o : Obj} {name : Bytes} (hn : Storable name) {m : Making} {v : Nat} {env : Env} (hr : Roomy env)
    (ho : w.obj i = some { o with making := some m })
    (hm : (∃ cid, m = .known name cid) ∨ ∃ t u, m = .drawn name t v u ∧ t.reads = [metaCollectionName2IDKey name] ∧
        t.env = { env with update := true } ∧ w.store.clash [metaCollectionName2IDKey name] v = false) :
    ∃ cid w', w.step C IC (.register i none) = (.none, w') ∧ w'.obj i = some { o with making := some (.known name cid) } := by
  have hlt := obj_lt ho
  rcases hm with ⟨cid, rfl⟩ | ⟨t, u, rfl, h1, h2, h3⟩
  · refine ⟨cid, w, ?_, ho⟩
    simp only [World.step, ho]
  · obtain ⟨t', e1, e2⟩ := run_set_roomy t (metaCollectionName2IDKey name) (Numeric.encode2Binary u []) (by rw [h2]) (by rw [h2]; exact hr) hn.nameKey
    have e3 := (run_setK e1).2
    have hcm : ∃ S, w.store.commit t' v none = (.ok (), S) := by
      unfold Store.commit
      rw [e3, h1, h3]
      simp only [Bool.false_eq_true, if_false, Txn.commit]
      rw [if_neg (by rw [e2]; simp)]
      exact ⟨_, rfl⟩
    obtain ⟨S, hS⟩ := hcm
    simp only [World.step, ho, World.register, e1, hS]
    exact ⟨_, _, rfl, obj_put (w := { w with store := S }) hlt _⟩

/-- The third part. -/
theorem sequence_quiet (h : Kept C w g b) (hb : b + 1000 < 2 ^ 64) {i : Nat} {o : Obj} {name : Bytes} (hn : Storable name) {cid : Int64} (env : Env) (hr : Roomy env)
    (ho : w.obj i = some { o with making := some (.known name cid) }) :
    ∃ p w', w.step C IC (.sequence i (.calm w env)) = (.none, w') ∧ w'.obj i = some { o with making := some (.counted name cid p) } := by
  obtain ⟨w', hw⟩ := newSequence_quiet h.seqs documentIDBandWidth (by decide) (seqKey_ok hn.short) env hr
  obtain ⟨-, -, h3, -⟩ := newSequence_ok h.seqs hb (by decide) (by decide) hw
  have hlt : i < w'.objs.length := by rw [h3]; exact obj_lt ho
  simp only [World.step, ho, World.sequence, hw]
  exact ⟨_, _, rfl, obj_put hlt _⟩

/-- One more event. -/
theorem Fair.snoc (h : Fair C IC db l) {e : Ev D} (hb : 1000 * (l.length + 1) < 2 ^ 64) (he : ∀ env, e ≠ .begin env)
    (he' : ∀ i name d how v env c, e ≠ .createIndex i name d how v env c)
    (ha : ∀ coll iid d, ((run C IC l (World.start db)).2.step C IC e).1 ≠ .stored coll iid d) : Fair C IC db (l ++ [e]) where
  blank := h.blank
  brief := ⟨by rw [List.length_append]; exact hb, fun env hm => by
    rcases List.mem_append.mp hm with hm | hm
    · exact h.brief.2 env hm
    · exact absurd (List.mem_singleton.mp hm).symm (he env)⟩
  modest := fun i name d how v env c hm => by
    rcases List.mem_append.mp hm with hm | hm
    · exact h.modest i name d how v env c hm
    · exact absurd (List.mem_singleton.mp hm).symm (he' i name d how v env c)
  noReuse := by
    rw [run_append]
    intro k coll iid d hk
    have hl := run_length C IC l (World.start db)
    by_cases hlt : k < l.length
    · dsimp only at hk ⊢
      rw [List.getElem?_append_left (by omega)] at hk
      rw [List.take_append_of_le_length (by omega)]
      exact h.noReuse k coll iid d hk
    · dsimp only at hk
      rw [List.getElem?_append_right (by omega)] at hk
      dsimp only [run] at hk
      have := List.mem_of_getElem? hk
      exact absurd (List.mem_singleton.mp this).symm (ha coll iid d)

/-- A call of Collection by a caller who is alone meanwhile and not refused: its parts, one after the other. -/
def collectionCall (C : Codec D) (IC : IndexCodec) (w : World) (i : Nat) (name : Bytes) (env : Env) : List (Ev D) :=
  let e₁ := .lookup i name .usual w.store.now env (.calm w env)
  [e₁, .register i none, .sequence i (.calm (run C IC [e₁, .register i none] w).2 env), .indexes i env]

/-- C79: Collection succeeds.  After any history, if NewDB has returned the DB, it is not closed, and the name is one that
can be stored, Collection gives the Collection object, which the DB remembers from then on; nothing else of the DB changes. -/
theorem C79_collection (h : Fair C IC db l) (hb : 1000 * (l.length + 4) < 2 ^ 64) (hw : w = (run C IC l (World.start db)).2) {i : Nat} {o : Obj}
    (ho : Ready w i o) {name : Bytes} (hn : Storable name) (hc : o.colls.get name = none) (env : Env) (hr : Roomy env) :
    (run C IC (collectionCall C IC w i name env) w).1 = [.none, .none, .none, .handle (.ok ())] ∧
    ∃ cl, (run C IC (collectionCall C IC w i name env) w).2.obj i = some { o with colls := o.colls.set name cl } ∧
      numberOf (run C IC (collectionCall C IC w i name env) w).2.store.db name = some cl.cid := by
  obtain ⟨g₀, t₀⟩ := told (C := C) IC h.blank l h.brief.1 h.brief.2
  rw [← hw] at t₀
  have hl := run_length C IC l (World.start db)
  generalize he₁ : (Ev.lookup i name .usual w.store.now env (.calm w env) : Ev D) = e₁
  obtain ⟨m, w₁, s₁, o₁, k₁⟩ := lookup_quiet (C := C) (IC := IC) t₀.kept (by omega) ho hn hc env hr
  rw [he₁] at s₁
  have f₁ : Fair C IC db (l ++ [e₁]) := h.snoc (by omega) (by rw [← he₁]; nofun) (by rw [← he₁]; nofun) (by rw [← hw, s₁]; nofun)
  have r₁ : (run C IC (l ++ [e₁]) (World.start db)).2 = w₁ := by
    rw [run_append, ← hw]; simp only [run, s₁]
  obtain ⟨cid, w₂, s₂, o₂⟩ := register_quiet (C := C) (IC := IC) (w := w₁) hn hr o₁ k₁
  have f₂ : Fair C IC db (l ++ [e₁] ++ [.register i none]) := f₁.snoc (by simp; omega) nofun nofun (by rw [r₁, s₂]; nofun)
  have r₂ : (run C IC (l ++ [e₁] ++ [.register i none]) (World.start db)).2 = w₂ := by
    rw [run_append, r₁]; simp only [run, s₂]
  obtain ⟨g₂, t₂⟩ := told (C := C) IC f₂.blank _ f₂.brief.1 f₂.brief.2
  rw [r₂] at t₂
  obtain ⟨p, w₃, s₃, o₃⟩ := sequence_quiet (C := C) (IC := IC) t₂.kept (by simp; omega) hn env hr o₂
  have f₃ : Fair C IC db (l ++ [e₁] ++ [.register i none] ++ [.sequence i (.calm w₂ env)]) :=
    f₂.snoc (by simp; omega) nofun nofun (by rw [r₂, s₃]; nofun)
  have r₃ : (run C IC (l ++ [e₁] ++ [.register i none] ++ [.sequence i (.calm w₂ env)]) (World.start db)).2 = w₃ := by
    rw [run_append, r₂]; simp only [run, s₃]
  obtain ⟨o', cl', ds, s₄, -⟩ := mem_opened f₃ env (by rw [r₃]; exact o₃) rfl
  rw [r₃] at s₄
  have s₅ : ∃ im, w₃.step C IC (Ev.indexes (D := D) i env) = (.handle (.ok ()), w₃.putObj i
      { o with making := none, colls := o.colls.set name ⟨cid, p, im⟩ }) := by
    simp only [World.step, o₃, World.indexes] at s₄ ⊢
    split at s₄
    · exact ⟨_, rfl⟩
    · cases s₄
    · cases s₄
  obtain ⟨im, s₅⟩ := s₅
  have hrun : run C IC (collectionCall C IC w i name env) w = ([.none, .none, .none, .handle (.ok ())], w₃.putObj i
      { o with making := none, colls := o.colls.set name ⟨cid, p, im⟩ }) := by
    unfold collectionCall
    rw [he₁]
    simp only [run, s₁, s₂, s₃, s₅]
  rw [hrun]
  have hob := obj_put (obj_lt o₃) { o with making := none, colls := o.colls.set name ⟨cid, p, im⟩ }
  refine ⟨rfl, ⟨cid, p, im⟩, ?_, ?_⟩
  · rw [hob]
    obtain ⟨a, b, c, d, e⟩ := o
    have := ho.making
    dsimp only at this ⊢
    rw [this]
  · obtain ⟨g₃, t₃⟩ := told (C := C) IC f₃.blank _ f₃.brief.1 f₃.brief.2
    rw [r₃] at t₃
    exact ((t₃.kept.objs i _ o₃).counted name cid p rfl).1

/-! ### Documents -/

theorem call_open {i : Nat} {o : Obj} {cl : Coll} {name : Bytes} (ho : w.obj i = some o) (hst : o.st = .open) (hc : o.colls.get name = some cl) :
    w.call i name .usual = some (o, cl, .ok ()) := by
  unfold World.call
  simp only [ho, hc, hst, enter, checkState]

/-- InsertOne, alone. -/
theorem insert_quiet (h : Kept C w g b) (hb : b + 1000 < 2 ^ 64) {i k : Nat} {o : Obj} {cl : Coll} {s : Session} {name : Bytes} {doc : D} {data : Bytes}
    (ho : w.obj i = some o) (hst : o.st = .open) (hc : o.colls.get name = some cl) (hn : name.length ≤ 57000) (hm : C.marshal doc = .ok data)
    (hk : w.sessions[k]? = some s) (hl : s.phase = .live) (hu : s.txn.env.update = true) (env : Env) (hr : Roomy env) :
    ∃ (u : UInt64) (w' : World) (t : Txn), w.step C IC (.insert k i name doc .usual (.calm w env)) = (.inserted (.ok u.toInt64), w'.putSession k { s with txn := t }) ∧
      w' = { w with store := w'.store, gens := w'.gens } ∧
      t.writes = s.txn.writes ++ [(documentKey cl.cid u.toInt64, some { value := data })] ∧ t.reads = s.txn.reads := by
  obtain ⟨u, w', hd⟩ := draw_quiet h.seqs ((h.objs i o ho).colls name cl hc).2 (seqKey_ok hn) env hr
  obtain ⟨g', e1, -⟩ := ((h.objs i o ho).colls name cl hc).2
  obtain ⟨-, -, d3, -⟩ := draw_ok h.seqs hb hd e1
  obtain ⟨t, r1, r2⟩ := run_set_roomy s.txn (documentKey cl.cid u.toInt64) data hu (h.sess k s hk).roomy (documentKey_ok _ _)
  have hrun : (insertOne C cl.cid u.toInt64 doc).run s.txn = (.ok (), t) := by
    unfold insertOne
    rw [run_bind, run_ofRes, hm]
    exact r1
  refine ⟨u, w', t, ?_, d3, r2, (run_setK r1).2⟩
  simp only [World.step, hk, call_open ho hst hc, hl, if_true, hm, World.insert, hd, hrun]
  rfl

/-- C79: InsertOne succeeds.  After any history, in a transaction that can write, InsertOne of a document that can be marshalled
gives an id, whatever else the transaction has done. -/
theorem C79_insert {es : List (Ev D)} (hdb : Blank db) (hb : Brief es) (hb' : 1000 * (es.length + 1) < 2 ^ 64) (hw : w = (run C IC es (World.start db)).2)
    {i k : Nat} {o : Obj} {s : Session} {name : Bytes} {doc : D} {data : Bytes} (ho : Ready w i o) (hc : (o.colls.get name).isSome) (hn : Storable name)
    (hm : C.marshal doc = .ok data) (hk : w.sessions[k]? = some s) (hl : s.phase = .live) (hu : s.txn.env.update = true) (env : Env) (hr : Roomy env) :
    ∃ did, (w.step C IC (.insert k i name doc .usual (.calm w env))).1 = .inserted (.ok did) := by
  obtain ⟨g, t⟩ := told (C := C) IC hdb es hb.1 hb.2
  rw [← hw] at t
  obtain ⟨cl, hcl⟩ := Option.isSome_iff_exists.mp hc
  obtain ⟨u, w', t', h1, -⟩ := insert_quiet (IC := IC) t.kept (by omega) ho.obj ho.st hcl hn.short hm hk hl hu env hr
  exact ⟨_, by rw [h1]⟩

/-- C79: what was inserted is there.  After any history: NewTransaction, InsertOne and Commit succeed, and GetOne, in a new
transaction and through any DB object that has opened the collection, gives the document. -/
theorem C79_story {es : List (Ev D)} (hdb : Blank db) (hb : Brief es) (hb' : 1000 * (es.length + 2) < 2 ^ 64) (hw : w = (run C IC es (World.start db)).2)
    {i j : Nat} {o o' : Obj} {name : Bytes} {doc d : D} (ho : Ready w i o) (hc : (o.colls.get name).isSome) (ho' : Ready w j o') (hc' : (o'.colls.get name).isSome)
    (hn : Storable name) (hm : C.norm doc = .ok d) (env env' : Env) (hr : Roomy env) (hu : env.update = true)
    (k : Nat) (hk : k = w.sessions.length) :
    ∃ did, (run C IC [.begin env, .insert k i name doc .usual (.calm w env), .commit k none, .begin env',
        .op (k + 1) j name (.getOne did) .usual] w).1 =
      [.none, .inserted (.ok did), .committed (.ok ()), .none, .out (.ok (.doc d))] := by
  obtain ⟨cl, hcl⟩ := Option.isSome_iff_exists.mp hc
  obtain ⟨cl', hcl'⟩ := Option.isSome_iff_exists.mp hc'
  have hcid : cl.cid = cl'.cid := (C75_handles hdb hb i j o o' name name cl cl' (by rw [← hw]; exact ho.obj) hcl (by rw [← hw]; exact ho'.obj) hcl').2.mpr rfl
  obtain ⟨data, hmar, hun⟩ : ∃ data, C.marshal doc = .ok data ∧ C.unmarshal data = .ok d := by
    have := C.law doc
    cases hx : C.marshal doc with
    | ok x => rw [hx] at this; exact ⟨x, rfl, by rw [← this.1]; exact hm⟩
    | err e => rw [hx, hm] at this; cases this
    | panic => rw [hx, hm] at this; cases this
  have hb₁ : Brief (es ++ [.begin env]) := by
    refine ⟨by rw [List.length_append]; simp; omega, fun env' hx => ?_⟩
    rcases List.mem_append.mp hx with hx | hx
    · exact hb.2 env' hx
    · cases List.mem_singleton.mp hx; exact hr
  obtain ⟨g, t₁⟩ := told (C := C) IC hdb _ hb₁.1 hb₁.2
  generalize hs₁ : (⟨Txn.start env w.store.db, w.store.now, .live⟩ : Session) = s₁
  generalize hw₁ : ({ w with sessions := w.sessions ++ [s₁] } : World) = w₁
  have e₁ : w.step C IC (Ev.begin (D := D) env) = (.none, w₁) := by rw [← hw₁, ← hs₁]; rfl
  have r₁ : (run C IC (es ++ [.begin env]) (World.start db)).2 = w₁ := by
    rw [run_append, ← hw]; simp only [run, e₁]
  rw [r₁] at t₁
  have hk₁ : w₁.sessions[k]? = some s₁ := by
    rw [← hw₁, hk]
    show (w.sessions ++ [s₁])[w.sessions.length]? = _
    rw [List.getElem?_append_right (Nat.le_refl _), Nat.sub_self]; rfl
  have hcalm : Turn.calm w env = Turn.calm w₁ env := by rw [← hw₁]; rfl
  obtain ⟨u, w₂, t, e₂, f₂, i1, i2⟩ := insert_quiet (IC := IC) (w := w₁) t₁.kept (by simp; omega) (o := o) (cl := cl) (i := i) (k := k) (s := s₁) (name := name) (doc := doc)
    (by rw [← hw₁]; exact ho.obj) ho.st hcl hn.short hmar hk₁ (by rw [← hs₁]) (by rw [← hs₁]; exact hu) env hr
  rw [← hcalm] at e₂
  have hw0 : s₁.txn.writes = [] ∧ s₁.txn.reads = [] := by rw [← hs₁]; exact ⟨rfl, rfl⟩
  rw [hw0.1, List.nil_append] at i1
  rw [hw0.2] at i2
  have hlen₁ : w₁.sessions.length = k + 1 := by rw [← hw₁, hk]; simp
  have hss : (w₂.putSession k { s₁ with txn := t }).sessions = w₁.sessions.set k { s₁ with txn := t } := by
    show w₂.sessions.set k _ = _
    rw [f₂]
  have hget : (w₂.putSession k { s₁ with txn := t }).sessions[k]? = some { s₁ with txn := t } := by
    rw [hss, List.getElem?_set_self (by omega)]
  have hclash : ∀ (S : Store) v, S.clash [] v = false := by
    intro S v
    unfold Store.clash
    rw [List.any_eq_false]
    intro n _
    simp
  have hcm : w₂.store.commit t s₁.v none = (.ok (), w₂.store.push (applyWrites w₂.store.db t.writes) (t.writes.map Prod.fst)) := by
    unfold Store.commit
    rw [i2, hclash]
    simp only [Txn.commit, Bool.false_eq_true, if_false]
    rw [if_neg (by rw [i1]; simp)]
    dsimp only
    rw [if_neg (by rw [i1]; simp)]
  generalize hS : w₂.store.push (applyWrites w₂.store.db t.writes) (t.writes.map Prod.fst) = S at hcm
  have hSdb : S.db.get (documentKey cl.cid u.toInt64) = some { value := data } := by
    rw [← hS, db_push, i1]
    show (w₂.store.db.set _ _).get _ = _
    rw [OMap.get_set, if_pos rfl]
  obtain ⟨w₃, e₃, h3s, h3o, h3l⟩ : ∃ w₃, (w₂.putSession k { s₁ with txn := t }).step C IC (Ev.commit (D := D) k none) = (.committed (.ok ()), w₃) ∧
      w₃.store = S ∧ w₃.objs = w₁.objs ∧ w₃.sessions.length = k + 1 := by
    simp only [World.step, hget]
    rw [if_pos (show s₁.phase = .live by rw [← hs₁])]
    rw [show (w₂.putSession k { s₁ with txn := t }).store = w₂.store from rfl, hcm]
    refine ⟨_, rfl, rfl, ?_, ?_⟩
    · show w₂.objs = _
      rw [f₂]
    · show ((w₂.sessions.set k _).set k _).length = _
      rw [List.length_set, List.length_set, f₂, hlen₁]
  have hob : w₃.obj j = some o' := by
    unfold World.obj
    rw [h3o, ← hw₁]
    exact ho'.obj
  refine ⟨u.toInt64, ?_⟩
  simp only [run, e₁, e₂, e₃]
  have e₅ : ∀ s : Session, s = ⟨Txn.start env' w₃.store.db, w₃.store.now, .live⟩ →
      (World.step C IC { w₃ with sessions := w₃.sessions ++ [s] } (.op (k + 1) j name (.getOne u.toInt64) .usual)).1 = .out (.ok (.doc d)) := by
    intro s hs
    have h1 : (w₃.sessions ++ [s])[k + 1]? = some s := by
      rw [List.getElem?_append_right (by omega), h3l, Nat.sub_self]; rfl
    have h2 : World.call { w₃ with sessions := w₃.sessions ++ [s] } j name .usual = some (o', cl', .ok ()) := call_open (w := { w₃ with sessions := w₃.sessions ++ [s] }) hob ho'.st hcl'
    have hg : (getDoc (documentKey cl'.cid u.toInt64)).run s.txn = (.ok { value := data }, (s.txn.get (documentKey cl'.cid u.toInt64)).2) := by
      have hne : documentKey cl'.cid u.toInt64 ≠ [] := fun e => by
        have := documentKey_ok cl'.cid u.toInt64
        rw [e] at this
        exact absurd this (by decide)
      have hv : s.txn.view.get (documentKey cl'.cid u.toInt64) = some { value := data } := by
        rw [hs, ← hcid]
        show w₃.store.db.get _ = _
        rw [h3s]; exact hSdb
      simp only [getDoc, Prog.run, Txn.get, if_neg hne, hv]
      rfl
    have hrun : ((exec C (DocOp.getOne cl'.cid u.toInt64)).run s.txn).1 = .ok (.doc d) := by
      unfold exec getOne
      rw [run_bind, run_bind, hg]
      simp only [run_ofRes, hun]
      rfl
    simp only [World.step, h1, h2]
    rw [if_pos ⟨by rw [hs], rfl⟩]
    simp only [Domain.Op.marshal, Domain.Op.at]
    rw [hrun]
  exact congrArg (fun x => [Answer.none, .inserted (.ok u.toInt64), .committed (.ok ()), .none, x]) (e₅ _ rfl)

/-! ### Indexes -/

theorem set_reads (t : Txn) (k v : Bytes) (m : Option VMetaReq) : (t.set k v m).2.reads = t.reads := by
  unfold Txn.set Txn.modify
  repeat' split
  all_goals rfl

theorem setK_reads (t : Txn) (k v : Bytes) : ((setK k v).run t).2.reads = t.reads := by
  have := set_reads t k v none
  simp only [setK, Prog.run]
  generalize t.set k v none = z at *
  obtain ⟨r, t'⟩ := z
  cases r <;> exact this

theorem writeIndex_reads (cid iid : Int64) (k : Bytes) (d : IndexDef) (t : Txn) : ((writeIndex IC cid iid k d).run t).2.reads = t.reads := by
  have h1 := setK_reads t k d.name
  unfold writeIndex
  rw [run_bind]
  generalize (setK k d.name).run t = z at *
  obtain ⟨r, t'⟩ := z
  simp only at h1
  cases r with
  | err e => exact h1
  | panic => exact h1
  | ok u =>
    simp only
    rw [run_bind, run_ofRes]
    cases Compact.encodeVarint [] iid with
    | err e => exact h1
    | panic => exact h1
    | ok v =>
      simp only
      have h2 := setK_reads t' (indexName2IDKey cid d.name) v
      rw [run_andThen]
      generalize (setK (indexName2IDKey cid d.name) v).run t' = z at *
      obtain ⟨r, t''⟩ := z
      simp only at h2
      cases r with
      | panic => exact h2.trans h1
      | err e => exact (setK_reads _ _ _).trans (h2.trans h1)
      | ok u => exact (setK_reads _ _ _).trans (h2.trans h1)

theorem checkColumns_only (env : Env) (db : DB) {k : Bytes} (hk : k ≠ []) : ((checkColumns k).run (Txn.start env db)).2.reads = [k] := by
  simp only [checkColumns, Prog.run, Txn.get, if_neg hk, Txn.start, List.map_nil, List.not_mem_nil, if_false]
  cases hg : db.get k with
  | none => rfl
  | some v =>
    simp only
    by_cases hl : v.live env.now = true
    · simp only [hl, if_true]
      split <;> rfl
    · simp only [hl]
      rfl

/-- C79: CreateIndex succeeds.  After any history, if no index of the collection is on these columns, and name and columns fit
into keys, CreateIndex gives the number of the new index. -/
theorem C79_createIndex (h : Fair C IC db l) (hb : 1000 * (l.length + 1) < 2 ^ 64) (hw : w = (run C IC l (World.start db)).2) {i : Nat} {o : Obj} (ho : Ready w i o)
    {coll : Bytes} (hc : (o.colls.get coll).isSome) {d : IndexDef} {env : Env} (hr : Roomy env) (hs : Sane d env)
    (hk : ∀ cid b, columnsIndexedKey cid d.fields = .ok b → keyErr b = none) (hn : d.name ≠ []) (hf : d.fields ≠ [])
    (hfree : ¬ (catalogue (run C IC l (World.start db)).1).Taken coll d.fields) (p : Nat) (hp : p = w.pending.length) :
    ∃ iid, (run C IC [.createIndex i coll d .usual w.store.now env (.calm w env), .writeIndex p none, .finish p] w).1 =
      [.drawn iid, .stored coll iid d, .created (.ok iid)] := by
  obtain ⟨cl, hcl⟩ := Option.isSome_iff_exists.mp hc
  obtain ⟨A, hA⟩ := catd l h
  obtain ⟨g, t⟩ := told (C := C) IC h.blank l h.brief.1 h.brief.2
  rw [← hw] at t hA
  have hob := t.kept.objs i o ho.obj
  have hnum := (hob.colls coll cl hcl).1
  obtain ⟨q, hq⟩ := Option.isSome_iff_exists.mp ho.iseq
  obtain ⟨k, hkk⟩ := Idx.ci_ok cl.cid d.fields
  have hkne := Idx.ci_ne_nil hkk
  have hnocol : ¬ Idx.HasColumns A cl.cid d.fields := by
    rintro ⟨n, iid, d', h1, h2⟩
    exact hfree ⟨n, iid, d', by rw [hA.same coll cl.cid hnum]; exact h1, h2⟩
  have hchk : ((checkColumns k).run (Txn.start { env with update := true } (w.store.data w.store.now))).1 = .ok () ∧
      Idx.Fresh env (w.store.data w.store.now) ((checkColumns k).run (Txn.start { env with update := true } (w.store.data w.store.now))).2 := by
    obtain ⟨h1, h2⟩ := Idx.checkColumns_run env (w.store.data w.store.now) hkne
    refine ⟨?_, h2⟩
    rcases h1 with ⟨x, h3, -, h4, -⟩ | ⟨-, h1⟩
    · obtain ⟨n, iid, d', h5, h6⟩ := hA.rep.noCol cl.cid d.fields k hkk (by rw [show w.store.db.get k = some x from h3]; simp)
      obtain ⟨-, -, -, hnd, -⟩ := hA.rep.name cl.cid n iid d' h5
      exact absurd ⟨n, iid, d', h5, ((Idx.ci_iff h6 (hs.len _ _ hkk) hnd).mp hkk).2⟩ hnocol
    · exact h1
  have hrd := checkColumns_only { env with update := true } (w.store.data w.store.now) hkne
  generalize hrun : (checkColumns k).run (Txn.start { env with update := true } (w.store.data w.store.now)) = z at hchk hrd
  obtain ⟨r, t₁⟩ := z
  obtain ⟨h1, hfr⟩ := hchk
  simp only at h1 hfr hrd
  subst h1
  obtain ⟨u, w', hd⟩ := draw_quiet t.kept.seqs (hob.iseq q hq) (seqKey_ok (by decide)) env hr
  obtain ⟨s, hs1, hs2⟩ := hob.iseq q hq
  obtain ⟨d1, -, d3, -⟩ := draw_ok t.kept.seqs (by omega) hd hs1
  rw [hs2] at d1
  have hclash := clash_bumped d1 (k := k) (fun e => (index_side (.inr (.inr ⟨cl.cid, _, hkk⟩))).2.2 _ e.symm)
  rcases Idx.writeIndex_run IC hfr cl.cid u.toInt64 k d (hs.short _) hs.big with ⟨e, t', -, h2⟩ | ⟨x, t', -, -, h2, h3⟩
  · rcases h2 with h2 | ⟨n, h2⟩
    · exact absurd (hk _ _ hkk) h2
    · rw [hr n] at h2; cases h2
  have hrd' : t'.reads = [k] := by
    have := writeIndex_reads (IC := IC) cl.cid u.toInt64 k d t₁
    rw [h2] at this
    rw [← hrd]; exact this
  have e₁ : w.step C IC (Ev.createIndex (D := D) i coll d .usual w.store.now env (.calm w env)) =
      (.drawn u.toInt64, { w' with pending := w'.pending ++ [some ⟨i, coll, .writing u.toInt64 d t' w.store.now⟩] }) := by
    simp only [World.step, call_open ho.obj ho.st hcl, if_neg hn, if_neg hf, World.createIndex, Nat.lt_irrefl, if_false, hkk, hrun, hq, hd, h2]
  have hpl : w'.pending = w.pending := by rw [d3]
  have hcm : ∃ S, w'.store.commit t' w.store.now none = (.ok (), S) := by
    unfold Store.commit
    rw [hrd', hclash]
    simp only [Bool.false_eq_true, if_false, Txn.commit]
    rw [if_neg (by rw [h3]; simp)]
    exact ⟨_, rfl⟩
  obtain ⟨S, hS⟩ := hcm
  have hget : ∀ x : Option Pending, (w'.pending ++ [x])[p]? = some x := by
    intro x
    rw [hpl, hp, List.getElem?_append_right (Nat.le_refl _), Nat.sub_self]; rfl
  refine ⟨u.toInt64, ?_⟩
  simp only [run, e₁]
  have e₂ : World.step C IC { w' with pending := w'.pending ++ [some (⟨i, coll, .writing u.toInt64 d t' w.store.now⟩ : Pending)] } (Ev.writeIndex (D := D) p none) =
      (.stored coll u.toInt64 d, { w' with store := S, pending := (w'.pending ++ [some (⟨i, coll, .writing u.toInt64 d t' w.store.now⟩ : Pending)]).set p (some (⟨i, coll, .storing u.toInt64 d⟩ : Pending)) }) := by
    simp only [World.step, hget, Option.join, World.writeIndex, Option.bind, id, hS]
  rw [e₂]
  have hset : ((w'.pending ++ [some (⟨i, coll, .writing u.toInt64 d t' w.store.now⟩ : Pending)]).set p (some (⟨i, coll, .storing u.toInt64 d⟩ : Pending)))[p]? =
      some (some (⟨i, coll, .storing u.toInt64 d⟩ : Pending)) := by
    rw [List.getElem?_set_self (by rw [hpl, hp]; simp)]
  have e₃ : (World.step C IC { w' with store := S, pending := (w'.pending ++ [some (⟨i, coll, .writing u.toInt64 d t' w.store.now⟩ : Pending)]).set p (some (⟨i, coll, .storing u.toInt64 d⟩ : Pending)) } (Ev.finish (D := D) p)).1 =
      .created (.ok u.toInt64) := by
    simp only [World.step, hset, Option.join, World.finish]
    rfl
  rw [e₃]

/-- C79: DropIndex succeeds.  After any history, if the collection has an index of this name, DropIndex erases it and says so. -/
theorem C79_dropIndex (h : Fair C IC db l) (hw : w = (run C IC l (World.start db)).2) {i : Nat} {o : Obj} (ho : Ready w i o)
    {coll n : Bytes} (hc : (o.colls.get coll).isSome) {env : Env} (hr : Roomy env)
    (hin : (catalogue (run C IC l (World.start db)).1 coll).get n ≠ none) (p : Nat) (hp : p = w.pending.length) :
    (run C IC [.dropIndex i coll n .usual (.calm w env), .finish p] w).1 = [.erased coll n, .dropped (.ok true)] := by
  obtain ⟨cl, hcl⟩ := Option.isSome_iff_exists.mp hc
  obtain ⟨A, hA⟩ := catd l h
  obtain ⟨g, t⟩ := told (C := C) IC h.blank l h.brief.1 h.brief.2
  rw [← hw] at t hA
  have hob := t.kept.objs i o ho.obj
  have hnum := (hob.colls coll cl hcl).1
  rw [hA.same coll cl.cid hnum] at hin
  cases hd : (A cl.cid).get n with
  | none => exact absurd hd hin
  | some y =>
    obtain ⟨iid, d⟩ := y
    obtain ⟨k, hkk⟩ := Idx.ci_ok cl.cid d.fields
    obtain ⟨hdn, hne, -⟩ := hA.rep.name _ _ _ _ hd
    rcases Idx.drop_some' hA.rep (Idx.start_fresh env w.store.db) hd hkk with ⟨t', -, j, h1⟩ | ⟨t', h1, h2, -⟩
    · rw [hr j] at h1; cases h1
    have hcm : ∃ S, w.store.commit t' w.store.now none = (.ok (), S) := by
      unfold Store.commit
      rw [clash_now]
      simp only [Bool.false_eq_true, if_false, Txn.commit]
      rw [if_neg (by rw [h2]; simp)]
      exact ⟨_, rfl⟩
    obtain ⟨S, hS⟩ := hcm
    have e₁ : w.step C IC (Ev.dropIndex (D := D) i coll n .usual (.calm w env)) =
        (.erased coll n, { w with store := S, pending := w.pending ++ [some ⟨i, coll, .erasing d.name⟩] }) := by
      have h1' : (dropIndexTxn IC cl.cid n).run (Txn.start { (Turn.calm w env).env with update := true } (w.store.data (Turn.calm w env).v)) = (.ok (some d), t') := h1
      have hS' : w.store.commit t' (Turn.calm w env).v (Turn.calm w env).fail = (.ok (), S) := hS
      simp only [World.step, call_open ho.obj ho.st hcl, if_neg hne, World.dropIndex]
      rw [if_neg (show ¬ w.store.now < (Turn.calm w env).v from Nat.lt_irrefl _), h1']
      simp only [hS']
    have hget : ∀ x : Option Pending, (w.pending ++ [x])[p]? = some x := by
      intro x
      rw [hp, List.getElem?_append_right (Nat.le_refl _), Nat.sub_self]; rfl
    simp only [run, e₁]
    have e₂ : (World.step C IC { w with store := S, pending := w.pending ++ [some ⟨i, coll, .erasing d.name⟩] } (Ev.finish (D := D) p)).1 = .dropped (.ok true) := by
      simp only [World.step, hget, Option.join, World.finish]
      rfl
    rw [e₂]

/-! ### NewDB -/

/-- C79: NewDB gives a DB that can be used (C79_collection), whatever the engine says: it does not look at errors. -/
theorem C79_newDB (w : World) (c c' : Turn) (hv : c.v ≤ w.store.now)
    (hv' : c'.v ≤ (w.step C IC (.newDB c)).2.store.now) (i : Nat) (hi : i = w.objs.length) :
    (run C IC [.newDB c, .newDB2 i c'] w).1 = [.none, .ready] ∧ ∃ o, Ready (run C IC [.newDB c, .newDB2 i c'] w).2 i o ∧ o.colls = OMap.empty := by
  obtain ⟨x, hx⟩ : ∃ x, w.newSequence collectionSequenceKey collectionIDBandWidth c = some x := by
    unfold World.newSequence
    rw [if_pos hv]
    exact ⟨_, rfl⟩
  obtain ⟨r, w₁⟩ := x
  have hobjs : w₁.objs = w.objs := by
    unfold World.newSequence at hx
    rw [if_pos hv] at hx
    cases hx; rfl
  have e₁ : w.step C IC (Ev.newDB (D := D) c) = (.none, { w₁ with objs := w₁.objs ++ [some { cseq := w.gens.length }] }) := by
    simp only [World.step, hx]
  rw [e₁] at hv'
  have ho : World.obj { w₁ with objs := w₁.objs ++ [some { cseq := w.gens.length }] } i = some { cseq := w.gens.length } := by
    show ((w₁.objs ++ [some { cseq := w.gens.length }])[i]?).join = _
    rw [hobjs, hi, List.getElem?_append_right (Nat.le_refl _), Nat.sub_self]; rfl
  generalize ({ w₁ with objs := w₁.objs ++ [some { cseq := w.gens.length }] } : World) = w₂ at *
  obtain ⟨y, hy⟩ : ∃ y, w₂.newSequence indexSequenceKey indexIDBandWidth c' = some y := by
    unfold World.newSequence
    rw [if_pos hv']
    exact ⟨_, rfl⟩
  obtain ⟨r', w₃⟩ := y
  have hobjs' : w₃.objs = w₂.objs := by
    unfold World.newSequence at hy
    rw [if_pos hv'] at hy
    cases hy; rfl
  have e₂ : w₂.step C IC (Ev.newDB2 (D := D) i c') = (.ready, w₃.putObj i { cseq := w.gens.length, iseq := some w₂.gens.length }) := by
    simp only [World.step, ho, Option.isSome_none, Bool.false_eq_true, if_false, hy]
  simp only [run, e₁, e₂]
  exact ⟨trivial, _, ⟨obj_put (by rw [hobjs']; exact obj_lt ho) _, rfl, rfl, rfl⟩, rfl⟩

end Mondis.DocDB
