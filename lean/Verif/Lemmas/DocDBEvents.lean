import Verif.Lemmas.DocDBStep
/-!
# Package document: every event
-/
namespace Mondis.DocDB
open Mondis Prog Doc Spec Props
open Mondis.Domain (Op)

variable {D : Type} {C : Codec D} {IC : IndexCodec} {w w' : World} {g g' : Ghost D} {b : Nat} {e : Ev D} {a : Answer D}

/-- The record grows by what an event says. -/
structure Follows (g g' : Ghost D) (e : Ev D) (a : Answer D) : Prop where
  recs : ∀ k, (g'.tr k).recs.map Prod.fst = (g.tr k).recs.map Prod.fst ++ (saidOf k (e, a)).toList
  commits : g'.commits = g.commits ++ (committedOf (e, a)).toList
  out : ∀ x ∈ g.out, x ∈ g'.out
  ids : ∀ name did, idOf name (e, a) = some did → ∃ u : UInt64, did = u.toInt64 ∧ (metaSequenceKey name, u) ∈ g'.out ∧ (metaSequenceKey name, u) ∉ g.out
  iids : ∀ iid, iidOf (e, a) = some iid → ∃ u : UInt64, iid = u.toInt64 ∧ (indexSequenceKey, u) ∈ g'.out ∧ (indexSequenceKey, u) ∉ g.out

/-- The event says nothing. -/
structure Dull (e : Ev D) (a : Answer D) : Prop where
  said : ∀ k, saidOf k (e, a) = none
  commits : committedOf (e, a) = none
  ids : ∀ name, idOf name (e, a) = none
  iids : iidOf (e, a) = none

theorem Follows.dull (hd : Dull e a) (ht : g'.tr = g.tr) (hc : g'.commits = g.commits) (ho : ∀ x ∈ g.out, x ∈ g'.out) : Follows g g' e a where
  recs := fun k => by rw [ht, hd.said]; simp
  commits := by rw [hc, hd.commits]; simp
  out := ho
  ids := fun name did h => by rw [hd.ids] at h; cases h
  iids := fun iid h => by rw [hd.iids] at h; cases h

/-- What is to be shown of every event. -/
def Goes (C : Codec D) (g : Ghost D) (b : Nat) (e : Ev D) (a : Answer D) (w' : World) : Prop :=
  ∃ g', Kept C w' g' (b + 1000) ∧ Follows g g' e a

theorem Kept.goes (h : Kept C w g b) (hd : Dull e a) : Goes C g b e a w :=
  ⟨g, h.weaken (by omega), .dull hd rfl rfl (fun _ h => h)⟩

theorem Kept.goes' {A : Nat → Docs D} {out : List (Bytes × UInt64)} (h : Kept C w { g with docs := A, out := out } (b + 1000)) (hd : Dull e a)
    (ho : ∀ x ∈ g.out, x ∈ out) : Goes C g b e a w :=
  ⟨_, h, .dull hd rfl rfl ho⟩

/-! ### Sequences -/

theorem Kept.draws (h : Kept C w g b) (hb : b + 1000 < 2 ^ 64) {p : Nat} {c : Turn} {r : Res UInt64} {kw : Bytes}
    (hp : SeqAt w.gens p (metaSequenceKey kw)) (hd : w.draw p c = some (r, w')) :
    ∃ A out, Kept C w' { g with docs := A, out := out } (b + 1000) ∧ w'.objs = w.objs ∧ w'.sessions = w.sessions ∧ w'.pending = w.pending ∧
      Aside w.store w'.store ∧ ((∃ u, r = .ok u ∧ out = (metaSequenceKey kw, u) :: g.out ∧ (metaSequenceKey kw, u) ∉ g.out) ∨
        ((∀ u, r ≠ .ok u) ∧ out = g.out)) := by
  obtain ⟨s, h1, h2⟩ := hp
  obtain ⟨i1, i2, i3, out, i4, i5⟩ := draw_ok h.seqs hb hd h1
  rw [h2] at i1 i5
  have hsub : ∀ x ∈ g.out, x ∈ out := by
    rcases i5 with ⟨u, -, e, -⟩ | ⟨-, e⟩
    · rw [e]; exact fun x hx => List.mem_cons_of_mem _ hx
    · rw [e]; exact fun x hx => hx
  obtain ⟨A, hA⟩ := h.aside i1.aside i2 i4 hsub
  rw [← i3] at hA
  exact ⟨A, out, hA, by rw [i3], by rw [i3], by rw [i3], i1.aside, i5⟩

theorem Kept.sequenced (h : Kept C w g b) (hb : b + 1000 < 2 ^ 64) {kw : Bytes} {bw : UInt64} {c : Turn} {r : Res Unit} (hbw : bw ≠ 0)
    (hbw' : bw.toNat ≤ 1000) (hd : w.newSequence (metaSequenceKey kw) bw c = some (r, w')) :
    ∃ A, Kept C w' { g with docs := A } (b + 1000) ∧ w'.objs = w.objs ∧ SeqAt w'.gens w.gens.length (metaSequenceKey kw) := by
  obtain ⟨i1, i2, i3, i4, i5⟩ := newSequence_ok h.seqs hb hbw hbw' hd
  obtain ⟨A, hA⟩ := h.aside i1.aside i2 i4 (fun _ h => h)
  rw [← i3] at hA
  exact ⟨A, hA, by rw [i3], i5⟩

theorem Kept.releases (h : Kept C w g b) (env : Env) (l : List Nat) :
    Kept C (l.foldl (fun w p => w.release env p) w) g b ∧ (l.foldl (fun w p => w.release env p) w).objs = w.objs := by
  induction l generalizing w with
  | nil => exact ⟨h, rfl⟩
  | cons p l ih =>
    obtain ⟨i1, i2, i3, i4, i5, i6⟩ := release_ok env p h.seqs
    have hk : Kept C (w.release env p) g b := by
      have e : w.release env p = { w with gens := (w.release env p).gens } := by
        unfold World.release
        cases w.gens[p]? <;> rfl
      rw [e]
      exact { h with
        seqs := i6
        objs := fun i o hi => (h.objs i o hi).mono (fun _ _ hx => hx) i5 }
    obtain ⟨j1, j2⟩ := ih hk
    exact ⟨j1, j2.trans i2⟩

/-! ### A first read -/

theorem run_first {k : Bytes} (hk : k ≠ []) (env : Env) (db : DB) :
    ((getK k).run (Txn.start env db)).2.writes = [] ∧ k ∈ ((getK k).run (Txn.start env db)).2.reads ∧
    ((∃ v, db.get k = some v ∧ v.live env.now = true ∧ ((getK k).run (Txn.start env db)).1 = .ok v) ∨
      ((∀ v, db.get k = some v → v.live env.now = false) ∧ ((getK k).run (Txn.start env db)).1 = .err .keyNotFound)) := by
  simp only [getK, Prog.run, Txn.get, if_neg hk, Txn.start, List.map_nil, List.not_mem_nil, if_false]
  cases hg : db.get k with
  | none => exact ⟨rfl, by simp, .inr ⟨fun v hv => by simp at hv, rfl⟩⟩
  | some v => cases hl : v.live env.now <;> simp [hl]

theorem entry_live {v : Val} {u : UInt64} (h : Cid.Entry v u) (now : Int) : v.live now = true := by
  unfold Val.live
  rw [h.1]; rfl

/-! ### NewDB -/

theorem step_newDB (h : Kept C w g b) (hb : b + 1000 < 2 ^ 64) (c : Turn) :
    Goes C g b (.newDB c) (w.step C IC (.newDB c)).1 (w.step C IC (.newDB c)).2 := by
  have hd : ∀ a, Dull (D := D) (.newDB c) a := fun a => ⟨fun _ => rfl, rfl, fun _ => rfl, rfl⟩
  simp only [World.step]
  cases hs : w.newSequence collectionSequenceKey collectionIDBandWidth c with
  | none => exact h.goes (hd _)
  | some x =>
    obtain ⟨r, w'⟩ := x
    obtain ⟨A, h1, h2, h3⟩ := h.sequenced hb (by decide) (by decide) hs
    refine Kept.goes' (out := g.out) (h1.reobj w'.objs.length (os := w'.objs ++ [some { cseq := w.gens.length }]) ?_ ?_) (hd _) (fun _ h => h)
    · intro j hj
      rcases Nat.lt_or_ge j w'.objs.length with hl | hl
      · rw [List.getElem?_append_left hl]
      · rw [List.getElem?_append_right hl, List.getElem?_eq_none_iff.mpr hl, List.getElem?_eq_none_iff.mpr (by simp; omega)]
    · intro o ho
      simp at ho
      subst ho
      exact ⟨⟨h3, nofun, fun name cl hc => by simp [OMap.get_empty] at hc, nofun, nofun⟩, nofun⟩

theorem ObjOK.making (h : ObjOK w.store.db w.gens o) : ∀ (m : Option Making), (∀ name cid, m = some (.known name cid) → numberOf w.store.db name = some cid) →
    (∀ name cid p, m = some (.counted name cid p) → numberOf w.store.db name = some cid ∧ SeqAt w.gens p (metaSequenceKey name)) →
    ObjOK w.store.db w.gens { o with making := m } :=
  fun _ h1 h2 => ⟨h.cseq, h.iseq, h.colls, h1, h2⟩

theorem step_newDB2 (h : Kept C w g b) (hb : b + 1000 < 2 ^ 64) (i : Nat) (c : Turn) :
    Goes C g b (.newDB2 i c) (w.step C IC (.newDB2 i c)).1 (w.step C IC (.newDB2 i c)).2 := by
  have hd : ∀ a, Dull (D := D) (.newDB2 i c) a := fun a => ⟨fun _ => rfl, rfl, fun _ => rfl, rfl⟩
  simp only [World.step]
  cases ho : w.obj i with
  | none => exact h.goes (hd _)
  | some o =>
    simp only
    split
    · exact h.goes (hd _)
    · cases hs : w.newSequence indexSequenceKey indexIDBandWidth c with
      | none => exact h.goes (hd _)
      | some x =>
        obtain ⟨r, w'⟩ := x
        obtain ⟨A, h1, h2, h3⟩ := h.sequenced hb (by decide) (by decide) hs
        have ho' : (w'.objs[i]?).join = some o := by rw [h2]; exact ho
        have hok := h1.objs i o ho'
        refine Kept.goes' (out := g.out) (h1.putObj ⟨hok.cseq, fun q hq => ?_, hok.colls, hok.known, hok.counted⟩ ?_) (hd _) (fun _ h => h)
        · cases hq; exact h3
        · intro name t v u hm
          exact .inl ⟨o, ho', hm⟩

theorem Kept.mNone (h : Kept C w g b) {i : Nat} {o : Obj} (ho : (w.objs[i]?).join = some o) : Kept C (w.putObj i { o with making := none }) g b :=
  h.putObj' (o := { o with making := none }) ((h.objs i o ho).making none (fun _ _ h => nomatch h) (fun _ _ _ h => nomatch h)) (fun _ _ _ _ h => nomatch h)

theorem Kept.mStuck (h : Kept C w g b) {i : Nat} {o : Obj} (ho : (w.objs[i]?).join = some o) : Kept C (w.putObj i { o with making := some .stuck }) g b :=
  h.putObj' (o := { o with making := some .stuck }) ((h.objs i o ho).making (some .stuck) (fun _ _ h => nomatch h) (fun _ _ _ h => nomatch h)) (fun _ _ _ _ h => nomatch h)

theorem Kept.mKnown (h : Kept C w g b) {i : Nat} {o : Obj} (ho : (w.objs[i]?).join = some o) {name : Bytes} {cid : Int64}
    (hn : numberOf w.store.db name = some cid) : Kept C (w.putObj i { o with making := some (.known name cid) }) g b :=
  h.putObj' (o := { o with making := some (.known name cid) }) ((h.objs i o ho).making (some (.known name cid))
    (fun _ _ h => by cases h; exact hn) (fun _ _ _ h => nomatch h)) (fun _ _ _ _ h => nomatch h)

theorem Kept.mCounted (h : Kept C w g b) {i : Nat} {o : Obj} (ho : (w.objs[i]?).join = some o) {name : Bytes} {cid : Int64} {p : Nat}
    (hn : numberOf w.store.db name = some cid) (hp : SeqAt w.gens p (metaSequenceKey name)) :
    Kept C (w.putObj i { o with making := some (.counted name cid p) }) g b :=
  h.putObj' (o := { o with making := some (.counted name cid p) }) ((h.objs i o ho).making (some (.counted name cid p))
    (fun _ _ h => nomatch h) (fun _ _ _ h => by cases h; exact ⟨hn, hp⟩)) (fun _ _ _ _ h => nomatch h)

/-! ### Collection -/

theorem numberOf_read {db : DB} {name : Bytes} {v : Val} {u : UInt64} (h : db.get (metaCollectionName2IDKey name) = some v)
    (hu : Numeric.decodeFromBinary v.value = .ok u) : numberOf db name = some u.toInt64 := by
  unfold numberOf
  rw [h]
  simp only
  rw [hu]

theorem step_lookup (h : Kept C w g b) (hb : b + 1000 < 2 ^ 64) (i : Nat) (name : Bytes) (how : How) (v : Nat) (env : Env) (c : Turn) :
    Goes C g b (.lookup i name how v env c) (w.step C IC (.lookup i name how v env c)).1 (w.step C IC (.lookup i name how v env c)).2 := by
  have hd : ∀ a, Dull (D := D) (.lookup i name how v env c) a := fun a => ⟨fun _ => rfl, rfl, fun _ => rfl, rfl⟩
  simp only [World.step]
  cases ho : w.obj i with
  | none => exact h.goes (hd _)
  | some o =>
    simp only
    split
    case isFalse => exact h.goes (hd _)
    have hok := h.objs i o ho
    have hstuck := h.mStuck ho
    unfold World.lookup
    split
    · exact h.goes (hd _)
    split
    · exact h.goes (hd _)
    split
    · exact h.goes (hd _)
    · exact h.goes (hd _)
    split
    · exact h.goes (hd _)
    split
    · exact h.goes (hd _)
    split
    · exact h.goes (hd _)
    · exact h.goes (hd _)
    · exact h.goes (hd _)
    split
    · exact h.goes (hd _)
    rename_i hv
    have hv : v ≤ w.store.now := by omega
    obtain ⟨r1, r2, r3⟩ := run_first (Cid.cn_ne_nil name) { env with update := true } (w.store.data v)
    generalize hrun : (getK (metaCollectionName2IDKey name)).run (Txn.start { env with update := true } (w.store.data v)) = y at r1 r2 r3
    obtain ⟨r, t⟩ := y
    dsimp only at r1 r2 r3 ⊢
    rcases r3 with ⟨x, h1, -, rfl⟩ | ⟨h1, rfl⟩
    · simp only
      cases hx : Numeric.decodeFromBinary x.value with
      | err e => exact h.goes (hd _)
      | panic => exact hstuck.goes (hd _)
      | ok u =>
        exact (h.mKnown ho (h.number hv (numberOf_read h1 hx))).goes (hd _)
    · simp only
      cases hdr : w.draw o.cseq c with
      | none => exact h.goes (hd _)
      | some y =>
        obtain ⟨r, w'⟩ := y
        obtain ⟨A, out, k1, k2, k3, k4, k5, k6⟩ := h.draws hb hok.cseq hdr
        have hsub : ∀ x ∈ g.out, x ∈ out := by
          rcases k6 with ⟨u, -, e, -⟩ | ⟨-, e⟩
          · rw [e]; exact fun x hx => List.mem_cons_of_mem _ hx
          · rw [e]; exact fun x hx => hx
        have ho' : (w'.objs[i]?).join = some o := by rw [k2]; exact ho
        have hok' := k1.objs i o ho'
        cases r with
        | err e => exact k1.goes' (hd _) hsub
        | panic => exact (k1.mStuck ho').goes' (hd _) hsub
        | ok u =>
          rcases k6 with ⟨u', e1, e2, e3⟩ | ⟨e1, -⟩
          case inr => exact absurd rfl (e1 u)
          cases e1
          refine Kept.goes' (k1.putObj (o := { o with making := some (.drawn name t v u) }) (hok'.making (some (.drawn name t v u)) (fun _ _ h => nomatch h) (fun _ _ _ h => nomatch h)) ?_) (hd _) hsub
          intro name' t' v' u' e
          cases e
          refine .inr ⟨⟨?_, ?_, ?_, r1, r2, ?_⟩, ?_⟩
          · show _ ∈ out
            rw [e2]; exact List.mem_cons_self
          · intro name' x hx hen
            have hn := (h.names.aside k5 (fun _ h => h)).2 name'
            rw [hn] at hx
            obtain ⟨u', i1, i2⟩ := h.names.form _ (Nat.le_refl _) name' x hx
            rw [Cid.entry_unique hen i1] at e3
            exact e3 i2
          · exact Nat.le_trans hv k5.le.now
          · rw [k5.le.data v hv]
            cases hg : (w.store.data v).get (metaCollectionName2IDKey name) with
            | none => rfl
            | some x =>
              obtain ⟨u', i1, -⟩ := h.names.form v hv name x hg
              have := h1 x hg
              rw [entry_live i1] at this; cases this
          · intro j name' t' v' u' hcl _ e
            subst e
            rw [k2] at hcl
            exact e3 (h.claims j name' t' v' u hcl).out

theorem step_register (h : Kept C w g b) (i : Nat) (fail : Option Err) :
    Goes C g b (.register i fail) (w.step C IC (.register i fail)).1 (w.step C IC (.register i fail)).2 := by
  have hd : ∀ a, Dull (D := D) (.register i fail) a := fun a => ⟨fun _ => rfl, rfl, fun _ => rfl, rfl⟩
  simp only [World.step]
  cases ho : w.obj i with
  | none => exact h.goes (hd _)
  | some o =>
    simp only
    split
    case h_2 => exact h.goes (hd _)
    rename_i name t v u hm
    have hok := h.objs i o ho
    have hcl : Claim w.objs i name t v u := ⟨o, ho, hm⟩
    have hc := h.claims i name t v u hcl
    have hstuck := h.mStuck ho
    have hnone := h.mNone ho
    unfold World.register
    split
    · exact hnone.goes (hd _)
    · exact hstuck.goes (hd _)
    · rename_i t' hrun
      obtain ⟨s1, s2⟩ := run_setK hrun
      rw [hc.writes, List.nil_append] at s1
      rcases commit_cases w.store t' v fail with ⟨c1, c2⟩ | ⟨-, c2, c3⟩
      · rcases c2 with ⟨c2, -⟩ | ⟨-, er, c2⟩
        · rw [s1] at c2; cases c2
        · have hx : w.store.commit t' v fail = (.err er, w.store) := Prod.ext c2 c1
          rw [hx]
          exact hnone.goes (hd _)
      · rw [c3]
        simp only
        rw [s2] at c2
        have habs : w.store.db.get (metaCollectionName2IDKey name) = none :=
          (h.seqs.framed.unclashed c2 hc.le hc.reads).trans hc.absent
        have hdb : applyWrites w.store.db t'.writes = w.store.db.set (metaCollectionName2IDKey name) { value := Numeric.encode2Binary u [] } := by
          rw [s1]; rfl
        rw [hdb, s1]
        obtain ⟨A, k1, k2⟩ := hnone.newName (name := name) (u := u) (v := { value := Numeric.encode2Binary u [] }) ⟨rfl, rfl⟩ hc.out hc.free habs (by
          intro j name' t₁ v' u' hcl'
          have hne : j ≠ i := by
            rintro rfl
            obtain ⟨o', p1, p2⟩ := hcl'
            have := join_set_self p1
            cases this; cases p2
          obtain ⟨o', p1, p2⟩ := hcl'
          have p1 : ((w.objs.set i _)[j]?).join = some o' := p1
          rw [join_set _ _ _ _ hne] at p1
          exact h.apart i j name t v u name' t₁ v' u' hcl ⟨o', p1, p2⟩ (Ne.symm hne))
        have hlt : i < w.objs.length := by
          unfold World.obj at ho
          cases hx : w.objs[i]? with
          | none => rw [hx] at ho; cases ho
          | some y => exact (List.getElem?_eq_some_iff.mp hx).1
        have k3 := k1.mKnown (i := i) (o := { o with making := none }) (name := name) (cid := u.toInt64) (by
            show ((w.objs.set i _)[i]?).join = _
            rw [List.getElem?_set_self hlt]; rfl) (by
            show numberOf (w.store.push _ _).db name = _
            rw [db_push]; exact k2)
        have e : (World.putObj { (w.putObj i { o with making := none }) with store := w.store.push (w.store.db.set (metaCollectionName2IDKey name) { value := Numeric.encode2Binary u [] }) [metaCollectionName2IDKey name] } i
            { o with making := some (.known name u.toInt64) }) =
            World.putObj { w with store := w.store.push (w.store.db.set (metaCollectionName2IDKey name) { value := Numeric.encode2Binary u [] }) [metaCollectionName2IDKey name] } i
              { o with making := some (.known name u.toInt64) } := by
          unfold World.putObj
          dsimp only
          rw [List.set_set]
        exact Kept.goes' (out := g.out) (Kept.weaken (e ▸ k3) (by omega)) (hd _) (fun _ h => h)

theorem step_sequence (h : Kept C w g b) (hb : b + 1000 < 2 ^ 64) (i : Nat) (c : Turn) :
    Goes C g b (.sequence i c) (w.step C IC (.sequence i c)).1 (w.step C IC (.sequence i c)).2 := by
  have hd : ∀ a, Dull (D := D) (.sequence i c) a := fun a => ⟨fun _ => rfl, rfl, fun _ => rfl, rfl⟩
  simp only [World.step]
  cases ho : w.obj i with
  | none => exact h.goes (hd _)
  | some o =>
    simp only
    split
    case h_2 => exact h.goes (hd _)
    rename_i name cid hm
    unfold World.sequence
    cases hs : w.newSequence (metaSequenceKey name) documentIDBandWidth c with
    | none => exact h.goes (hd _)
    | some x =>
      obtain ⟨r, w'⟩ := x
      obtain ⟨A, h1, h2, h3⟩ := h.sequenced hb (by decide) (by decide) hs
      have ho' : (w'.objs[i]?).join = some o := by rw [h2]; exact ho
      have hok := h1.objs i o ho'
      cases r with
      | err e => exact Kept.goes' (out := g.out) (h1.mNone ho') (hd _) (fun _ h => h)
      | panic => exact Kept.goes' (out := g.out) (h1.mStuck ho') (hd _) (fun _ h => h)
      | ok u => exact Kept.goes' (out := g.out) (h1.mCounted ho' (hok.known _ _ hm) h3) (hd _) (fun _ h => h)

theorem step_indexes (h : Kept C w g b) (i : Nat) (env : Env) :
    Goes C g b (.indexes i env) (w.step C IC (.indexes i env)).1 (w.step C IC (.indexes i env)).2 := by
  have hd : ∀ a, Dull (D := D) (.indexes i env) a := fun a => ⟨fun _ => rfl, rfl, fun _ => rfl, rfl⟩
  simp only [World.step]
  cases ho : w.obj i with
  | none => exact h.goes (hd _)
  | some o =>
    simp only
    split
    case h_2 => exact h.goes (hd _)
    rename_i name cid p hm
    have hok := h.objs i o ho
    unfold World.indexes
    split
    · rename_i l hl
      refine (h.putObj' (o := { o with making := none, colls := o.colls.set name ⟨cid, p, memOf l⟩ })
        ⟨hok.cseq, hok.iseq, ?_, (fun _ _ h => nomatch h), (fun _ _ _ h => nomatch h)⟩ (fun _ _ _ _ h => nomatch h)).goes (hd _)
      intro name' cl hc
      have hc' : (o.colls.set name ⟨cid, p, memOf l⟩).get name' = some cl := hc
      rw [OMap.get_set] at hc'
      split at hc'
      · rename_i e
        subst e
        rw [← Option.some.inj hc']
        exact hok.counted _ _ _ hm
      · exact hok.colls name' cl hc'
    · exact (h.mNone ho).goes (hd _)
    · exact (h.mStuck ho).goes (hd _)

/-! ### Transactions -/

theorem step_begin (h : Kept C w g b) (env : Env) (hr : Roomy env) :
    Goes C g b (.begin env) (w.step C IC (.begin env)).1 (w.step C IC (.begin env)).2 := by
  have hblank := h.blank w.sessions.length (Nat.le_refl _)
  refine ⟨_, (h.begin env hr).weaken (by omega), ⟨fun k => ?_, (List.append_nil _).symm, fun _ h => h, nofun, nofun⟩⟩
  by_cases e : k = w.sessions.length
  · rw [e, Ghost.put_same, hblank]; rfl
  · rw [Ghost.put_ne g e, show saidOf k (Ev.begin (D := D) env, (w.step C IC (.begin env)).1) = none from rfl]; simp

theorem step_discard (h : Kept C w g b) (k : Nat) :
    Goes C g b (.discard k) (w.step C IC (.discard k)).1 (w.step C IC (.discard k)).2 := by
  have hd : ∀ a, Dull (D := D) (.discard k) a := fun a => ⟨fun _ => rfl, rfl, fun _ => rfl, rfl⟩
  simp only [World.step]
  cases hk : w.sessions[k]? with
  | none => exact h.goes (hd _)
  | some s =>
    simp only
    split
    · rename_i hl; exact (h.over hk hl).goes (hd _)
    · exact h.goes (hd _)

theorem step_commit (h : Kept C w g b) (k : Nat) (fail : Option Err) :
    Goes C g b (.commit k fail) (w.step C IC (.commit k fail)).1 (w.step C IC (.commit k fail)).2 := by
  have hd : Dull (D := D) (.commit k fail) .none := ⟨fun _ => rfl, rfl, fun _ => rfl, rfl⟩
  have hsaid : ∀ j a, saidOf (D := D) j (.commit k fail, a) = none := fun _ _ => rfl
  simp only [World.step]
  cases hk : w.sessions[k]? with
  | none => exact h.goes hd
  | some s =>
    simp only
    split
    case isFalse => exact h.goes hd
    rename_i hl
    have hlt := (List.getElem?_eq_some_iff.mp hk).1
    rcases commit_cases w.store s.txn s.v fail with ⟨c1, c2⟩ | ⟨c1, c2, c3⟩
    · rcases c2 with ⟨c2, c3⟩ | ⟨-, er, c3⟩
      · have hx : w.store.commit s.txn s.v fail = (.ok (), w.store) := Prod.ext c3 c1
        rw [hx]
        dsimp only
        rw [if_pos rfl]
        have h1 := h.over hk hl
        have h2 := h1.commitIdle (k := k) (s := { s with phase := .over }) (List.getElem?_set_self hlt) (by simp) c2
        exact ⟨_, h2.weaken (by omega), ⟨fun j => by rw [hsaid]; simp, rfl, fun _ h => h, nofun, nofun⟩⟩
      · have hx : w.store.commit s.txn s.v fail = (.err er, w.store) := Prod.ext c3 c1
        rw [hx]
        dsimp only
        rw [if_pos rfl]
        exact (h.over hk hl).goes ⟨fun _ => rfl, rfl, fun _ => rfl, rfl⟩
    · rw [c3]
      dsimp only
      rw [if_neg (by rw [now_push]; omega)]
      obtain ⟨A, h1⟩ := h.commit hk hl c1 c2
      exact ⟨_, h1.weaken (by omega), ⟨fun j => by rw [hsaid]; simp, rfl, fun _ h => h, nofun, nofun⟩⟩

/-- A call in a transaction is recorded. -/
theorem Kept.record (h : Kept C w g b) {k : Nat} {s s' : Session} {t' : Trace D} {q : Rec D} (hk : w.sessions[k]? = some s) (hl : s.phase = .live)
    (hs : Sess C w.store g.docs s' t') (hr : t'.recs = (g.tr k).recs ++ [q]) (hsaid : ∀ j, saidOf j (e, a) = if k = j then some q.1 else none)
    (hc : committedOf (e, a) = none) (hi : ∀ name, idOf name (e, a) = none) (hii : iidOf (e, a) = none) : Goes C g b e a (w.putSession k s') := by
  refine ⟨_, (h.putSession hk hl hs).weaken (by omega), ⟨fun j => ?_, by rw [hc]; exact (List.append_nil _).symm, fun _ h => h, (fun name did hn => by rw [hi] at hn; cases hn),
    (fun iid hn => by rw [hii] at hn; cases hn)⟩⟩
  rw [hsaid]
  by_cases e : k = j
  · subst e
    rw [Ghost.put_same, hr, if_pos rfl, List.map_append]; rfl
  · rw [Ghost.put_ne g (Ne.symm e), if_neg e]; simp

/-- The transaction after a call on the documents of collection `x`. -/
theorem Sess.next {S : Store} {A : Nat → Docs D} {s : Session} {t : Trace D} (h : Sess C S A s t) (hl : s.phase = .live) (hu : s.txn.env.update = true)
    {q : Said D} {x : Int64} (op : DocOp D) (hsem : ∀ m, q.call.sem C.norm m = op.sem C.norm m)
    (hpoint : q.call.point = isPoint op) (hans : q.answer = (op.sem C.norm (t.docs x)).1)
    (hwrote : q.wrote = true ↔ op.touches C.norm (t.docs x) ≠ []) (hdb : q.db = []) (hn : numberOf S.db q.coll = some x)
    (kv : Txn) (henv : kv.env = s.txn.env) (hview : kv.view = applyWrites (S.data s.v) kv.writes)
    (hholds : HoldsDocs C (t.docs.upd x (op.sem C.norm (t.docs x)).2) kv.view)
    (hkeys : kv.writes.map Prod.fst = s.txn.writes.map Prod.fst ++ (op.touches C.norm (t.docs x)).map (documentKey x))
    (hsub : ∀ k ∈ s.txn.reads, k ∈ kv.reads)
    (hlooks : ∀ i ∈ looks C.norm (t.docs x) op, documentKey x i ∈ kv.reads ∨ documentKey x i ∈ s.txn.writes.map Prod.fst) :
    ∃ more, Sess C S A { s with txn := kv }
      { recs := t.recs ++ [(q, some x)], looked := t.looked ++ more, docs := t.docs.upd x (op.sem C.norm (t.docs x)).2,
        touched := t.touched ++ (op.touches C.norm (t.docs x)).map (fun i => (x, i)) } := by
  have hmem : ∀ c i, documentKey c i ∈ s.txn.writes.map Prod.fst ↔ (c, i) ∈ t.touched := by
    intro c i
    rw [h.keys, List.mem_map]
    constructor
    · rintro ⟨p, hp, e⟩
      obtain ⟨e1, e2⟩ := documentKey_inj e
      rw [← e1, ← e2]; exact hp
    · intro hm; exact ⟨(c, i), hm, rfl⟩
  refine ⟨((looks C.norm (t.docs x) op).filter (fun i => decide ((x, i) ∉ t.touched))).map (fun i => (x, i)), ?_⟩
  exact
  { le := h.le
    roomy := by show Roomy kv.env; rw [henv]; exact h.roomy
    recs := by
      intro r hr
      rcases List.mem_append.mp hr with hr | hr
      · exact h.recs r hr
      · rw [List.mem_singleton.mp hr]
        exact ⟨hdb, fun y hy => by cases hy; exact hn, nofun⟩
    tale := by
      intro _
      refine (h.tale hu).next (v' := { schema := none, update := true, docs := t.docs.upd x (op.sem C.norm (t.docs x)).2, touched := t.touched ++ (op.touches C.norm (t.docs x)).map (fun i => (x, i)) })
        hsem hpoint hans hwrote rfl rfl ?_
      intro i hi hni
      exact List.mem_map.mpr ⟨i, List.mem_filter.mpr ⟨hi, decide_eq_true hni⟩, rfl⟩
    heard := by
      intro hu'
      have hu' : kv.env.update = false := hu'
      rw [henv, hu] at hu'; cases hu'
    idle := by
      intro hu'
      have hu' : kv.env.update = false := hu'
      rw [henv, hu] at hu'; cases hu'
    view := hview
    holds := hholds
    keys := by
      show kv.writes.map Prod.fst = _
      rw [hkeys, h.keys, List.map_append, List.map_map]; rfl
    reads := by
      intro p hp
      rcases List.mem_append.mp hp with hp | hp
      · exact hsub _ (h.reads p hp)
      · obtain ⟨i, hi, rfl⟩ := List.mem_map.mp hp
        obtain ⟨hi, hni⟩ := List.mem_filter.mp hi
        rcases hlooks i hi with h1 | h1
        · exact h1
        · exact absurd ((hmem x i).mp h1) (of_decide_eq_true hni)
    done := by
      intro n hn
      have hn : s.phase = .committed n := hn
      rw [hl] at hn; cases hn }

/-- The transaction after a call that leaves it as it is. -/
theorem Sess.same {S : Store} {A : Nat → Docs D} {s : Session} {t : Trace D} (h : Sess C S A s t) {q : Rec D} (hdb : q.1.db = [])
    (hn : ∀ x, q.2 = some x → numberOf S.db q.1.coll = some x)
    (hnone : q.2 = none → (∀ m, q.1.call.sem C.norm m = (q.1.answer, m)) ∧ q.1.wrote = false) (hw : q.1.wrote = false)
    (hu : s.txn.env.update = true → q.2 = none) (hr : s.txn.env.update = false → Heard C.norm (A s.v) q)
    (kv : Txn) (henv : kv.env = s.txn.env) (hview : kv.view = s.txn.view) (hwr : kv.writes = s.txn.writes)
    (hsub : ∀ k ∈ s.txn.reads, k ∈ kv.reads) :
    Sess C S A { s with txn := kv } { t with recs := t.recs ++ [q] } :=
  { le := h.le
    roomy := by show Roomy kv.env; rw [henv]; exact h.roomy
    recs := by
      intro r hr
      rcases List.mem_append.mp hr with hr | hr
      · exact h.recs r hr
      · rw [List.mem_singleton.mp hr]; exact ⟨hdb, hn, hnone⟩
    tale := by
      intro hu'
      have hu' : kv.env.update = true := hu'
      rw [henv] at hu'
      have := hu hu'
      obtain ⟨q, x⟩ := q
      dsimp only at this
      subst this
      exact (h.tale hu').idle q hw
    heard := by
      intro hu'
      have hu' : kv.env.update = false := hu'
      rw [henv] at hu'
      obtain ⟨h1, h2, h3⟩ := h.heard hu'
      refine ⟨hwr.trans h1, h2, ?_⟩
      intro r hr'
      rcases List.mem_append.mp hr' with hr' | hr'
      · exact h3 r hr'
      · rw [List.mem_singleton.mp hr']; exact hr hu'
    idle := by
      intro hu'
      have hu' : kv.env.update = false := hu'
      rw [henv] at hu'
      intro r hr'
      rcases List.mem_append.mp hr' with hr' | hr'
      · exact h.idle hu' r hr'
      · rw [List.mem_singleton.mp hr']; exact hw
    view := by show kv.view = applyWrites _ kv.writes; rw [hview, hwr]; exact h.view
    holds := by show HoldsDocs C _ kv.view; rw [hview]; exact h.holds
    keys := by show kv.writes.map Prod.fst = _; rw [hwr]; exact h.keys
    reads := fun p hp => hsub _ (h.reads p hp)
    done := by
      intro n hn
      have := h.done n hn
      rw [← henv] at this
      exact this }

theorem Kept.called (h : Kept C w g b) {i : Nat} {name : Bytes} {how : How} {o : Obj} {cl : Coll} {r : Res Unit} (hc : w.call i name how = some (o, cl, r)) :
    (w.objs[i]?).join = some o ∧ o.colls.get name = some cl ∧ numberOf w.store.db name = some cl.cid ∧ SeqAt w.gens cl.seq (metaSequenceKey name) := by
  unfold World.call at hc
  cases hob : w.obj i with
  | none => rw [hob] at hc; cases hc
  | some ob =>
    rw [hob] at hc
    simp only at hc
    cases hcl : ob.colls.get name with
    | none => rw [hcl] at hc; cases hc
    | some cl' =>
      rw [hcl] at hc
      simp only at hc
      split at hc
      · cases hc
      · cases hc
        exact ⟨hob, hcl, (h.objs i _ hob).colls name _ hcl⟩

theorem step_op (h : Kept C w g b) (k i : Nat) (name : Bytes) (o : Op D) (how : How) :
    Goes C g b (.op k i name o how) (w.step C IC (.op k i name o how)).1 (w.step C IC (.op k i name o how)).2 := by
  have hdn : Dull (D := D) (.op k i name o how) .none := ⟨fun _ => rfl, rfl, fun _ => rfl, rfl⟩
  have hdr : ∀ e, Dull (D := D) (.op k i name o how) (.refused e) := fun e => ⟨fun _ => rfl, rfl, fun _ => rfl, rfl⟩
  have hsaid : ∀ r j, saidOf j (.op k i name o how, .out r) = if k = j then some ⟨[], name, .op o, r⟩ else none := fun _ _ => rfl
  simp only [World.step]
  split
  case h_2 => exact h.goes hdn
  rename_i s ob cl pr hk hcall
  split
  case isFalse => exact h.goes hdn
  rename_i hl
  obtain ⟨hl, -⟩ := hl
  have hs := h.sess k s hk
  have hcl := (h.called hcall).2.2.1
  have hidle : ∀ r : Res (DocOut D), (∃ e, docStorable C.norm o = .err e ∧ r = .err e) ∨ (docStorable C.norm o = .panic ∧ r = .panic) →
      Goes C g b (.op k i name o how) (.out r) w := by
    intro r hr
    obtain ⟨h1, h2⟩ := op_unstorable o hr
    have hsame := hs.same (q := (⟨[], name, .op o, r⟩, none)) rfl (fun x hx => nomatch hx) (fun _ => ⟨h1, h2 _ _⟩) (h2 _ _) (fun _ => rfl)
      (fun _ => .inl rfl) s.txn rfl rfl rfl (fun _ h => h)
    have := h.record (e := .op k i name o how) (a := .out r) hk hl hsame rfl (hsaid r) rfl (fun _ => rfl)
    have e : w.putSession k { s with txn := s.txn } = w := by
      unfold World.putSession
      have : w.sessions.set k s = w.sessions := by
        refine List.ext_getElem? (fun j => ?_)
        by_cases e : k = j
        · subst e
          rw [List.getElem?_set_self (List.getElem?_eq_some_iff.mp hk).1, hk]
        · rw [List.getElem?_set_ne e]
      show { w with sessions := w.sessions.set k s } = w
      rw [this]
    rw [e] at this
    exact this rfl
  rw [marshal_norm]
  split
  · rename_i er hst; exact hidle _ (.inl ⟨er, hst, rfl⟩)
  · rename_i hst; exact hidle _ (.inr ⟨hst, rfl⟩)
  · exact h.goes (hdr _)
  · exact h.goes hdn
  · rename_i hst
    dsimp only
    have henv := Prog.run_env (exec C (o.at cl.cid)) s.txn
    have hsub := fun k' hk' => reads_subset (exec C (o.at cl.cid)) s.txn k' hk'
    have hstep : (o.at cl.cid).step C.norm (g.tr k).docs = (((o.at cl.cid).sem C.norm ((g.tr k).docs cl.cid)).1,
        (g.tr k).docs.upd cl.cid ((o.at cl.cid).sem C.norm ((g.tr k).docs cl.cid)).2) := by
      unfold DocOp.step
      rw [at_cid]
    cases hu : s.txn.env.update with
    | true =>
      have hup := op_update (o.at cl.cid) hu hs.roomy hs.view hs.holds
      obtain ⟨ws, hw1, hw2, hw3⟩ := op_writes (C := C) o cl.cid hu hs.roomy hs.holds
      rw [hstep] at hup
      have hlk := reads_looks hs.holds (o.at cl.cid)
      rw [at_cid] at hlk
      obtain ⟨more, hn⟩ := hs.next hl hu (q := ⟨[], name, .op o, ((o.at cl.cid).sem C.norm ((g.tr k).docs cl.cid)).1⟩) (x := cl.cid) (o.at cl.cid)
        (fun m => at_sem o cl.cid m) (at_point o cl.cid) rfl (op_wrote o cl.cid _ _ _) rfl hcl ((exec C (o.at cl.cid)).run s.txn).2
        henv (Prog.run_view _ _ _ hs.view) hup.2 (by rw [hw1, List.map_append, hw2]) hsub hlk
      refine h.record hk hl hn rfl ?_ rfl (fun _ => rfl) rfl
      intro j
      rw [hsaid, hup.1]
    | false =>
      obtain ⟨r1, r2⟩ := op_readOnly o cl.cid hu hs.view hs.holds
      obtain ⟨v1, v2⟩ := run_ro (exec C (o.at cl.cid)) s.txn hu
      obtain ⟨d1, d2, -⟩ := hs.heard hu
      by_cases ht : (o.at cl.cid).touches C.norm ((g.tr k).docs cl.cid) = []
      · obtain ⟨r3, -⟩ := r2 ht
        rw [hstep] at r3
        have hw : (⟨[], name, .op o, ((o.at cl.cid).sem C.norm ((g.tr k).docs cl.cid)).1⟩ : Said D).wrote = false := by
          cases hx : (⟨[], name, .op o, ((o.at cl.cid).sem C.norm ((g.tr k).docs cl.cid)).1⟩ : Said D).wrote with
          | false => rfl
          | true => exact absurd ht ((op_wrote o cl.cid _ _ _).mp hx)
        have hsame := hs.same (q := (⟨[], name, .op o, ((o.at cl.cid).sem C.norm ((g.tr k).docs cl.cid)).1⟩, some cl.cid)) rfl
          (fun x hx => by cases hx; exact hcl) (fun hx => nomatch hx) hw (fun hu' => by rw [hu] at hu'; cases hu')
          (fun _ => .inl (by simp only [rerun]; rw [at_sem o cl.cid, d2])) ((exec C (o.at cl.cid)).run s.txn).2 henv v1 v2 hsub
        refine h.record hk hl hsame rfl ?_ rfl (fun _ => rfl) rfl
        intro j
        rw [hsaid, r3]
      · have r3 := r1 ht
        have hrd := reads_touch o cl.cid _ ht
        have hsame := hs.same (q := (⟨[], name, .op o, .err .readOnlyTxn⟩, some cl.cid)) rfl
          (fun x hx => by cases hx; exact hcl) (fun hx => nomatch hx) (by cases o <;> rfl) (fun hu' => by rw [hu] at hu'; cases hu')
          (fun _ => .inr ⟨hrd, rfl⟩) ((exec C (o.at cl.cid)).run s.txn).2 henv v1 v2 hsub
        refine h.record hk hl hsame rfl ?_ rfl (fun _ => rfl) rfl
        intro j
        rw [hsaid, r3]

theorem step_insert (h : Kept C w g b) (hb : b + 1000 < 2 ^ 64) (k i : Nat) (name : Bytes) (doc : D) (how : How) (c : Turn) :
    Goes C g b (.insert k i name doc how c) (w.step C IC (.insert k i name doc how c)).1 (w.step C IC (.insert k i name doc how c)).2 := by
  have hdn : Dull (D := D) (.insert k i name doc how c) .none := ⟨fun _ => rfl, rfl, fun _ => rfl, rfl⟩
  have hdr : ∀ e, Dull (D := D) (.insert k i name doc how c) (.refused e) := fun e => ⟨fun _ => rfl, rfl, fun _ => rfl, rfl⟩
  have hde : ∀ e, Dull (D := D) (.insert k i name doc how c) (.inserted (.err e)) := fun e => ⟨fun _ => rfl, rfl, fun _ => rfl, rfl⟩
  have hdp : Dull (D := D) (.insert k i name doc how c) (.inserted .panic) := ⟨fun _ => rfl, rfl, fun _ => rfl, rfl⟩
  simp only [World.step]
  split
  case h_2 => exact h.goes hdn
  rename_i s ob cl pr hk hcall
  split
  case isFalse => exact h.goes hdn
  rename_i hl
  obtain ⟨-, -, hcl, hsq⟩ := h.called hcall
  split
  · exact h.goes (hde _)
  · exact h.goes hdp
  · exact h.goes (hdr _)
  · exact h.goes hdn
  rename_i data u0 hmar
  unfold World.insert
  cases hdrw : w.draw cl.seq c with
  | none => exact h.goes hdn
  | some y =>
    obtain ⟨r, w'⟩ := y
    obtain ⟨A, out, k1, k2, k3, k4, k5, k6⟩ := h.draws hb hsq hdrw
    have hsub : ∀ x ∈ g.out, x ∈ out := by
      rcases k6 with ⟨u, -, e, -⟩ | ⟨-, e⟩
      · rw [e]; exact fun x hx => List.mem_cons_of_mem _ hx
      · rw [e]; exact fun x hx => hx
    cases r with
    | err e => exact k1.goes' (hde _) hsub
    | panic => exact k1.goes' hdp hsub
    | ok u =>
      rcases k6 with ⟨u', e1, e2, e3⟩ | ⟨e1, -⟩
      case inr => exact absurd rfl (e1 u)
      cases e1
      have hk' : w'.sessions[k]? = some s := by rw [k3]; exact hk
      have hs : Sess C w'.store A s (g.tr k) := k1.sess k s hk'
      have hcl' : numberOf w'.store.db name = some cl.cid := by
        rw [numberOf_congr ((h.names.aside k5 (fun _ h => h)).2 name)]; exact hcl
      dsimp only
      cases hu : s.txn.env.update with
      | false =>
        have hrun : (insertOne C cl.cid u.toInt64 doc).run s.txn = (.err .readOnlyTxn, s.txn) := by
          unfold insertOne
          rw [run_bind, run_ofRes, hmar]
          exact run_set_ro _ _ _ hu
        rw [hrun]
        dsimp only [Res.map']
        have h2 := k1.putSession hk' hl (s' := { s with txn := s.txn }) (t' := g.tr k) hs
        refine ⟨_, h2, ⟨fun j => ?_, (List.append_nil _).symm, hsub, nofun, nofun⟩⟩
        rw [show saidOf j (Ev.insert k i name doc how c, Answer.inserted (D := D) (.err .readOnlyTxn)) = none from rfl]
        by_cases e : j = k
        · rw [e, Ghost.put_same]; simp
        · rw [Ghost.put_ne _ e]; simp
      | true =>
        have hup := op_update (DocOp.insert cl.cid u.toInt64 doc) hu hs.roomy hs.view hs.holds
        obtain ⟨t', t1, t2⟩ := run_set_roomy s.txn (documentKey cl.cid u.toInt64) data hu hs.roomy (documentKey_ok _ _)
        have hrun : (insertOne C cl.cid u.toInt64 doc).run s.txn = (.ok (), t') := by
          unfold insertOne
          rw [run_bind, run_ofRes, hmar]
          exact t1
        have hrun' : (exec C (DocOp.insert cl.cid u.toInt64 doc)).run s.txn = (.ok .unit, t') := by
          simp only [exec]
          rw [run_bind, hrun]; rfl
        rw [hrun'] at hup
        have hnorm : ∃ d, C.norm doc = .ok d := by
          rcases codec_cases C doc with ⟨b', d', -, c2, -⟩ | ⟨e, c1, -⟩ | ⟨c1, -⟩
          · exact ⟨d', c2⟩
          · rw [hmar] at c1; cases c1
          · rw [hmar] at c1; cases c1
        obtain ⟨d, hd⟩ := hnorm
        have htch : (DocOp.insert cl.cid u.toInt64 doc).touches C.norm ((g.tr k).docs cl.cid) = [u.toInt64] := by
          simp only [DocOp.touches, hd]
        have hrd := (run_setK t1).2
        have hstep : ((DocOp.insert cl.cid u.toInt64 doc).step C.norm (g.tr k).docs).2 =
            (g.tr k).docs.upd cl.cid ((DocOp.insert cl.cid u.toInt64 doc).sem C.norm ((g.tr k).docs cl.cid)).2 := rfl
        rw [hstep] at hup
        obtain ⟨more, hn⟩ := hs.next hl hu (q := ⟨[], name, .insert u.toInt64 doc, .ok .unit⟩) (x := cl.cid) (DocOp.insert cl.cid u.toInt64 doc)
          (fun m => rfl) rfl hup.1 (by rw [htch]; simp [Said.wrote]) rfl hcl' t' (by
            have := Prog.run_env (insertOne C cl.cid u.toInt64 doc) s.txn
            rw [hrun] at this; exact this) (by
            have := Prog.run_view (insertOne C cl.cid u.toInt64 doc) s.txn _ hs.view
            rw [hrun] at this; exact this) hup.2 (by rw [t2, htch, List.map_append]; rfl) (by rw [hrd]; exact fun _ h => h) (fun i hi => nomatch hi)
        rw [hrun]
        dsimp only [Res.map']
        have h2 := k1.putSession hk' hl hn
        refine ⟨_, h2, ⟨fun j => ?_, (List.append_nil _).symm, hsub, ?_, nofun⟩⟩
        · rw [show saidOf j (Ev.insert k i name doc how c, Answer.inserted (D := D) (.ok u.toInt64)) =
            if k = j then some ⟨[], name, .insert u.toInt64 doc, .ok .unit⟩ else none from rfl]
          by_cases e : k = j
          · subst e
            rw [Ghost.put_same, if_pos rfl, List.map_append]; rfl
          · rw [Ghost.put_ne _ (Ne.symm e), if_neg e]; simp
        · intro name' did hid
          simp only [idOf] at hid
          split at hid
          · rename_i e
            subst e
            cases hid
            refine ⟨u, rfl, ?_, e3⟩
            show _ ∈ out
            rw [e2]; exact List.mem_cons_self
          · cases hid

/-! ### Indexes -/

/-- A transaction that writes index keys only is committed, or not. -/
theorem Kept.indexed (h : Kept C w g b) {t : Txn} {v : Nat} {fail : Option Err} (ht : ∀ k ∈ t.writes.map Prod.fst, Idx.IsIndexKey k) :
    ∃ A, Kept C { w with store := (w.store.commit t v fail).2 } { g with docs := A } b ∧
      ∀ (i : Nat) o, (w.objs[i]?).join = some o → ObjOK (w.store.commit t v fail).2.db w.gens o := by
  rcases commit_cases w.store t v fail with ⟨c1, -⟩ | ⟨-, -, c3⟩
  · rw [c1]; exact ⟨g.docs, h, h.objs⟩
  · rw [c3]
    have hf : ∀ k, k ∉ t.writes.map Prod.fst → (applyWrites w.store.db t.writes).get k = w.store.db.get k :=
      fun k hk => get_applyWrites_of_not_mem hk
    obtain ⟨A, hA⟩ := h.aside (S := w.store.push (applyWrites w.store.db t.writes) (t.writes.map Prod.fst)) (gs := w.gens) (out := g.out) (b' := b)
      (.push _ _ hf (fun k hk => ⟨(index_side (ht k hk)).1, (index_side (ht k hk)).2.1⟩)) (KeysLe.refl _)
      (h.seqs.other hf (fun kw hm => (index_side (ht _ hm)).2.2 kw rfl)) (fun _ h => h)
    exact ⟨A, hA, hA.objs⟩

/-- What an object remembers of its indexes. -/
theorem Kept.remembers (h : Kept C w g b) (i : Nat) (name : Bytes) (f : OMap IndexDef → OMap IndexDef) : Kept C (w.remember i name f) g b := by
  unfold World.remember
  cases ho : w.obj i with
  | none => exact h
  | some o =>
    simp only
    cases hc : o.colls.get name with
    | none => exact h
    | some cl =>
      simp only
      have hok := h.objs i o ho
      refine h.putObj (o := { o with colls := o.colls.set name { cl with indexMap := f cl.indexMap } })
        ⟨hok.cseq, hok.iseq, ?_, hok.known, hok.counted⟩ (fun name' t v u hm => .inl ⟨o, ho, hm⟩)
      intro name' cl' hc'
      have hc'' : (o.colls.set name { cl with indexMap := f cl.indexMap }).get name' = some cl' := hc'
      rw [OMap.get_set] at hc''
      split at hc''
      · rename_i e
        subst e
        rw [← Option.some.inj hc'']
        have := hok.colls _ _ hc
        exact this
      · exact hok.colls name' cl' hc''

theorem writeIndex_writes (cid iid : Int64) {ciKey : Bytes} {fs : List IndexField} (d : IndexDef) (h : columnsIndexedKey cid fs = .ok ciKey) :
    (writeIndex IC cid iid ciKey d).Writes Idx.IsIndexKey := by
  unfold writeIndex
  refine Writes.bind (writes_setK _ (.inr (.inr ⟨cid, fs, h⟩))) (fun _ => Writes.bind (writes_ofRes _) (fun _ => ?_))
  refine Writes.andThen (writes_setK _ (.inl ⟨cid, Idx.in_prefix cid d.name⟩)) (fun r => ?_)
  cases r with
  | panic => trivial
  | ok _ => exact writes_setK _ (.inr (.inl ⟨iid, rfl⟩))
  | err _ => exact writes_setK _ (.inr (.inl ⟨iid, rfl⟩))

theorem dropIndex_writes (cid : Int64) (iname : Bytes) : (dropIndexTxn IC cid iname).Writes Idx.IsIndexKey := by
  have main : ∀ r : Res Val, (do
      let (_, iid) ← ofRes (Compact.decodeVarint (match r with | .ok v => v.value | _ => []))
      let w ← getK (metaIndexKey iid)
      let d ← ofRes (IC.unmarshal w.value)
      let ciKey ← ofRes (columnsIndexedKey cid d.fields)
      delK ciKey
      delK (metaIndexKey iid)
      delK (indexName2IDKey cid iname)
      pure (some d) : Prog (Option IndexDef)).Writes Idx.IsIndexKey := by
    intro r
    refine Writes.bind (writes_ofRes _) (fun x => ?_)
    obtain ⟨_, iid⟩ := x
    refine Writes.bind (writes_getK _) (fun v => Writes.bind (writes_ofRes _) (fun d => ?_))
    cases hc : columnsIndexedKey cid d.fields with
    | err e => trivial
    | panic => trivial
    | ok ciKey =>
      have : (do
          delK ciKey
          delK (metaIndexKey iid)
          delK (indexName2IDKey cid iname)
          pure (some d) : Prog (Option IndexDef)).Writes Idx.IsIndexKey :=
        Writes.bind (writes_delK (.inr (.inr ⟨cid, _, hc⟩))) (fun _ => Writes.bind (writes_delK (.inr (.inl ⟨iid, rfl⟩)))
          (fun _ => Writes.bind (writes_delK (.inl ⟨cid, Idx.in_prefix cid iname⟩)) (fun _ => trivial)))
      exact this
  unfold dropIndexTxn
  intro r
  dsimp only
  split
  · trivial
  · trivial
  · exact main r

theorem run_index {α : Type} {p : Prog α} (hp : p.Writes Idx.IsIndexKey) (t : Txn) (ht : ∀ k ∈ t.writes.map Prod.fst, Idx.IsIndexKey k) :
    ∀ k ∈ (p.run t).2.writes.map Prod.fst, Idx.IsIndexKey k := by
  obtain ⟨ws, h1, h2⟩ := run_writes hp t
  rw [h1, List.map_append]
  intro k hk
  rcases List.mem_append.mp hk with hk | hk
  · exact ht k hk
  · obtain ⟨x, hx, rfl⟩ := List.mem_map.mp hk
    exact (h2 x hx).1

theorem checkColumns_writes (k : Bytes) : (checkColumns k).Writes Idx.IsIndexKey := by
  unfold checkColumns
  intro r
  dsimp only
  split
  · split <;> trivial
  all_goals trivial

theorem step_createIndex (h : Kept C w g b) (hb : b + 1000 < 2 ^ 64) (i : Nat) (name : Bytes) (d : IndexDef) (how : How) (v : Nat) (env : Env) (c : Turn) :
    Goes C g b (.createIndex i name d how v env c) (w.step C IC (.createIndex i name d how v env c)).1 (w.step C IC (.createIndex i name d how v env c)).2 := by
  have hd : ∀ a, iidOf (Ev.createIndex i name d how v env c, a) = none → Dull (D := D) (.createIndex i name d how v env c) a :=
    fun a ha => ⟨fun _ => rfl, rfl, fun _ => rfl, ha⟩
  simp only [World.step]
  split
  case h_2 => exact h.goes (hd _ rfl)
  rename_i o cl r hcall
  obtain ⟨ho, -, hcl, hsq⟩ := h.called hcall
  have hok := h.objs i o ho
  split
  · exact h.goes (hd _ rfl)
  split
  · exact h.goes (hd _ rfl)
  split
  · exact h.goes (hd _ rfl)
  · exact h.goes (hd _ rfl)
  unfold World.createIndex
  split
  · exact h.goes (hd _ rfl)
  split
  · exact h.goes (hd _ rfl)
  · exact h.goes (hd _ rfl)
  rename_i ciKey hci
  split
  · exact h.goes (hd _ rfl)
  · exact h.goes (hd _ rfl)
  rename_i t hrun
  have ht : ∀ k ∈ t.writes.map Prod.fst, Idx.IsIndexKey k := by
    have := run_index (checkColumns_writes ciKey) (Txn.start { env with update := true } (w.store.data v)) (fun k hk => nomatch hk)
    rw [hrun] at this; exact this
  cases hq : o.iseq with
  | none => exact h.goes (hd _ rfl)
  | some q =>
    simp only
    cases hdr : w.draw q c with
    | none => exact h.goes (hd _ rfl)
    | some y =>
      obtain ⟨r, w'⟩ := y
      obtain ⟨A, out, k1, k2, k3, k4, k5, k6⟩ := h.draws hb (hok.iseq q hq) hdr
      have hsub : ∀ x ∈ g.out, x ∈ out := by
        rcases k6 with ⟨u, -, e, -⟩ | ⟨-, e⟩
        · rw [e]; exact fun x hx => List.mem_cons_of_mem _ hx
        · rw [e]; exact fun x hx => hx
      cases r with
      | err e => exact k1.goes' (hd _ rfl) hsub
      | panic => exact k1.goes' (hd _ rfl) hsub
      | ok u =>
        simp only
        split
        · exact k1.goes' (hd _ rfl) hsub
        · exact k1.goes' (hd _ rfl) hsub
        rename_i t' hrun'
        have ht' : ∀ k ∈ t'.writes.map Prod.fst, Idx.IsIndexKey k := by
          have := run_index (writeIndex_writes (IC := IC) cl.cid u.toInt64 d hci) t ht
          rw [hrun'] at this; exact this
        refine ⟨_, k1.repend (ps := w'.pending ++ [some ⟨i, name, .writing u.toInt64 d t' v⟩]) ?_, ?_⟩
        · intro i' name' iid' d' t'' v' hq'
          rcases List.mem_append.mp hq' with hq' | hq'
          · exact k1.pend _ _ _ _ _ _ hq'
          · cases List.mem_singleton.mp hq'; exact ht'
        · refine ⟨fun _ => (List.append_nil _).symm, (List.append_nil _).symm, hsub, nofun, ?_⟩
          intro iid hi
          cases hi
          rcases k6 with ⟨u', e1, e2, e3⟩ | ⟨e1, -⟩
          case inr => exact absurd rfl (e1 u)
          cases e1
          refine ⟨u, rfl, ?_, e3⟩
          show _ ∈ out
          rw [e2]; exact List.mem_cons_self

theorem pend_mem {q : Pending} {p : Nat} (hq : (w.pending[p]?).join = some q) : some q ∈ w.pending := by
  cases hx : w.pending[p]? with
  | none => rw [hx] at hq; cases hq
  | some y => rw [hx] at hq; rw [show y = some q from hq] at hx; exact List.mem_of_getElem? hx

/-- A call with writes to commit has come further. -/
theorem Kept.later (h : Kept C w g b) (p : Nat) {x : Option Pending} (hx : ∀ i name iid d t v, x ≠ some ⟨i, name, .writing iid d t v⟩) :
    Kept C { w with pending := w.pending.set p x } g b :=
  h.repend (fun _ _ _ _ _ _ hq => by
    rcases List.mem_or_eq_of_mem_set hq with hq | hq
    · exact h.pend _ _ _ _ _ _ hq
    · exact absurd hq.symm (hx _ _ _ _ _ _))

theorem step_writeIndex (h : Kept C w g b) (p : Nat) (fail : Option Err) :
    Goes C g b (.writeIndex p fail) (w.step C IC (.writeIndex p fail)).1 (w.step C IC (.writeIndex p fail)).2 := by
  have hd : ∀ a, Dull (D := D) (.writeIndex p fail) a := fun a => ⟨fun _ => rfl, rfl, fun _ => rfl, rfl⟩
  simp only [World.step]
  split
  case h_2 => exact h.goes (hd _)
  rename_i i name iid d t v hq
  obtain ⟨A, h1, -⟩ := h.indexed (v := v) (fail := fail) (h.pend _ _ _ _ _ _ (pend_mem hq))
  have h1 := h1.weaken (b' := b + 1000) (by omega)
  unfold World.writeIndex
  split
  · rename_i hx
    rw [hx] at h1
    exact Kept.goes' (out := g.out) (h1.later p (x := some ⟨i, name, .storing iid d⟩) (by nofun)) (hd _) (fun _ h => h)
  · rename_i hx
    rw [hx] at h1
    exact Kept.goes' (out := g.out) (h1.later p (x := none) (by nofun)) (hd _) (fun _ h => h)
  · rename_i hx
    rw [hx] at h1
    exact Kept.goes' (out := g.out) (h1.later p (x := none) (by nofun)) (hd _) (fun _ h => h)

theorem step_finish (h : Kept C w g b) (p : Nat) :
    Goes C g b (.finish p) (w.step C IC (.finish p)).1 (w.step C IC (.finish p)).2 := by
  have hd : ∀ a, Dull (D := D) (.finish p) a := fun a => ⟨fun _ => rfl, rfl, fun _ => rfl, rfl⟩
  simp only [World.step]
  split
  case h_2 => exact h.goes (hd _)
  unfold World.finish
  split
  · exact h.goes (hd _)
  · dsimp only; exact Kept.goes ((h.later p (x := none) (by nofun)).remembers _ _ _) (hd _)
  · dsimp only; exact Kept.goes ((h.later p (x := none) (by nofun)).remembers _ _ _) (hd _)

theorem step_getIndexes (h : Kept C w g b) (i : Nat) (name : Bytes) :
    Goes C g b (.getIndexes i name) (w.step C IC (.getIndexes i name)).1 (w.step C IC (.getIndexes i name)).2 := by
  have hd : ∀ a, Dull (D := D) (.getIndexes i name) a := fun a => ⟨fun _ => rfl, rfl, fun _ => rfl, rfl⟩
  simp only [World.step]
  repeat' split
  all_goals exact h.goes (hd _)

theorem step_dropIndex (h : Kept C w g b) (i : Nat) (name iname : Bytes) (how : How) (c : Turn) :
    Goes C g b (.dropIndex i name iname how c) (w.step C IC (.dropIndex i name iname how c)).1 (w.step C IC (.dropIndex i name iname how c)).2 := by
  have hd : ∀ a, Dull (D := D) (.dropIndex i name iname how c) a := fun a => ⟨fun _ => rfl, rfl, fun _ => rfl, rfl⟩
  simp only [World.step]
  split
  case h_2 => exact h.goes (hd _)
  rename_i o cl r hcall
  split
  · exact h.goes (hd _)
  split
  · exact h.goes (hd _)
  · exact h.goes (hd _)
  unfold World.dropIndex
  split
  · exact h.goes (hd _)
  split
  · exact h.goes (hd _)
  · exact h.goes (hd _)
  · exact h.goes (hd _)
  rename_i d t hrun
  have ht : ∀ k ∈ t.writes.map Prod.fst, Idx.IsIndexKey k := by
    have := run_index (dropIndex_writes (IC := IC) cl.cid iname) (Txn.start { c.env with update := true } (w.store.data c.v)) (fun k hk => nomatch hk)
    rw [hrun] at this; exact this
  obtain ⟨A, h1, -⟩ := h.indexed (v := c.v) (fail := c.fail) ht
  have h1 := h1.weaken (b' := b + 1000) (by omega)
  split
  · rename_i hx
    rw [hx] at h1
    refine Kept.goes' (out := g.out) (h1.repend (ps := w.pending ++ [some ⟨i, name, .erasing d.name⟩]) ?_) (hd _) (fun _ h => h)
    intro i' name' iid' d' t'' v' hq'
    rcases List.mem_append.mp hq' with hq' | hq'
    · exact h.pend _ _ _ _ _ _ hq'
    · cases List.mem_singleton.mp hq'
  · rename_i hx
    rw [hx] at h1
    exact Kept.goes' (out := g.out) h1 (hd _) (fun _ h => h)
  · rename_i hx
    rw [hx] at h1
    exact Kept.goes' (out := g.out) h1 (hd _) (fun _ h => h)

/-! ### Close -/

theorem Kept.restate (h : Kept C w g b) {i : Nat} {o : Obj} (ho : (w.objs[i]?).join = some o) (st : DBState) : Kept C (w.putObj i { o with st := st }) g b := by
  have hok := h.objs i o ho
  exact h.putObj (o := { o with st := st }) ⟨hok.cseq, hok.iseq, hok.colls, hok.known, hok.counted⟩ (fun name t v u hm => .inl ⟨o, ho, hm⟩)

theorem step_close (h : Kept C w g b) (i : Nat) :
    Goes C g b (.close i) (w.step C IC (.close i)).1 (w.step C IC (.close i)).2 := by
  have hd : ∀ a, Dull (D := D) (.close i) a := fun a => ⟨fun _ => rfl, rfl, fun _ => rfl, rfl⟩
  simp only [World.step]
  cases ho : w.obj i with
  | none => exact h.goes (hd _)
  | some o =>
    simp only
    split
    · exact (h.restate ho _).goes (hd _)
    · exact h.goes (hd _)

theorem step_closed (h : Kept C w g b) (i : Nat) (env : Env) :
    Goes C g b (.closed i env) (w.step C IC (.closed i env)).1 (w.step C IC (.closed i env)).2 := by
  have hd : ∀ a, Dull (D := D) (.closed i env) a := fun a => ⟨fun _ => rfl, rfl, fun _ => rfl, rfl⟩
  simp only [World.step]
  cases ho : w.obj i with
  | none => exact h.goes (hd _)
  | some o =>
    simp only
    split
    · obtain ⟨h1, h2⟩ := h.releases env (o.cseq :: o.iseq.toList ++ o.colls.ents.map (fun e => e.2.seq))
      exact (h1.restate (i := i) (o := o) (by rw [h2]; exact ho) .closed).goes (hd _)
    · exact h.goes (hd _)

theorem step_crash (h : Kept C w g b) (i : Nat) :
    Goes C g b (.crash i) (w.step C IC (.crash i)).1 (w.step C IC (.crash i)).2 := by
  have hd : ∀ a, Dull (D := D) (.crash i) a := fun a => ⟨fun _ => rfl, rfl, fun _ => rfl, rfl⟩
  simp only [World.step]
  have h1 : Kept C { w with objs := w.objs.set i none } g b := by
    refine h.reobj i (fun j hj => join_set _ _ _ _ hj) ?_
    intro o ho
    have := join_set_self ho
    cases this
  refine (h1.repend ?_).goes (hd _)
  intro i' name' iid' d' t' v' hq
  obtain ⟨x, hx, e⟩ := List.mem_map.mp hq
  cases x with
  | none => cases e
  | some x =>
    simp only at e
    split at e
    · cases e
    · cases e; exact h.pend _ _ _ _ _ _ hx

/-- Every event. -/
theorem Kept.step (h : Kept C w g b) (hb : b + 1000 < 2 ^ 64) (e : Ev D) (hr : ∀ env, e = .begin env → Roomy env) :
    Goes C g b e (w.step C IC e).1 (w.step C IC e).2 := by
  cases e with
  | newDB c => exact step_newDB h hb c
  | newDB2 i c => exact step_newDB2 h hb i c
  | lookup i name how v env c => exact step_lookup h hb i name how v env c
  | register i fail => exact step_register h i fail
  | sequence i c => exact step_sequence h hb i c
  | indexes i env => exact step_indexes h i env
  | begin env => exact step_begin h env (hr env rfl)
  | insert k i name doc how c => exact step_insert h hb k i name doc how c
  | op k i name o how => exact step_op h k i name o how
  | commit k fail => exact step_commit h k fail
  | discard k => exact step_discard h k
  | createIndex i name d how v env c => exact step_createIndex h hb i name d how v env c
  | writeIndex p fail => exact step_writeIndex h p fail
  | finish p => exact step_finish h p
  | getIndexes i name => exact step_getIndexes h i name
  | dropIndex i name iname how c => exact step_dropIndex h i name iname how c
  | close i => exact step_close h i
  | closed i env => exact step_closed h i env
  | crash i => exact step_crash h i

end Mondis.DocDB
