import Verif.Lemmas.DomainStep
/-!
# The document process: every event
-/
namespace Mondis.Props
open Mondis Spec Schema Meta Ddl Domain Doc

variable {D : Type} {J : Json} {C : Codec D} {K B : Nat} {S : Site D} {w : Domain.World}

/-! ### Operations in a transaction -/

/-- A collection the transaction can see is noted as referred to. -/
theorem VMatch.mark {P : Proc} {v : Visit D} {s : Session} (h : VMatch C P v s) {db coll : Bytes} {x : Int64}
    (hx : collectionIn P.state.dbs v.schema db coll = some x) (mark : Bool) :
    VMatch C P v { s with txn := if mark then s.txn.referredCollections [x] else s.txn } := by
  cases mark with
  | false => exact h
  | true =>
    exact { h with
      referred := by
        intro c hc
        rcases List.mem_append.mp hc with hc | hc
        · exact h.referred c hc
        · rw [List.mem_singleton] at hc
          rw [hc]; exact collectionIn_some hx }

theorem Match.insert (h : Match J C K B S w) {k : Nat} {v : Visit D} {s : Session} (hv : S.visit k = some v) (hs : w.session k = some s)
    (hph : v.phase = .ready) {db coll : Bytes} {doc d : D} {mark : Bool} {c : Ddl.Circ} {data : Bytes} (hf : Roomy c.env)
    (hB : B + cost K S.proc.state < 2 ^ 63) (hnorm : C.norm doc = .ok d) (hun : C.unmarshal data = .ok d) :
    ∃ S', S.Inserts C.norm k v db coll doc c
        (Dml.insertFunc db coll data mark ⟨c.env, w.ddl.db, c.fail⟩ s.txn w.ddl.seqs w.ddl.db).1 S' ∧
      Match J C K (B + cost K S.proc.state) S'
        (({ w with ddl := { w.ddl with
            seqs := (Dml.insertFunc db coll data mark ⟨c.env, w.ddl.db, c.fail⟩ s.txn w.ddl.seqs w.ddl.db).2.2.1,
            db := (Dml.insertFunc db coll data mark ⟨c.env, w.ddl.db, c.fail⟩ s.txn w.ddl.seqs w.ddl.db).2.2.2 } } : Domain.World).put k
          { s with txn := (Dml.insertFunc db coll data mark ⟨c.env, w.ddl.db, c.fail⟩ s.txn w.ddl.seqs w.ddl.db).2.1 }) ∧
      S'.proc.state = S.proc.state := by
  have hm := h.visits k v s hv hs
  have hcoll := hm.shows.collection db coll
  unfold Dml.insertFunc
  cases hci : MetaCache.collectionInfo s.txn.start db coll with
  | none =>
    rw [hci] at hcoll
    exact ⟨S, .nowhere d hnorm hcoll.symm, (h.mono (by omega)).putSame hv hs hm, rfl⟩
  | some ci =>
    rw [hci] at hcoll
    have hcoll : collectionIn S.proc.state.dbs v.schema db coll = some ci.id := hcoll.symm
    have hmk := hm.mark hcoll mark
    dsimp only
    generalize ht : (if mark then s.txn.referredCollections [ci.id] else s.txn) = t at hmk ⊢
    cases hq : w.ddl.seqs ci.id with
    | none => exact ⟨S, .noSequence d ci.id hnorm hcoll (h.seq_none hq), (h.mono (by omega)).putSame hv hs hmk, rfl⟩
    | some q =>
      have hdraw := h.draw hq hf hB
      dsimp only
      unfold afterDraw at hdraw
      cases hy : q.nextId ⟨c.env, w.ddl.db, c.fail⟩ w.ddl.db with
      | mk r y =>
        obtain ⟨q', db'⟩ := y
        rw [hy] at hdraw
        rcases hdraw with ⟨did, S', e, hD, hM⟩ | ⟨e, he, hfail, hpool, hM⟩
        · cases e
          dsimp only
          have hv' : S'.visit k = some v := by rw [Draws.visit hD]; exact hv
          have hmk' : VMatch C S'.proc v { s with txn := t } :=
            hmk.mono ⟨[], by rw [Draws.lastID hD, List.append_nil]⟩ (fun x hx => by rw [Draws.has hD]; exact hx)
          cases hu : v.update with
          | false =>
            have he : t.kv.env.update = false := hmk.envUpdate.trans hu
            rw [run_set_ro _ _ _ he]
            dsimp only
            have ha : ({ t with kv := t.kv } : Dml.DTxn Dml.Seqs).addCancelFunc (Dml.putBack ci.id did) = .panic := by
              unfold Dml.DTxn.addCancelFunc
              rw [if_neg (by rw [show t.update = false from hmk.update.trans hu]; simp)]
            rw [ha]
            exact ⟨S', .readOnly d ci.id did S' hnorm hcoll (h.seq_some hq) hD hu, hM.putSame hv' hs hmk', Draws.lastID hD⟩
          | true =>
            have he : t.kv.env.update = true := hmk.envUpdate.trans hu
            rcases DmlT.set_doc t.kv he ci.id did data with ⟨kv, e1, e2, e3⟩ | ⟨kv, e1, e2, n, e3⟩
            · have henv : kv.env = t.kv.env := by
                have := Prog.run_env (Prog.setK (documentKey ci.id did) data) t.kv
                rw [e1] at this; exact this
              rw [e1]
              dsimp only
              have ha : ({ t with kv := kv } : Dml.DTxn Dml.Seqs).addCancelFunc (Dml.putBack ci.id did) =
                  .ok { t with kv := kv, cancels := t.cancels ++ [Dml.putBack ci.id did] } := by
                unfold Dml.DTxn.addCancelFunc
                rw [if_pos (show t.update = true from hmk.update.trans hu)]
              rw [ha]
              refine ⟨_, .ok d ci.id did S' hnorm hcoll (h.seq_some hq) hD hu, hM.put hv' hs ?_ rfl, (Draws.lastID hD : S'.proc.state = _)⟩
              exact { phase := hmk'.phase
                      update := hmk'.update
                      envUpdate := by show kv.env.update = _; rw [henv]; exact hmk'.envUpdate
                      roomy := by show Roomy kv.env; rw [henv]; exact hmk'.roomy
                      docs := by
                        show HoldsDocs C _ kv.view
                        rw [e3]; exact holdsDocs_set hmk'.docs hun
                      over := by
                        obtain ⟨snap, hsn⟩ := hmk'.over
                        refine ⟨snap, ?_⟩
                        show kv.view = applyWrites snap kv.writes
                        have hsn : t.kv.view = List.foldl applyWrite snap t.kv.writes := hsn
                        rw [e3, e2, applyWrites, List.foldl_append, ← hsn]; rfl
                      keys := by
                        show kv.writes.map Prod.fst = (v.touched ++ [(ci.id, did)]).map _
                        rw [e2, List.map_append, List.map_append, show t.kv.writes.map Prod.fst = _ from hmk'.keys]; rfl
                      noTTL := by
                        intro x hx y hy
                        have hx : x ∈ kv.writes := hx
                        rw [e2] at hx
                        rcases List.mem_append.mp hx with hx | hx
                        · exact hmk'.noTTL x hx y hy
                        · rw [List.mem_singleton] at hx
                          rw [hx] at hy; cases hy; rfl
                      cancels := by
                        show t.cancels ++ _ = (v.drawn ++ [(ci.id, did)]).map _
                        rw [List.map_append, show t.cancels = _ from hmk'.cancels]; rfl
                      has := by
                        intro p hp
                        rcases List.mem_append.mp hp with hp | hp
                        · exact hmk'.has p hp
                        · rw [List.mem_singleton] at hp
                          rw [hp, Draws.has hD]; exact h.seq_some hq
                      shows := hmk'.shows
                      referred := hmk'.referred
                      fresh := by intro e; have e : v.phase = .fresh := e; rw [hph] at e; cases e }
            · exact absurd e3 (by rw [hmk.roomy n]; simp)
        · have he : r = .err e := he
          subst he
          exact ⟨S, .refused d ci.id e hnorm hcoll (h.seq_some hq) hpool hfail, hM.putSame hv hs hmk, rfl⟩

theorem marshal_norm (C : Codec D) (o : Op D) : o.marshal C = docStorable C.norm o := by
  have key : ∀ d, (C.marshal d).map' (fun _ => ()) = (C.norm d).map' (fun _ => ()) := by
    intro d
    rcases codec_cases C d with ⟨b, d', h1, h2, -⟩ | ⟨e, h1, h2⟩ | ⟨h1, h2⟩ <;> rw [h1, h2] <;> rfl
  cases o <;> first | exact key _ | rfl

theorem at_cid (o : Op D) (x : Int64) : (o.at x).cid = x := by cases o <;> rfl

theorem Match.op (h : Match J C K B S w) {k : Nat} {v : Visit D} {s : Session} (hv : S.visit k = some v) (hs : w.session k = some s)
    (hph : v.phase = .ready) (db coll : Bytes) (o : Op D) (mark : Bool) :
    (runOp C db coll o mark s.txn).1 = (S.operate C.norm v db coll o).1 ∧
      Match J C K B (S.put k (S.operate C.norm v db coll o).2) (w.put k { s with txn := (runOp C db coll o mark s.txn).2 }) := by
  have hm := h.visits k v s hv hs
  have hcoll := hm.shows.collection db coll
  unfold runOp Site.operate
  rw [marshal_norm]
  dsimp only
  generalize docStorable C.norm o = bad
  cases bad with
  | err e => exact ⟨rfl, h.put hv hs hm rfl⟩
  | panic => exact ⟨rfl, h.put hv hs hm rfl⟩
  | ok u =>
    dsimp only
    unfold Dml.withCollection
    cases hci : MetaCache.collectionInfo s.txn.start db coll with
    | none =>
      rw [hci] at hcoll
      have hcoll : collectionIn S.proc.state.dbs v.schema db coll = none := hcoll.symm
      rw [hcoll]
      dsimp only
      refine ⟨rfl, h.put hv hs ?_ rfl⟩
      cases mark <;> exact hm
    | some ci =>
      rw [hci] at hcoll
      have hcoll : collectionIn S.proc.state.dbs v.schema db coll = some ci.id := hcoll.symm
      rw [hcoll]
      dsimp only
      have hmk := hm.mark hcoll true
      obtain ⟨snap, hov⟩ := hm.over
      have hkv : (s.txn.referredCollections [ci.id]).kv = s.txn.kv := rfl
      rw [hkv]
      have hfin : ∀ (v' : Visit D) (kv : Mondis.Txn), VMatch C S.proc v' { s with txn := { s.txn.referredCollections [ci.id] with kv := kv } } →
          VMatch C S.proc v' { s with txn := { s.txn with kv := kv } } →
          VMatch C S.proc v' { s with txn := if mark then { s.txn.referredCollections [ci.id] with kv := kv }
            else { { s.txn.referredCollections [ci.id] with kv := kv } with referred := s.txn.referred } } := by
        intro v' kv h1 h2
        cases mark
        · exact h2
        · exact h1
      by_cases hu : v.update = true
      · have henv : s.txn.kv.env.update = true := hm.envUpdate.trans hu
        have hup := op_update (o.at ci.id) henv hm.roomy hov hm.docs
        obtain ⟨ws, hw1, hw2, hw3⟩ := op_writes (C := C) o ci.id henv hm.roomy hm.docs
        have hv1 := Prog.run_view (exec C (o.at ci.id)) s.txn.kv snap hov
        have hv2 := Prog.run_env (exec C (o.at ci.id)) s.txn.kv
        rw [if_pos (.inl hu)]
        dsimp only
        refine ⟨hup.1, h.put hv hs ?_ rfl⟩
        generalize hrun : (exec C (o.at ci.id)).run s.txn.kv = y at hup hw1 hv1 hv2 ⊢
        obtain ⟨r, kv⟩ := y
        dsimp only at hup hw1 hv1 hv2 ⊢
        have mk : ∀ s₁ : Session, VMatch C S.proc v s₁ → s₁.txn.kv = s.txn.kv →
            VMatch C S.proc { v with docs := ((o.at ci.id).step C.norm v.docs).2,
                                     touched := v.touched ++ ((o.at ci.id).touches C.norm (v.docs ci.id)).map (fun i => (ci.id, i)) }
              { s₁ with txn := { s₁.txn with kv := kv } } := by
          intro s₁ hm₁ hk₁
          exact { phase := hm₁.phase
                  update := hm₁.update
                  envUpdate := by show kv.env.update = _; rw [hv2]; exact hm.envUpdate
                  roomy := by show Roomy kv.env; rw [hv2]; exact hm.roomy
                  docs := hup.2
                  over := ⟨snap, hv1⟩
                  keys := by
                    show kv.writes.map Prod.fst = _
                    rw [hw1, List.map_append, List.map_append, hm.keys, hw2, List.map_map]; rfl
                  noTTL := by
                    intro x hx y hy
                    have hx : x ∈ kv.writes := hx
                    rw [hw1] at hx
                    rcases List.mem_append.mp hx with hx | hx
                    · exact hm.noTTL x hx y hy
                    · exact hw3 x hx y hy
                  cancels := hm₁.cancels
                  has := hm₁.has
                  shows := hm₁.shows
                  referred := hm₁.referred
                  fresh := by intro e; have e : v.phase = .fresh := e; rw [hph] at e; cases e }
        exact hfin _ _ (mk _ hmk rfl) (mk _ hm rfl)
      · have hu' : v.update = false := by simpa using hu
        have henv : s.txn.kv.env.update = false := hm.envUpdate.trans hu'
        obtain ⟨hr1, hr2⟩ := op_readOnly (C := C) o ci.id henv hov hm.docs
        obtain ⟨ha, hb⟩ := run_ro (exec C (o.at ci.id)) s.txn.kv henv
        have hv2 := Prog.run_env (exec C (o.at ci.id)) s.txn.kv
        generalize hrun : (exec C (o.at ci.id)).run s.txn.kv = y at hr1 hr2 ha hb hv2 ⊢
        obtain ⟨r, kv⟩ := y
        dsimp only at hr1 hr2 ha hb hv2 ⊢
        have mk : ∀ s₁ : Session, VMatch C S.proc v s₁ → s₁.txn.kv = s.txn.kv →
            VMatch C S.proc v { s₁ with txn := { s₁.txn with kv := kv } } := by
          intro s₁ hm₁ hk₁
          exact { phase := hm₁.phase
                  update := hm₁.update
                  envUpdate := by show kv.env.update = _; rw [hv2]; exact hm.envUpdate
                  roomy := by show Roomy kv.env; rw [hv2]; exact hm.roomy
                  docs := by show HoldsDocs C _ kv.view; rw [ha]; exact hm.docs
                  over := ⟨snap, by show kv.view = applyWrites snap kv.writes; rw [ha, hb]; exact hov⟩
                  keys := by show kv.writes.map Prod.fst = _; rw [hb]; exact hm.keys
                  noTTL := by
                    intro x hx
                    have hx : x ∈ kv.writes := hx
                    rw [hb] at hx; exact hm.noTTL x hx
                  cancels := hm₁.cancels
                  has := hm₁.has
                  shows := hm₁.shows
                  referred := hm₁.referred
                  fresh := hm₁.fresh }
        have hmm := hfin _ kv (mk _ hmk rfl) (mk _ hm rfl)
        by_cases ht : (o.at ci.id).touches C.norm (v.docs ci.id) = []
        · rw [if_pos (.inr ht)]
          obtain ⟨e1, e2⟩ := hr2 ht
          refine ⟨e1, h.put hv hs ?_ rfl⟩
          rw [e2, ht, List.map_nil, List.append_nil]
          exact hmm
        · rw [if_neg (fun e => e.elim hu ht)]
          exact ⟨hr1 ht, h.put hv hs hmm rfl⟩

/-! ### Beginning and ending transactions -/

theorem join_append {α : Type} (l : List (Option α)) (x : Option α) (j : Nat) :
    ((l ++ [x])[j]?).join = if j = l.length then x else (l[j]?).join := by
  rw [List.getElem?_append]
  by_cases h : j < l.length
  · rw [if_pos h, if_neg (by omega)]
  · rw [if_neg h]
    by_cases e : j = l.length
    · rw [if_pos e, e, Nat.sub_self]; rfl
    · rw [if_neg e, List.getElem?_eq_none (by simp; omega), List.getElem?_eq_none (by omega)]

theorem vmatch_new (h : Match J C K B S w) (u : Bool) (env : Env) (hr : Roomy env) :
    VMatch C S.proc ({ schema := S.schema, update := u, docs := S.docs } : Visit D) { txn := Dml.DTxn.new w.handle u env w.ddl.db } where
  phase := rfl
  update := rfl
  envUpdate := rfl
  roomy := hr
  docs := h.docs
  over := ⟨w.ddl.db, rfl⟩
  keys := rfl
  noTTL := by intro x hx; cases hx
  cancels := rfl
  has := by intro x hx; cases hx
  shows := by
    obtain ⟨v₀, a1, -, -⟩ := h.shown
    show SchemaIs _ S.schema w.handle.cache
    cases hn : S.schema with
    | none => rw [h.noSchema.mp hn]; trivial
    | some n =>
      cases hc : w.handle.cache with
      | none => rw [h.noSchema.mpr hc] at hn; cases hn
      | some c => exact ⟨v₀, a1 n c hn hc⟩
  referred := by intro x hx; cases hx
  fresh := fun _ => rfl

theorem Match.begin (h : Match J C K B S w) (u : Bool) (env : Env) (hr : Roomy env) :
    Match J C K B { S with visits := S.visits ++ [some { schema := S.schema, update := u, docs := S.docs }] }
      { w with sessions := w.sessions ++ [some { txn := Dml.DTxn.new w.handle u env w.ddl.db }] } := by
  have hv : ∀ j, Site.visit { S with visits := S.visits ++ [some { schema := S.schema, update := u, docs := S.docs }] } j =
      if j = S.visits.length then some { schema := S.schema, update := u, docs := S.docs } else S.visit j :=
    fun j => join_append _ _ j
  have hs : ∀ j, World.session { w with sessions := w.sessions ++ [some { txn := Dml.DTxn.new w.handle u env w.ddl.db }] } j =
      if j = w.sessions.length then some { txn := Dml.DTxn.new w.handle u env w.ddl.db } else w.session j :=
    fun j => join_append _ _ j
  exact
  { serves := h.serves
    docs := h.docs
    readers := h.readers
    pool := h.pool
    len := by
      show (S.visits ++ _).length = (w.sessions ++ _).length
      rw [List.length_append, List.length_append, h.len]; rfl
    gone := by
      intro j
      rw [hv, hs, h.len]
      by_cases e : j = w.sessions.length
      · rw [if_pos e, if_pos e]; simp
      · rw [if_neg e, if_neg e]; exact h.gone j
    visits := by
      intro j v s h1 h2
      rw [hv, h.len] at h1
      rw [hs] at h2
      by_cases e : j = w.sessions.length
      · rw [if_pos e] at h1 h2; cases h1; cases h2; exact vmatch_new h u env hr
      · rw [if_neg e] at h1 h2; exact h.visits j v s h1 h2
    noSchema := h.noSchema
    noLoaded := h.noLoaded
    early := by
      intro hn j v h1
      rw [hv] at h1
      by_cases e : j = S.visits.length
      · rw [if_pos e] at h1; cases h1; exact hn
      · rw [if_neg e] at h1; exact h.early hn j v h1
    shown := by
      obtain ⟨v₀, a1, a2, a3⟩ := h.shown
      refine ⟨v₀, a1, ?_, a3⟩
      intro n j v m hn h1 hm
      rw [hv] at h1
      by_cases e : j = S.visits.length
      · rw [if_pos e] at h1; cases h1
        have hn : S.schema = some n := hn
        have hm : S.schema = some m := hm
        rw [hn] at hm; cases hm
        cases hc : w.handle.cache with
        | none => rw [h.noSchema.mpr hc] at hn; cases hn
        | some c => exact ⟨Nat.le_refl _, .inl (a1 n c hn hc).low⟩
      · rw [if_neg e] at h1; exact a2 n j v m hn h1 hm }

theorem Match.snapshot (h : Match J C K B S w) {k : Nat} {v : Visit D} {s : Session} (hv : S.visit k = some v) (hs : w.session k = some s)
    (hph : v.phase = .fresh) : Match J C K B (S.put k { v with docs := S.docs, phase := .ready })
      (w.put k { txn := { s.txn with kv := Txn.start s.txn.kv.env w.ddl.db }, phase := .ready }) := by
  have hm := h.visits k v s hv hs
  refine h.put hv hs ?_ rfl
  exact { phase := rfl
          update := hm.update
          envUpdate := hm.envUpdate
          roomy := hm.roomy
          docs := h.docs
          over := ⟨w.ddl.db, rfl⟩
          keys := by show [] = v.touched.map _; rw [hm.fresh hph]; rfl
          noTTL := by intro x hx; cases hx
          cancels := hm.cancels
          has := hm.has
          shows := hm.shows
          referred := hm.referred
          fresh := by intro e; cases e }

/-- The transaction gets another phase. -/
theorem VMatch.toPhase {P : Proc} {v : Visit D} {s : Session} (h : VMatch C P v s) (p : Phase) (hp : p ≠ .fresh) :
    VMatch C P { v with phase := p } { s with phase := p } :=
  { h with phase := rfl, fresh := fun e => absurd e hp }

/-- Its cancel functions have run. -/
theorem VMatch.cancelled {P : Proc} {v : Visit D} {s : Session} (h : VMatch C P v s) :
    VMatch C P { v with drawn := [] } { s with txn := { s.txn with cancels := [] } } :=
  { h with cancels := rfl, has := by intro p hp; cases hp }

theorem Match.commit (h : Match J C K B S w) {k : Nat} {v : Visit D} {s : Session} (hv : S.visit k = some v) (hs : w.session k = some s) :
    (w.commit k s : Answer D × Domain.World).1 = (S.commits k v).1 ∧
      Match J C K B (S.commits k v).2 (w.commit k s : Answer D × Domain.World).2 := by
  have hm := h.visits k v s hv hs
  unfold Domain.World.commit Site.commits
  rw [hm.update]
  by_cases hu : v.update = false
  · rw [if_pos hu, if_pos hu]; exact ⟨rfl, h⟩
  · rw [if_neg hu, if_neg hu, h.check hv hs]
    by_cases hr : recent v.schema S.schema = false
    · rw [if_pos hr, hr]
      refine ⟨rfl, ?_⟩
      have hg := h.giveBack v.drawn hm.has
      rw [← hm.cancels] at hg
      exact hg.put hv hs (hm.cancelled) rfl
    · rw [if_neg hr, show recent v.schema S.schema = true by simpa using hr]
      dsimp only
      rw [hm.phase]
      by_cases hp : v.phase = .over
      · rw [if_pos hp, if_pos hp]; exact ⟨rfl, h⟩
      · rw [if_neg hp, if_neg hp]
        exact ⟨rfl, h.put hv hs (hm.toPhase .checked (by simp)) rfl⟩

theorem Match.finish (h : Match J C K B S w) {k : Nat} {v : Visit D} {s : Session} (hv : S.visit k = some v) (hs : w.session k = some s)
    (fail : Option Err) :
    ∃ r S', (w.finish k s fail : Answer D × Domain.World).1 = .committed r ∧ S.Finishes k v fail r S' ∧
      Match J C K B S' (w.finish k s fail : Answer D × Domain.World).2 ∧ S'.proc = S.proc := by
  have hm := h.visits k v s hv hs
  unfold Domain.World.finish Txn.commit
  by_cases ht : v.touched = []
  · have hw : s.txn.kv.writes = [] := by
      have := hm.keys
      rw [ht] at this
      exact List.map_eq_nil_iff.mp this
    rw [if_pos hw]
    exact ⟨_, _, rfl, .nothing ht, h.put hv hs (hm.toPhase .over (by simp)) rfl, rfl⟩
  · have hw : s.txn.kv.writes ≠ [] := by
      intro e
      have := hm.keys
      rw [e] at this
      exact ht (List.map_eq_nil_iff.mp this.symm)
    rw [if_neg hw]
    cases fail with
    | some e =>
      refine ⟨_, _, rfl, .refused e ht rfl, ?_, rfl⟩
      have hg := h.giveBack v.drawn hm.has
      rw [← hm.cancels] at hg
      exact hg.put hv hs (hm.cancelled.toPhase .over (by simp)) rfl
    | none =>
      refine ⟨_, _, rfl, .ok _ ht rfl (merged_mergeDocs v.docs v.touched S.docs), ?_, rfl⟩
      obtain ⟨snap, hov⟩ := hm.over
      have hd : HoldsDocs C (mergeDocs v.docs v.touched S.docs) (applyWrites w.ddl.db s.txn.kv.writes) :=
        holdsDocs_commit (hov ▸ hm.docs) h.docs hm.keys (merged_mergeDocs v.docs v.touched S.docs)
      have hser : Serves J K B S.proc (bare { w.ddl with db := applyWrites w.ddl.db s.txn.kv.writes }) := by
        refine Mondis.Props.Serves.agree h.serves ?_
        intro key hkey
        refine Prog.get_applyWrites_of_not_mem ?_
        intro hmem
        rw [hm.keys, List.mem_map] at hmem
        obtain ⟨p, -, e⟩ := hmem
        exact docKey_not_meta ⟨p.1, documentKey_prefix.mpr rfl⟩ (e ▸ hkey)
      have hg := h.update (pool := S.pool) hser hd ⟨[], (List.append_nil _).symm⟩ (fun _ h => h) h.pool
      exact hg.put hv hs (hm.toPhase .over (by simp)) rfl

/-! ### The schema -/

theorem Match.reload (h : Match J C K B S w) (env : Env) (hB : B + cost K S.proc.state < 2 ^ 63) :
    ∃ S', S.Step C.norm (.reload env) (w.reload J env : Answer D × Domain.World).1 S' ∧
      Match J C K B S' (w.reload J env : Answer D × Domain.World).2 ∧ S'.proc = S.proc := by
  have hlen : S.proc.state.dbs.length < 2 ^ 63 := by
    have := h.serves.sane.count
    have := h.serves.sane.small
    omega
  have hB' : B + 204 < 2 ^ 63 := by unfold cost at hB; omega
  unfold Domain.World.reload
  cases hl : w.loaded with
  | some c =>
    exact ⟨S, .reloadBusy (fun e => by rw [h.noLoaded.mp e] at hl; cases hl), h, rfl⟩
  | none =>
    have hSl := h.noLoaded.mpr hl
    obtain ⟨M, hh, hk, -⟩ := h.serves.kept
    have hk : Keeps J B M w.ddl.db := hk
    obtain ⟨v₀, a1, a2, a3⟩ := h.shown
    dsimp only
    -- nothing new
    have same : Runs (reloadSchema w.handle.cache) M 102 (.ok none) M → S.schema.getD 0 = S.proc.state.dbs.length →
        ∃ S', S.Step C.norm (.reload env)
          (match ((⟨false, env, none, reloadSchema w.handle.cache⟩ : MetaTxn (Option MetaCache)).run J w.ddl.db).1 with
            | .ok c => (.reloaded (.ok c.isSome), { w with loaded := c })
            | .err e => (.reloaded (.err e), w)
            | .panic => (.reloaded .panic, w) : Answer D × Domain.World).1 S' ∧
          Match J C K B S' (match ((⟨false, env, none, reloadSchema w.handle.cache⟩ : MetaTxn (Option MetaCache)).run J w.ddl.db).1 with
            | .ok c => (.reloaded (.ok c.isSome), { w with loaded := c })
            | .err e => (.reloaded (.err e), w)
            | .panic => (.reloaded .panic, w) : Answer D × Domain.World).2 ∧ S'.proc = S.proc := by
      intro hr he
      rw [reload_reads J hk hr hB' env]
      refine ⟨S, .reloadSame hSl he, ?_, rfl⟩
      have : ({ w with loaded := none } : Domain.World) = w := by rw [← hl]
      show Match J C K B S { w with loaded := none }
      rw [this]; exact h
    have new : ∀ c v₁, Runs (reloadSchema w.handle.cache) M 102 (.ok (some c)) M → S.schema.getD 0 ≠ S.proc.state.dbs.length →
        Pic S.proc.state.dbs v₁ S.proc.state.dbs.length c →
        (∀ m, S.schema = some m → m < S.proc.state.dbs.length ∧ (v₁ = v₀ ∨ m + 100 < S.proc.state.dbs.length)) →
        ∃ S', S.Step C.norm (.reload env)
          (match ((⟨false, env, none, reloadSchema w.handle.cache⟩ : MetaTxn (Option MetaCache)).run J w.ddl.db).1 with
            | .ok c => (.reloaded (.ok c.isSome), { w with loaded := c })
            | .err e => (.reloaded (.err e), w)
            | .panic => (.reloaded .panic, w) : Answer D × Domain.World).1 S' ∧
          Match J C K B S' (match ((⟨false, env, none, reloadSchema w.handle.cache⟩ : MetaTxn (Option MetaCache)).run J w.ddl.db).1 with
            | .ok c => (.reloaded (.ok c.isSome), { w with loaded := c })
            | .err e => (.reloaded (.err e), w)
            | .panic => (.reloaded .panic, w) : Answer D × Domain.World).2 ∧ S'.proc = S.proc := by
      intro c v₁ hr he hp hlow
      rw [reload_reads J hk hr hB' env]
      refine ⟨_, .reload hSl he, ?_, rfl⟩
      exact { h with
        noLoaded := by simp
        shown := by
          refine ⟨v₀, a1, a2, ?_⟩
          intro n c' hn hc
          cases hn; cases hc
          exact ⟨v₁, hp, hlow⟩ }
    cases hn : S.schema with
    | none =>
      have hc := h.noSchema.mp hn
      rw [hc] at same new ⊢
      rcases runs_reload_none h.serves.sane hh hlen with ⟨e, hr⟩ | ⟨e, c, hr, hp⟩
      · exact same hr (by rw [hn, e]; rfl)
      · exact new c _ hr (by rw [hn]; show 0 ≠ _; omega) hp (by intro m e; rw [hn] at e; cases e)
    | some n =>
      cases hc : w.handle.cache with
      | none => rw [h.noSchema.mpr hc] at hn; cases hn
      | some c₀ =>
        rw [hc] at same new
        rcases runs_reload_some h.serves.sane hh hlen (a1 n c₀ hn hc) with ⟨e, hr⟩ | ⟨e, c, v₁, hr, hp, hlow⟩
        · exact same hr (by rw [hn, e]; rfl)
        · exact new c v₁ hr (by rw [hn]; show n ≠ _; omega) hp (by
            intro m hm
            rw [hn] at hm; cases hm
            exact ⟨e, hlow⟩)

theorem Match.publish (h : Match J C K B S w) {c : MetaCache} (hl : w.loaded = some c) :
    ∃ S' n, S.loaded = some n ∧ S' = { S with schema := some n, loaded := none } ∧
      Match J C K B S' { w with handle := { w.handle with cache := some c }, loaded := none } := by
  cases hn : S.loaded with
  | none => rw [h.noLoaded.mp hn] at hl; cases hl
  | some n =>
    refine ⟨_, n, rfl, rfl, ?_⟩
    obtain ⟨v₀, a1, a2, a3⟩ := h.shown
    obtain ⟨v₁, b1, b2⟩ := a3 n c hn hl
    exact { h with
      noSchema := by simp
      noLoaded := by simp
      early := by intro e; cases e
      shown := by
        refine ⟨v₁, ?_, ?_, ?_⟩
        · intro n' c' e1 e2
          cases e1; cases e2; exact b1
        · intro n' k v m e1 hv hm
          cases e1
          cases hs : S.schema with
          | none => rw [h.early hs k v hv] at hm; cases hm
          | some p =>
            obtain ⟨c1, c2⟩ := b2 p hs
            obtain ⟨d1, d2⟩ := a2 p k v m hs hv hm
            omega
        · intro n' c' e1; cases e1 }

theorem Match.crash (h : Match J C K B S w) :
    Match J C K B { proc := { state := S.proc.state, last := S.proc.last }, docs := S.docs, visits := S.visits.map (fun _ => none) }
      { ddl := { db := w.ddl.db }, sessions := w.sessions.map (fun _ => none) } := by
  have hv : ∀ k, Site.visit ⟨{ state := S.proc.state, last := S.proc.last }, none, none, S.docs,
      S.visits.map (fun _ => (none : Option (Visit D))), fun _ => []⟩ k = none := by
    intro k
    unfold Site.visit
    rw [List.getElem?_map]
    cases S.visits[k]? <;> rfl
  have hs : ∀ k, World.session { ddl := { db := w.ddl.db }, sessions := w.sessions.map (fun _ => (none : Option Session)) } k = none := by
    intro k
    unfold World.session
    rw [List.getElem?_map]
    cases w.sessions[k]? <;> rfl
  exact { serves := h.serves.crash
          docs := h.docs
          readers := rfl
          pool := fun c => rfl
          len := by simp [h.len]
          gone := fun k => by rw [hv, hs]; simp
          visits := by intro k v s e; rw [hv] at e; cases e
          noSchema := by simp
          noLoaded := by simp
          early := by intro _ k v e; rw [hv] at e; cases e
          shown := ⟨0, ⟨(fun _ _ e => nomatch e), (fun _ _ _ _ e => nomatch e), (fun _ _ e => nomatch e)⟩⟩ }

/-! ### One event -/

theorem step_ddl (J : Json) (C : Codec D) (w : Domain.World) {e : Ddl.Ev} (hc : e ≠ .crash) (hn : ¬ (w.ddl.up = false ∧ needsDDL e = true)) :
    w.step J C (.ddl e) = (.ddl (w.ddl.step J e).1, { w with ddl := (w.ddl.step J e).2 }) := by
  cases e <;> first | exact if_neg hn | exact absurd rfl hc

theorem step_ddl_world (J : Json) (C : Codec D) (w : Domain.World) {e : Ddl.Ev} (hc : e ≠ .crash) :
    (w.step J C (.ddl e)).2 = w ∨ (w.step J C (.ddl e)).2 = { w with ddl := (w.ddl.step J e).2 } := by
  by_cases hn : w.ddl.up = false ∧ needsDDL e = true
  · have hw : w.step J C (.ddl e) = (.ddl (.job .panic), w) := by
      cases e <;> first | exact if_pos hn | exact absurd rfl hc
    exact .inl (by rw [hw])
  · exact .inr (by rw [step_ddl J C w hc hn])

theorem Match.ddl (h : Match J C K B S w) {e : Ddl.Ev} (hf : EvFits K e) (hB : B + cost K S.proc.state < 2 ^ 63)
    (hid : S.proc.state.lastID + K + 2 < 2 ^ 63) :
    ∃ S', S.Step C.norm (.ddl e) (w.step J C (.ddl e)).1 S' ∧ Match J C K (B + cost K S.proc.state) S' (w.step J C (.ddl e)).2 ∧
      S'.proc.state.lastID ≤ S.proc.state.lastID + K + 2 := by
  by_cases hc : e = .crash
  · subst hc
    exact ⟨_, .crash .crash, h.crash.mono (by omega), by show S.proc.state.lastID ≤ _; omega⟩
  · by_cases hd : ∃ x c, e = .draw x c
    · obtain ⟨x, c, rfl⟩ := hd
      rw [step_ddl J C w hc (fun x => nomatch x.2)]
      simp only [Ddl.World.step]
      cases hq : w.ddl.seqs x with
      | none => exact ⟨S, .drawNot (h.seq_none hq), h.mono (by omega), by omega⟩
      | some q =>
        dsimp only
        rcases h.draw hq hf hB with ⟨v, S', e1, e2, e3⟩ | ⟨er, e1, e2, e3, e4⟩
        · rw [e1]
          exact ⟨S', .draw (h.seq_some hq) e2, e3, by rw [Draws.lastID e2]; omega⟩
        · rw [e1]
          exact ⟨S, .drawRefused (h.seq_some hq) e3 e2, e4, by omega⟩
    · have hd : ∀ x c, e ≠ .draw x c := fun x c he => hd ⟨x, c, he⟩
      by_cases hnil : w.ddl.up = false ∧ needsDDL e = true
      · have hw : w.step J C (.ddl e) = (.ddl (.job .panic), w) := by
          cases e <;> first | exact if_pos hnil | exact absurd rfl hc
        rw [hw]
        refine ⟨S, .ddlNot ?_ ?_, h.mono (by omega), by omega⟩
        · cases e with
          | createSchema o i c => exact .inl ⟨_, _, _, rfl⟩
          | addIndex i c => exact .inr ⟨_, _, rfl⟩
          | _ => exact (nomatch hnil.2)
        · rw [← h.serves.up]
          exact hnil.1
      obtain ⟨Q, h1, h2, h3⟩ := step_serves J h.serves hf hB hid
      rw [step_bare J w.ddl hd] at h1 h2
      rw [step_ddl J C w hc hnil]
      refine ⟨_, .ddl hd hc h1, ?_, h3⟩
      refine h.update (pool := S.pool) (A := S.docs) h2 ?_ (step_dbs h.serves.sane h1) (step_has h1 hc) ?_
      · exact holdsDocs_agree h.docs (fun k hk => ddl_frame J w.ddl e (docKey_not_meta hk))
      · intro c
        rw [h.pool c]
        rcases step_grown J w.ddl hd hc c with e | ⟨e1, s, e2, e3⟩
        · rw [e]
        · rw [e1, e2]; show [] = s.putbacks; rw [e3]

theorem Match.step (h : Match J C K B S w) (e : Domain.Ev D) (hf : DomainFits K e) (hB : B + cost K S.proc.state < 2 ^ 63)
    (hid : S.proc.state.lastID + K + 2 < 2 ^ 63) :
    ∃ S', S.Step C.norm e (w.step J C e).1 S' ∧ Match J C K (B + cost K S.proc.state) S' (w.step J C e).2 ∧
      S'.proc.state.lastID ≤ S.proc.state.lastID + K + 2 := by
  have hle : B ≤ B + cost K S.proc.state := by omega
  have hl : S.proc.state.lastID ≤ S.proc.state.lastID + K + 2 := by omega
  have hphase : ∀ {k s}, w.session k = some s → ∃ v, S.visit k = some v ∧ s.phase = v.phase := by
    intro k s hs
    obtain ⟨v, hv⟩ := h.session hs
    exact ⟨v, hv, (h.visits k v s hv hs).phase⟩
  cases e with
  | ddl e => exact h.ddl hf hB hid
  | reload env =>
    obtain ⟨S', h1, h2, h3⟩ := h.reload env hB
    exact ⟨S', h1, h2.mono hle, by rw [h3]; exact hl⟩
  | publish =>
    simp only [Domain.World.step]
    cases hw : w.loaded with
    | none => exact ⟨S, .publishNot (h.noLoaded.mpr hw), h.mono hle, hl⟩
    | some c =>
      dsimp only
      unfold Handle.update
      rw [if_pos h.readers]
      obtain ⟨S', n, h1, h2, h3⟩ := h.publish hw
      subst h2
      exact ⟨_, .publish h1, h3.mono hle, hl⟩
  | begin u env => exact ⟨_, .begin, (h.begin u env hf).mono hle, hl⟩
  | snapshot k =>
    simp only [Domain.World.step]
    cases hs : w.session k with
    | none => exact ⟨S, .snapshotNot (h.noSession hs), h.mono hle, hl⟩
    | some s =>
      obtain ⟨v, hv, hp⟩ := hphase hs
      dsimp only
      by_cases hf : s.phase = .fresh
      · rw [if_pos hf]
        exact ⟨_, .snapshot hv (hp ▸ hf), (h.snapshot hv hs (hp ▸ hf)).mono hle, hl⟩
      · rw [if_neg hf]
        exact ⟨S, .snapshotNot (fun v' hv' => by rw [hv] at hv'; cases hv'; exact hp ▸ hf), h.mono hle, hl⟩
  | insert k db coll doc mark c =>
    simp only [Domain.World.step]
    cases hs : w.session k with
    | none => exact ⟨S, .insertNot (h.noSession hs), h.mono hle, hl⟩
    | some s =>
      obtain ⟨v, hv, hp⟩ := hphase hs
      dsimp only
      by_cases hr : s.phase = .ready
      · rw [if_pos hr]
        have hr' : v.phase = .ready := hp ▸ hr
        rcases codec_cases C doc with ⟨b, d, h1, h2, h3⟩ | ⟨er, h1, h2⟩ | ⟨h1, h2⟩
        · rw [h1]
          obtain ⟨S', g1, g2, g3⟩ := h.insert hv hs hr' (db := db) (coll := coll) (mark := mark) hf hB h2 h3
          exact ⟨S', .insert hv hr' g1, g2, by rw [g3]; exact hl⟩
        · rw [h1]; exact ⟨S, .insert hv hr' (.invalid er h2), h.mono hle, hl⟩
        · rw [h1]; exact ⟨S, .insert hv hr' (.crash h2), h.mono hle, hl⟩
      · rw [if_neg hr]
        exact ⟨S, .insertNot (fun v' hv' => by rw [hv] at hv'; cases hv'; exact hp ▸ hr), h.mono hle, hl⟩
  | op k db coll o mark =>
    simp only [Domain.World.step]
    cases hs : w.session k with
    | none => exact ⟨S, .opNot (h.noSession hs), h.mono hle, hl⟩
    | some s =>
      obtain ⟨v, hv, hp⟩ := hphase hs
      dsimp only
      by_cases hr : s.phase = .ready
      · rw [if_pos hr]
        obtain ⟨g1, g2⟩ := h.op hv hs (hp ▸ hr) db coll o mark
        rw [g1]
        exact ⟨_, .op hv (hp ▸ hr), g2.mono hle, hl⟩
      · rw [if_neg hr]
        exact ⟨S, .opNot (fun v' hv' => by rw [hv] at hv'; cases hv'; exact hp ▸ hr), h.mono hle, hl⟩
  | discard k =>
    simp only [Domain.World.step]
    cases hs : w.session k with
    | none => exact ⟨S, .discardNot (h.noSession hs), h.mono hle, hl⟩
    | some s =>
      obtain ⟨v, hv, hp⟩ := hphase hs
      dsimp only
      by_cases hr : s.phase = .ready
      · rw [if_pos hr]
        exact ⟨_, .discard hv (hp ▸ hr), (h.put hv hs ((h.visits k v s hv hs).toPhase .over (by simp)) rfl).mono hle, hl⟩
      · rw [if_neg hr]
        exact ⟨S, .discardNot (fun v' hv' => by rw [hv] at hv'; cases hv'; exact hp ▸ hr), h.mono hle, hl⟩
  | commit k =>
    simp only [Domain.World.step]
    cases hs : w.session k with
    | none => exact ⟨S, .commitNot (h.noSession hs), h.mono hle, hl⟩
    | some s =>
      obtain ⟨v, hv, hp⟩ := hphase hs
      dsimp only
      by_cases hr : s.phase = .ready ∨ s.phase = .over
      · rw [if_pos hr]
        obtain ⟨g1, g2⟩ := h.commit hv hs
        rw [g1]
        refine ⟨_, .commit hv (hp ▸ hr), g2.mono hle, ?_⟩
        have : (S.commits k v).2.proc = S.proc := by
          unfold Site.commits
          split
          · rfl
          · split
            · rfl
            · split <;> rfl
        rw [this]; exact hl
      · rw [if_neg hr]
        refine ⟨S, .commitNot (fun v' hv' => ?_), h.mono hle, hl⟩
        rw [hv] at hv'; cases hv'
        exact ⟨fun e => hr (.inl (hp.trans e)), fun e => hr (.inr (hp.trans e))⟩
  | finish k fail =>
    simp only [Domain.World.step]
    cases hs : w.session k with
    | none => exact ⟨S, .finishNot (h.noSession hs), h.mono hle, hl⟩
    | some s =>
      obtain ⟨v, hv, hp⟩ := hphase hs
      dsimp only
      by_cases hr : s.phase = .checked
      · rw [if_pos hr]
        obtain ⟨r, S', g1, g2, g3, g4⟩ := h.finish hv hs fail
        rw [g1]
        exact ⟨S', .finish hv (hp ▸ hr) g2, g3.mono hle, by rw [g4]; exact hl⟩
      · rw [if_neg hr]
        exact ⟨S, .finishNot (fun v' hv' => by rw [hv] at hv'; cases hv'; exact hp ▸ hr), h.mono hle, hl⟩

/-! ### Histories -/

theorem match_start (J : Json) (C : Codec D) (K : Nat) {db : DB} (h : Fresh Sequence.metaPrefix db) (hd : NoDocs db) :
    Match J C K 0 ({} : Site D) { ddl := { db := db } } where
  serves := Serves.start J K h
  docs := holdsDocs_init C hd
  readers := rfl
  pool := fun c => rfl
  len := rfl
  gone := fun k => ⟨fun _ => rfl, fun _ => rfl⟩
  visits := by intro k v s e; cases e
  noSchema := by simp
  noLoaded := by simp
  early := by intro _ k v e; cases e
  shown := ⟨0, ⟨(fun _ _ e => nomatch e), (fun _ _ _ _ e => nomatch e), (fun _ _ e => nomatch e)⟩⟩

theorem run_match_from (J : Json) (C : Codec D) (c : Nat) (es : List (Domain.Ev D)) : ∀ {B : Nat} {S : Site D} {w : Domain.World},
    Match J C K B S w → (∀ e ∈ es, DomainFits K e) → B + es.length * c < 2 ^ 63 →
    4 * K + 1026 + 2 * (S.proc.state.lastID + es.length * (K + 2)) ≤ c → S.proc.state.lastID + es.length * (K + 2) < 2 ^ 63 →
    ∃ S', S.Steps C.norm es (Domain.run J C es w).1 S' ∧ Match J C K (B + es.length * c) S' (Domain.run J C es w).2 ∧
      S'.proc.state.lastID ≤ S.proc.state.lastID + es.length * (K + 2) := by
  induction es with
  | nil => exact fun h _ _ _ _ => ⟨_, .nil, h.mono (by simp), by simp⟩
  | cons e es ih =>
    intro B S w h hf hB hc hid
    rw [List.length_cons] at hB hc hid ⊢
    have e1 : (es.length + 1) * (K + 2) = es.length * (K + 2) + (K + 2) := Nat.succ_mul _ _
    have e2 : (es.length + 1) * c = es.length * c + c := Nat.succ_mul _ _
    rw [e1] at hc hid
    rw [e2] at hB ⊢
    have hcost : cost K S.proc.state ≤ c := by unfold cost; omega
    obtain ⟨Q, h1, h2, h3⟩ := h.step e (hf e List.mem_cons_self) (by omega) (by omega)
    obtain ⟨R, h4, h5, h6⟩ := ih (h2.mono (B' := B + c) (by omega)) (fun e he => hf e (List.mem_cons_of_mem _ he)) (by omega)
      (by omega) (by omega)
    refine ⟨R, .cons h1 h4, ?_, by rw [e1]; omega⟩
    have : B + (es.length * c + c) = B + c + es.length * c := by omega
    rw [this]; exact h5

theorem domain_budget {K n : Nat} (hn : n * (4 * (n + 1) * (K + 300)) < 2 ^ 62) (hpos : 1 ≤ n) :
    4 * K + 1026 + 2 * (0 + n * (K + 2)) ≤ 4 * (n + 1) * (K + 300) ∧ 0 + n * (K + 2) < 2 ^ 63 := by
  have a1 : 4 * (n + 1) * (K + 300) = 4 * (n * (K + 300)) + 4 * (K + 300) := by
    rw [Nat.mul_assoc, Nat.add_mul, Nat.one_mul, Nat.mul_add]
  have a2 : n * (K + 2) ≤ n * (K + 300) := Nat.mul_le_mul_left _ (by omega)
  have a3 : n * (K + 2) ≤ n * (4 * (n + 1) * (K + 300)) := by
    refine Nat.mul_le_mul_left _ ?_
    have : K + 300 ≤ 4 * (n + 1) * (K + 300) := Nat.le_mul_of_pos_left _ (by omega)
    omega
  omega

/-- Every history on a fresh database. -/
theorem run_match (J : Json) (C : Codec D) {K : Nat} {es : List (Domain.Ev D)} {db : DB} (hdb : Fresh Sequence.metaPrefix db)
    (hd : NoDocs db) (hb : DomainBrief K es) :
    ∃ S, Site.Steps C.norm {} es (Domain.run J C es { ddl := { db := db } }).1 S ∧
      Match J C K (2 ^ 62) S (Domain.run J C es { ddl := { db := db } }).2 := by
  cases hes : es with
  | nil => exact ⟨{}, .nil, (match_start J C K hdb hd).mono (by omega)⟩
  | cons e es' =>
    rw [← hes]
    have hpos : 1 ≤ es.length := by rw [hes]; simp
    obtain ⟨b1, b2⟩ := domain_budget hb.2 hpos
    obtain ⟨S, h1, h2, -⟩ := run_match_from J C _ es (match_start J C K hdb hd) hb.1 (by have := hb.2; omega) b1 b2
    exact ⟨S, h1, h2.mono (by have := hb.2; omega)⟩

end Mondis.Props
