import Verif.Lemmas.DomainFrame
import Verif.Lemmas.DomainOp
import Verif.Lemmas.DomainPic
import Verif.Lemmas.DdlFacts
import Verif.Lemmas.ClientSim
import Verif.Props.DmlInsert
/-!
# The document process: the code's state and the specification's
-/
namespace Mondis.Props
open Mondis Spec Schema Meta Ddl Domain Doc

variable {D : Type}

/-- The cache shows the first `n` databases. -/
def SchemaIs (dbs : List DBInfo) : Option Nat → Option MetaCache → Prop
  | none, none => True
  | some n, some c => ∃ v₀, Pic dbs v₀ n c
  | _, _ => False

theorem SchemaIs.append {dbs : List DBInfo} {n : Option Nat} {c : Option MetaCache} (h : SchemaIs dbs n c) (l : List DBInfo) :
    SchemaIs (dbs ++ l) n c := by
  cases n with
  | none => cases c <;> exact h
  | some n => cases c with
    | none => exact h
    | some c => obtain ⟨v₀, h⟩ := h; exact ⟨v₀, h.append l⟩

theorem SchemaIs.collection {dbs : List DBInfo} {n : Option Nat} {c : Option MetaCache} (h : SchemaIs dbs n c) (db coll : Bytes) :
    (MetaCache.collectionInfo c db coll).map (·.id) = collectionIn dbs n db coll := by
  cases n with
  | none => cases c with
    | none => rfl
    | some c => exact h.elim
  | some n => cases c with
    | none => exact h.elim
    | some c => obtain ⟨v₀, h⟩ := h; exact h.collection db coll

/-- A collection that is found belongs to one of the databases. -/
theorem collectionIn_some {dbs : List DBInfo} {n : Option Nat} {db coll : Bytes} {x : Int64} (h : collectionIn dbs n db coll = some x) :
    ∃ m, n = some m ∧ ∃ d ∈ dbs.take m, x ∈ DState.idsOf d := by
  cases n with
  | none => cases h
  | some m =>
    refine ⟨m, rfl, ?_⟩
    unfold collectionIn at h
    simp only [Option.bind_some] at h
    cases hf : (dbs.take m).find? (fun d => decide (d.name = db)) with
    | none => rw [hf] at h; cases h
    | some d =>
      rw [hf] at h
      simp only [Option.bind_some] at h
      cases hc : d.collections.get coll with
      | none => rw [hc] at h; cases h
      | some ci =>
        rw [hc] at h
        simp only [Option.map_some, Option.some.injEq] at h
        refine ⟨d, List.mem_of_find?_eq_some hf, ?_⟩
        unfold DState.idsOf
        exact List.mem_cons_of_mem _ (List.mem_map.mpr ⟨(coll, ci), (OMap.get_eq_some_iff _ _ _).mp hc, h⟩)

/-- A transaction of the code and one of the specification. -/
structure VMatch (C : Codec D) (P : Proc) (v : Visit D) (s : Session) : Prop where
  phase : s.phase = v.phase
  update : s.txn.update = v.update
  envUpdate : s.txn.kv.env.update = v.update
  roomy : Roomy s.txn.kv.env
  docs : HoldsDocs C v.docs s.txn.kv.view
  over : ∃ snap, s.txn.kv.view = applyWrites snap s.txn.kv.writes
  keys : s.txn.kv.writes.map Prod.fst = v.touched.map (fun p => documentKey p.1 p.2)
  noTTL : ∀ w ∈ s.txn.kv.writes, ∀ x, w.2 = some x → x.expiresAt = 0
  cancels : s.txn.cancels = v.drawn.map (fun p => Dml.putBack p.1 p.2)
  has : ∀ p ∈ v.drawn, P.has p.1 = true
  shows : SchemaIs P.state.dbs v.schema s.txn.start
  referred : ∀ c ∈ s.txn.referred, ∃ m, v.schema = some m ∧ ∃ d ∈ P.state.dbs.take m, c ∈ DState.idsOf d
  fresh : v.phase = .fresh → v.touched = []

theorem take_append_mem {dbs : List DBInfo} {m : Nat} {d : DBInfo} (h : d ∈ dbs.take m) (l : List DBInfo) : d ∈ (dbs ++ l).take m := by
  rw [List.take_append]
  exact List.mem_append_left _ h

theorem VMatch.mono {C : Codec D} {P Q : Proc} {v : Visit D} {s : Session} (h : VMatch C P v s)
    (hd : ∃ l, Q.state.dbs = P.state.dbs ++ l) (hh : ∀ x, P.has x = true → Q.has x = true) : VMatch C Q v s :=
  { h with
    has := fun p hp => hh _ (h.has p hp)
    shows := by obtain ⟨l, e⟩ := hd; rw [e]; exact h.shows.append l
    referred := by
      obtain ⟨l, e⟩ := hd
      intro c hc
      obtain ⟨m, h1, d, h2, h3⟩ := h.referred c hc
      exact ⟨m, h1, d, by rw [e]; exact take_append_mem h2 l, h3⟩ }

/-- The code's state and the specification's. -/
structure Match (J : Json) (C : Codec D) (K B : Nat) (S : Site D) (w : Domain.World) : Prop where
  serves : Serves J K B S.proc (bare w.ddl)
  docs : HoldsDocs C S.docs w.ddl.db
  readers : w.handle.readers = 0
  pool : ∀ c, S.pool c = ((w.ddl.seqs c).map (·.putbacks)).getD []
  len : S.visits.length = w.sessions.length
  gone : ∀ k, S.visit k = none ↔ w.session k = none
  visits : ∀ k v s, S.visit k = some v → w.session k = some s → VMatch C S.proc v s
  noSchema : S.schema = none ↔ w.handle.cache = none
  noLoaded : S.loaded = none ↔ w.loaded = none
  early : S.schema = none → ∀ k v, S.visit k = some v → v.schema = none
  shown : ∃ v₀, (∀ n c, S.schema = some n → w.handle.cache = some c → Pic S.proc.state.dbs v₀ n c) ∧
    (∀ n k v m, S.schema = some n → S.visit k = some v → v.schema = some m → m ≤ n ∧ (v₀ ≤ m ∨ m + 100 < n)) ∧
    (∀ n c, S.loaded = some n → w.loaded = some c → ∃ v₁, Pic S.proc.state.dbs v₁ n c ∧
      ∀ m, S.schema = some m → m < n ∧ (v₁ = v₀ ∨ m + 100 < n))

variable {J : Json} {C : Codec D} {K B : Nat} {S : Site D} {w : Domain.World}

theorem Match.mono (h : Match J C K B S w) {B' : Nat} (hB : B ≤ B') : Match J C K B' S w :=
  { h with serves := h.serves.mono hB }

/-- The transactions with a number. -/
theorem Match.session (h : Match J C K B S w) {k : Nat} {s : Session} (hs : w.session k = some s) : ∃ v, S.visit k = some v := by
  cases hv : S.visit k with
  | none => rw [(h.gone k).mp hv] at hs; cases hs
  | some v => exact ⟨v, rfl⟩

theorem Match.noSession (h : Match J C K B S w) {k : Nat} (hs : w.session k = none) {p : Visit D → Prop} : ∀ v, S.visit k = some v → p v := by
  intro v hv
  rw [(h.gone k).mpr hs] at hv; cases hv

theorem join_set {α : Type} (l : List (Option α)) (k j : Nat) (x : α) (h : (l[k]?).join ≠ none) :
    ((l.set k (some x))[j]?).join = if k = j then some x else (l[j]?).join := by
  rw [List.getElem?_set]
  by_cases e : k = j
  · subst e
    rw [if_pos rfl, if_pos rfl]
    by_cases hk : k < l.length
    · rw [if_pos hk]; rfl
    · rw [List.getElem?_eq_none (by omega)] at h; exact absurd rfl h
  · rw [if_neg e, if_neg e]

theorem set_same {α : Type} (l : List (Option α)) (k : Nat) (x : α) (h : (l[k]?).join = some x) : l.set k (some x) = l := by
  apply List.ext_getElem?
  intro i
  rw [List.getElem?_set]
  by_cases e : k = i
  · subst e
    rw [if_pos rfl]
    cases hg : l[k]? with
    | none => rw [hg] at h; cases h
    | some y =>
      rw [hg] at h
      rw [if_pos (List.getElem?_eq_some_iff.mp hg).1]
      cases y with
      | none => cases h
      | some y => cases h; rfl
  · rw [if_neg e]

theorem Site.visit_put {k j : Nat} {v v' : Visit D} (h : S.visit k = some v) : (S.put k v').visit j = if k = j then some v' else S.visit j :=
  join_set S.visits k j v' (by intro e; unfold Site.visit at h; rw [e] at h; cases h)

theorem World.session_put {k j : Nat} {s s' : Session} (h : w.session k = some s) :
    (w.put k s').session j = if k = j then some s' else w.session j :=
  join_set w.sessions k j s' (by intro e; unfold World.session at h; rw [e] at h; cases h)

theorem Site.put_same {k : Nat} {v : Visit D} (h : S.visit k = some v) : S.put k v = S := by
  unfold Site.put
  rw [set_same S.visits k v h]

/-- A transaction changes. -/
theorem Match.put (h : Match J C K B S w) {k : Nat} {v v' : Visit D} {s s' : Session} (hv : S.visit k = some v) (hs : w.session k = some s)
    (hm : VMatch C S.proc v' s') (he : v'.schema = v.schema) : Match J C K B (S.put k v') (w.put k s') :=
  { serves := h.serves
    docs := h.docs
    readers := h.readers
    pool := h.pool
    len := by show (S.visits.set k _).length = (w.sessions.set k _).length; rw [List.length_set, List.length_set]; exact h.len
    gone := by
      intro j
      rw [Site.visit_put hv, World.session_put hs]
      by_cases e : k = j
      · simp [e]
      · rw [if_neg e, if_neg e]; exact h.gone j
    visits := by
      intro j v₁ s₁ h1 h2
      rw [Site.visit_put hv] at h1
      rw [World.session_put hs] at h2
      by_cases e : k = j
      · rw [if_pos e] at h1 h2; cases h1; cases h2; exact hm
      · rw [if_neg e] at h1 h2; exact h.visits j v₁ s₁ h1 h2
    noSchema := h.noSchema
    noLoaded := h.noLoaded
    early := by
      intro hn j v₁ h1
      rw [Site.visit_put hv] at h1
      by_cases e : k = j
      · rw [if_pos e] at h1; cases h1; rw [he]; exact h.early hn k v hv
      · rw [if_neg e] at h1; exact h.early hn j v₁ h1
    shown := by
      obtain ⟨v₀, a1, a2, a3⟩ := h.shown
      refine ⟨v₀, a1, ?_, a3⟩
      intro n j v₁ m hn h1 hm'
      rw [Site.visit_put hv] at h1
      by_cases e : k = j
      · rw [if_pos e] at h1; cases h1; rw [he] at hm'; exact a2 n k v m hn hv hm'
      · rw [if_neg e] at h1; exact a2 n j v₁ m hn h1 hm' }

/-- The same with the specification's transaction as it was. -/
theorem Match.putSame (h : Match J C K B S w) {k : Nat} {v : Visit D} {s s' : Session} (hv : S.visit k = some v) (hs : w.session k = some s)
    (hm : VMatch C S.proc v s') : Match J C K B S (w.put k s') := by
  have := h.put hv hs hm rfl
  rwa [Site.put_same hv] at this

/-- What is stored and package ddl change. -/
theorem Match.update (h : Match J C K B S w) {B' : Nat} {P : Proc} {q : Ddl.World} {A : Docs D} {pool : Int64 → List Int64}
    (hs : Serves J K B' P (bare q)) (hA : HoldsDocs C A q.db) (hd : ∃ l, P.state.dbs = S.proc.state.dbs ++ l)
    (hh : ∀ x, S.proc.has x = true → P.has x = true) (hp : ∀ c, pool c = ((q.seqs c).map (·.putbacks)).getD []) :
    Match J C K B' { S with proc := P, docs := A, pool := pool } { w with ddl := q } :=
  { serves := hs
    docs := hA
    readers := h.readers
    pool := hp
    len := h.len
    gone := h.gone
    visits := fun k v s h1 h2 => (h.visits k v s h1 h2).mono hd hh
    noSchema := h.noSchema
    noLoaded := h.noLoaded
    early := h.early
    shown := by
      obtain ⟨v₀, a1, a2, a3⟩ := h.shown
      obtain ⟨l, e⟩ := hd
      refine ⟨v₀, ?_, a2, ?_⟩
      · intro n c hn hc
        show Pic P.state.dbs _ _ _
        rw [e]; exact (a1 n c hn hc).append l
      · intro n c hn hc
        obtain ⟨v₁, b1, b2⟩ := a3 n c hn hc
        refine ⟨v₁, ?_, b2⟩
        show Pic P.state.dbs _ _ _
        rw [e]; exact b1.append l }

/-! ### Steps of package ddl -/

theorem work_dbs {A : DState} (hs : A.Sane) : ∃ l, A.work.dbs = A.dbs ++ l := by
  rcases head_cases hs with hq | ⟨j, d, q, hq⟩ | ⟨j, d, q, hq⟩ | ⟨j, d, q, hq⟩ | ⟨j, i, s, q, hq, hst⟩
  · rw [work_nil hq]; exact ⟨[], (List.append_nil _).symm⟩
  · rw [work_failed hq]; exact ⟨[], (List.append_nil _).symm⟩
  · rw [work_done hq]; exact ⟨[], (List.append_nil _).symm⟩
  · by_cases hh : A.Has d.name
    · rw [work_taken hq hh]; exact ⟨[], (List.append_nil _).symm⟩
    · rw [work_create hq hh]; exact ⟨[d], rfl⟩
  · rw [work_index hq (by rcases hst with rfl | rfl <;> decide)]; exact ⟨[], (List.append_nil _).symm⟩

theorem step_dbs {P Q : Proc} (hs : P.state.Sane) {e : Ddl.Ev} {a : Ddl.Answer} (h : P.Step e a Q) :
    ∃ l, Q.state.dbs = P.state.dbs ++ l := by
  rcases step_cases hs h with ⟨-, e | e⟩ | ⟨j, r, -, -, e, -⟩
  · rw [e]; exact ⟨[], (List.append_nil _).symm⟩
  · rw [e]; exact work_dbs hs
  · rw [e]; exact ⟨[], (List.append_nil _).symm⟩

theorem step_has {P Q : Proc} {e : Ddl.Ev} {a : Ddl.Answer} (h : P.Step e a Q) (hc : e ≠ .crash) (x : Int64) (hx : P.has x = true) :
    Q.has x = true := by
  cases h with
  | crash => exact absurd rfl hc
  | work _ h _ => exact (h x).mpr (.inl hx)
  | init _ h => exact (h x).mpr (.inl hx)
  | initAgain _ h _ => exact h x hx
  | initRefused _ h _ => exact h x hx
  | _ => exact hx

/-- Documents stay as they are if nothing happens at their keys. -/
theorem holdsDocs_agree {A : Docs D} {db db' : DB} (h : HoldsDocs C A db) (he : ∀ k, AtDoc k → db'.get k = db.get k) :
    HoldsDocs C A db' where
  rep := Doc.rep_congr (fun cid k hk => he k ⟨cid, hk⟩) h.rep
  noTTL := fun cid k v hk hv => h.noTTL cid k v hk (he k ⟨cid, hk⟩ ▸ hv)

/-! ### The check before a commit -/

theorem Match.check (h : Match J C K B S w) {k : Nat} {v : Visit D} {s : Session} (hv : S.visit k = some v) (hs : w.session k = some s) :
    w.handle.check s.txn.start (fun cid => s.txn.referred.contains cid) = (.ok (recent v.schema S.schema), w.handle) := by
  have hm := h.visits k v s hv hs
  obtain ⟨v₀, a1, a2, -⟩ := h.shown
  have hshow := hm.shows
  cases hc : w.handle.cache with
  | none =>
    have h1 := h.noSchema.mpr hc
    have h2 := h.early h1 k v hv
    rw [h2] at hshow
    cases hst : s.txn.start with
    | some c => rw [hst] at hshow; exact hshow.elim
    | none => simp only [Handle.check, hc, h1, h2, recent]
  | some c =>
    cases hn : S.schema with
    | none => rw [h.noSchema.mp hn] at hc; cases hc
    | some n =>
      cases hvs : v.schema with
      | none =>
        rw [hvs] at hshow
        cases hst : s.txn.start with
        | some c => rw [hst] at hshow; exact hshow.elim
        | none => simp only [Handle.check, hc, recent]
      | some m =>
        rw [hvs] at hshow
        cases hst : s.txn.start with
        | none => rw [hst] at hshow; exact hshow.elim
        | some c₀ =>
          rw [hst] at hshow
          obtain ⟨u, hp₀⟩ := hshow
          have hp := a1 n c hn hc
          obtain ⟨hmn, hlow⟩ := a2 n k v m hn hv hvs
          obtain ⟨log, hw, hlog⟩ := hp.log
          have e1 := hp₀.version
          have e2 := hp.version
          by_cases hr : n ≤ m + 100
          · have hun : Sch.Untouched log c₀.version (fun cid => s.txn.referred.contains cid) := by
              intro d hd hlt id hid
              obtain ⟨i, hi, he⟩ := List.mem_iff_getElem.mp hd
              have hget : log[i]? = some d := by rw [List.getElem?_eq_getElem hi, he]
              have hdv := hw.versions i d hget
              obtain ⟨x, g1, g2⟩ := hlog i d hget
              rw [Bool.eq_false_iff]
              intro hcon
              have hcon : id ∈ s.txn.referred := by simpa using hcon
              obtain ⟨m', q1, d', q2, q3⟩ := hm.referred id hcon
              rw [hvs] at q1
              cases q1
              have hx : id ∈ DState.idsOf x := List.mem_cons_of_mem _ (g2.mem_iff.mp hid)
              have := collIDs_disjoint (idsOf_dbs_nodup h.serves.sane) (List.mem_of_getElem? g1) (List.mem_of_mem_take q2) hx q3
              subst this
              obtain ⟨j, hj, hje⟩ := List.mem_iff_getElem.mp q2
              rw [List.length_take] at hj
              rw [List.getElem_take] at hje
              obtain ⟨hlt', hx'⟩ := List.getElem?_eq_some_iff.mp g1
              have hnames := h.serves.sane.names
              have hp := List.pairwise_iff_getElem.mp hnames j (v₀ + i) (by rw [List.length_map]; omega) (by rw [List.length_map]; omega) (by omega)
              rw [List.getElem_map, List.getElem_map, hje, hx'] at hp
              exact hp rfl
            have hlow' : v₀ ≤ m := by omega
            rcases Sch.check_some (s := c₀) w.handle.readers (fun cid => s.txn.referred.contains cid) hw with ⟨g, -⟩ | ⟨-, g⟩
            · rw [show w.handle = ⟨some c, w.handle.readers⟩ by rw [← hc]]
              rw [g]
              simp only [recent, decide_eq_true hr]
            · exact absurd ⟨by omega, by omega, hun⟩ g
          · have hst := hw.start
            have hlen := hw.version
            have hwin : c.schemaDiffs.length = min log.length 100 := by
              rw [hw.diffs, List.length_map, List.length_drop]; omega
            have : Handle.checkLoop c (fun cid => s.txn.referred.contains cid) (c.version - c₀.version).toNat (c₀.version + 1) = .stale := by
              rw [show (c.version - c₀.version).toNat = (c.version - c₀.version).toNat - 1 + 1 by omega]
              unfold Handle.checkLoop
              dsimp only
              rw [if_pos (by omega)]
            simp only [Handle.check, hc, this, recent, decide_eq_false hr]

end Mondis.Props
