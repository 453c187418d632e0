import Verif.Lemmas.DocDBQuiet
import Verif.Spec.DocumentIndex
/-!
# Package document: the catalogue of indexes in every state
-/
namespace Mondis.DocDB
open Mondis Prog Doc Spec Props

variable {D : Type} {C : Codec D} {IC : IndexCodec} {w w' : World} {g g' : Ghost D} {b b' : Nat} {e : Ev D}

/-- A CreateIndex that has still to commit. -/
structure Wants (IC : IndexCodec) (S : Store) (A : Cats) (ids : List Int64) (name : Bytes) (iid : Int64) (d : IndexDef) (t : Txn) (v : Nat)
    (cid : Int64) (k x : Bytes) : Prop where
  number : numberOf S.db name = some cid
  key : columnsIndexedKey cid d.fields = .ok k
  fits : keyErr k = none
  code : Compact.encodeVarint [] iid = .ok x
  writes : t.writes = [(k, some ⟨d.name, 0, 0⟩), (indexName2IDKey cid d.name, some ⟨x, 0, 0⟩), (metaIndexKey iid, some ⟨IC.marshal d, 0, 0⟩)]
  read : k ∈ t.reads
  le : v ≤ S.now
  free : (S.data v).get k = none
  drawn : iid ∈ ids
  unused : ∀ c n e, (A c).get n ≠ some (iid, e)
  named : d.name ≠ []
  fields : d.fields ≠ []
  short : ∀ cid, keyErr (indexName2IDKey cid d.name) = none
  nodup : (d.fields.map IndexField.name).Nodup
  len : ∀ cid b, columnsIndexedKey cid d.fields = .ok b → b.length < 2 ^ 63

/-- The store holds the catalogue. -/
structure Catd (IC : IndexCodec) (w : World) (A : Cats) (cat : Catalogue) (ids : List Int64) : Prop where
  reps : ∀ n, n ≤ w.store.now → ∃ A, Idx.Rep IC A (w.store.data n)
  rep : Idx.Rep IC A w.store.db
  own : ∀ cid m x, (A cid).get m = some x → ∃ name, numberOf w.store.db name = some cid
  same : ∀ name cid, numberOf w.store.db name = some cid → cat name = A cid
  bare : ∀ name, numberOf w.store.db name = none → cat name = OMap.empty
  used : ∀ cid m iid d, (A cid).get m = some (iid, d) → iid ∈ ids
  pend : ∀ (p : Nat) i name iid d t v, w.pending[p]? = some (some ⟨i, name, .writing iid d t v⟩) →
    ∃ cid k x, Wants IC w.store A ids name iid d t v cid k x
  apart : ∀ (p q : Nat) i name iid d t v j name' d' t' v', w.pending[p]? = some (some ⟨i, name, .writing iid d t v⟩) →
    w.pending[q]? = some (some ⟨j, name', .writing iid d' t' v'⟩) → p = q

theorem Quiet.le {S S' : Store} (h : Quiet S S') : StoreLe S S' := by
  cases h with
  | same => exact .refl S
  | push db ks => exact .push S db ks

theorem Quiet.now {S S' : Store} (h : Quiet S S') : S'.now = S.now ∨ S'.now = S.now + 1 := by
  cases h with
  | same => exact .inl rfl
  | push db ks => exact .inr rfl

theorem Quiet.get {S S' : Store} (h : Quiet S S') {k : Bytes} (hk : Idx.IsIndexKey k) : S'.db.get k = S.db.get k := by
  cases h with
  | same => rfl
  | push db ks hf => rw [db_push]; exact hf k hk

/-- Names keep their numbers. -/
theorem Kept.keeps (h' : Kept C w' g' b') (hle : StoreLe w.store w'.store) {name : Bytes} {x : Int64} (hx : numberOf w.store.db name = some x) :
    numberOf w'.store.db name = some x :=
  h'.names.keep hle.now (Nat.le_refl _) (by rw [hle.data _ (Nat.le_refl _)]; exact hx)

theorem Wants.later {S S' : Store} {A : Cats} {ids ids' : List Int64} {name : Bytes} {iid : Int64} {d : IndexDef} {t : Txn} {v : Nat} {cid : Int64} {k x : Bytes}
    (h : Wants IC S A ids name iid d t v cid k x) (hle : StoreLe S S') (hn : numberOf S'.db name = some cid) {A' : Cats}
    (hu : ∀ c n e, (A' c).get n ≠ some (iid, e)) (hi : ∀ i ∈ ids, i ∈ ids') : Wants IC S' A' ids' name iid d t v cid k x :=
  { h with number := hn, le := Nat.le_trans h.le hle.now, free := by rw [hle.data v h.le]; exact h.free, drawn := hi _ h.drawn, unused := hu }

/-- The catalogue by name follows the catalogue by number. -/
theorem Catd.names {A : Cats} {cat : Catalogue} {ids : List Int64} (h : Catd IC w A cat ids) (h' : Kept C w' g' b') (hle : StoreLe w.store w'.store) :
    (∀ cid m x, (A cid).get m = some x → ∃ name, numberOf w'.store.db name = some cid) ∧
    (∀ name cid, numberOf w'.store.db name = some cid → cat name = A cid) ∧
    (∀ name, numberOf w'.store.db name = none → cat name = OMap.empty) := by
  refine ⟨fun cid m x hx => ?_, fun name cid hn => ?_, fun name hn => ?_⟩
  · obtain ⟨name, hn⟩ := h.own cid m x hx
    exact ⟨name, h'.keeps hle hn⟩
  · cases hc : numberOf w.store.db name with
    | some c =>
      rw [h'.keeps hle hc] at hn
      cases hn
      exact h.same name cid hc
    | none =>
      rw [h.bare name hc]
      refine OMap.ext (fun m => ?_)
      rw [OMap.get_empty]
      cases hx : (A cid).get m with
      | none => rfl
      | some x =>
        obtain ⟨name', hn'⟩ := h.own cid m x hx
        have := h'.names.one (h'.keeps hle hn') hn
        subst this
        rw [hc] at hn'; cases hn'
  · refine h.bare name ?_
    cases hc : numberOf w.store.db name with
    | none => rfl
    | some c => rw [h'.keeps hle hc] at hn; cases hn

theorem Catd.hush {A : Cats} {cat : Catalogue} {ids : List Int64} (h : Catd IC w A cat ids) (h' : Kept C w' g' b') (hq : Hush w w') : Catd IC w' A cat ids := by
  have hle := hq.store.le
  obtain ⟨n1, n2, n3⟩ := h.names h' hle
  refine ⟨fun n hn => ?_, h.rep.congr (fun k hk => hq.store.get hk), n1, n2, n3, h.used, ?_, ?_⟩
  · rcases Nat.lt_or_ge w.store.now n with hl | hl
    · refine ⟨A, ?_⟩
      have : n = w'.store.now := by
        rcases hq.store.now with hs | hs <;> omega
      subst this
      exact h.rep.congr (fun k hk => hq.store.get hk)
    · rw [hle.data n hl]; exact h.reps n hl
  · intro p i name iid d t v hp
    obtain ⟨cid, k, x, hw⟩ := h.pend p i name iid d t v (hq.pend _ _ _ _ _ _ _ hp)
    exact ⟨cid, k, x, hw.later hle (h'.keeps hle hw.number) hw.unused (fun _ hi => hi)⟩
  · intro p q i name iid d t v j name' d' t' v' hp hp'
    exact h.apart p q i name iid d t v j name' d' t' v' (hq.pend _ _ _ _ _ _ _ hp) (hq.pend _ _ _ _ _ _ _ hp')

/-! ### CreateIndex commits -/

/-- The columns are free, and the number is new. -/
theorem Wants.free_now {A : Cats} {cat : Catalogue} {ids : List Int64} {name : Bytes} {iid : Int64} {d : IndexDef} {t : Txn} {v : Nat} {cid : Int64} {k x : Bytes}
    (h : Catd IC w A cat ids) (hf : Framed w.store) (hw : Wants IC w.store A ids name iid d t v cid k x) (hc : w.store.clash t.reads v = false) :
    ¬ Idx.HasColumns A cid d.fields := by
  intro hcol
  obtain ⟨y, hy, -⟩ := (Idx.hasColumns_iff h.rep hw.key (hw.len cid k hw.key)).mp hcol
  rw [hf.unclashed hc hw.le hw.read, hw.free] at hy
  cases hy

theorem Catd.write {A : Cats} {cat : Catalogue} {ids : List Int64} {p i : Nat} {name : Bytes} {iid : Int64} {d : IndexDef} {t : Txn} {v : Nat}
    (h : Catd IC w A cat ids) (hf : Framed w.store) (hp : w.pending[p]? = some (some ⟨i, name, .writing iid d t v⟩)) (hc : w.store.clash t.reads v = false)
    (hno : (cat name).get d.name = none) {w' : World} (hs : w'.store = w.store.push (applyWrites w.store.db t.writes) (t.writes.map Prod.fst))
    (hp' : w'.pending = w.pending.set p (some ⟨i, name, .storing iid d⟩)) (h' : Kept C w' g' b') :
    ∃ A', Catd IC w' A' (cat.next (D := D) (.stored name iid d)) ids := by
  obtain ⟨cid, k, x, hw⟩ := h.pend p i name iid d t v hp
  have hle : StoreLe w.store w'.store := by rw [hs]; exact .push _ _ _
  obtain ⟨n1, n2, n3⟩ := h.names h' hle
  have hnum := h'.keeps hle hw.number
  have hdb : w'.store.db = applyWrites w.store.db t.writes := by rw [hs, db_push]
  have hrep : Idx.Rep IC (A.upd cid ((A cid).set d.name (iid, d))) w'.store.db := by
    rw [hdb, hw.writes]
    refine h.rep.create hw.named hw.fields hw.nodup ?_ (hw.free_now h hf hc) hw.unused hw.code hw.key hw.fits (hw.short cid)
    rw [← h.same name cid hw.number]; exact hno
  refine ⟨_, ⟨fun n hn => ?_, hrep, ?_, ?_, ?_, ?_, ?_, ?_⟩⟩
  · rcases Nat.lt_or_ge w.store.now n with hl | hl
    · have : n = w'.store.now := by rw [hs, now_push] at hn ⊢; omega
      subst this
      exact ⟨_, hrep⟩
    · rw [hle.data n hl]; exact h.reps n hl
  · intro c m y hy
    rw [Idx.upd_set_get] at hy
    split at hy
    · rename_i e; rw [e.1]; exact ⟨name, hnum⟩
    · exact n1 c m y hy
  · intro name' c hc'
    rw [Idx.upd_get]
    simp only [Catalogue.next]
    by_cases e : name' = name
    · subst e
      rw [hnum] at hc'; cases hc'
      rw [if_pos rfl, if_pos rfl, n2 name' cid hnum]
    · rw [if_neg e, if_neg, n2 name' c hc']
      rintro rfl
      exact e (h'.names.one hc' hnum)
  · intro name' hn'
    simp only [Catalogue.next]
    rw [if_neg, n3 name' hn']
    rintro rfl
    rw [hnum] at hn'; cases hn'
  · intro c m iid' d' hd'
    rw [Idx.upd_set_get] at hd'
    split at hd'
    · cases hd'; exact hw.drawn
    · exact h.used c m iid' d' hd'
  · intro q j name' iid' d' t' v' hq
    have hne : q ≠ p := by
      rintro rfl
      rw [hp', List.getElem?_set_self (List.getElem?_eq_some_iff.mp hp).1] at hq
      cases hq
    rw [hp', List.getElem?_set_ne (Ne.symm hne)] at hq
    obtain ⟨cid', k', x', hw'⟩ := h.pend q j name' iid' d' t' v' hq
    refine ⟨cid', k', x', hw'.later hle (h'.keeps hle hw'.number) ?_ (fun _ hi => hi)⟩
    intro c m y hy
    rw [Idx.upd_set_get] at hy
    split at hy
    · cases hy
      exact hne (h.apart q p j name' iid d' t' v' i name d t v hq hp)
    · exact hw'.unused c m y hy
  · intro q r j name₁ iid₁ d₁ t₁ v₁ j' name₂ d₂ t₂ v₂ hq hr
    have hF : Fewer w.pending w'.pending := by rw [hp']; exact .set _ _ (fun _ _ _ _ _ _ e => nomatch e)
    exact h.apart q r _ _ _ _ _ _ _ _ _ _ _ (hF _ _ _ _ _ _ _ hq) (hF _ _ _ _ _ _ _ hr)

/-! ### DropIndex commits -/

theorem varint_inj {i j : Int64} {x : Bytes} (h : Compact.encodeVarint [] i = .ok x) (h' : Compact.encodeVarint [] j = .ok x) : i = j := by
  obtain ⟨v, hv, -, -, -, hd, -⟩ := C08_varint_roundtrip i
  obtain ⟨v', hv', -, -, -, hd', -⟩ := C08_varint_roundtrip j
  rw [h] at hv; cases hv
  rw [h'] at hv'; cases hv'
  have := (hd []).symm.trans (hd' [])
  simpa using this

theorem marshal_inj {d d' : IndexDef} (h : IC.marshal d = IC.marshal d') : d = d' := by
  have := IC.law d
  rw [h, IC.law] at this
  cases this; rfl

/-- What DropIndex found in its snapshot is still there. -/
theorem Catd.still {A A₀ : Cats} {cat : Catalogue} {ids : List Int64} (h : Catd IC w A cat ids) (hf : Framed w.store) {v : Nat} (hv : v ≤ w.store.now)
    (h₀ : Idx.Rep IC A₀ (w.store.data v)) {cid iid : Int64} {n : Bytes} {d : IndexDef} (hd : (A₀ cid).get n = some (iid, d)) {ks : List Bytes}
    (hc : w.store.clash ks v = false) (h1 : indexName2IDKey cid n ∈ ks) (h2 : metaIndexKey iid ∈ ks) : (A cid).get n = some (iid, d) := by
  obtain ⟨-, -, -, -, ⟨x, hx, y, hy1, hy2, -⟩, ⟨z, hz1, hz2, -⟩, -⟩ := h₀.name cid n iid d hd
  rw [← hf.unclashed hc hv h1] at hy1
  rw [← hf.unclashed hc hv h2] at hz1
  cases ha : (A cid).get n with
  | none => rw [h.rep.noName cid n ha] at hy1; cases hy1
  | some q =>
    obtain ⟨iid', d'⟩ := q
    obtain ⟨-, -, -, -, ⟨x', hx', y', hy1', hy2', -⟩, ⟨z', hz1', hz2', -⟩, -⟩ := h.rep.name cid n iid' d' ha
    rw [hy1] at hy1'; cases hy1'
    rw [hy2] at hy2'
    subst hy2'
    cases varint_inj hx hx'
    rw [hz1] at hz1'; cases hz1'
    rw [hz2] at hz2'
    rw [marshal_inj hz2']

theorem Catd.drop {A : Cats} {cat : Catalogue} {ids : List Int64} (h : Catd IC w A cat ids) {name : Bytes} {cid iid : Int64} {n : Bytes} {d : IndexDef} {k : Bytes}
    (hnum : numberOf w.store.db name = some cid) (hd : (A cid).get n = some (iid, d)) (hk : columnsIndexedKey cid d.fields = .ok k)
    {w' : World} {ks : List Bytes} (hs : w'.store = w.store.push (((w.store.db.del k).del (metaIndexKey iid)).del (indexName2IDKey cid n)) ks)
    (hF : Fewer w.pending w'.pending) (h' : Kept C w' g' b') :
    ∃ A', Catd IC w' A' (cat.next (D := D) (.erased name n)) ids := by
  have hle : StoreLe w.store w'.store := by rw [hs]; exact .push _ _ _
  obtain ⟨n1, n2, n3⟩ := h.names h' hle
  have hnum := h'.keeps hle hnum
  have hrep : Idx.Rep IC (A.upd cid ((A cid).del n)) w'.store.db := by
    rw [hs, db_push]; exact h.rep.drop hd hk
  have hold : ∀ c m y, ((A.upd cid ((A cid).del n)) c).get m = some y → (A c).get m = some y := by
    intro c m y hy
    rw [Idx.upd_del_get] at hy
    split at hy
    · cases hy
    · exact hy
  refine ⟨_, ⟨fun m hm => ?_, hrep, ?_, ?_, ?_, ?_, ?_, ?_⟩⟩
  · rcases Nat.lt_or_ge w.store.now m with hl | hl
    · have : m = w'.store.now := by rw [hs, now_push] at hm ⊢; omega
      subst this
      exact ⟨_, hrep⟩
    · rw [hle.data m hl]; exact h.reps m hl
  · exact fun c m y hy => n1 c m y (hold c m y hy)
  · intro name' c hc'
    rw [Idx.upd_get]
    simp only [Catalogue.next]
    by_cases e : name' = name
    · subst e
      rw [hnum] at hc'; cases hc'
      rw [if_pos rfl, if_pos rfl, n2 name' cid hnum]
    · rw [if_neg e, if_neg, n2 name' c hc']
      rintro rfl
      exact e (h'.names.one hc' hnum)
  · intro name' hn'
    simp only [Catalogue.next]
    rw [if_neg, n3 name' hn']
    rintro rfl
    rw [hnum] at hn'; cases hn'
  · exact fun c m iid' d' hd' => h.used c m iid' d' (hold c m _ hd')
  · intro q j name' iid' d' t' v' hq
    obtain ⟨cid', k', x', hw'⟩ := h.pend q j name' iid' d' t' v' (hF _ _ _ _ _ _ _ hq)
    exact ⟨cid', k', x', hw'.later hle (h'.keeps hle hw'.number) (fun c m y hy => hw'.unused c m y (hold c m _ hy)) (fun _ hi => hi)⟩
  · intro q r j name₁ iid₁ d₁ t₁ v₁ j' name₂ d₂ t₂ v₂ hq hr
    exact h.apart q r _ _ _ _ _ _ _ _ _ _ _ (hF _ _ _ _ _ _ _ hq) (hF _ _ _ _ _ _ _ hr)

/-! ### CreateIndex up to its commit -/

theorem get_reads {t : Txn} {k : Bytes} (h : t.writes = []) (hk : k ≠ []) : k ∈ (t.get k).2.reads := by
  simp only [Txn.get, if_neg hk, h, List.map_nil, List.not_mem_nil, if_false]
  repeat' split
  all_goals simp

theorem checkColumns_reads {k : Bytes} (hk : k ≠ []) (env : Env) (db : DB) : k ∈ ((checkColumns k).run (Txn.start env db)).2.reads := by
  unfold checkColumns
  simp only [Prog.run]
  exact Prog.reads_subset _ _ _ (get_reads rfl hk)

/-- No entry for these columns in a snapshot where CreateIndex found them free. -/
theorem free_of {A : Cats} {db : DB} (h : Idx.Rep IC A db) {cid : Int64} {fs : List IndexField} {k : Bytes} (hk : columnsIndexedKey cid fs = .ok k) {env : Env}
    (hc : ∀ y, db.get k = some y → y.live env.now = true → y.value = []) : db.get k = none := by
  cases hy : db.get k with
  | none => rfl
  | some y =>
    obtain ⟨n, iid, d, hd, hb⟩ := h.noCol cid fs k hk (by rw [hy]; simp)
    obtain ⟨-, hne, -, -, -, -, -, k', hk', -, z, hz1, hz2, hz3⟩ := h.name cid n iid d hd
    rw [hb] at hk'; cases hk'
    rw [hy] at hz1; cases hz1
    exact absurd (hz2.symm.trans (hc y hy (by simp [Val.live, hz3]))) hne

/-- What CreateIndex does up to its commit. -/
theorem createIndex_cases (h : Kept C w g b) {A : Cats} {cat : Catalogue} {ids : List Int64} (hC : Catd IC w A cat ids) {i : Nat} {name : Bytes} {d : IndexDef}
    {how : How} {v : Nat} {env : Env} {c : Turn} (hs : Sane d env) (e : Ev D) (he : e = .createIndex i name d how v env c) :
    (Hush w (w.step C IC e).2 ∧ (∀ K : Catalogue, K.next (w.step C IC e).1 = K) ∧ iidOf (e, (w.step C IC e).1) = none ∧ (w.step C IC e).2.pending = w.pending) ∨
    ∃ w₁ iid t cid k x, Hush w w₁ ∧ w₁.pending = w.pending ∧ (w.step C IC e).1 = .drawn iid ∧
      (w.step C IC e).2 = { w₁ with pending := w₁.pending ++ [some ⟨i, name, .writing iid d t v⟩] } ∧
      ((∀ c n y, (A c).get n ≠ some (iid, y)) → numberOf w₁.store.db name = some cid → Wants IC w₁.store A (ids ++ [iid]) name iid d t v cid k x) ∧
      numberOf w.store.db name = some cid := by
  subst he
  have same : ∀ a : Answer D, (∀ K : Catalogue, K.next a = K) → iidOf (Ev.createIndex i name d how v env c, a) = none →
      (Hush w w ∧ (∀ K : Catalogue, K.next a = K) ∧ iidOf (Ev.createIndex i name d how v env c, a) = none ∧ w.pending = w.pending) := fun a h1 h2 => ⟨.refl _, h1, h2, rfl⟩
  simp only [World.step]
  split
  case h_2 => exact .inl (same _ (fun _ => rfl) rfl)
  rename_i o cl r hcall
  obtain ⟨ho, -, hcl, -⟩ := h.called hcall
  split
  · exact .inl (same _ (fun _ => rfl) rfl)
  rename_i hname
  split
  · exact .inl (same _ (fun _ => rfl) rfl)
  rename_i hfields
  split
  · exact .inl (same _ (fun _ => rfl) rfl)
  · exact .inl (same _ (fun _ => rfl) rfl)
  unfold World.createIndex
  split
  · exact .inl (same _ (fun _ => rfl) rfl)
  rename_i hv
  split
  · exact .inl (same _ (fun _ => rfl) rfl)
  · exact .inl (same _ (fun _ => rfl) rfl)
  rename_i k hk
  have hne := Idx.ci_ne_nil hk
  obtain ⟨hcheck, hfresh⟩ := Idx.checkColumns_run env (w.store.data v) hne
  have hread := checkColumns_reads hne { env with update := true } (w.store.data v)
  split
  · exact .inl (same _ (fun _ => rfl) rfl)
  · exact .inl (same _ (fun _ => rfl) rfl)
  rename_i t hrun
  rw [hrun] at hcheck hfresh hread
  have hfree : (w.store.data v).get k = none := by
    obtain ⟨A₀, hA₀⟩ := hC.reps v (by omega)
    rcases hcheck with ⟨_, _, _, _, h4⟩ | ⟨h1, -⟩
    · cases h4
    · exact free_of hA₀ hk h1
  cases hq : o.iseq with
  | none => exact .inl (same _ (fun _ => rfl) rfl)
  | some q =>
    simp only
    cases hdr : w.draw q c with
    | none => exact .inl (same _ (fun _ => rfl) rfl)
    | some y =>
      obtain ⟨r, w₁⟩ := y
      have hh := draw_hush h.seqs hdr
      have hpe : w₁.pending = w.pending := by
        unfold World.draw at hdr
        repeat' split at hdr
        all_goals first | (cases hdr; done) | (cases hdr; rfl)
      cases r with
      | err e => exact .inl ⟨hh, fun _ => rfl, rfl, hpe⟩
      | panic => exact .inl ⟨hh, fun _ => rfl, rfl, hpe⟩
      | ok u =>
        simp only
        rcases Idx.writeIndex_run IC hfresh cl.cid u.toInt64 k d (hs.short cl.cid) hs.big with ⟨er, t', h3, -⟩ | ⟨x, t', hx, hkb, h3, h4⟩
        · rw [h3]; exact .inl ⟨hh, fun _ => rfl, rfl, hpe⟩
        · have hread' := Prog.reads_subset (writeIndex IC cl.cid u.toInt64 k d) t k hread
          rw [h3] at hread' ⊢
          refine .inr ⟨w₁, u.toInt64, t', cl.cid, k, x, hh, hpe, rfl, rfl, fun hun hnum => ?_, hcl⟩
          exact ⟨hnum, hk, hkb, hx, h4, hread', Nat.le_trans (by omega) hh.store.le.now, by rw [hh.store.le.data v (by omega)]; exact hfree,
            List.mem_append_right _ List.mem_cons_self, hun, hname, hfields, hs.short, hs.nodup, hs.len⟩

theorem Catd.hush' {A : Cats} {cat : Catalogue} {ids ids' : List Int64} (h : Catd IC w A cat ids) (hi : ∀ x ∈ ids, x ∈ ids') : Catd IC w A cat ids' :=
  { h with
    used := fun c m i d hd => hi _ (h.used c m i d hd)
    pend := fun p i name iid d t v hp => by
      obtain ⟨cid, k, x, hw⟩ := h.pend p i name iid d t v hp
      exact ⟨cid, k, x, { hw with drawn := hi _ hw.drawn }⟩ }

theorem Catd.add {A : Cats} {cat : Catalogue} {ids : List Int64} (h : Catd IC w A cat ids) {i : Nat} {name : Bytes} {iid : Int64} {d : IndexDef} {t : Txn} {v : Nat}
    {cid : Int64} {k x : Bytes} (hnew : iid ∉ ids) (hw : Wants IC w.store A (ids ++ [iid]) name iid d t v cid k x) :
    Catd IC { w with pending := w.pending ++ [some ⟨i, name, .writing iid d t v⟩] } A cat (ids ++ [iid]) := by
  have h₂ := h.hush' (ids' := ids ++ [iid]) (fun x hx => List.mem_append_left _ hx)
  have hget : ∀ (q : Nat) y, (w.pending ++ [some ⟨i, name, .writing iid d t v⟩])[q]? = some y →
      w.pending[q]? = some y ∨ (q = w.pending.length ∧ y = some ⟨i, name, .writing iid d t v⟩) := by
    intro q y hq
    rw [List.getElem?_append] at hq
    split at hq
    · exact .inl hq
    · rename_i hl
      have h0 := (List.getElem?_eq_some_iff.mp hq).1
      simp only [List.length_singleton] at h0
      exact .inr ⟨by omega, (List.mem_singleton.mp (List.mem_of_getElem? hq))⟩
  have hold : ∀ (q : Nat) j name' d' t' v', w.pending[q]? ≠ some (some ⟨j, name', .writing iid d' t' v'⟩) := by
    intro q j name' d' t' v' hq
    obtain ⟨_, _, _, hw'⟩ := h.pend q j name' iid d' t' v' hq
    exact hnew hw'.drawn
  refine { h₂ with pend := ?_, apart := ?_ }
  · intro q j name' iid' d' t' v' hq
    rcases hget q _ hq with hq | ⟨-, e⟩
    · exact h₂.pend q j name' iid' d' t' v' hq
    · cases e; exact ⟨cid, k, x, hw⟩
  · intro q r j name₁ iid₁ d₁ t₁ v₁ j' name₂ d₂ t₂ v₂ hq hr
    rcases hget q _ hq with hq | ⟨e1, e2⟩
    · rcases hget r _ hr with hr | ⟨-, e⟩
      · exact h.apart q r _ _ _ _ _ _ _ _ _ _ _ hq hr
      · cases e; exact absurd hq (hold _ _ _ _ _ _)
    · cases e2
      rcases hget r _ hr with hr | ⟨e3, -⟩
      · exact absurd hr (hold _ _ _ _ _ _)
      · rw [e1, e3]

/-! ### DropIndex up to its commit -/

theorem dropIndex_cases (h : Kept C w g b) {A : Cats} {cat : Catalogue} {ids : List Int64} (hC : Catd IC w A cat ids) {i : Nat} {name iname : Bytes}
    {how : How} {c : Turn} (e : Ev D) (he : e = .dropIndex i name iname how c) :
    (Hush w (w.step C IC e).2 ∧ (∀ K : Catalogue, K.next (w.step C IC e).1 = K) ∧ (w.step C IC e).2.pending = w.pending) ∨
    ∃ cid iid d k ks, (w.step C IC e).1 = .erased name iname ∧ numberOf w.store.db name = some cid ∧ (A cid).get iname = some (iid, d) ∧
      columnsIndexedKey cid d.fields = .ok k ∧
      (w.step C IC e).2.store = w.store.push (((w.store.db.del k).del (metaIndexKey iid)).del (indexName2IDKey cid iname)) ks ∧
      (w.step C IC e).2.pending = w.pending ++ [some ⟨i, name, .erasing iname⟩] := by
  subst he
  have same : ∀ a : Answer D, (∀ K : Catalogue, K.next a = K) → (Hush w w ∧ (∀ K : Catalogue, K.next a = K) ∧ w.pending = w.pending) := fun a h1 => ⟨.refl _, h1, rfl⟩
  simp only [World.step]
  split
  case h_2 => exact .inl (same _ (fun _ => rfl))
  rename_i o cl r hcall
  obtain ⟨ho, -, hcl, -⟩ := h.called hcall
  split
  · exact .inl (same _ (fun _ => rfl))
  split
  · exact .inl (same _ (fun _ => rfl))
  · exact .inl (same _ (fun _ => rfl))
  unfold World.dropIndex
  split
  · exact .inl (same _ (fun _ => rfl))
  rename_i hv
  obtain ⟨A₀, hA₀⟩ := hC.reps c.v (by omega)
  have hfresh := Idx.start_fresh c.env (w.store.data c.v)
  cases hd : (A₀ cl.cid).get iname with
  | none =>
    have := Idx.drop_none hA₀ hfresh hd
    generalize (dropIndexTxn IC cl.cid iname).run (Txn.start { c.env with update := true } (w.store.data c.v)) = x at *
    obtain ⟨r, t⟩ := x
    simp only at this
    subst this
    exact .inl (same _ (fun _ => rfl))
  | some y =>
    obtain ⟨iid, d⟩ := y
    obtain ⟨k, hk⟩ := Idx.ci_ok cl.cid d.fields
    rcases Idx.drop_some' hA₀ hfresh hd hk with ⟨t, h1, -⟩ | ⟨t, h1, h2, h3, h4⟩
    · rw [h1]; exact .inl (same _ (fun _ => rfl))
    · rw [h1]
      simp only
      rcases commit_cases w.store t c.v c.fail with ⟨c1, ⟨c2, -⟩ | ⟨-, er, c2⟩⟩ | ⟨-, c2, c3⟩
      · rw [h2] at c2; cases c2
      · have hx : w.store.commit t c.v c.fail = (.err er, w.store) := Prod.ext c2 c1
        rw [hx]
        exact .inl ⟨⟨.same, .refl _⟩, fun _ => rfl, rfl⟩
      · rw [c3]
        refine .inr ⟨cl.cid, iid, d, k, t.writes.map Prod.fst, rfl, hcl, hC.still h.seqs.framed (by omega) hA₀ hd c2 h3 h4, hk, ?_, ?_⟩
        · show w.store.push (applyWrites w.store.db t.writes) _ = _
          congr 1
          rw [h2]; rfl
        · show w.pending ++ [some ⟨i, name, .erasing d.name⟩] = _
          rw [(hA₀.name _ _ _ _ hd).1]

/-! ### Every event -/

theorem tame_answer (e : Ev D) (he : tame e = true) (K : Catalogue) : K.next (w.step C IC e).1 = K ∧ iidOf (e, (w.step C IC e).1) = none := by
  cases e with
  | createIndex => cases he
  | writeIndex => cases he
  | dropIndex => cases he
  | lookup i name how v env c =>
    refine ⟨?_, rfl⟩
    simp only [World.step, World.lookup]
    repeat' split
    all_goals rfl
  | insert k i name doc how c =>
    refine ⟨?_, rfl⟩
    simp only [World.step, World.insert]
    repeat' split
    all_goals rfl
  | _ =>
    refine ⟨?_, rfl⟩
    simp only [World.step, World.register, World.sequence, World.indexes, World.finish]
    repeat' split
    all_goals rfl

theorem Catd.step {A : Cats} {cat : Catalogue} {ids : List Int64} (h : Catd IC w A cat ids) (hk : Kept C w g b)
    (h' : Kept C (w.step C IC e).2 g' b') (hs : ∀ i name d how v env c, e = .createIndex i name d how v env c → Sane d env)
    (hnd : (ids ++ (iidOf (e, (w.step C IC e).1)).toList).Nodup)
    (hno : ∀ coll iid d, (w.step C IC e).1 = .stored coll iid d → (cat coll).get d.name = none) :
    ∃ A', Catd IC (w.step C IC e).2 A' (cat.next (w.step C IC e).1) (ids ++ (iidOf (e, (w.step C IC e).1)).toList) := by
  cases ht : tame e with
  | true =>
    obtain ⟨h1, h2⟩ := tame_answer (C := C) (IC := IC) (w := w) e ht cat
    rw [h1, h2, Option.toList_none, List.append_nil]
    exact ⟨A, h.hush h' (step_hush hk e ht)⟩
  | false =>
    cases e with
    | createIndex i name d how v env c =>
      rcases createIndex_cases hk h (hs _ _ _ _ _ _ _ rfl) _ rfl with ⟨h1, h2, h3, -⟩ | ⟨w₁, iid, t, cid, k, x, h1, h2, h3, h4, h5, h6⟩
      · rw [h2, h3, Option.toList_none, List.append_nil]
        exact ⟨A, h.hush h' h1⟩
      · rw [h3] at hnd ⊢
        rw [h4] at h' ⊢
        have hnew : iid ∉ ids := fun hm => by
          have := (List.nodup_append.mp hnd).2.2 iid hm iid (by simp [iidOf])
          exact this rfl
        have hk₁ : Kept C w₁ g' b' := by
          have := h'.repend (ps := w₁.pending) (fun i' name' iid' d' t' v' hm => h'.pend i' name' iid' d' t' v' (List.mem_append_left _ hm))
          exact this
        have hC₁ := h.hush hk₁ h1
        exact ⟨A, hC₁.add hnew (h5 (fun c n y hy => hnew (h.used c n iid y hy)) (hk₁.keeps h1.store.le h6))⟩
    | writeIndex p fail =>
      have hi : iidOf (Ev.writeIndex (D := D) p fail, (w.step C IC (.writeIndex p fail)).1) = none := rfl
      rw [hi, Option.toList_none, List.append_nil]
      cases hq : (w.pending[p]?).join with
      | none =>
        have e1 : w.step C IC (Ev.writeIndex (D := D) p fail) = (.none, w) := by simp only [World.step, hq]
        rw [e1]; exact ⟨A, h⟩
      | some q =>
        obtain ⟨i, name, st⟩ := q
        cases st with
        | storing iid d =>
          have e1 : w.step C IC (Ev.writeIndex (D := D) p fail) = (.none, w) := by simp only [World.step, hq]
          rw [e1]; exact ⟨A, h⟩
        | erasing n =>
          have e1 : w.step C IC (Ev.writeIndex (D := D) p fail) = (.none, w) := by simp only [World.step, hq]
          rw [e1]; exact ⟨A, h⟩
        | writing iid d t v =>
          have e1 : w.step C IC (Ev.writeIndex (D := D) p fail) = w.writeIndex p i name iid d t v fail := by simp only [World.step, hq]
          have hp : w.pending[p]? = some (some ⟨i, name, .writing iid d t v⟩) := by
            cases hx : w.pending[p]? with
            | none => rw [hx] at hq; cases hq
            | some y => rw [hx] at hq; rw [show y = _ from hq]
          rw [e1] at h' hno ⊢
          obtain ⟨cid, k, x, hw⟩ := h.pend p i name iid d t v hp
          unfold World.writeIndex at h' hno ⊢
          rcases commit_cases w.store t v fail with ⟨c1, ⟨c2, -⟩ | ⟨-, er, c2⟩⟩ | ⟨-, c2, c3⟩
          · rw [hw.writes] at c2; cases c2
          · have hx : w.store.commit t v fail = (.err er, w.store) := Prod.ext c2 c1
            rw [hx] at h' ⊢
            exact ⟨A, h.hush h' ⟨.same, .set _ _ (fun _ _ _ _ _ _ e => nomatch e)⟩⟩
          · rw [c3] at h' hno ⊢
            exact h.write hk.seqs.framed hp c2 (hno _ _ _ rfl) rfl rfl h'
    | dropIndex i name iname how c =>
      have hi : iidOf (Ev.dropIndex (D := D) i name iname how c, (w.step C IC (.dropIndex i name iname how c)).1) = none := rfl
      rw [hi, Option.toList_none, List.append_nil]
      rcases dropIndex_cases hk h _ rfl with ⟨h1, h2, -⟩ | ⟨cid, iid, d, k, ks, h1, h2, h3, h4, h5, h6⟩
      · rw [h2]; exact ⟨A, h.hush h' h1⟩
      · rw [h1]; exact h.drop h2 h3 h4 h5 (by rw [h6]; exact .append _ (fun _ _ _ _ _ _ e => nomatch e)) h'
    | _ => cases ht

theorem rep_none {db : DB} (hn : ∀ k, Idx.IsIndexKey k → db.get k = none) : Idx.Rep IC (fun _ => OMap.empty) db where
  name := by intro _ _ _ _ h; simp at h
  noName := by intro cid n _; exact hn _ (.inl ⟨cid, Idx.in_prefix cid n⟩)
  noCol := by intro cid fs b hb hg; exact absurd (hn b (.inr (.inr ⟨cid, fs, hb⟩))) hg
  col := by intro _ _ _ _ _ _ _ h; simp at h
  id := by intro _ _ _ _ _ _ _ h; simp at h
  clean := by intro cid k v hk hp; rw [hn k (.inl ⟨cid, hp⟩)] at hk; cases hk

theorem Catd.start (IC : IndexCodec) {db : DB} (hdb : Blank db) : Catd IC (World.start db) (fun _ => OMap.empty) .empty [] := by
  have hn : ∀ k, Idx.IsIndexKey k → db.get k = none := by
    intro k hk
    apply Classical.byContradiction
    intro hne
    obtain ⟨h1, h2⟩ := hdb k hne
    rcases hk with ⟨cid, t, rfl⟩ | ⟨i, rfl⟩ | ⟨cid, fs, hk⟩
    · rw [indexNameKeyPrefix_eq] at h1
      exact h1 ⟨_, by rw [List.append_assoc]⟩
    · rw [metaIndexKey_eq] at h2
      exact h2 ⟨_, by unfold metaIndexPrefix; rw [List.append_assoc]⟩
    · obtain ⟨r, rfl⟩ := Idx.ci_form hk
      exact h1 ⟨_, rfl⟩
  refine ⟨fun n _ => ⟨_, rep_none hn⟩, rep_none hn, ?_, fun _ _ _ => rfl, fun _ _ => rfl, ?_, ?_, ?_⟩
  · intro _ _ _ h; simp at h
  · intro _ _ _ _ h; simp at h
  · intro p i name iid d t v hp; simp [World.start] at hp
  · intro p i name iid d t v _ _ _ _ _ _ hp; simp [World.start] at hp

/-! ### Every history -/

theorem catalogue_append (as : List (Answer D)) (a : Answer D) : catalogue (as ++ [a]) = (catalogue as).next a := by
  unfold catalogue; rw [List.foldl_append]; rfl

theorem iidsIn_append {es : List (Ev D)} {as : List (Answer D)} (h : as.length = es.length) (e : Ev D) (a : Answer D) :
    iidsIn (es ++ [e]) (as ++ [a]) = iidsIn es as ++ (iidOf (e, a)).toList := by
  unfold iidsIn
  rw [List.zip_append h.symm, List.filterMap_append]
  simp only [List.zip_cons_cons, List.zip_nil_right, List.filterMap_cons, List.filterMap_nil]
  cases iidOf (e, a) <;> rfl

theorem Brief.left {l l' : List (Ev D)} (h : Brief (l ++ l')) : Brief l :=
  ⟨by have := h.1; rw [List.length_append] at this; omega, fun env hm => h.2 env (List.mem_append_left _ hm)⟩

theorem Modest.left {l l' : List (Ev D)} (h : Modest (l ++ l')) : Modest l :=
  fun i name d how v env c hm => h i name d how v env c (List.mem_append_left _ hm)

theorem NoReuse.left {l l' : List (Answer D)} (h : NoReuse (l ++ l')) : NoReuse l := by
  intro k coll iid d hk
  have hlt := (List.getElem?_eq_some_iff.mp hk).1
  have := h k coll iid d (by rw [List.getElem?_append_left hlt]; exact hk)
  rw [List.take_append_of_le_length (Nat.le_of_lt hlt)] at this
  exact this

theorem Fair.left {db : DB} {l l' : List (Ev D)} (h : Fair C IC db (l ++ l')) : Fair C IC db l :=
  ⟨h.blank, h.brief.left, h.modest.left, by have := h.noReuse; rw [run_append] at this; exact this.left⟩

theorem catd {db : DB} (es : List (Ev D)) (h : Fair C IC db es) :
    ∃ A, Catd IC (run C IC es (World.start db)).2 A (catalogue (run C IC es (World.start db)).1) (iidsIn es (run C IC es (World.start db)).1) := by
  induction hl : es.length generalizing es with
  | zero =>
    cases es with
    | nil => exact ⟨_, Catd.start IC h.blank⟩
    | cons _ _ => cases hl
  | succ n ih =>
    obtain ⟨l, e, rfl⟩ : ∃ l e, es = l ++ [e] :=
      ⟨es.dropLast, es.getLast (by rintro rfl; cases hl), (List.dropLast_concat_getLast _).symm⟩
    obtain ⟨A, hA⟩ := ih l h.left (by simpa using hl)
    obtain ⟨g, hg⟩ := told (C := C) IC h.blank l h.left.brief.1 h.left.brief.2
    obtain ⟨g', hg'⟩ := told (C := C) IC h.blank (l ++ [e]) h.brief.1 h.brief.2
    have hno := h.noReuse
    rw [run_append] at hg' hno ⊢
    have hlen := run_length C IC l (World.start db)
    dsimp only [run] at hg' hno ⊢
    have hnd := hg'.inodup
    rw [iidsIn_append hlen] at hnd ⊢
    rw [catalogue_append]
    refine hA.step hg.kept hg'.kept (fun i name d how v env c he => h.modest i name d how v env c (by rw [he]; simp)) hnd ?_
    intro coll iid d hs
    have := hno l.length coll iid d (by rw [List.getElem?_append_right (by omega), hlen]; simp [hs])
    rw [List.take_append_of_le_length (by omega), ← hlen, List.take_length] at this
    exact this

/-! ### Moments -/

/-- Every event makes at most one commit. -/
theorem step_now {A : Cats} {cat : Catalogue} {ids : List Int64} (h : Catd IC w A cat ids) (hk : Kept C w g b)
    (hs : ∀ i name d how v env c, e = .createIndex i name d how v env c → Sane d env) :
    (w.step C IC e).2.store.now = w.store.now ∨ (w.step C IC e).2.store.now = w.store.now + 1 := by
  cases ht : tame e with
  | true => exact (step_hush hk e ht).store.now
  | false =>
    cases e with
    | createIndex i name d how v env c =>
      rcases createIndex_cases hk h (hs _ _ _ _ _ _ _ rfl) _ rfl with ⟨h1, -⟩ | ⟨w₁, iid, t, cid, k, x, h1, -, -, h4, -⟩
      · exact h1.store.now
      · rw [h4]; exact h1.store.now
    | writeIndex p fail =>
      simp only [World.step]
      split
      · unfold World.writeIndex
        rename_i t v _
        rcases commit_cases w.store t v fail with ⟨c1, ⟨c2, c3⟩ | ⟨-, er, c2⟩⟩ | ⟨-, c2, c3⟩
        · have hx : w.store.commit t v fail = (.ok (), w.store) := Prod.ext c3 c1
          rw [hx]; exact .inl rfl
        · have hx : w.store.commit t v fail = (.err er, w.store) := Prod.ext c2 c1
          rw [hx]; exact .inl rfl
        · rw [c3]; exact .inr rfl
      · exact .inl rfl
    | dropIndex i name iname how c =>
      rcases dropIndex_cases hk h _ rfl with ⟨h1, -⟩ | ⟨cid, iid, d, k, ks, h1, h2, h3, h4, h5, h6⟩
      · exact h1.store.now
      · rw [h5]; exact .inr rfl
    | _ => cases ht

/-- Every state of the store was the current one at some moment. -/
theorem moment {db : DB} (es : List (Ev D)) (h : Fair C IC db es) (v : Nat) (hv : v ≤ (run C IC es (World.start db)).2.store.now) :
    ∃ l l', es = l ++ l' ∧ (run C IC l (World.start db)).2.store.now = v := by
  induction hl : es.length generalizing es with
  | zero =>
    cases es with
    | nil => exact ⟨[], [], rfl, by have : v ≤ 0 := hv; show 0 = v; omega⟩
    | cons _ _ => cases hl
  | succ n ih =>
    obtain ⟨l, e, rfl⟩ : ∃ l e, es = l ++ [e] :=
      ⟨es.dropLast, es.getLast (by rintro rfl; cases hl), (List.dropLast_concat_getLast _).symm⟩
    by_cases hv' : v ≤ (run C IC l (World.start db)).2.store.now
    · obtain ⟨l₁, l₂, e1, e2⟩ := ih l h.left hv' (by simpa using hl)
      exact ⟨l₁, l₂ ++ [e], by rw [e1, List.append_assoc], e2⟩
    · refine ⟨l ++ [e], [], by simp, ?_⟩
      obtain ⟨A, hA⟩ := catd l h.left
      obtain ⟨g, hg⟩ := told (C := C) IC h.blank l h.left.brief.1 h.left.brief.2
      have := step_now (e := e) hA hg.kept (fun i name d how v env c he => h.modest i name d how v env c (by rw [he]; simp))
      rw [run_append] at hv ⊢
      dsimp only [run] at hv ⊢
      omega

/-- What a transaction with a snapshot of that moment finds. -/
theorem at_moment {db : DB} {l l' : List (Ev D)} (h : Fair C IC db (l ++ l')) :
    ∃ A, Idx.Rep IC A ((run C IC (l ++ l') (World.start db)).2.store.data (run C IC l (World.start db)).2.store.now) ∧
      ∀ coll cid, numberOf (run C IC (l ++ l') (World.start db)).2.store.db coll = some cid → catalogue (run C IC l (World.start db)).1 coll = A cid := by
  obtain ⟨A, hA⟩ := catd l h.left
  obtain ⟨g, hg⟩ := told (C := C) IC h.blank (l ++ l') h.brief.1 h.brief.2
  have ha := run_after C IC l' (run C IC l (World.start db)).2
  have e : (run C IC l' (run C IC l (World.start db)).2).2 = (run C IC (l ++ l') (World.start db)).2 := by rw [run_append]
  rw [e] at ha
  refine ⟨A, ?_, (hA.names hg.kept ha.store).2.1⟩
  rw [ha.store.data _ (Nat.le_refl _)]; exact hA.rep

/-! ### Calls -/

/-- What the calls under way have done so far, and which ones have ended. -/
structure Traced (C : Codec D) (IC : IndexCodec) (db : DB) (es : List (Ev D)) (as : List (Answer D)) (w : World) : Prop where
  writing : ∀ (p : Nat) i name iid d t v, w.pending[p]? = some (some ⟨i, name, .writing iid d t v⟩) →
    ∃ j : Nat, ∃ how v env c, es[j]? = some (.createIndex i name d how v env c) ∧ as[j]? = some (.drawn iid) ∧
      (run C IC (es.take j) (World.start db)).2.pending.length = p
  storing : ∀ (p : Nat) i name iid d, w.pending[p]? = some (some ⟨i, name, .storing iid d⟩) →
    ∃ j k : Nat, ∃ how v env c f, es[j]? = some (.createIndex i name d how v env c) ∧ as[j]? = some (.drawn iid) ∧
      (run C IC (es.take j) (World.start db)).2.pending.length = p ∧ j < k ∧
      es[k]? = some (.writeIndex p f) ∧ as[k]? = some (.stored name iid d)
  erasing : ∀ (p : Nat) i name n, w.pending[p]? = some (some ⟨i, name, .erasing n⟩) →
    ∃ j : Nat, ∃ how c, es[j]? = some (.dropIndex i name n how c) ∧ as[j]? = some (.erased name n) ∧
      (run C IC (es.take j) (World.start db)).2.pending.length = p
  done : ∀ (p j : Nat) a, es[j]? = some (.finish p) → as[j]? = some a → a ≠ .none → w.pending[p]? = some none

/-- What an event does to the calls under way. -/
inductive Moves (w : World) : Ev D → Answer D → List (Option Pending) → Prop where
  | same {e a} : (∀ j, e ≠ .crash j) → (∀ p, e = .finish p → a = .none ∧ ∀ q, w.pending[p]? = some (some q) → ∃ iid d t v, q.stage = .writing iid d t v) →
      (∀ K : Catalogue, K.next a = K) → Moves w e a w.pending
  | drawn {i name d how v env c iid t} : Moves w (.createIndex i name d how v env c) (.drawn iid) (w.pending ++ [some ⟨i, name, .writing iid d t v⟩])
  | stored {p f i name iid d t v} : w.pending[p]? = some (some ⟨i, name, .writing iid d t v⟩) →
      Moves w (.writeIndex p f) (.stored name iid d) (w.pending.set p (some ⟨i, name, .storing iid d⟩))
  | failed {p f i name iid d t v a} : w.pending[p]? = some (some ⟨i, name, .writing iid d t v⟩) → (∀ K : Catalogue, K.next a = K) → Moves w (.writeIndex p f) a (w.pending.set p none)
  | erased {i name n how c} : Moves w (.dropIndex i name n how c) (.erased name n) (w.pending ++ [some ⟨i, name, .erasing n⟩])
  | created {p i name iid d} : w.pending[p]? = some (some ⟨i, name, .storing iid d⟩) → Moves w (.finish p) (.created (.ok iid)) (w.pending.set p none)
  | dropped {p i name n} : w.pending[p]? = some (some ⟨i, name, .erasing n⟩) → Moves w (.finish p) (.dropped (.ok true)) (w.pending.set p none)
  | crash {i} : Moves w (.crash i) .none (w.pending.map (fun q => match q with
      | some q => if q.obj = i then none else some q
      | none => none))

theorem remember_pending (w : World) (i : Nat) (name : Bytes) (f : OMap IndexDef → OMap IndexDef) : (w.remember i name f).pending = w.pending := by
  unfold World.remember
  repeat' split
  all_goals rfl

theorem newSequence_pending {k : Bytes} {bw : UInt64} {c : Turn} {r : Res Unit} (hd : w.newSequence k bw c = some (r, w')) : w'.pending = w.pending := by
  unfold World.newSequence at hd
  split at hd <;> cases hd
  rfl

theorem draw_pending {p : Nat} {c : Turn} {r : Res UInt64} (hd : w.draw p c = some (r, w')) : w'.pending = w.pending := by
  unfold World.draw at hd
  repeat' split at hd
  all_goals cases hd
  all_goals rfl

theorem releases_pending (env : Env) (l : List Nat) (w : World) : (l.foldl (fun w p => w.release env p) w).pending = w.pending := by
  induction l generalizing w with
  | nil => rfl
  | cons p l ih =>
    rw [List.foldl_cons, ih]
    unfold World.release
    split <;> rfl

theorem joined {p : Nat} {q : Pending} (h : (w.pending[p]?).join = some q) : w.pending[p]? = some (some q) := by
  cases hx : w.pending[p]? with
  | none => rw [hx] at h; cases h
  | some y => rw [hx] at h; rw [show y = _ from h]

theorem step_moves {A : Cats} {cat : Catalogue} {ids : List Int64} (h : Catd IC w A cat ids) (hk : Kept C w g b)
    (hs : ∀ i name d how v env c, e = .createIndex i name d how v env c → Sane d env) :
    Moves w e (w.step C IC e).1 (w.step C IC e).2.pending := by
  have key : ∀ {e : Ev D} {a : Answer D} {ps : List (Option Pending)}, ps = w.pending → (∀ p, e ≠ .finish p ∧ e ≠ .crash p) → (∀ K : Catalogue, K.next a = K) → Moves w e a ps := by
    intro e a ps h1 h2 h3; subst h1; exact .same (fun p => (h2 p).2) (fun p h => absurd h (h2 p).1) h3
  cases e with
  | createIndex i name d how v env c =>
    rcases createIndex_cases hk h (hs _ _ _ _ _ _ _ rfl) _ rfl with ⟨-, h0, -, h1⟩ | ⟨w₁, iid, t, cid, k, x, -, h2, h3, h4, -⟩
    · exact key h1 (fun _ => ⟨(fun e => nomatch e), (fun e => nomatch e)⟩) h0
    · rw [h3, h4, h2]; exact .drawn
  | dropIndex i name iname how c =>
    rcases dropIndex_cases hk h _ rfl with ⟨-, h0, h1⟩ | ⟨cid, iid, d, k, ks, h1, h2, h3, h4, h5, h6⟩
    · exact key h1 (fun _ => ⟨(fun e => nomatch e), (fun e => nomatch e)⟩) h0
    · rw [h1, h6]; exact .erased
  | writeIndex p fail =>
    simp only [World.step]
    split
    · rename_i hq
      unfold World.writeIndex
      split
      · exact .stored (joined hq)
      · exact .failed (joined hq) (fun _ => rfl)
      · exact .failed (joined hq) (fun _ => rfl)
    · exact key rfl (fun _ => ⟨(fun e => nomatch e), (fun e => nomatch e)⟩) (fun _ => rfl)
  | finish p =>
    simp only [World.step]
    split
    · rename_i q hq
      obtain ⟨i, name, st⟩ := q
      unfold World.finish
      split
      · rename_i hst
        refine .same (fun _ e => nomatch e) (fun p' hp' => ?_) (fun _ => rfl)
        cases hp'
        refine ⟨rfl, fun q hq' => ?_⟩
        rw [joined hq] at hq'
        cases hq'
        exact ⟨_, _, _, _, hst⟩
      · rename_i hst; cases hst
        rw [remember_pending]; exact .created (joined hq)
      · rename_i hst; cases hst
        rw [remember_pending]; exact .dropped (joined hq)
    · rename_i hq
      refine .same (fun _ e => nomatch e) (fun p' hp' => ?_) (fun _ => rfl)
      cases hp'
      refine ⟨rfl, fun q hq' => ?_⟩
      rw [hq'] at hq; cases hq
  | crash i => exact .crash
  | newDB c =>
    simp only [World.step]
    split
    · exact key rfl (fun _ => ⟨(fun e => nomatch e), (fun e => nomatch e)⟩) (fun _ => rfl)
    · rename_i h; have := newSequence_pending h; exact key this (fun _ => ⟨(fun e => nomatch e), (fun e => nomatch e)⟩) (fun _ => rfl)
  | newDB2 i c =>
    refine key ?_ (fun _ => ⟨(fun e => nomatch e), (fun e => nomatch e)⟩) (fun K => (tame_answer (C := C) (IC := IC) (w := w) _ (by rfl) K).1)
    simp only [World.step]
    repeat' split
    all_goals first | rfl | (rename_i h; have := newSequence_pending h; exact this)
  | lookup i name how v env c =>
    refine key ?_ (fun _ => ⟨(fun e => nomatch e), (fun e => nomatch e)⟩) (fun K => (tame_answer (C := C) (IC := IC) (w := w) _ (by rfl) K).1)
    simp only [World.step, World.lookup]
    repeat' split
    all_goals first | rfl | (rename_i h; have := draw_pending h; exact this)
  | register i fail =>
    refine key ?_ (fun _ => ⟨(fun e => nomatch e), (fun e => nomatch e)⟩) (fun K => (tame_answer (C := C) (IC := IC) (w := w) _ (by rfl) K).1)
    simp only [World.step, World.register]
    repeat' split
    all_goals rfl
  | sequence i c =>
    refine key ?_ (fun _ => ⟨(fun e => nomatch e), (fun e => nomatch e)⟩) (fun K => (tame_answer (C := C) (IC := IC) (w := w) _ (by rfl) K).1)
    simp only [World.step, World.sequence]
    repeat' split
    all_goals first | rfl | (rename_i h; have := newSequence_pending h; exact this)
  | indexes i env =>
    refine key ?_ (fun _ => ⟨(fun e => nomatch e), (fun e => nomatch e)⟩) (fun K => (tame_answer (C := C) (IC := IC) (w := w) _ (by rfl) K).1)
    simp only [World.step, World.indexes]
    repeat' split
    all_goals rfl
  | begin env => exact key rfl (fun _ => ⟨(fun e => nomatch e), (fun e => nomatch e)⟩) (fun _ => rfl)
  | insert k i name doc how c =>
    refine key ?_ (fun _ => ⟨(fun e => nomatch e), (fun e => nomatch e)⟩) (fun K => (tame_answer (C := C) (IC := IC) (w := w) _ (by rfl) K).1)
    simp only [World.step, World.insert]
    repeat' split
    all_goals first | rfl | (rename_i h; have := draw_pending h; exact this)
  | op k i name o how =>
    refine key ?_ (fun _ => ⟨(fun e => nomatch e), (fun e => nomatch e)⟩) (fun K => (tame_answer (C := C) (IC := IC) (w := w) _ (by rfl) K).1)
    simp only [World.step]
    repeat' split
    all_goals rfl
  | commit k fail =>
    refine key ?_ (fun _ => ⟨(fun e => nomatch e), (fun e => nomatch e)⟩) (fun K => (tame_answer (C := C) (IC := IC) (w := w) _ (by rfl) K).1)
    simp only [World.step]
    repeat' split
    all_goals rfl
  | discard k =>
    refine key ?_ (fun _ => ⟨(fun e => nomatch e), (fun e => nomatch e)⟩) (fun K => (tame_answer (C := C) (IC := IC) (w := w) _ (by rfl) K).1)
    simp only [World.step]
    repeat' split
    all_goals rfl
  | getIndexes i name =>
    refine key ?_ (fun _ => ⟨(fun e => nomatch e), (fun e => nomatch e)⟩) (fun K => (tame_answer (C := C) (IC := IC) (w := w) _ (by rfl) K).1)
    simp only [World.step]
    repeat' split
    all_goals rfl
  | close i =>
    refine key ?_ (fun _ => ⟨(fun e => nomatch e), (fun e => nomatch e)⟩) (fun K => (tame_answer (C := C) (IC := IC) (w := w) _ (by rfl) K).1)
    simp only [World.step]
    repeat' split
    all_goals rfl
  | closed i env =>
    refine key ?_ (fun _ => ⟨(fun e => nomatch e), (fun e => nomatch e)⟩) (fun K => (tame_answer (C := C) (IC := IC) (w := w) _ (by rfl) K).1)
    simp only [World.step]
    repeat' split
    all_goals first | rfl | exact releases_pending _ _ _

/-- The calls under way have these parts behind them. -/
theorem traced {db : DB} (es : List (Ev D)) (h : Fair C IC db es) : Traced C IC db es (run C IC es (World.start db)).1 (run C IC es (World.start db)).2 := by
  induction hl : es.length generalizing es with
  | zero =>
    cases es with
    | nil =>
      refine ⟨?_, ?_, ?_, ?_⟩
      · intro p i name iid d t v hp; simp [run, World.start] at hp
      · intro p i name iid d hp; simp [run, World.start] at hp
      · intro p i name n hp; simp [run, World.start] at hp
      · intro p j a hj; simp at hj
    | cons _ _ => cases hl
  | succ n ih =>
    obtain ⟨l, e, rfl⟩ : ∃ l e, es = l ++ [e] :=
      ⟨es.dropLast, es.getLast (by rintro rfl; cases hl), (List.dropLast_concat_getLast _).symm⟩
    have ht := ih l h.left (by simpa using hl)
    obtain ⟨A, hA⟩ := catd l h.left
    obtain ⟨g, hg⟩ := told (C := C) IC h.blank l h.left.brief.1 h.left.brief.2
    have hm := step_moves (e := e) hA hg.kept (fun i name d how v env c he => h.modest i name d how v env c (by rw [he]; simp))
    have hlen := run_length C IC l (World.start db)
    have hrun : run C IC (l ++ [e]) (World.start db) = ((run C IC l (World.start db)).1 ++ [((run C IC l (World.start db)).2.step C IC e).1],
        ((run C IC l (World.start db)).2.step C IC e).2) := by rw [run_append]; rfl
    rw [hrun]
    have hte : ∀ j x, l[j]? = some x → (l ++ [e])[j]? = some x ∧ (l ++ [e]).take j = l.take j := by
      intro j x hj
      have hlt := (List.getElem?_eq_some_iff.mp hj).1
      exact ⟨by rw [List.getElem?_append_left hlt]; exact hj, List.take_append_of_le_length (Nat.le_of_lt hlt)⟩
    have hta : ∀ (a : Answer D) (j : Nat) x, (run C IC l (World.start db)).1[j]? = some x → ((run C IC l (World.start db)).1 ++ [a])[j]? = some x := by
      intro a j x hj
      rw [List.getElem?_append_left (List.getElem?_eq_some_iff.mp hj).1]; exact hj
    have hle : (l ++ [e])[l.length]? = some e := by rw [List.getElem?_append_right (Nat.le_refl _)]; simp
    have hla : ∀ a : Answer D, ((run C IC l (World.start db)).1 ++ [a])[l.length]? = some a := by
      intro a; rw [List.getElem?_append_right (by omega), hlen]; simp
    have hlt : (l ++ [e]).take l.length = l := by rw [List.take_append_of_le_length (Nat.le_refl _), List.take_length]
    generalize hw : (run C IC l (World.start db)).2 = w at *
    generalize has : (run C IC l (World.start db)).1 = as at *
    generalize (w.step C IC e).1 = a at *
    generalize (w.step C IC e).2 = w' at *
    -- what was known before
    have W : ∀ (p : Nat) i name iid d t v, w.pending[p]? = some (some ⟨i, name, .writing iid d t v⟩) →
        ∃ j : Nat, ∃ how v env c, (l ++ [e])[j]? = some (.createIndex i name d how v env c) ∧ (as ++ [a])[j]? = some (.drawn iid) ∧
          (run C IC ((l ++ [e]).take j) (World.start db)).2.pending.length = p := by
      intro p i name iid d t v hp
      obtain ⟨j, how, v, env, c, h1, h2, h3⟩ := ht.writing p i name iid d t v hp
      exact ⟨j, how, v, env, c, (hte _ _ h1).1, hta _ _ _ h2, by rw [(hte _ _ h1).2]; exact h3⟩
    have S : ∀ (p : Nat) i name iid d, w.pending[p]? = some (some ⟨i, name, .storing iid d⟩) →
        ∃ j k : Nat, ∃ how v env c f, (l ++ [e])[j]? = some (.createIndex i name d how v env c) ∧ (as ++ [a])[j]? = some (.drawn iid) ∧
          (run C IC ((l ++ [e]).take j) (World.start db)).2.pending.length = p ∧ j < k ∧
          (l ++ [e])[k]? = some (.writeIndex p f) ∧ (as ++ [a])[k]? = some (.stored name iid d) := by
      intro p i name iid d hp
      obtain ⟨j, k, how, v, env, c, f, h1, h2, h3, h4, h5, h6⟩ := ht.storing p i name iid d hp
      exact ⟨j, k, how, v, env, c, f, (hte _ _ h1).1, hta _ _ _ h2, by rw [(hte _ _ h1).2]; exact h3, h4, (hte _ _ h5).1, hta _ _ _ h6⟩
    have R : ∀ (p : Nat) i name n, w.pending[p]? = some (some ⟨i, name, .erasing n⟩) →
        ∃ j : Nat, ∃ how c, (l ++ [e])[j]? = some (.dropIndex i name n how c) ∧ (as ++ [a])[j]? = some (.erased name n) ∧
          (run C IC ((l ++ [e]).take j) (World.start db)).2.pending.length = p := by
      intro p i name n hp
      obtain ⟨j, how, c, h1, h2, h3⟩ := ht.erasing p i name n hp
      exact ⟨j, how, c, (hte _ _ h1).1, hta _ _ _ h2, by rw [(hte _ _ h1).2]; exact h3⟩
    have F : ∀ (p j : Nat) x, (l ++ [e])[j]? = some (.finish p) → (as ++ [a])[j]? = some x → x ≠ .none →
        w.pending[p]? = some none ∨ (e = .finish p ∧ a ≠ .none) := by
      intro p j x h1 h2 h3
      rcases Nat.lt_or_ge j l.length with hj | hj
      · rw [List.getElem?_append_left hj] at h1
        rw [List.getElem?_append_left (by omega)] at h2
        exact .inl (ht.done p j x h1 h2 h3)
      · have hj' := (List.getElem?_eq_some_iff.mp h1).1
        simp only [List.length_append, List.length_singleton] at hj'
        have : j = l.length := by omega
        subst this
        rw [hle] at h1; rw [hla] at h2
        cases h1; cases h2
        exact .inr ⟨rfl, h3⟩
    have append : ∀ {x : Option Pending} {p : Nat} {y}, (w.pending ++ [x])[p]? = some y → w.pending[p]? = some y ∨ (p = w.pending.length ∧ y = x) := by
      intro x p y hp
      rw [List.getElem?_append] at hp
      split at hp
      · exact .inl hp
      · have h0 := (List.getElem?_eq_some_iff.mp hp).1
        simp only [List.length_singleton] at h0
        exact .inr ⟨by omega, (List.mem_singleton.mp (List.mem_of_getElem? hp))⟩
    have set : ∀ {x : Option Pending} {p q : Nat} {y}, (w.pending.set q x)[p]? = some y → w.pending[p]? = some y ∨ (p = q ∧ y = x) := by
      intro x p q y hp
      rw [List.getElem?_set] at hp
      split at hp
      · split at hp
        · cases hp; rename_i h _; exact .inr ⟨h.symm, rfl⟩
        · cases hp
      · exact .inl hp
    have setd : ∀ {x : Option Pending} {p q : Nat}, w.pending[p]? = some none → p ≠ q → (w.pending.set q x)[p]? = some none := by
      intro x p q hp hne
      rw [List.getElem?_set_ne (Ne.symm hne)]; exact hp
    have setn : ∀ {p q : Nat}, w.pending[p]? = some none → (w.pending.set q none)[p]? = some none := by
      intro p q hp
      rw [List.getElem?_set]
      split
      · subst_vars; rw [if_pos (List.getElem?_eq_some_iff.mp hp).1]
      · exact hp
    have same : (∀ p, e = .finish p → a = .none) → w'.pending = w.pending → Traced C IC db (l ++ [e]) (as ++ [a]) w' := by
      intro hn hp
      refine ⟨by rw [hp]; exact W, by rw [hp]; exact S, by rw [hp]; exact R, ?_⟩
      intro p j x h1 h2 h3
      rw [hp]
      rcases F p j x h1 h2 h3 with h4 | ⟨h4, h5⟩
      · exact h4
      · exact absurd (hn p h4) h5
    have app : ∀ {x : Pending}, (∀ p, e = .finish p → a = .none) → w'.pending = w.pending ++ [some x] →
        (∀ i name iid d t v, x = ⟨i, name, .writing iid d t v⟩ → ∃ how v env c, e = .createIndex i name d how v env c ∧ a = .drawn iid) →
        (∀ i name iid d, x ≠ ⟨i, name, .storing iid d⟩) →
        (∀ i name n, x = ⟨i, name, .erasing n⟩ → ∃ how c, e = .dropIndex i name n how c ∧ a = .erased name n) →
        Traced C IC db (l ++ [e]) (as ++ [a]) w' := by
      intro x hn hp hwr hst her
      refine ⟨?_, ?_, ?_, ?_⟩
      · intro p i name iid d t v h1
        rw [hp] at h1
        rcases append h1 with h1 | ⟨h1, h2⟩
        · exact W _ _ _ _ _ _ _ h1
        · obtain ⟨how, v, env, c, h3, h4⟩ := hwr i name iid d t v (by cases h2; rfl)
          exact ⟨l.length, how, v, env, c, by rw [hle, h3], by rw [hla, h4], by rw [hlt, hw]; exact h1.symm⟩
      · intro p i name iid d h1
        rw [hp] at h1
        rcases append h1 with h1 | ⟨h1, h2⟩
        · exact S _ _ _ _ _ h1
        · exact absurd (by cases h2; rfl) (hst i name iid d)
      · intro p i name n h1
        rw [hp] at h1
        rcases append h1 with h1 | ⟨h1, h2⟩
        · exact R _ _ _ _ h1
        · obtain ⟨how, c, h3, h4⟩ := her i name n (by cases h2; rfl)
          exact ⟨l.length, how, c, by rw [hle, h3], by rw [hla, h4], by rw [hlt, hw]; exact h1.symm⟩
      · intro p j x h1 h2 h3
        rw [hp]
        rcases F p j x h1 h2 h3 with h4 | ⟨h4, h5⟩
        · rw [List.getElem?_append_left (List.getElem?_eq_some_iff.mp h4).1]; exact h4
        · exact absurd (hn p h4) h5
    have gone : ∀ q : Nat, w'.pending = w.pending.set q none → (∀ p, e = .finish p → a ≠ .none → p = q ∧ q < w.pending.length) →
        Traced C IC db (l ++ [e]) (as ++ [a]) w' := by
      intro q hp hf
      refine ⟨?_, ?_, ?_, ?_⟩
      · intro p i name iid d t v h1
        rw [hp] at h1
        rcases set h1 with h1 | ⟨-, h2⟩
        · exact W _ _ _ _ _ _ _ h1
        · cases h2
      · intro p i name iid d h1
        rw [hp] at h1
        rcases set h1 with h1 | ⟨-, h2⟩
        · exact S _ _ _ _ _ h1
        · cases h2
      · intro p i name n h1
        rw [hp] at h1
        rcases set h1 with h1 | ⟨-, h2⟩
        · exact R _ _ _ _ h1
        · cases h2
      · intro p j x h1 h2 h3
        rw [hp]
        rcases F p j x h1 h2 h3 with h4 | ⟨h4, h5⟩
        · exact setn h4
        · obtain ⟨rfl, h6⟩ := hf p h4 h5
          rw [List.getElem?_set, if_pos rfl, if_pos h6]
    generalize hps : w'.pending = ps at hm
    cases hm with
    | same _ hn _ => exact same (fun p h => (hn p h).1) hps
    | drawn =>
      refine app (fun _ e => nomatch e) hps ?_ (fun _ _ _ _ e => nomatch e) (fun _ _ _ e => nomatch e)
      intro i name iid d t v hx
      cases hx
      exact ⟨_, _, _, _, rfl, rfl⟩
    | @stored q f i name iid d t v hq =>
      refine ⟨?_, ?_, ?_, ?_⟩
      · intro p i name iid d t v h1
        rw [hps] at h1
        rcases set h1 with h1 | ⟨-, h2⟩
        · exact W _ _ _ _ _ _ _ h1
        · cases h2
      · intro p i name iid d h1
        rw [hps] at h1
        rcases set h1 with h1 | ⟨h0, h2⟩
        · exact S _ _ _ _ _ h1
        · subst h0; cases h2
          obtain ⟨j, how, v, env, c, h1, h2, h3⟩ := W _ _ _ _ _ _ _ hq
          have hj := (List.getElem?_eq_some_iff.mp h1).1
          simp only [List.length_append, List.length_singleton] at hj
          refine ⟨j, l.length, how, v, env, c, f, h1, h2, h3, ?_, hle, hla _⟩
          rcases Nat.lt_or_ge j l.length with hj' | hj'
          · exact hj'
          · have : j = l.length := by omega
            subst this
            rw [hle] at h1; cases h1
      · intro p i name n h1
        rw [hps] at h1
        rcases set h1 with h1 | ⟨-, h2⟩
        · exact R _ _ _ _ h1
        · cases h2
      · intro p j x h1 h2 h3
        rw [hps]
        rcases F p j x h1 h2 h3 with h4 | ⟨h4, h5⟩
        · refine setd h4 ?_
          rintro rfl
          rw [hq] at h4; cases h4
        · cases h4
    | failed _ _ => exact gone _ hps (fun _ e => nomatch e)
    | erased =>
      refine app (fun _ e => nomatch e) hps (fun _ _ _ _ _ _ e => nomatch e) (fun _ _ _ _ e => nomatch e) ?_
      intro i name n hx
      cases hx
      exact ⟨_, _, rfl, rfl⟩
    | created hq => exact gone _ hps (fun p e _ => by cases e; exact ⟨rfl, (List.getElem?_eq_some_iff.mp hq).1⟩)
    | dropped hq => exact gone _ hps (fun p e _ => by cases e; exact ⟨rfl, (List.getElem?_eq_some_iff.mp hq).1⟩)
    | @crash i =>
      have hmap : ∀ (p : Nat) x, w'.pending[p]? = some (some x) → w.pending[p]? = some (some x) := by
        intro p x hp
        rw [hps, List.getElem?_map, Option.map_eq_some_iff] at hp
        obtain ⟨q, h1, h2⟩ := hp
        rw [h1]
        split at h2
        · split at h2
          · cases h2
          · rw [h2]
        · cases h2
      refine ⟨fun p i name iid d t v h1 => W _ _ _ _ _ _ _ (hmap _ _ h1), fun p i name iid d h1 => S _ _ _ _ _ (hmap _ _ h1),
        fun p i name n h1 => R _ _ _ _ (hmap _ _ h1), ?_⟩
      intro p j x h1 h2 h3
      rw [hps, List.getElem?_map]
      rcases F p j x h1 h2 h3 with h4 | ⟨h4, h5⟩
      · rw [h4]; rfl
      · cases h4

end Mondis.DocDB
