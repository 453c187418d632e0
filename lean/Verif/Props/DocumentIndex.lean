import Verif.Lemmas.DocDBMemory
import Verif.Props.DocumentDBExamples
/-!
# C76: CreateIndex, DropIndex and GetIndexes called at the same time, in several processes
-/
namespace Mondis.DocDB
open Mondis Prog Doc Spec Props

variable {D : Type} {C : Codec D} {IC : IndexCodec} {w : World} {db : DB} {l l' es : List (Ev D)} {e : Ev D}

/-- The catalogue under names is the catalogue under numbers. -/
theorem Catd.get {A : Cats} {cat : Catalogue} {ids : List Int64} (h : Catd IC w A cat ids) {coll n : Bytes} {x : Int64 × IndexDef}
    (hx : (cat coll).get n = some x) : ∃ cid, numberOf w.store.db coll = some cid ∧ (A cid).get n = some x := by
  cases hn : numberOf w.store.db coll with
  | none => rw [h.bare coll hn, OMap.get_empty] at hx; cases hx
  | some cid => rw [h.same coll cid hn] at hx; exact ⟨cid, rfl, hx⟩

theorem Catd.taken {A : Cats} {cat : Catalogue} {ids : List Int64} (h : Catd IC w A cat ids) {coll : Bytes} {cid : Int64} {fs : List IndexField}
    (hn : numberOf w.store.db coll = some cid) : cat.Taken coll fs ↔ Idx.HasColumns A cid fs := by
  unfold Catalogue.Taken Idx.HasColumns
  rw [h.same coll cid hn]

/-! ### The catalogue at any moment -/

/-- C76: at any moment no number belongs to two indexes (of whatever collections), no two indexes of a collection are on the same
columns, and an index is listed under its own name. -/
theorem C76_one_to_one (h : Fair C IC db es) (K : Catalogue) (hK : K = catalogue (run C IC es (World.start db)).1)
    (coll coll' n n' : Bytes) (iid iid' : Int64) (d d' : IndexDef) (hd : (K coll).get n = some (iid, d)) (hd' : (K coll').get n' = some (iid', d')) :
    d.name = n ∧ n ≠ [] ∧ d.fields ≠ [] ∧ (iid = iid' → coll = coll' ∧ n = n') ∧ (coll = coll' → SameColumns d.fields d'.fields → n = n') := by
  subst hK
  obtain ⟨A, hA⟩ := catd es h
  obtain ⟨g, hg⟩ := told (C := C) IC h.blank es h.brief.1 h.brief.2
  obtain ⟨cid, h1, h2⟩ := hA.get hd
  obtain ⟨cid', h1', h2'⟩ := hA.get hd'
  obtain ⟨n1, n2, n3, -⟩ := hA.rep.name _ _ _ _ h2
  refine ⟨n1, n2, n3, ?_, ?_⟩
  · rintro rfl
    obtain ⟨rfl, rfl⟩ := hA.rep.id _ _ _ _ _ _ _ h2 h2'
    exact ⟨hg.kept.names.one h1 h1', rfl⟩
  · rintro rfl hs
    rw [h1] at h1'; cases h1'
    exact hA.rep.col _ _ _ _ _ _ _ h2 h2' hs

/-- C76: CreateIndex never draws the same number twice, in whatever processes. -/
theorem C76_ids (h : Fair C IC db es) : (iidsIn es (run C IC es (World.start db)).1).Nodup := by
  obtain ⟨g, hg⟩ := told (C := C) IC h.blank es h.brief.1 h.brief.2
  exact hg.inodup

/-! ### What the commits do -/

/-- C76: when the commit of a CreateIndex goes through, no index of the collection is on these columns *at that moment*, whatever
happened since it looked; its number was drawn by that call and belongs to no other index. -/
theorem C76_create (h : Fair C IC db (l ++ [e])) {coll : Bytes} {iid : Int64} {d : IndexDef}
    (ha : ((run C IC l (World.start db)).2.step C IC e).1 = .stored coll iid d)
    (K : Catalogue) (hK : K = catalogue (run C IC l (World.start db)).1) :
    ¬ K.Taken coll d.fields ∧ (∀ n m d', (K n).get m ≠ some (iid, d')) ∧
      ∃ p f, e = .writeIndex p f ∧ ∃ j : Nat, ∃ i how v env c, l[j]? = some (.createIndex i coll d how v env c) ∧
        (run C IC l (World.start db)).1[j]? = some (.drawn iid) ∧ (run C IC (l.take j) (World.start db)).2.pending.length = p := by
  subst hK
  obtain ⟨A, hA⟩ := catd l h.left
  obtain ⟨g, hg⟩ := told (C := C) IC h.blank l h.left.brief.1 h.left.brief.2
  have ht := traced l h.left
  generalize (run C IC l (World.start db)).1 = as at *
  generalize (run C IC l (World.start db)).2 = w at *
  have hm := step_moves (e := e) hA hg.kept (fun i name d how v env c he => h.modest i name d how v env c (by rw [he]; simp))
  rw [ha] at hm
  have no : ∀ {a : Answer D}, a = .stored coll iid d → ¬ ∀ K : Catalogue, K.next a = K := by
    rintro a rfl hK
    have := congrArg (fun m => OMap.get m d.name) (congrFun (hK .empty) coll)
    simp [Catalogue.next, Catalogue.empty] at this
  have : ∃ p f i t v, e = .writeIndex p f ∧ w.pending[p]? = some (some ⟨i, coll, .writing iid d t v⟩) := by
    cases htame : tame e with
    | true => exact absurd (fun K => (tame_answer (C := C) (IC := IC) (w := w) e htame K).1) (no ha)
    | false =>
      cases e with
      | writeIndex p f =>
        refine ⟨p, f, ?_⟩
        simp only [World.step] at ha
        split at ha
        · rename_i hq
          unfold World.writeIndex at ha
          split at ha
          · cases ha; exact ⟨_, _, _, rfl, joined hq⟩
          · cases ha
          · cases ha
        · cases ha
      | createIndex i name d how v env c =>
        rcases createIndex_cases hg.kept hA (h.modest i name d how v env c (by simp)) _ rfl with ⟨-, h1, -⟩ | ⟨w₁, iid', t, cid, k, x, -, -, h1, -⟩
        · exact absurd h1 (no ha)
        · rw [ha] at h1; cases h1
      | dropIndex i name iname how c =>
        rcases dropIndex_cases (C := C) hg.kept hA _ rfl with ⟨-, h1, -⟩ | ⟨cid, iid, d, k, ks, h1, -⟩
        · exact absurd h1 (no ha)
        · rw [ha] at h1; cases h1
      | _ => cases htame
  obtain ⟨p, f, i, t, v, rfl, hp⟩ := this
  obtain ⟨cid, k, x, hw⟩ := hA.pend p i coll iid d t v hp
  refine ⟨?_, ?_, p, f, rfl, ?_⟩
  · rw [hA.taken hw.number]
    refine hw.free_now hA hg.kept.seqs.framed ?_
    have e1 : w.step C IC (Ev.writeIndex (D := D) p f) = w.writeIndex p i coll iid d t v f := by simp only [World.step, hp, Option.join_some]
    rw [e1] at ha
    unfold World.writeIndex at ha
    rcases commit_cases w.store t v f with ⟨c1, ⟨c2, -⟩ | ⟨-, er, c2⟩⟩ | ⟨-, c2, c3⟩
    · rw [hw.writes] at c2; cases c2
    · have hx : w.store.commit t v f = (.err er, w.store) := Prod.ext c2 c1
      rw [hx] at ha; cases ha
    · exact c2
  · intro n m d' hx
    obtain ⟨c, -, h2⟩ := hA.get hx
    exact hw.unused c m d' h2
  · obtain ⟨j, how, v', env, c, h1, h2, h3⟩ := ht.writing p i coll iid d t v hp
    exact ⟨j, i, how, v', env, c, h1, h2, h3⟩

/-- C76: when the commit of a DropIndex goes through, the index is there *at that moment*. -/
theorem C76_drop (h : Fair C IC db (l ++ [e])) {coll n : Bytes}
    (ha : ((run C IC l (World.start db)).2.step C IC e).1 = .erased coll n) :
    (catalogue (run C IC l (World.start db)).1 coll).get n ≠ none ∧ ∃ i how c, e = .dropIndex i coll n how c := by
  obtain ⟨A, hA⟩ := catd l h.left
  obtain ⟨g, hg⟩ := told (C := C) IC h.blank l h.left.brief.1 h.left.brief.2
  generalize (run C IC l (World.start db)).1 = as at *
  generalize (run C IC l (World.start db)).2 = w at *
  have no : ∀ {a : Answer D}, a = .erased coll n → ¬ ∀ K : Catalogue, K.next a = K := by
    rintro a rfl hK
    have := congrArg (fun m => OMap.get m n) (congrFun (hK (fun _ => OMap.empty.set n (0, ⟨[], [], false⟩))) coll)
    simp [Catalogue.next] at this
  cases htame : tame e with
  | true => exact absurd (fun K => (tame_answer (C := C) (IC := IC) (w := w) e htame K).1) (no ha)
  | false =>
    cases e with
    | dropIndex i name iname how c =>
      rcases dropIndex_cases (C := C) hg.kept hA _ rfl with ⟨-, h1, -⟩ | ⟨cid, iid, d, k, ks, h1, h2, h3, -⟩
      · exact absurd h1 (no ha)
      · rw [ha] at h1; cases h1
        exact ⟨by rw [hA.same _ _ h2, h3]; simp, i, how, c, rfl⟩
    | createIndex i name d how v env c =>
      rcases createIndex_cases hg.kept hA (h.modest i name d how v env c (by simp)) _ rfl with ⟨-, h1, -⟩ | ⟨w₁, iid', t, cid, k, x, -, -, h1, -⟩
      · exact absurd h1 (no ha)
      · rw [ha] at h1; cases h1
    | writeIndex p f =>
      simp only [World.step] at ha
      split at ha
      · unfold World.writeIndex at ha
        split at ha <;> cases ha
      · cases ha
    | _ => cases htame

/-! ### What the calls answer -/

/-- C76: whatever state a transaction has its snapshot of, it was the state at some moment of the history. -/
theorem C76_moment (h : Fair C IC db es) (v : Nat) (hv : v ≤ (run C IC es (World.start db)).2.store.now) :
    ∃ l l', es = l ++ l' ∧ (run C IC l (World.start db)).2.store.now = v := moment es h v hv

/-- C76: a CreateIndex that finds an index on these columns at the moment of its snapshot changes nothing, and says so. -/
theorem C76_refused (h : Fair C IC db (l ++ l')) {i : Nat} {coll : Bytes} {d : IndexDef} {how : How} {v : Nat} {env : Env} {c : Turn}
    (hv : (run C IC l (World.start db)).2.store.now = v) (hs : Sane d env)
    (ht : (catalogue (run C IC l (World.start db)).1).Taken coll d.fields) (w : World) (hw : w = (run C IC (l ++ l') (World.start db)).2) :
    (w.step C IC (.createIndex i coll d how v env c)).2 = w ∧ (w.step C IC (.createIndex i coll d how v env c)).1.failed = true ∧
    ∀ o cl, w.call i coll how = some (o, cl, .ok ()) → d.name ≠ [] → d.fields ≠ [] →
      (w.step C IC (.createIndex i coll d how v env c)).1 = .created (.err errSameColumns) := by
  obtain ⟨A, hA, hsame⟩ := at_moment h
  obtain ⟨g, hg⟩ := told (C := C) IC h.blank (l ++ l') h.brief.1 h.brief.2
  rw [hv] at hA
  have hle : v ≤ (run C IC (l ++ l') (World.start db)).2.store.now := by
    rw [← hv, run_append]; exact (run_after C IC l' _).store.now
  have hk := hg.kept
  rw [← hw] at hA hsame hk hle
  clear hw hg
  simp only [World.step]
  cases hc : w.call i coll how with
  | none => exact ⟨rfl, rfl, fun _ _ e => nomatch e⟩
  | some x =>
    obtain ⟨o, cl, r⟩ := x
    obtain ⟨-, -, hn, -⟩ := hk.called hc
    simp only
    by_cases h1 : d.name = []
    · rw [if_pos h1]; exact ⟨rfl, rfl, fun _ _ _ e => absurd h1 e⟩
    by_cases h2 : d.fields = []
    · rw [if_neg h1, if_pos h2]; exact ⟨rfl, rfl, fun _ _ _ _ e => absurd h2 e⟩
    rw [if_neg h1, if_neg h2]
    cases r with
    | err er => exact ⟨rfl, rfl, fun _ _ e => nomatch e⟩
    | panic => exact ⟨rfl, rfl, fun _ _ e => nomatch e⟩
    | ok u =>
      simp only
      unfold World.createIndex
      rw [if_neg (by omega)]
      obtain ⟨k, hkk⟩ := Idx.ci_ok cl.cid d.fields
      rw [hkk]
      simp only
      have hcol : Idx.HasColumns A cl.cid d.fields := by
        obtain ⟨n, iid, d', hd, hsc⟩ := ht
        rw [hsame coll cl.cid hn] at hd
        exact ⟨n, iid, d', hd, hsc⟩
      obtain ⟨y, hy, hy1, hy2⟩ := (Idx.hasColumns_iff hA hkk (hs.len cl.cid k hkk)).mp hcol
      have := (Idx.checkColumns_run env (w.store.data v) (Idx.ci_ne_nil hkk)).1
      generalize (checkColumns k).run (Txn.start { env with update := true } (w.store.data v)) = z at *
      obtain ⟨r, t⟩ := z
      rcases this with ⟨_, _, _, _, h4⟩ | ⟨h4, -⟩
      · simp only at h4
        subst h4
        exact ⟨rfl, rfl, fun _ _ _ _ _ => rfl⟩
      · exact absurd (h4 y hy (by simp [Val.live, hy1])) hy2

/-- C76: DropIndex answers false exactly if there was no such index at the moment of its snapshot, and then changes nothing. -/
theorem C76_absent (h : Fair C IC db (l ++ l')) {i : Nat} {coll n : Bytes} {how : How} {c : Turn}
    (hv : (run C IC l (World.start db)).2.store.now = c.v) (w : World) (hw : w = (run C IC (l ++ l') (World.start db)).2) :
    ((w.step C IC (.dropIndex i coll n how c)).1 = .dropped (.ok false) → (catalogue (run C IC l (World.start db)).1 coll).get n = none) ∧
    ((catalogue (run C IC l (World.start db)).1 coll).get n = none →
      (w.step C IC (.dropIndex i coll n how c)).2 = w ∧
      ∀ o cl, w.call i coll how = some (o, cl, .ok ()) → n ≠ [] → (w.step C IC (.dropIndex i coll n how c)).1 = .dropped (.ok false)) := by
  obtain ⟨A, hA, hsame⟩ := at_moment h
  obtain ⟨g, hg⟩ := told (C := C) IC h.blank (l ++ l') h.brief.1 h.brief.2
  rw [hv] at hA
  have hle : c.v ≤ (run C IC (l ++ l') (World.start db)).2.store.now := by
    rw [← hv, run_append]; exact (run_after C IC l' _).store.now
  have hk := hg.kept
  rw [← hw] at hA hsame hk hle
  clear hw hg
  simp only [World.step]
  cases hc : w.call i coll how with
  | none => exact ⟨(fun e => nomatch e), fun _ => ⟨rfl, fun _ _ e => nomatch e⟩⟩
  | some x =>
    obtain ⟨o, cl, r⟩ := x
    obtain ⟨-, -, hn, -⟩ := hk.called hc
    simp only
    by_cases h1 : n = []
    · rw [if_pos h1]; exact ⟨(fun e => nomatch e), fun _ => ⟨rfl, fun _ _ _ e => absurd h1 e⟩⟩
    rw [if_neg h1]
    cases r with
    | err er => exact ⟨(fun e => nomatch e), fun _ => ⟨rfl, fun _ _ e => nomatch e⟩⟩
    | panic => exact ⟨(fun e => nomatch e), fun _ => ⟨rfl, fun _ _ e => nomatch e⟩⟩
    | ok u =>
      simp only
      unfold World.dropIndex
      rw [if_neg (by omega), hsame coll cl.cid hn]
      have hfresh := Idx.start_fresh c.env (w.store.data c.v)
      cases hd : (A cl.cid).get n with
      | none =>
        have := Idx.drop_none hA hfresh hd
        generalize (dropIndexTxn IC cl.cid n).run (Txn.start { c.env with update := true } (w.store.data c.v)) = z at *
        obtain ⟨r, t⟩ := z
        simp only at this
        subst this
        exact ⟨fun _ => rfl, fun _ => ⟨rfl, fun _ _ _ _ => rfl⟩⟩
      | some y =>
        obtain ⟨iid, d⟩ := y
        obtain ⟨k, hkk⟩ := Idx.ci_ok cl.cid d.fields
        refine ⟨fun e => ?_, fun e => nomatch e⟩
        rcases Idx.drop_some' hA hfresh hd hkk with ⟨t, h1, -⟩ | ⟨t, h1, h2, h3, h4⟩
        · rw [h1] at e; cases e
        · rw [h1] at e
          simp only at e
          split at e <;> cases e

/-- C76: what CreateIndex and DropIndex answer at their end they have done: the index was stored, or erased, by their own commit, and
each call answers once. -/
theorem C76_calls (h : Fair C IC db l) (p : Nat) :
    (∀ iid, ((run C IC l (World.start db)).2.step C IC (.finish p)).1 = .created (.ok iid) →
      ∃ j k : Nat, ∃ i coll d how v env c f, l[j]? = some (.createIndex i coll d how v env c) ∧ (run C IC l (World.start db)).1[j]? = some (.drawn iid) ∧
        (run C IC (l.take j) (World.start db)).2.pending.length = p ∧ j < k ∧
        l[k]? = some (.writeIndex p f) ∧ (run C IC l (World.start db)).1[k]? = some (.stored coll iid d)) ∧
    (∀ b, ((run C IC l (World.start db)).2.step C IC (.finish p)).1 = .dropped (.ok b) → b = true ∧
      ∃ j : Nat, ∃ i coll n how c, l[j]? = some (.dropIndex i coll n how c) ∧ (run C IC l (World.start db)).1[j]? = some (.erased coll n) ∧
        (run C IC (l.take j) (World.start db)).2.pending.length = p) ∧
    (∀ j : Nat, ∀ a, l[j]? = some (.finish p) → (run C IC l (World.start db)).1[j]? = some a → a ≠ .none →
      ((run C IC l (World.start db)).2.step C IC (.finish p)).1 = .none) := by
  have ht := traced l h
  obtain ⟨A, hA⟩ := catd l h
  obtain ⟨g, hg⟩ := told (C := C) IC h.blank l h.brief.1 h.brief.2
  have hm := step_moves (e := Ev.finish (D := D) p) hA hg.kept (fun _ _ _ _ _ _ _ he => nomatch he)
  generalize (run C IC l (World.start db)).1 = as at *
  generalize (run C IC l (World.start db)).2 = w at *
  refine ⟨fun iid ha => ?_, fun b ha => ?_, fun j a hj hja hn => ?_⟩
  · rw [ha] at hm
    generalize (w.step C IC (.finish p)).2.pending = ps at hm
    cases hm with
    | same _ h _ => cases (h p rfl).1
    | @created _ i name _ d hq =>
      obtain ⟨j, k, how, v, env, c, f, hh⟩ := ht.storing _ _ _ _ _ hq
      exact ⟨j, k, i, name, d, how, v, env, c, f, hh⟩
  · rw [ha] at hm
    generalize (w.step C IC (.finish p)).2.pending = ps at hm
    cases hm with
    | same _ h _ => cases (h p rfl).1
    | @dropped _ i name n hq =>
      obtain ⟨j, how, c, hh⟩ := ht.erasing _ _ _ _ hq
      exact ⟨rfl, j, i, name, n, how, c, hh⟩
  · have := ht.done p j a hj hja hn
    simp only [World.step, this, Option.join_some]

/-! ### GetIndexes -/

/-- C76: when Collection opens a collection, in whatever process, it succeeds and the object knows the collection's indexes at that
moment: GetIndexes lists their definitions as they were given. -/
theorem C76_opened (h : Fair C IC db l) {i : Nat} {o : Obj} {coll : Bytes} {cid : Int64} {p : Nat} (env : Env)
    (ho : (run C IC l (World.start db)).2.obj i = some o) (hm : o.making = some (.counted coll cid p)) :
    ∃ ds, (run C IC [.indexes i env, .getIndexes i coll] (run C IC l (World.start db)).2).1 = [.handle (.ok ()), .listed ds] ∧
      Lists ds (catalogue (run C IC l (World.start db)).1) coll ∧
      ∀ d ∈ ds, ∃ iid, (catalogue (run C IC l (World.start db)).1 coll).get d.name = some (iid, d) := by
  obtain ⟨o', cl, ds, h1, h2, h3, h4, h5, h6, h7⟩ := mem_opened h env ho hm
  obtain ⟨h8, h9⟩ := memOf_ok h6
  rw [← h5, ← h4] at h8 h9
  refine ⟨cl.indexMap.ents.map Prod.snd, ?_, lists_of h8 h6, ?_⟩
  · generalize (run C IC l (World.start db)).2 = w at *
    simp only [run, h1]
    congr 2
    simp only [World.step] at h2 ⊢
    rw [h2]
    simp only [h3]
  · intro d hd
    obtain ⟨e, h10, rfl⟩ := List.mem_map.mp hd
    obtain ⟨iid, h11⟩ := h9 e.1 e.2 (OMap.mem_get h10)
    have := h6 _ _ h11
    simp only at this
    exact ⟨iid, by rw [this]; exact h11⟩

/-- C76: as long as the indexes of the collection are changed through this object only, by one call after the other, GetIndexes of the
object lists them, between the calls. -/
theorem C76_listed {l₀ : List (Ev D)} {i : Nat} {env : Env} (h : Fair C IC db (l₀ ++ .indexes i env :: l)) {o : Obj} {coll : Bytes} {cid : Int64} {p : Nat}
    (ho : (run C IC l₀ (World.start db)).2.obj i = some o) (hm : o.making = some (.counted coll cid p))
    (hone : OneByOne C IC i coll l (run C IC (l₀ ++ [.indexes i env]) (World.start db)).2)
    (w : World) (hw : w = (run C IC (l₀ ++ .indexes i env :: l) (World.start db)).2) (hu : ¬ Unsettled w i coll) (hl : w.obj i ≠ none) :
    ∃ ds, (w.step C IC (.getIndexes i coll)).1 = .listed ds ∧ Lists ds (catalogue (run C IC (l₀ ++ .indexes i env :: l) (World.start db)).1) coll := by
  have e1 : l₀ ++ .indexes i env :: l = (l₀ ++ [.indexes i env]) ++ l := by simp
  rw [e1] at h hw ⊢
  have hf : Fair C IC db l₀ := h.left.left
  obtain ⟨o', cl, ds, h1, h2, h3, h4, h5, h6, h7⟩ := mem_opened hf env ho hm
  have hmem : Mem (run C IC (l₀ ++ [.indexes i env]) (World.start db)).2 i coll (catalogue (run C IC (l₀ ++ [.indexes i env]) (World.start db)).1) := by
    rw [run_append]
    dsimp only [run]
    rw [catalogue_append, h1]
    exact h7
  have hM := mem_run h hmem hone
  obtain ⟨A, hA⟩ := catd _ h
  have hnm : ∀ n x, (catalogue (run C IC (l₀ ++ [.indexes i env] ++ l) (World.start db)).1 coll).get n = some x → x.2.name = n := by
    intro n x hx
    obtain ⟨cid, -, h9⟩ := hA.get hx
    exact (hA.rep.name cid n x.1 x.2 h9).1
  rw [← hw] at hM
  rw [unsettled_iff] at hu
  cases hob : w.obj i with
  | none => exact absurd hob hl
  | some o₁ =>
    obtain ⟨cl₁, h10, h11⟩ := hM.mem o₁ hob
    rcases h11 with ⟨-, h11⟩ | ⟨p', st, f, h11, -⟩
    · refine ⟨cl₁.indexMap.ents.map Prod.snd, ?_, lists_of h11 hnm⟩
      simp only [World.step, hob, h10]
    · exact absurd ⟨p', st, f, h11⟩ hu

end Mondis.DocDB
