import Verif.Lemmas.DocDBInv
/-!
# Package document: what single steps keep
-/
namespace Mondis.DocDB
open Mondis Prog Doc Spec Props

variable {D : Type} {C : Codec D} {w w' : World} {g : Ghost D} {b : Nat}

theorem Kept.weaken (h : Kept C w g b) {b' : Nat} (hb : b ≤ b') : Kept C w g b' := { h with seqs := h.seqs.weaken hb }

/-! ### Objects -/

/-- One object is replaced, added or gone. -/
theorem Kept.reobj (h : Kept C w g b) (i : Nat) {os : List (Option Obj)} (hold : ∀ j : Nat, j ≠ i → (os[j]?).join = (w.objs[j]?).join)
    (hnew : ∀ o, (os[i]?).join = some o → ObjOK w.store.db w.gens o ∧ ∀ name t v u, o.making = some (.drawn name t v u) →
      Claim w.objs i name t v u ∨ (ClaimOK w.store g.out name t v u ∧ ∀ j name' t' v' u', Claim w.objs j name' t' v' u' → j ≠ i → u ≠ u')) :
    Kept C { w with objs := os } g b := by
  have hcl : ∀ j name t v u, Claim os j name t v u → Claim w.objs j name t v u ∨
      (j = i ∧ ClaimOK w.store g.out name t v u ∧ ∀ j name' t' v' u', Claim w.objs j name' t' v' u' → j ≠ i → u ≠ u') := by
    rintro j name t v u ⟨o, h1, h2⟩
    by_cases e : j = i
    · subst e
      rcases (hnew o h1).2 name t v u h2 with h3 | h3
      · exact .inl h3
      · exact .inr ⟨rfl, h3⟩
    · rw [hold j e] at h1
      exact .inl ⟨o, h1, h2⟩
  refine { h with claims := ?_, apart := ?_, objs := ?_ }
  · intro j name t v u hc
    rcases hcl j name t v u hc with h1 | ⟨-, h1, -⟩
    · exact h.claims j name t v u h1
    · exact h1
  · intro j k name t v u name' t' v' u' hc hc' hjk
    rcases hcl j name t v u hc with h1 | ⟨e1, -, h1⟩
    · rcases hcl k name' t' v' u' hc' with h2 | ⟨e2, -, h2⟩
      · exact h.apart j k name t v u name' t' v' u' h1 h2 hjk
      · exact fun e => h2 j name t v u h1 (by rw [← e2]; exact hjk) e.symm
    · rcases hcl k name' t' v' u' hc' with h2 | ⟨e2, -, h2⟩
      · exact h1 k name' t' v' u' h2 (by rw [← e1]; exact Ne.symm hjk)
      · exact absurd (e1.trans e2.symm) hjk
  · intro j o hj
    by_cases e : j = i
    · subst e; exact (hnew o hj).1
    · have hj : (os[j]?).join = some o := hj
      rw [hold j e] at hj
      exact h.objs j o hj

theorem join_set {α : Type} (l : List (Option α)) (i j : Nat) (x : Option α) (h : j ≠ i) : ((l.set i x)[j]?).join = (l[j]?).join := by
  rw [List.getElem?_set_ne (Ne.symm h)]

theorem join_set_self {α : Type} {l : List (Option α)} {i : Nat} {x : Option α} {a : α} (h : ((l.set i x)[i]?).join = some a) : x = some a := by
  rw [List.getElem?_set] at h
  simp only [if_true] at h
  split at h
  · simpa using h
  · simp at h

theorem Kept.putObj (h : Kept C w g b) {i : Nat} {o : Obj} (ho : ObjOK w.store.db w.gens o)
    (hm : ∀ name t v u, o.making = some (.drawn name t v u) → Claim w.objs i name t v u ∨
      (ClaimOK w.store g.out name t v u ∧ ∀ j name' t' v' u', Claim w.objs j name' t' v' u' → j ≠ i → u ≠ u')) :
    Kept C (w.putObj i o) g b := by
  refine h.reobj i (fun j hj => join_set _ _ _ _ hj) ?_
  intro o' ho'
  have := join_set_self ho'
  cases this
  exact ⟨ho, hm⟩

/-- An object whose making does not claim a number. -/
theorem Kept.putObj' (h : Kept C w g b) {i : Nat} {o : Obj} (ho : ObjOK w.store.db w.gens o)
    (hm : ∀ name t v u, o.making ≠ some (.drawn name t v u)) : Kept C (w.putObj i o) g b :=
  h.putObj ho (fun name t v u e => absurd e (hm name t v u))

theorem Kept.repend (h : Kept C w g b) {ps : List (Option Pending)} (hp : ∀ i name iid d t v, some ⟨i, name, .writing iid d t v⟩ ∈ ps → ∀ k ∈ t.writes.map Prod.fst, Idx.IsIndexKey k) :
    Kept C { w with pending := ps } g b := { h with pend := hp }

/-! ### Transactions -/

theorem Ghost.put_same (g : Ghost D) (k : Nat) (t : Trace D) : (g.put k t).tr k = t := if_pos rfl

theorem Ghost.put_ne (g : Ghost D) {j k : Nat} (h : j ≠ k) (t : Trace D) : (g.put k t).tr j = g.tr j := if_neg h

/-- The transactions in an overlap are over. -/
theorem Overlap.ends {j k : Nat} (h : Overlap w j k) : (∃ s, w.sessions[j]? = some s ∧ s.phase ≠ .live) ∧ ∃ s, w.sessions[k]? = some s ∧ s.phase ≠ .live := by
  obtain ⟨sj, sk, m, n, h1, h2, h3, h4, -⟩ := h
  exact ⟨⟨sj, h1, by rw [h3]; nofun⟩, sk, h2, by rw [h4]; nofun⟩

/-- A transaction that is not over is replaced, or one is added. -/
theorem Kept.resess (h : Kept C w g b) {k : Nat} {ss : List Session} {s' : Session} {t' : Trace D}
    (hk : ss[k]? = some s') (hother : ∀ j : Nat, j ≠ k → ss[j]? = w.sessions[j]?) (hlen : w.sessions.length ≤ ss.length)
    (hold : ∀ s, w.sessions[k]? = some s → s.phase = .live) (hs : Sess C w.store g.docs s' t') :
    Kept C { w with sessions := ss } (g.put k t') b := by
  have hne : ∀ (j : Nat) s, w.sessions[j]? = some s → s.phase ≠ .live → j ≠ k ∧ ss[j]? = some s := by
    intro j s hj hp
    have : j ≠ k := by
      rintro rfl
      exact hp (hold s hj)
    exact ⟨this, by rw [hother j this]; exact hj⟩
  have hcom : ∀ j ∈ g.commits, j ≠ k := by
    intro j hj
    obtain ⟨s, h1, h2⟩ := h.commits j hj
    exact (hne j s h1 h2).1
  have hwr : (g.put k t').writers = g.writers := by
    unfold Ghost.writers
    refine List.filter_congr (fun j hj => ?_)
    rw [Ghost.put_ne g (hcom j hj)]
  refine { h with sess := ?_, blank := ?_, steps := ?_, commits := ?_, chain := ?_ }
  · intro j s hj
    by_cases e : j = k
    · subst e
      have hj : ss[j]? = some s := hj
      rw [hk] at hj; cases hj
      rw [Ghost.put_same]; exact hs
    · rw [Ghost.put_ne g e]
      have hj : ss[j]? = some s := hj
      rw [hother j e] at hj
      exact h.sess j s hj
  · intro j hj
    have hj : ss.length ≤ j := hj
    have : k < ss.length := (List.getElem?_eq_some_iff.mp hk).1
    rw [Ghost.put_ne g (by omega)]
    exact h.blank j (by omega)
  · intro n hn
    rcases h.steps n hn with h1 | ⟨j, s, h1, h2⟩
    · exact .inl h1
    · exact .inr ⟨j, s, (hne j s h1 (by rw [h2]; nofun)).2, h2⟩
  · intro j hj
    obtain ⟨s, h1, h2⟩ := h.commits j hj
    exact ⟨s, (hne j s h1 h2).2, h2⟩
  · intro hc
    rw [hwr]
    have : g.writers.map (fun j => ((g.put k t').tr j).recs) = g.writers.map (fun j => (g.tr j).recs) := by
      refine List.map_congr_left (fun j hj => ?_)
      rw [Ghost.put_ne g (hcom j (List.mem_filter.mp hj).1)]
    rw [this]
    refine h.chain ?_
    intro j l ho q hq hp r hr hwq
    obtain ⟨⟨sj, e1, e2⟩, sl, e3, e4⟩ := Overlap.ends ho
    obtain ⟨n1, m1⟩ := hne j sj e1 e2
    obtain ⟨n2, m2⟩ := hne l sl e3 e4
    refine hc j l ?_ q (by rw [Ghost.put_ne g n2]; exact hq) hp r (by rw [Ghost.put_ne g n1]; exact hr) hwq
    obtain ⟨sj', sl', m, n, h1, h2, h3⟩ := ho
    exact ⟨sj', sl', m, n, (hne j sj' h1 (by rw [h3.1]; nofun)).2, (hne l sl' h2 (by rw [h3.2.1]; nofun)).2, h3⟩

theorem Kept.putSession (h : Kept C w g b) {k : Nat} {s s' : Session} {t' : Trace D} (hk : w.sessions[k]? = some s) (hl : s.phase = .live)
    (hs : Sess C w.store g.docs s' t') : Kept C (w.putSession k s') (g.put k t') b := by
  have hlt := (List.getElem?_eq_some_iff.mp hk).1
  refine h.resess (List.getElem?_set_self hlt) (fun j hj => List.getElem?_set_ne (Ne.symm hj)) (by rw [List.length_set]; exact Nat.le_refl _) ?_ hs
  intro s₁ h₁
  rw [hk] at h₁; cases h₁; exact hl

theorem Kept.begin (h : Kept C w g b) (env : Env) (hr : Roomy env) :
    Kept C { w with sessions := w.sessions ++ [⟨Txn.start env w.store.db, w.store.now, .live⟩] }
      (g.put w.sessions.length { docs := g.docs w.store.now }) b := by
  refine h.resess (k := w.sessions.length) (s' := ⟨Txn.start env w.store.db, w.store.now, .live⟩)
    (t' := { docs := g.docs w.store.now }) (by simp) ?_ (by simp) (fun s hs => by simp at hs) ?_
  · intro j hj
    rcases Nat.lt_or_ge j w.sessions.length with hl | hl
    · rw [List.getElem?_append_left hl]
    · rw [List.getElem?_append_right hl, List.getElem?_eq_none_iff.mpr hl, List.getElem?_eq_none_iff.mpr (by simp; omega)]
  · exact
    { le := Nat.le_refl _
      roomy := hr
      recs := nofun
      tale := fun _ => by
        have := tale_start (norm := C.norm) (D := D) { schema := none, update := true, docs := g.docs w.store.now } rfl .fresh
        exact this
      heard := fun _ => ⟨rfl, rfl, nofun⟩
      idle := nofun
      view := rfl
      holds := h.docs _ (Nat.le_refl _)
      keys := rfl
      reads := nofun
      done := nofun }

/-- A transaction ends without having written. -/
theorem Kept.over (h : Kept C w g b) {k : Nat} {s : Session} (hk : w.sessions[k]? = some s) (hl : s.phase = .live) :
    Kept C (w.putSession k { s with phase := .over }) g b := by
  have := h.putSession hk hl (s' := { s with phase := .over }) (t' := g.tr k) { h.sess k s hk with done := nofun }
  have e : g.put k (g.tr k) = g := by
    unfold Ghost.put
    congr 1
    funext j
    split
    · rename_i hj; rw [hj]
    · rfl
  rw [e] at this
  exact this

/-- A commit without writes is recorded. -/
theorem Kept.commitIdle (h : Kept C w g b) {k : Nat} {s : Session} (hk : w.sessions[k]? = some s) (hp : s.phase ≠ .live)
    (hw : s.txn.writes = []) : Kept C w { g with commits := g.commits ++ [k] } b := by
  have hs := h.sess k s hk
  have hnone : ¬ ((g.tr k).recs.map Prod.fst).any Said.wrote = true := by
    intro hx
    obtain ⟨q, hq, hwq⟩ := (recs_wrote _).mp hx
    cases hu : s.txn.env.update with
    | false => rw [hs.idle hu q hq] at hwq; cases hwq
    | true =>
      have := (hs.tale hu).wrote q hq hwq
      have hk := hs.keys
      rw [hw] at hk
      exact absurd (List.map_eq_nil_iff.mp hk.symm) this
  have hwr : ({ g with commits := g.commits ++ [k] } : Ghost D).writers = g.writers := by
    unfold Ghost.writers
    dsimp only
    rw [List.filter_append, List.filter_cons, if_neg hnone, List.filter_nil, List.append_nil]
  refine { h with commits := ?_, chain := ?_ }
  · intro j hj
    rcases List.mem_append.mp hj with hj | hj
    · exact h.commits j hj
    · rw [List.mem_singleton.mp hj]; exact ⟨s, hk, hp⟩
  · intro hc
    rw [hwr]
    exact h.chain hc

/-! ### Commits -/

theorem doc_at {A A' : Docs D} {db db' : DB} (h : HoldsDocs C A db) (h' : HoldsDocs C A' db') {c i : Int64}
    (he : db'.get (documentKey c i) = db.get (documentKey c i)) : (A' c).get i = (A c).get i := by
  have h1 := h.rep.docs c i
  have h2 := h'.rep.docs c i
  rw [he] at h2
  cases e1 : (A c).get i <;> cases e2 : (A' c).get i <;> cases e3 : db.get (documentKey c i) <;>
    simp only [e1, e2, e3, Doc.Shows] at h1 h2 <;> first | rfl | cases h1 | cases h2 | skip
  rw [h1] at h2
  cases h2; rfl

theorem dk_atDoc (c i : Int64) : AtDoc (documentKey c i) := ⟨c, documentKey_prefix.mpr rfl⟩

/-- A document that changed was written by a transaction committed in the meantime. -/
theorem Kept.changed (h : Kept C w g b) {v n : Nat} (hv : v ≤ n) (hn : n ≤ w.store.now) {x i : Int64} (hne : (g.docs n x).get i ≠ (g.docs v x).get i) :
    ∃ (j : Nat) (s : Session) (m : Nat), w.sessions[j]? = some s ∧ s.phase = .committed m ∧ v < m ∧ m ≤ n ∧ (x, i) ∈ (g.tr j).touched := by
  induction n with
  | zero => rw [show v = 0 by omega] at hne; exact absurd rfl hne
  | succ n ih =>
    rcases Nat.lt_or_ge v (n + 1) with hl | hl
    · by_cases he : (g.docs n x).get i = (g.docs v x).get i
      · rcases h.steps n (by omega) with h1 | ⟨j, s, h1, h2⟩
        · rw [h1, he] at hne; exact absurd rfl hne
        · refine ⟨j, s, n + 1, h1, h2, hl, Nat.le_refl _, ?_⟩
          obtain ⟨-, -, -, hm, -⟩ := (h.sess j s h1).done _ h2
          have := hm x i
          apply Classical.byContradiction
          intro hx
          rw [if_neg hx] at this
          exact hne (this.trans he)
      · obtain ⟨j, s, m, h1, h2, h3, h4, h5⟩ := ih (by omega) (by omega) he
        exact ⟨j, s, m, h1, h2, h3, by omega, h5⟩
    · rw [show v = n + 1 by omega] at hne; exact absurd rfl hne

theorem Kept.commit (h : Kept C w g b) {k : Nat} {s : Session} (hk : w.sessions[k]? = some s) (hl : s.phase = .live)
    (hw : s.txn.writes ≠ []) (hc : w.store.clash s.txn.reads s.v = false) :
    ∃ A, Kept C ({ w with store := w.store.push (applyWrites w.store.db s.txn.writes) (s.txn.writes.map Prod.fst) }.putSession k
      { s with phase := .committed (w.store.now + 1) }) { g with docs := A, commits := g.commits ++ [k] } b := by
  have hs := h.sess k s hk
  have hu : s.txn.env.update = true := by
    cases hu : s.txn.env.update with
    | true => rfl
    | false => exact absurd (hs.heard hu).1 hw
  have ht := hs.tale hu
  let A : Nat → Docs D := fun n => if n ≤ w.store.now then g.docs n else mergeDocs (g.tr k).docs (g.tr k).touched (g.docs w.store.now)
  have hA : Agree w.store.now g.docs A := fun m hm => if_pos hm
  have hAn : A (w.store.now + 1) = mergeDocs (g.tr k).docs (g.tr k).touched (g.docs w.store.now) := if_neg (by omega)
  have hmg : Merged (g.tr k).touched (g.tr k).docs (g.docs w.store.now) (A (w.store.now + 1)) := by
    rw [hAn]; exact merged_mergeDocs _ _ _
  have hlt := (List.getElem?_eq_some_iff.mp hk).1
  have hkeys : ∀ x ∈ s.txn.writes.map Prod.fst, AtDoc x := by
    intro x hx
    rw [hs.keys] at hx
    obtain ⟨p, -, rfl⟩ := List.mem_map.mp hx
    exact dk_atDoc _ _
  have hfr : ∀ x, x ∉ s.txn.writes.map Prod.fst → (applyWrites w.store.db s.txn.writes).get x = w.store.db.get x :=
    fun x hx => get_applyWrites_of_not_mem hx
  have hname : ∀ name, (applyWrites w.store.db s.txn.writes).get (metaCollectionName2IDKey name) = w.store.db.get (metaCollectionName2IDKey name) :=
    fun name => hfr _ (fun hm => name_side name (hkeys _ hm))
  have hnum : ∀ name, numberOf (applyWrites w.store.db s.txn.writes) name = numberOf w.store.db name := fun name => numberOf_congr (hname name)
  have hle : StoreLe w.store (w.store.push (applyWrites w.store.db s.txn.writes) (s.txn.writes.map Prod.fst)) := .push _ _ _
  have hdoc : HoldsDocs C (A (w.store.now + 1)) (applyWrites w.store.db s.txn.writes) := by
    refine holdsDocs_commit (snap := w.store.data s.v) (by rw [← hs.view]; exact hs.holds) (h.docs _ (Nat.le_refl _)) hs.keys hmg
  have hlook : ∀ p ∈ (g.tr k).looked, (g.docs w.store.now p.1).get p.2 = (g.docs s.v p.1).get p.2 := by
    intro p hp
    exact doc_at (h.docs _ hs.le) (h.docs _ (Nat.le_refl _)) (h.seqs.framed.unclashed hc hs.le (hs.reads p hp))
  have hss : ∀ (j : Nat) s', (w.sessions.set k { s with phase := .committed (w.store.now + 1) })[j]? = some s' →
      (j = k ∧ s' = { s with phase := .committed (w.store.now + 1) }) ∨ (j ≠ k ∧ w.sessions[j]? = some s') := by
    intro j s' hj
    by_cases e : j = k
    · subst e
      rw [List.getElem?_set_self hlt] at hj
      cases hj; exact .inl ⟨rfl, rfl⟩
    · rw [List.getElem?_set_ne (Ne.symm e)] at hj
      exact .inr ⟨e, hj⟩
  have hss' : ∀ (j : Nat) s', w.sessions[j]? = some s' → s'.phase ≠ .live → j ≠ k ∧
      (w.sessions.set k { s with phase := .committed (w.store.now + 1) })[j]? = some s' := by
    intro j s' hj hp
    have : j ≠ k := by
      rintro rfl
      rw [hk] at hj; cases hj; exact hp hl
    exact ⟨this, by rw [List.getElem?_set_ne (Ne.symm this)]; exact hj⟩
  refine ⟨A, h.seqs.other hfr ?_, h.names.push (fun _ hx => hx) hname, ?_, h.apart, ?_, ?_, ?_, ?_, ?_, ?_, h.pend, ?_, ?_⟩
  · intro kw hm
    exact seq_side kw (hkeys _ hm)
  · intro i name t v u hcl
    obtain ⟨c1, c2, c3, c4, c5, c6⟩ := h.claims i name t v u hcl
    refine ⟨c1, ?_, Nat.le_trans c3 hle.now, c4, c5, ?_⟩
    · intro name' v' hv'
      have hv' : ((w.store.push (applyWrites w.store.db s.txn.writes) (s.txn.writes.map Prod.fst)).db).get _ = _ := hv'
      rw [db_push, hname] at hv'
      exact c2 name' v' hv'
    · show ((w.store.push _ _).data v).get _ = none
      rw [hle.data v c3]; exact c6
  · intro i o hi
    refine (h.objs i o hi).mono ?_ (KeysLe.refl _)
    intro name x hx
    show numberOf (w.store.push _ _).db name = some x
    rw [db_push, hnum]; exact hx
  · intro n hn
    have hn : n ≤ w.store.now + 1 := hn
    show HoldsDocs C (A n) ((w.store.push _ _).data n)
    rcases Nat.lt_or_ge w.store.now n with hl' | hl'
    · have : n = w.store.now + 1 := by omega
      subst this
      rw [data_push_new]; exact hdoc
    · rw [hA n hl', hle.data n hl']; exact h.docs n hl'
  · intro n hn x i hne
    have hn : n ≤ w.store.now + 1 := hn
    have hne : (A n x).get i ≠ none := hne
    show ∃ name, numberOf ((w.store.push _ _).data n) name = some x
    rcases Nat.lt_or_ge w.store.now n with hl' | hl'
    · have : n = w.store.now + 1 := by omega
      subst this
      rw [hmg x i] at hne
      rw [data_push_new]
      have : ∃ name, numberOf w.store.db name = some x := by
        split at hne
        · rename_i hx
          obtain ⟨q, h1, h2, -⟩ := ht.touch (x, i) hx
          exact ⟨q.1.coll, (hs.recs q h1).2.1 x h2⟩
        · exact h.owned _ (Nat.le_refl _) x i hne
      obtain ⟨name, hx⟩ := this
      exact ⟨name, by rw [hnum]; exact hx⟩
    · rw [hA n hl'] at hne
      rw [hle.data n hl']; exact h.owned n hl' x i hne
  · have hmono : ∀ s' t, Sess C w.store g.docs s' t → Sess C (w.store.push (applyWrites w.store.db s.txn.writes) (s.txn.writes.map Prod.fst)) A s' t := by
      intro s' t hs'
      refine hs'.mono hle ?_ hA
      intro name x hx
      rw [db_push, hnum]; exact hx
    intro j s' hj
    rcases hss j s' hj with ⟨rfl, rfl⟩ | ⟨hne, hj⟩
    · refine { hmono s _ hs with done := ?_ }
      intro n hn
      cases hn
      refine ⟨Nat.lt_succ_of_le hs.le, Nat.le_refl _, hu, ?_, ?_⟩
      · show Merged _ _ (A w.store.now) (A (w.store.now + 1))
        rw [hA _ (Nat.le_refl _)]; exact hmg
      · show ∀ p : Int64 × Int64, p ∈ _ → (A w.store.now p.1).get p.2 = (A s.v p.1).get p.2
        rw [hA _ (Nat.le_refl _), hA _ hs.le]; exact hlook
    · exact hmono s' _ (h.sess j s' hj)
  · intro j hj
    refine h.blank j ?_
    have hj : (w.sessions.set k _).length ≤ j := hj
    rw [List.length_set] at hj; exact hj
  · intro n hn
    have hn : n < w.store.now + 1 := hn
    show A (n + 1) = A n ∨ _
    rcases Nat.lt_or_ge n w.store.now with hl' | hl'
    · rw [hA _ (by omega), hA _ (by omega)]
      rcases h.steps n hl' with h1 | ⟨j, s', h1, h2⟩
      · exact .inl h1
      · exact .inr ⟨j, s', (hss' j s' h1 (by rw [h2]; nofun)).2, h2⟩
    · have : n = w.store.now := by omega
      subst this
      exact .inr ⟨k, _, List.getElem?_set_self hlt, rfl⟩
  · intro j hj
    rcases List.mem_append.mp hj with hj | hj
    · obtain ⟨s', h1, h2⟩ := h.commits j hj
      exact ⟨s', (hss' j s' h1 h2).2, h2⟩
    · rw [List.mem_singleton.mp hj]
      exact ⟨_, List.getElem?_set_self hlt, by simp⟩
  · intro hcalm
    have hcalm' : Calm w g := by
      intro j l ho q hq hp r hr hwr
      refine hcalm j l ?_ q hq hp r hr hwr
      obtain ⟨sj, sl, m, n, h1, h2, h3, h4, h5⟩ := ho
      exact ⟨sj, sl, m, n, (hss' j sj h1 (by rw [h3]; nofun)).2, (hss' l sl h2 (by rw [h4]; nofun)).2, h3, h4, h5⟩
    have hch := h.chain hcalm'
    have hx : ((g.tr k).recs.map Prod.fst).any Said.wrote = true := by
      refine (recs_wrote _).mpr ?_
      have : (g.tr k).touched ≠ [] := by
        intro e
        have hk := hs.keys
        rw [e] at hk
        exact hw (List.map_eq_nil_iff.mp hk)
      obtain ⟨p, l, hp⟩ := List.exists_cons_of_ne_nil this
      obtain ⟨q, h1, -, h2⟩ := ht.touch p (by show p ∈ (g.tr k).touched; rw [hp]; simp)
      exact ⟨q, h1, h2⟩
    have hwr : ({ g with docs := A, commits := g.commits ++ [k] } : Ghost D).writers = g.writers ++ [k] := by
      unfold Ghost.writers
      dsimp only
      rw [List.filter_append, List.filter_cons, if_pos hx, List.filter_nil]
    rw [hwr, List.map_append]
    obtain ⟨r1, r2⟩ := ht.rep (g.docs w.store.now) hlook (by
      intro q hq hpt x hqx
      refine IMap.ext (fun i => ?_)
      apply Classical.byContradiction
      intro hne
      obtain ⟨j, sj, m, h1, h2, h3, h4, h5⟩ := h.changed hs.le (Nat.le_refl _) hne
      have hsj := h.sess j sj h1
      obtain ⟨-, -, huj, -, -⟩ := hsj.done m h2
      obtain ⟨r, hr, hrx, hrw⟩ := (hsj.tale huj).touch (x, i) h5
      refine hcalm j k ⟨sj, _, m, w.store.now + 1, (hss' j sj h1 (by rw [h2]; nofun)).2, List.getElem?_set_self hlt, h2, rfl, h3, by omega⟩
        q hq hpt r hr hrw ?_
      exact h.names.one ((hsj.recs r hr).2.1 x hrx) ((hs.recs q hq).2.1 x hqx))
    have hdocs : A (w.store.now + 1) = (reruns C.norm (g.docs w.store.now) (g.tr k).recs).2 := by
      funext c
      refine IMap.ext (fun i => ?_)
      rw [hmg c i, r2 c i]; rfl
    show Chain _ _ _ (A (w.store.now + 1))
    rw [hdocs]
    exact hch.snoc r1

/-! ### A new collection -/

/-- A free number is stored under a name that has none. -/
theorem Kept.newName (h : Kept C w g b) {name : Bytes} {u : UInt64} {v : Val} (hv : Cid.Entry v u) (hin : (collectionSequenceKey, u) ∈ g.out)
    (hfree : ∀ name' v', w.store.db.get (metaCollectionName2IDKey name') = some v' → ¬ Cid.Entry v' u)
    (habs : w.store.db.get (metaCollectionName2IDKey name) = none)
    (hother : ∀ j name' t' v' u', Claim w.objs j name' t' v' u' → u ≠ u') :
    ∃ A, Kept C { w with store := w.store.push (w.store.db.set (metaCollectionName2IDKey name) v) [metaCollectionName2IDKey name] }
      { g with docs := A } b ∧ numberOf (w.store.db.set (metaCollectionName2IDKey name) v) name = some u.toInt64 := by
  let A : Nat → Docs D := fun n => if n ≤ w.store.now then g.docs n else g.docs w.store.now
  have hA : Agree w.store.now g.docs A := fun m hm => if_pos hm
  have hAn : A (w.store.now + 1) = g.docs w.store.now := if_neg (by omega)
  have hget : ∀ k, (w.store.db.set (metaCollectionName2IDKey name) v).get k = if metaCollectionName2IDKey name = k then some v else w.store.db.get k :=
    fun k => OMap.get_set _ _ _ _
  have hfr : ∀ k, k ∉ [metaCollectionName2IDKey name] → (w.store.db.set (metaCollectionName2IDKey name) v).get k = w.store.db.get k := by
    intro k hk
    rw [hget, if_neg (fun e => hk (by simp [e]))]
  have hle : StoreLe w.store (w.store.push (w.store.db.set (metaCollectionName2IDKey name) v) [metaCollectionName2IDKey name]) := .push _ _ _
  have hnew : numberOf (w.store.db.set (metaCollectionName2IDKey name) v) name = some u.toInt64 :=
    numberOf_entry (by rw [hget, if_pos rfl]) hv
  have hnum : ∀ name' x, numberOf w.store.db name' = some x → numberOf (w.store.db.set (metaCollectionName2IDKey name) v) name' = some x := by
    intro name' x hx
    rw [numberOf_congr (db := w.store.db)]
    · exact hx
    · rw [hget, if_neg]
      intro e
      rw [← Cid.cn_inj e] at hx
      unfold numberOf at hx
      rw [habs] at hx; cases hx
  have hone : ∀ name' v' u', (w.store.db.set (metaCollectionName2IDKey name) v).get (metaCollectionName2IDKey name') = some v' → Cid.Entry v' u' →
      (name' = name ∧ u' = u) ∨ (name' ≠ name ∧ u' ≠ u ∧ w.store.db.get (metaCollectionName2IDKey name') = some v') := by
    intro name' v' u' h1 h2
    rw [hget] at h1
    split at h1
    · rename_i e
      cases h1
      exact .inl ⟨(Cid.cn_inj e).symm, Cid.entry_unique h2 hv⟩
    · rename_i e
      refine .inr ⟨fun e' => e (by rw [e']), ?_, h1⟩
      rintro rfl
      exact hfree name' v' h1 h2
  have hlast : ∀ n, n ≤ w.store.now + 1 → n ≤ w.store.now ∨ n = w.store.now + 1 := by omega
  refine ⟨A, ⟨h.seqs.other hfr ?_, ⟨?_, ?_, ?_⟩, ?_, h.apart, ?_, ?_, ?_, ?_, h.blank, ?_, h.pend, h.commits, ?_⟩, hnew⟩
  · intro kw hm
    exact name_ne_seq name kw (List.mem_singleton.mp hm).symm
  · intro n hn name' v' hg
    rcases hlast n hn with hl | rfl
    · have hg : ((w.store.push _ _).data n).get _ = _ := hg
      rw [hle.data n hl] at hg
      exact h.names.form n hl name' v' hg
    · have hg : ((w.store.push _ _).data _).get _ = _ := hg
      rw [data_push_new, hget] at hg
      split at hg
      · cases hg; exact ⟨u, hv, hin⟩
      · exact h.names.form _ (Nat.le_refl _) name' v' hg
  · intro n m hnm hm name' v' hg
    show ((w.store.push _ _).data m).get _ = _
    have hg : ((w.store.push _ _).data n).get _ = _ := hg
    rcases hlast m hm with hl | rfl
    · rw [hle.data m hl]
      rw [hle.data n (by omega)] at hg
      exact h.names.perm n m hnm hl name' v' hg
    · rcases hlast n hnm with hl | rfl
      · rw [hle.data n hl] at hg
        have := h.names.perm n _ hl (Nat.le_refl _) name' v' hg
        rw [data_push_new, hget, if_neg]
        · exact this
        · intro e
          rw [← Cid.cn_inj e] at this
          rw [show w.store.data w.store.now = w.store.db from rfl, habs] at this; cases this
      · exact hg
  · intro name₁ name₂ v₁ v₂ u' h1 h2 e1 e2
    have h1 : (w.store.push _ _).db.get _ = _ := h1
    have h2 : (w.store.push _ _).db.get _ = _ := h2
    rw [db_push] at h1 h2
    rcases hone _ _ _ h1 e1 with ⟨a1, a2⟩ | ⟨a1, a2, a3⟩ <;> rcases hone _ _ _ h2 e2 with ⟨b1, b2⟩ | ⟨b1, b2, b3⟩
    · rw [a1, b1]
    · exact absurd a2 b2
    · exact absurd b2 a2
    · exact h.names.inj name₁ name₂ v₁ v₂ u' a3 b3 e1 e2
  · intro i name' t' v' u' hcl
    obtain ⟨c1, c2, c3, c4, c5, c6⟩ := h.claims i name' t' v' u' hcl
    refine ⟨c1, ?_, Nat.le_trans c3 hle.now, c4, c5, ?_⟩
    · intro name₁ v₁ h1 h2
      have h1 : (w.store.push _ _).db.get _ = _ := h1
      rw [db_push] at h1
      rcases hone _ _ _ h1 h2 with ⟨-, a2⟩ | ⟨-, -, a3⟩
      · exact hother i name' t' v' u' hcl a2.symm
      · exact c2 name₁ v₁ a3 h2
    · show ((w.store.push _ _).data v').get _ = none
      rw [hle.data v' c3]; exact c6
  · intro i o hi
    refine (h.objs i o hi).mono ?_ (KeysLe.refl _)
    intro name' x hx
    show numberOf (w.store.push _ _).db name' = some x
    rw [db_push]; exact hnum _ _ hx
  · intro n hn
    show HoldsDocs C (A n) ((w.store.push _ _).data n)
    rcases hlast n hn with hl | rfl
    · rw [hA n hl, hle.data n hl]; exact h.docs n hl
    · rw [hAn, data_push_new]
      refine holdsDocs_agree (h.docs _ (Nat.le_refl _)) ?_
      intro k hk
      exact hfr k (fun hm => name_side name (by rw [← List.mem_singleton.mp hm]; exact hk))
  · intro n hn x i hne
    have hne : (A n x).get i ≠ none := hne
    show ∃ name', numberOf ((w.store.push _ _).data n) name' = some x
    rcases hlast n hn with hl | rfl
    · rw [hA n hl] at hne
      rw [hle.data n hl]; exact h.owned n hl x i hne
    · rw [hAn] at hne
      rw [data_push_new]
      obtain ⟨name', hx⟩ := h.owned _ (Nat.le_refl _) x i hne
      exact ⟨name', hnum _ _ hx⟩
  · intro k s hk
    refine (h.sess k s hk).mono hle ?_ hA
    intro name' x hx
    rw [db_push]; exact hnum _ _ hx
  · intro n hn
    have hn : n < w.store.now + 1 := hn
    show A (n + 1) = A n ∨ _
    rcases Nat.lt_or_ge n w.store.now with hl | hl
    · rw [hA _ (by omega), hA _ (by omega)]
      exact h.steps n hl
    · have : n = w.store.now := by omega
      subst this
      left; rw [hAn, hA _ (Nat.le_refl _)]
  · intro hc
    show Chain _ _ _ (A (w.store.now + 1))
    rw [hAn]
    exact h.chain hc

theorem run_setK {t t' : Txn} {k x : Bytes} {u : Unit} (h : (setK k x).run t = (.ok u, t')) :
    t'.writes = t.writes ++ [(k, some { value := x })] ∧ t'.reads = t.reads := by
  simp only [setK, Prog.run, Txn.set, Txn.modify] at h
  repeat' split at h
  all_goals
    rw [Prod.mk.injEq] at h
    obtain ⟨h1, h2⟩ := h
    first
      | (cases h1; done)
      | (subst h2; exact ⟨rfl, rfl⟩)

end Mondis.DocDB
