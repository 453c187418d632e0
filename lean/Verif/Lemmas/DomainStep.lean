import Verif.Lemmas.DomainMatch
/-!
# The document process: one event
-/
namespace Mondis.Props
open Mondis Spec Schema Meta Ddl Domain Doc

variable {D : Type} {J : Json} {C : Codec D} {K B : Nat} {S : Site D} {w : Domain.World}

/-- The state after drawing an id. -/
def afterDraw (w : Domain.World) (x : Int64) (q : Sequence.Seq) (c : Ddl.Circ) : Domain.World :=
  { w with ddl := { w.ddl with db := (q.nextId ⟨c.env, w.ddl.db, c.fail⟩ w.ddl.db).2.2,
                               seqs := w.ddl.seqs.set x (q.nextId ⟨c.env, w.ddl.db, c.fail⟩ w.ddl.db).2.1 } }

theorem Match.seq_some (h : Match J C K B S w) {x : Int64} {q : Sequence.Seq} (hq : w.ddl.seqs x = some q) : S.proc.has x = true := by
  rw [← h.serves.has x]
  show ((w.ddl.seqs x).map _).isSome = true
  rw [hq]; rfl

theorem Match.seq_none (h : Match J C K B S w) {x : Int64} (hq : w.ddl.seqs x = none) : S.proc.has x = false := by
  rw [← h.serves.has x]
  show ((w.ddl.seqs x).map _).isSome = false
  rw [hq]; rfl

/-- Drawing an id. -/
theorem Match.draw (h : Match J C K B S w) {x : Int64} {c : Ddl.Circ} {q : Sequence.Seq} (hq : w.ddl.seqs x = some q) (hf : Roomy c.env)
    (hB : B + cost K S.proc.state < 2 ^ 63) :
    (∃ v S', (q.nextId ⟨c.env, w.ddl.db, c.fail⟩ w.ddl.db).1 = .ok v ∧ S.Draws x v S' ∧
      Match J C K (B + cost K S.proc.state) S' (afterDraw w x q c)) ∨
    (∃ e, (q.nextId ⟨c.env, w.ddl.db, c.fail⟩ w.ddl.db).1 = .err e ∧ c.fail = some e ∧ S.pool x = [] ∧
      Match J C K (B + cost K S.proc.state) S (afterDraw w x q c)) := by
  have hp := h.pool x
  rw [hq] at hp
  have hp : S.pool x = q.putbacks := hp
  have hbq : (bare w.ddl).seqs x = some { q with putbacks := [] } := by
    show (w.ddl.seqs x).map _ = _
    rw [hq]; rfl
  have hdocs : HoldsDocs C S.docs (q.nextId ⟨c.env, w.ddl.db, c.fail⟩ w.ddl.db).2.2 :=
    holdsDocs_agree h.docs (fun k hk => nextId_frame q c.env c.fail w.ddl.db (docKey_not_meta hk))
  obtain ⟨d, -, hreg⟩ := h.serves.seqs x _ hbq
  cases hl : q.putbacks.getLast? with
  | some v =>
    left
    have hn := draw_back q ⟨c.env, w.ddl.db, c.fail⟩ w.ddl.db hreg.2.2.1 hl
    have hdl : S.pool x = q.putbacks.dropLast ++ [v] := by
      rw [hp, List.getLast?_eq_some_iff] at *
      obtain ⟨ys, e⟩ := hl
      rw [e, List.dropLast_concat]
    refine ⟨v, _, by rw [hn], .back _ hdl, ?_⟩
    have hbare : bare (afterDraw w x q c).ddl = bare w.ddl := by
      unfold afterDraw bare
      simp only [hn]
      rw [bareSeqs_set]
      congr 1
      funext y
      unfold Dml.Seqs.set
      by_cases e : y = x
      · rw [if_pos e, e]; exact hbq.symm
      · rw [if_neg e]
    have hser : Serves J K (B + cost K S.proc.state) S.proc (bare (afterDraw w x q c).ddl) := by
      rw [hbare]; exact h.serves.mono (by omega)
    refine h.update hser hdocs ⟨[], (List.append_nil _).symm⟩ (fun _ h => h) ?_
    intro y
    simp only [hn]
    unfold Dml.Seqs.set
    by_cases e : y = x
    · rw [if_pos e, if_pos e]; rfl
    · rw [if_neg e, if_neg e]; exact h.pool y
  | none =>
    have hnil : q.putbacks = [] := List.getLast?_eq_none_iff.mp hl
    have hqq : ({ q with putbacks := [] } : Sequence.Seq) = q := by rw [← hnil]
    rw [hqq] at hbq
    obtain ⟨Q, h1, h2, h3⟩ := step_draw J h.serves (x := x) (c := c) hf hB
    have hw : (bare w.ddl).step J (.draw x c) = (.id (q.nextId ⟨c.env, w.ddl.db, c.fail⟩ w.ddl.db).1, bare (afterDraw w x q c).ddl) := by
      simp only [Ddl.World.step, hbq]
      refine Prod.ext rfl ?_
      unfold afterDraw bare
      simp only
      rw [bareSeqs_set]
      have := draw_bare q ⟨c.env, w.ddl.db, c.fail⟩ w.ddl.db hnil
      congr 2
      rw [← this]
    rw [hw] at h1 h2
    have hpool : ∀ y, S.pool y = (((afterDraw w x q c).ddl.seqs y).map (·.putbacks)).getD [] := by
      intro y
      unfold afterDraw Dml.Seqs.set
      simp only
      by_cases e : y = x
      · rw [if_pos e, e, hp, hnil]
        exact (draw_bare q ⟨c.env, w.ddl.db, c.fail⟩ w.ddl.db hnil).symm
      · rw [if_neg e]; exact h.pool y
    generalize hres : (q.nextId ⟨c.env, w.ddl.db, c.fail⟩ w.ddl.db).1 = r at h1
    generalize hev : Ddl.Answer.id r = a at h1
    cases h1 with
    | draw a1 a2 =>
      cases hev
      refine .inl ⟨_, _, rfl, .fresh (by rw [hp, hnil]) a2, ?_⟩
      exact h.update h2 hdocs ⟨[], (List.append_nil _).symm⟩ (fun _ h => h) hpool
    | drawRefused a1 a2 =>
      cases hev
      refine .inr ⟨_, rfl, a2, by rw [hp, hnil], ?_⟩
      exact h.update h2 hdocs ⟨[], (List.append_nil _).symm⟩ (fun _ h => h) hpool
    | drawNot a1 => cases hev

theorem Draws.visit {x v : Int64} {S' : Site D} (h : S.Draws x v S') (k : Nat) : S'.visit k = S.visit k := by
  cases h <;> rfl

theorem Draws.lastID {x v : Int64} {S' : Site D} (h : S.Draws x v S') : S'.proc.state = S.proc.state := by
  cases h <;> rfl

theorem Draws.has {x v : Int64} {S' : Site D} (h : S.Draws x v S') : S'.proc.has = S.proc.has := by
  cases h <;> rfl

/-! ### Giving ids back -/

theorem putBacks_eq (l : List (Int64 × Int64)) (q : Dml.Seqs) (c : Int64) :
    (l.map (fun p => Dml.putBack p.1 p.2)).foldl (fun s f => f s) q c =
      (q c).map (fun s => { s with putbacks := s.putbacks ++ (l.filter (fun p => decide (p.1 = c))).map Prod.snd }) := by
  induction l generalizing q with
  | nil =>
    simp only [List.map_nil, List.foldl_nil, List.filter_nil, List.append_nil]
    cases q c <;> rfl
  | cons p l ih =>
    simp only [List.map_cons, List.foldl_cons, ih]
    unfold Dml.putBack
    by_cases e : c = p.1
    · rw [if_pos e, List.filter_cons_of_pos (by simp [e])]
      cases q c <;> simp [Sequence.Seq.putBack]
    · rw [if_neg e, List.filter_cons_of_neg (by simpa using fun h => e h.symm)]

theorem bareSeqs_putBacks (l : List (Int64 × Int64)) (q : Dml.Seqs) :
    bareSeqs ((l.map (fun p => Dml.putBack p.1 p.2)).foldl (fun s f => f s) q) = bareSeqs q := by
  funext c
  unfold bareSeqs
  rw [putBacks_eq]
  cases q c <;> rfl

/-- The cancel functions of a transaction run. -/
theorem Match.giveBack (h : Match J C K B S w) (l : List (Int64 × Int64)) (hl : ∀ p ∈ l, S.proc.has p.1 = true) :
    Match J C K B (S.giveBack l)
      { w with ddl := { w.ddl with seqs := (l.map (fun p => Dml.putBack p.1 p.2)).foldl (fun s f => f s) w.ddl.seqs } } := by
  have hb : bare { w.ddl with seqs := (l.map (fun p => Dml.putBack p.1 p.2)).foldl (fun s f => f s) w.ddl.seqs } = bare w.ddl := by
    unfold bare
    simp only [bareSeqs_putBacks]
  refine h.update (A := S.docs) (P := S.proc) (by rw [hb]; exact h.serves) h.docs ⟨[], (List.append_nil _).symm⟩ (fun _ h => h) ?_
  intro c
  show S.pool c ++ _ = (((l.map (fun p => Dml.putBack p.1 p.2)).foldl (fun s f => f s) w.ddl.seqs c).map (·.putbacks)).getD []
  rw [putBacks_eq, h.pool c]
  cases hc : w.ddl.seqs c with
  | some s => rfl
  | none =>
    have : l.filter (fun p => decide (p.1 = c)) = [] := by
      rw [List.filter_eq_nil_iff]
      intro p hp e
      have e : p.1 = c := of_decide_eq_true e
      have := hl p hp
      rw [e, h.seq_none hc] at this
      cases this
    rw [this]; rfl

/-! ### Committing documents -/

/-- The documents `l` copied from `V`. -/
def mergeDocs (V : Docs D) : List (Int64 × Int64) → Docs D → Docs D
  | [], A => A
  | p :: l, A => mergeDocs V l (A.upd p.1 (match (V p.1).get p.2 with
    | some d => (A p.1).set p.2 d
    | none => (A p.1).del p.2))

theorem merged_mergeDocs (V : Docs D) (l : List (Int64 × Int64)) (A : Docs D) : Merged l V A (mergeDocs V l A) := by
  induction l generalizing A with
  | nil => intro c i; simp [mergeDocs]
  | cons p l ih =>
    obtain ⟨a, b⟩ := p
    intro c i
    unfold mergeDocs
    rw [ih _ c i]
    by_cases hm : (c, i) ∈ l
    · rw [if_pos hm, if_pos (List.mem_cons_of_mem _ hm)]
    · rw [if_neg hm]
      unfold Docs.upd
      by_cases hc : c = a
      · subst hc
        rw [if_pos rfl]
        by_cases hi : i = b
        · subst hi
          rw [if_pos List.mem_cons_self]
          cases hg : (V c).get i with
          | some d => simp [IMap.get_set]
          | none => simp [IMap.get_del]
        · rw [if_neg (by simp [hi, hm])]
          have hi' : b ≠ i := fun e => hi e.symm
          cases hg : (V c).get b with
          | some d => simp [IMap.get_set, hi']
          | none => simp [IMap.get_del, hi']
      · rw [if_neg hc, if_neg (by simp [hc, hm])]

theorem lastWrite_none_iff {k : Bytes} {ws : List (Bytes × Option Val)} : lastWrite k ws = none ↔ k ∉ ws.map Prod.fst := by
  induction ws with
  | nil => simp [lastWrite]
  | cons a ws ih =>
    unfold lastWrite
    cases h : lastWrite k ws with
    | some r =>
      rw [h] at ih
      have : k ∈ ws.map Prod.fst := by
        apply Classical.byContradiction
        intro hc
        exact absurd (ih.mpr hc) (by simp)
      simp [this]
    | none =>
      have := ih.mp h
      simp only [List.map_cons, List.mem_cons, not_or]
      by_cases e : a.1 = k
      · simp [e]
      · simp only [if_neg e, true_iff]
        exact ⟨fun h => e h.symm, this⟩

/-- The writes of a transaction applied to another state: the documents merge. -/
theorem holdsDocs_commit {V A A' : Docs D} {l : List (Int64 × Int64)} {snap db : DB} {ws : List (Bytes × Option Val)}
    (hV : HoldsDocs C V (applyWrites snap ws)) (hA : HoldsDocs C A db) (hk : ws.map Prod.fst = l.map (fun p => documentKey p.1 p.2))
    (hm : Merged l V A A') : HoldsDocs C A' (applyWrites db ws) := by
  have hin : ∀ k, k ∈ ws.map Prod.fst → (applyWrites db ws).get k = (applyWrites snap ws).get k := by
    intro k hk
    rw [get_applyWrites, get_applyWrites]
    cases h : lastWrite k ws with
    | none => exact absurd hk (lastWrite_none_iff.mp h)
    | some r => rfl
  have hout : ∀ k, k ∉ ws.map Prod.fst → (applyWrites db ws).get k = db.get k := by
    intro k hk
    rw [get_applyWrites, lastWrite_none_iff.mpr hk]; rfl
  have hkey : ∀ c i, documentKey c i ∈ ws.map Prod.fst ↔ (c, i) ∈ l := by
    intro c i
    rw [hk, List.mem_map]
    constructor
    · rintro ⟨p, hp, e⟩
      obtain ⟨e1, e2⟩ := documentKey_inj e
      rw [← e1, ← e2]; exact hp
    · intro h; exact ⟨(c, i), h, rfl⟩
  refine ⟨⟨?_, ?_⟩, ?_⟩
  · intro c i
    rw [hm c i]
    by_cases h : (c, i) ∈ l
    · rw [if_pos h, hin _ ((hkey c i).mpr h)]; exact hV.rep.docs c i
    · rw [if_neg h, hout _ (fun e => h ((hkey c i).mp e))]; exact hA.rep.docs c i
  · intro c k v hg hp
    by_cases h : k ∈ ws.map Prod.fst
    · rw [hin k h] at hg; exact hV.rep.clean c k v hg hp
    · rw [hout k h] at hg; exact hA.rep.clean c k v hg hp
  · intro c k v hp hg
    by_cases h : k ∈ ws.map Prod.fst
    · rw [hin k h] at hg; exact hV.noTTL c k v hp hg
    · rw [hout k h] at hg; exact hA.noTTL c k v hp hg

theorem holdsDocs_set {A : Docs D} {db : DB} (h : HoldsDocs C A db) {cid did : Int64} {b : Bytes} {d : D} (hu : C.unmarshal b = .ok d) :
    HoldsDocs C (A.upd cid ((A cid).set did d)) (db.set (documentKey cid did) { value := b }) where
  rep := Doc.rep_set h.rep hu
  noTTL := by
    intro c k v hp hg
    rw [OMap.get_set] at hg
    split at hg
    · cases hg; rfl
    · exact h.noTTL c k v hp hg

end Mondis.Props
