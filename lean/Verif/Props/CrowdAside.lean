import Verif.Props.Crowd
import Verif.Lemmas.CrowdAside
/-!
# C86: transactions on documents do not get into the way of package ddl
-/
namespace Mondis.Props
open Mondis Spec Schema Meta Ddl Domain Doc

variable {D : Type} {J : Json} {C : Codec D} {K : Nat} {db : DB} {es es' : List (Crowd.Ev D)}

/-- No event of package ddl. -/
def Aside (es : List (Crowd.Ev D)) : Prop := ∀ e ∈ evsOf es, ∀ d, e ≠ .ddl d

/-- No call of InsertOne. -/
def NoInsert (es : List (Crowd.Ev D)) : Prop := ∀ e ∈ evsOf es, ∀ k name coll doc mark c, e ≠ .insert k name coll doc mark c

theorem aside_then (h : Crowd.Hub) {e : Crowd.Ev D} (he : ∀ d, e.ev ≠ .ddl d) (w : Domain.World) :
    h.then e w = ⟨w, h.w.ddl.db :: h.past, h.turn + 1⟩ := by
  obtain ⟨ev, n⟩ := e
  cases ev with
  | ddl d => exact absurd rfl (he d)
  | _ => rfl

theorem aside_past (J : Json) (C : Codec D) {l : List (Crowd.Ev D)} (hl : Aside l) (h : Crowd.Hub) :
    (∃ X, (Crowd.run J C l h).2.past = X ++ h.past ∧ X.length = l.length) ∧ (Crowd.run J C l h).2.turn = h.turn + l.length := by
  induction l generalizing h with
  | nil => exact ⟨⟨[], rfl, rfl⟩, rfl⟩
  | cons e l ih =>
    obtain ⟨⟨X, h1, h2⟩, h3⟩ := ih (fun x hx => hl x (List.mem_cons_of_mem _ hx)) (h.step J C e).2
    have e1 : (h.step J C e).2 = ⟨(h.does J C e).2, h.w.ddl.db :: h.past, h.turn + 1⟩ := aside_then h (hl e.ev List.mem_cons_self) _
    refine ⟨⟨X ++ [h.w.ddl.db], ?_, by simp [h2]⟩, ?_⟩
    · show (Crowd.run J C l (h.step J C e).2).2.past = _
      rw [h1, e1]; simp
    · show (Crowd.run J C l (h.step J C e).2).2.turn = _
      rw [h3, e1, List.length_cons]
      show h.turn + 1 + l.length = _
      omega

theorem aside_snap (J : Json) (C : Codec D) {l : List (Crowd.Ev D)} (hl : Aside l) (h : Crowd.Hub) :
    (Crowd.run J C l h).2.race.snap l.length = h.w.ddl.db := by
  cases l with
  | nil => rfl
  | cons e l =>
    obtain ⟨⟨X, h1, h2⟩, -⟩ := aside_past J C (fun x hx => hl x (List.mem_cons_of_mem _ hx)) (l := l) (h.step J C e).2
    have e1 : (h.step J C e).2 = ⟨(h.does J C e).2, h.w.ddl.db :: h.past, h.turn + 1⟩ := aside_then h (hl e.ev List.mem_cons_self) _
    show (Crowd.run J C l (h.step J C e).2).2.past.getD l.length _ = _
    rw [h1, e1, ← h2]
    show (X ++ h.w.ddl.db :: h.past).getD X.length _ = _
    simp [List.getD_eq_getElem?_getD]

theorem crowd_snoc (J : Json) (C : Codec D) (es : List (Crowd.Ev D)) (e : Crowd.Ev D) (h : Crowd.Hub) :
    (Crowd.run J C (es ++ [e]) h).2 = ((Crowd.run J C es h).2.step J C e).2 := by
  rw [crowd_append]; rfl

/-- Over these events the keys keep their values. -/
theorem aside_run (hdb : Fresh Sequence.metaPrefix db) (hd : NoDocs db) {key : Bytes} (hk : MetaKey key) (l : List (Crowd.Ev D)) :
    ∀ {es : List (Crowd.Ev D)}, Throng.Brief K (es ++ l) → Aside l → (NoInsert l ∨ CommonKey key) →
    (Crowd.run J C (es ++ l) (gathering db)).2.w.ddl.db.get key = (Crowd.run J C es (gathering db)).2.w.ddl.db.get key := by
  induction l with
  | nil => intro es _ _ _; rw [List.append_nil]
  | cons e l ih =>
    intro es hb hl hi
    have e0 : es ++ e :: l = (es ++ [e]) ++ l := by simp
    obtain ⟨S, R, -, -, hm, -, -⟩ := run_crowd_two J C hdb hd hb
    rw [e0] at hb ⊢
    rw [ih hb (fun x hx => hl x (List.mem_cons_of_mem _ hx))
      (hi.imp (fun h x hx => h x (List.mem_cons_of_mem _ hx)) id), crowd_snoc]
    have he : ∀ d, e.ev ≠ .ddl d := hl e.ev List.mem_cons_self
    change CrowdOK J C K (2 ^ 62) S (Crowd.run J C es (gathering db)).2 at hm
    generalize (Crowd.run J C es (gathering db)).2 = h at hm ⊢
    show (h.then e (h.does J C e).2).w.ddl.db.get key = _
    rw [crowd_then]
    have hn : ¬ Late e.ev := by
      rintro (⟨_, _, _, h⟩ | ⟨_, _, h⟩ | ⟨_, _, h⟩ | ⟨_, _, _, _, _, h⟩) <;> exact he _ h
    rw [does_plain J C h hn]
    refine aside_frame hm.site he hk ?_
    rintro ⟨j, d, c, doc, mark, ci, hx⟩
    rcases hi with hi | hi
    · exact absurd hx (hi e.ev List.mem_cons_self _ _ _ _ _ _)
    · exact hi

theorem walks_aside {norm : D → Res D} {S R : Site D} {l : List (Domain.Ev D)} {as : List (Domain.Answer D)} (h : S.Walks norm l as R)
    (hl : ∀ e ∈ l, ∀ d, e ≠ .ddl d) : R.proc.state = S.proc.state := by
  induction h with
  | nil => rfl
  | cons h1 _ ih =>
    rw [ih (fun e he => hl e (List.mem_cons_of_mem _ he))]
    rcases site_state h1 with h | ⟨d, a', e, -, -⟩
    · exact h
    · exact absurd e (hl _ List.mem_cons_self d)

/-- A transaction of package ddl that started before these events does what it would do had it started now. -/
theorem aside_late (hdb : Fresh Sequence.metaPrefix db) (hd : NoDocs db) {l : List (Crowd.Ev D)}
    (hb : Throng.Brief K (es ++ l)) (hl : Aside l) {α : Type} {p : Client α} (hp : Race.Early p)
    (hg : (p.code J).Gets MetaKey ∧ NoInsert l ∨ (p.code J).Gets CommonKey) {env : Env} (hbig : Roomy env) (fail : Option Err)
    {snap now : DB} (hs : snap = (Crowd.run J C es (gathering db)).2.w.ddl.db) (hn : now = (Crowd.run J C (es ++ l) (gathering db)).2.w.ddl.db) :
    Race.lateTxn J env fail p snap now = Race.lateTxn J env fail p now now := by
  have reads : ∀ k ∈ (Util.body env true (p.code J) snap).2.reads, snap.get k = now.get k := by
    intro k hk
    rw [hs, hn]
    rcases hg with ⟨hg, hi⟩ | hg
    · rcases Prog.run_gets hg _ k hk with h | h
      · exact nomatch h
      · exact (aside_run hdb hd h l hb hl (.inl hi)).symm
    · rcases Prog.run_gets hg _ k hk with h | h
      · exact nomatch h
      · exact (aside_run hdb hd h.1 l hb hl (.inr h)).symm
  have list : Race.listing J (Txn.start { env with update := true } snap) = Race.listing J (Txn.start { env with update := true } now) := by
    obtain ⟨S, R, -, -, hm, hw, hm'⟩ := run_crowd_two J C hdb hd hb
    change CrowdOK J C K (2 ^ 62) S (Crowd.run J C es (gathering db)).2 at hm
    change CrowdOK J C K (2 ^ 62) R (Crowd.run J C l (Crowd.run J C es (gathering db)).2).2 at hm'
    have e2 : (Crowd.run J C l (Crowd.run J C es (gathering db)).2).2 = (Crowd.run J C (es ++ l) (gathering db)).2 := by
      rw [crowd_append]
    rw [e2] at hm'
    have est := walks_aside hw hl
    obtain ⟨M, a1, a2, -⟩ := hm.hub.now.kept
    obtain ⟨M', b1, b2, -⟩ := hm'.hub.now.kept
    have a2 : Keeps J (2 ^ 62) M snap := by rw [hs]; exact a2
    have b2 : Keeps J (2 ^ 62) M' now := by rw [hn]; exact b2
    rw [Race.listing_eq a2 hbig (by omega), Race.listing_eq b2 hbig (by omega)]
    have : M'.dbs = M.dbs := Race.same_dbs a1 b1 (by show R.site.proc.state.dbs = S.site.proc.state.dbs; rw [est])
    rw [this]
  rw [Race.late_now hp env fail snap now reads list, Race.late_now hp env fail now now (fun _ _ => rfl) rfl]

/-- The transaction of this event started among these events. -/
theorem aside_does (hdb : Fresh Sequence.metaPrefix db) (hd : NoDocs db) {d : Ddl.Ev} {n : Nat}
    (hb : Throng.Brief K (es ++ es' ++ [⟨.ddl d, n⟩])) (hl : Aside es') (hn : n ≤ es'.length)
    {h : Crowd.Hub} (hh : h = (Crowd.run J C (es ++ es') (gathering db)).2) :
    ((∃ o i c, d = .createSchema o i c) ∨ (∃ i c, d = .addIndex i c) ∨ (∃ id c, d = .getJob id c) ∨
      (∃ o₁ o₂ o₃ c env, d = .work o₁ o₂ o₃ c env) ∧ NoInsert es') → h.race.does J ⟨d, n⟩ = h.race.does J ⟨d, 0⟩ := by
  obtain ⟨l₁, l₂, rfl, hlen⟩ : ∃ l₁ l₂, es' = l₁ ++ l₂ ∧ l₂.length = n :=
    ⟨es'.take (es'.length - n), es'.drop (es'.length - n), (List.take_append_drop _ _).symm, by simp; omega⟩
  have hb' : Throng.Brief K ((es ++ l₁) ++ l₂) := by
    refine ⟨fun e he => hb.1 e ?_, Nat.lt_of_le_of_lt ?_ hb.2⟩
    · simp only [List.map_append, List.mem_append] at he ⊢
      rcases he with (he | he) | he
      · exact .inl (.inl he)
      · exact .inl (.inr (.inl he))
      · exact .inl (.inr (.inr he))
    · simp only [List.length_map, List.length_append, List.length_cons, List.length_nil]
      generalize hx : es.length + l₁.length + l₂.length = x
      have e1 : es.length + (l₁.length + l₂.length) + (0 + 1) = x + 1 := by omega
      rw [e1]
      exact Nat.mul_le_mul (by omega) (Nat.mul_le_mul (by omega) (Nat.le_refl _))
  have hfit : EvFits K d := hb.1 (.ddl d) (by simp)
  have hl₂ : Aside l₂ := fun e he => hl e (by unfold evsOf at he ⊢; rw [List.map_append]; exact List.mem_append_right _ he)
  have eh : h = (Crowd.run J C l₂ (Crowd.run J C (es ++ l₁) (gathering db)).2).2 := by
    rw [hh, ← List.append_assoc, crowd_append]
  have hsnap : h.race.snap n = (Crowd.run J C (es ++ l₁) (gathering db)).2.w.ddl.db := by
    rw [eh, ← hlen]; exact aside_snap J C hl₂ _
  have hnow : h.race.w.db = (Crowd.run J C ((es ++ l₁) ++ l₂) (gathering db)).2.w.ddl.db := by
    show h.w.ddl.db = _
    rw [hh, List.append_assoc]
  rintro (⟨o, i, c, rfl⟩ | ⟨i, c, rfl⟩ | ⟨id, c, rfl⟩ | ⟨⟨o₁, o₂, o₃, c, env, rfl⟩, hi⟩)
  · have e := aside_late (C := C) hdb hd hb' hl₂ (Race.early_create o i) (.inr (common_gets J (common_create o i))) hfit.2.2 c.fail hsnap hnow
    simp only [Race.Hub.does, e]; rfl
  · have e := aside_late (C := C) hdb hd hb' hl₂ (Race.early_index i) (.inr (common_gets J (common_index i))) hfit.2 c.fail hsnap hnow
    simp only [Race.Hub.does, e]; rfl
  · have e := aside_late (C := C) hdb hd hb' hl₂ (Race.early_getJob id) (.inr (common_gets J (common_getJob id))) hfit c.fail hsnap hnow
    simp only [Race.Hub.does, e]; rfl
  · have hi₂ : NoInsert l₂ := fun e he => hi e (by unfold evsOf at he ⊢; rw [List.map_append]; exact List.mem_append_right _ he)
    have hturn : min n h.race.turn = n := by
      refine Nat.min_eq_left ?_
      show n ≤ h.turn
      rw [eh, (aside_past J C hl₂ _).2]; omega
    have e := aside_late (C := C) hdb hd hb' hl₂ (Race.early_work o₁ o₂ o₃ h.race.w.vars) (.inl ⟨meta_gets J _, hi₂⟩) hfit.1 c.fail hsnap hnow
    simp only [Race.Hub.does, hturn, e, Nat.zero_min]; rfl

theorem aside_step {h : Crowd.Hub} {d : Ddl.Ev} {n : Nat} (e : h.race.does J ⟨d, n⟩ = h.race.does J ⟨d, 0⟩) :
    h.step J C ⟨.ddl d, n⟩ = h.step J C ⟨.ddl d, 0⟩ := by
  have e1 : h.does J C ⟨.ddl d, n⟩ = h.does J C ⟨.ddl d, 0⟩ := by
    cases d <;> simp only [Crowd.Hub.does, e]
  show ((h.does J C ⟨.ddl d, n⟩).1, h.then ⟨.ddl d, n⟩ (h.does J C ⟨.ddl d, n⟩).2) = ((h.does J C ⟨.ddl d, 0⟩).1, h.then ⟨.ddl d, 0⟩ (h.does J C ⟨.ddl d, 0⟩).2)
  rw [e1]
  cases d <;> rfl

/-- C86: CreateSchema, AddIndex and GetHistoryJob do the same, and give the same answer, whether or not transactions on
documents and reloads of the schema went on while they were under way. -/
theorem C86_undisturbed (hdb : Fresh Sequence.metaPrefix db) (hd : NoDocs db) {d : Ddl.Ev} {n : Nat}
    (hb : Throng.Brief K (es ++ es' ++ [⟨.ddl d, n⟩])) (hl : ∀ e ∈ evsOf es', ∀ d, e ≠ .ddl d) (hn : n ≤ es'.length)
    (hcall : (∃ o i c, d = .createSchema o i c) ∨ (∃ i c, d = .addIndex i c) ∨ ∃ id c, d = .getJob id c)
    {h : Crowd.Hub} (hh : h = (Crowd.run J C (es ++ es') (gathering db)).2) :
    h.step J C ⟨.ddl d, n⟩ = h.step J C ⟨.ddl d, 0⟩ := by
  refine aside_step (aside_does hdb hd hb hl hn hh ?_)
  rcases hcall with h | h | h
  · exact .inl h
  · exact .inr (.inl h)
  · exact .inr (.inr (.inl h))

/-- C86: a turn of the worker does the same whether or not transactions on documents (but for their calls of InsertOne, which may
change a counter the worker reads) and reloads of the schema went on while it was under way. -/
theorem C86_turn_undisturbed (hdb : Fresh Sequence.metaPrefix db) (hd : NoDocs db) {o₁ o₂ o₃ : Order} {c : Ddl.Circ} {env : Env} {n : Nat}
    (hb : Throng.Brief K (es ++ es' ++ [⟨.ddl (.work o₁ o₂ o₃ c env), n⟩])) (hl : ∀ e ∈ evsOf es', ∀ d, e ≠ .ddl d)
    (hi : ∀ e ∈ evsOf es', ∀ k name coll doc mark c, e ≠ .insert k name coll doc mark c) (hn : n ≤ es'.length)
    {h : Crowd.Hub} (hh : h = (Crowd.run J C (es ++ es') (gathering db)).2) :
    h.step J C ⟨.ddl (.work o₁ o₂ o₃ c env), n⟩ = h.step J C ⟨.ddl (.work o₁ o₂ o₃ c env), 0⟩ :=
  aside_step (aside_does hdb hd hb hl hn hh (.inr (.inr (.inr ⟨⟨_, _, _, _, _, rfl⟩, hi⟩))))

end Mondis.Props
