import Verif.Lemmas.ClientShare
/-!
# C82: clients that use the server at the same time
-/
namespace Mondis.Props
open Mondis Wire Server Client Spec Crowd

/-- Any number of clients, over the wire, each with an Update, a View or a single operation, finish in some
order, whatever became of their frames and whichever writes the storage refused.  The contents are those that
the ones that wrote leave when each does the same alone, one after the other in that order; each of them is
told what it would have been told alone at its place.  One that wrote nothing changed nothing and is told
what it would have been told alone at some moment between its first request and its end. -/
theorem C82_concurrent {α : Type} (db₀ : DB) (h : List (Turn α)) (hf : ∀ T ∈ h, T.Fits) (ha : Accepted db₀ h) :
    contents db₀ h = serial db₀ h ∧
    ∀ after T before, h = after ++ T :: before →
      (T.noted (seen db₀ before T) ≠ [] → told db₀ before T = (T.alone (serial db₀ before)).1) ∧
      (T.noted (seen db₀ before T) = [] → contents db₀ (T :: before) = contents db₀ before ∧
        ∃ n, T.since ≤ n ∧ n ≤ before.length ∧
          told db₀ before T = (T.alone (serial db₀ (before.drop (before.length - n)))).1) := by
  refine ⟨contents_serial db₀ h hf ha, ?_⟩
  rintro after T before rfl
  have ha := accepted_suffix db₀ after _ ha
  have hT : T.Fits := hf T (by simp)
  have hb : ∀ U ∈ before, U.Fits := fun U hU => hf U (by simp [hU])
  refine ⟨fun hw => ?_, fun hw => ⟨exec_nothing T hT _ _ hw, ?_⟩⟩
  · rw [← contents_serial db₀ before hb ha.1, ← replay db₀ T before hT hb ha hw]
    rfl
  · have late : told db₀ before T = (T.alone (contents db₀ before)).1 →
        ∃ n, T.since ≤ n ∧ n ≤ before.length ∧
          told db₀ before T = (T.alone (serial db₀ (before.drop (before.length - n)))).1 := by
      intro e
      refine ⟨before.length, ha.2.1, Nat.le_refl _, ?_⟩
      rw [Nat.sub_self, List.drop_zero, ← contents_serial db₀ before hb ha.1, e]
    have early : told db₀ before T = (T.alone (seen db₀ before T)).1 →
        ∃ n, T.since ≤ n ∧ n ≤ before.length ∧
          told db₀ before T = (T.alone (serial db₀ (before.drop (before.length - n)))).1 := by
      intro e
      refine ⟨T.since, Nat.le_refl _, ha.2.1, ?_⟩
      have hd : Accepted db₀ (before.drop (before.length - T.since)) := by
        apply accepted_suffix db₀ (before.take (before.length - T.since))
        rw [List.take_append_drop]
        exact ha.1
      rw [← contents_serial db₀ _ (fun U hU => hb U (List.mem_of_mem_drop hU)) hd, ← seen_drop db₀ before T ha.2.1, e]
    obtain ⟨cx, net, fail, act, since⟩ := T
    cases act with
    | call c => exact late rfl
    | view f => exact early rfl
    | update f =>
      apply early
      simp only [told, Turn.alone, Turn.exec]
      rw [update_answer]

/-! ### Taking something once -/

/-- The body of an Update that takes the entry `k` away, if it is there. -/
def takeAway (k : Bytes) : CProg Bool :=
  .get k (fun r => match r with
    | .ok _ => .del k (fun r => match r with
      | .ok _ => .done (.ok true)
      | .err e => .done (.err e)
      | .panic => .done .panic)
    | .err .keyNotFound => .done (.ok false)
    | .err e => .done (.err e)
    | .panic => .done .panic)

theorem takeAway_plain (k : Bytes) : Plain true (takeAway k) := by
  intro r
  cases r with
  | ok v => exact ⟨rfl, fun r => by cases r <;> trivial⟩
  | err e => cases e <;> trivial
  | panic => trivial

theorem takeAway_run (cx : Ctx) (net : Nat → Wireless) (snap : DB) (k : Bytes) (hk : k.length < 2 ^ 32) (h0 : k ≠ []) :
    ∃ r n l, run cx net true snap (takeAway k) 0 .fresh = (r, n, l) ∧
      (∀ b, r = .ok b → (b = false ∧ ∃ s, l = .live s ∧ s.txn.pending = []) ∨
        (b = true ∧ ∃ s, l = .live s ∧ s.txn.pending = [⟨k, k, 1, none⟩])) ∧
      (snap.get k = none → r ≠ .ok true) := by
  have fin : ∀ (r : Res Bool) (n : Nat) (l : Link), (∀ b, r ≠ .ok b) →
      ∃ r' n' l', (r, n, l) = (r', n', l') ∧
      (∀ b, r' = .ok b → (b = false ∧ ∃ s, l' = .live s ∧ s.txn.pending = []) ∨
        (b = true ∧ ∃ s, l' = .live s ∧ s.txn.pending = [⟨k, k, 1, none⟩])) ∧
      (snap.get k = none → r' ≠ .ok true) :=
    fun r n l h => ⟨r, n, l, rfl, fun b hb => absurd hb (h b), fun _ => h _⟩
  unfold takeAway
  simp only [run]
  cases hw : net 0 with
  | refused => exact fin _ _ _ (by simp)
  | lostRequest => exact fin _ _ _ (by simp)
  | lostAnswer => exact fin _ _ _ (by simp)
  | good =>
    simp only [request, Server.opening, keyReq_back0 k hk, Res.ok_bind]
    have hmiss : snap.get k = none →
        parseGet (respGet cx {} (STxn.get cx ⟨true, snap, [], 0⟩ k)).marshal = .err .keyNotFound := by
      intro hs
      have hg : STxn.get cx ⟨true, snap, [], 0⟩ k = .err .keyNotFound := by
        simp [STxn.get, STxn.readSnap, h0, hs]
      rw [hg, (parseGet_resp cx {} (Nat.zero_lt_of_lt (by decide : 0 < 2 ^ 32)) _ (by simp) (by simp)).1]
      rfl
    generalize parseGet (respGet cx {} (STxn.get cx ⟨true, snap, [], 0⟩ k)).marshal = q at hmiss ⊢
    cases q with
    | panic => exact fin _ _ _ (by simp)
    | err e =>
      by_cases he : e = .keyNotFound
      · subst he
        refine ⟨_, _, _, rfl, ?_, ?_⟩
        · intro b hb
          simp only [Res.ok.injEq] at hb
          exact .inl ⟨hb.symm, _, rfl, rfl⟩
        · intro _ hb
          simp at hb
      · cases e <;> first | exact absurd rfl he | exact fin _ _ _ (by simp)
    | ok v =>
      simp only [resume, run, Bool.not_true, Bool.false_eq_true, if_false, Nat.zero_add, request]
      cases hw1 : net 1 with
      | refused => exact fin _ _ _ (by simp)
      | lostRequest => exact fin _ _ _ (by simp)
      | lostAnswer => exact fin _ _ _ (by simp)
      | good =>
        have hm : (KeyRequest.mk k).marshal ≠ [] := by
          intro h
          have := keyReq_back0 k hk
          rw [h] at this
          have h2 := keyReq_back k [1] hk
          rw [h] at h2
          simp only [if_neg h0] at h2
          have h3 := keyReq_back [] [1] (by decide)
          have h4 : (KeyRequest.mk ([] : Bytes)).marshal = [] := rfl
          rw [h4, h2] at h3
          have h5 := keyReq_back0 [] (by decide)
          rw [h4, this] at h5
          simp at h5
          exact h0 h5
        simp only [continued, contDelete, keyReq_back0 k hk]
        have hr : ∀ s : Server.Stream, s.delGen = 0 → readDeleteKey cx s (KeyRequest.mk k).marshal ⟨k⟩ =
            { s with deleteReq := ⟨k⟩, delGen := s.delGen + 1, delCap := cx.grow k.length } := by
          intro s hs
          simp [readDeleteKey, hm, hs]
        rw [hr _ rfl]
        simp only [STxn.modify, Bool.not_true, Bool.false_eq_true, if_false, Res.ok_bind]
        cases hke : keyErr k with
        | some e =>
          simp only
          rw [parseStatus_txn cx {} rfl (.err e) (by simp)]
          cases e <;> exact fin _ _ _ (by simp [seenTxnDelete, seenWrite])
        | none =>
          simp only
          cases htb : cx.env.tooBig 0 with
          | true =>
            simp only [if_true]
            rw [parseStatus_txn cx {} rfl (.err .txnTooBig) (by simp)]
            exact fin _ _ _ (by simp)
          | false =>
            simp only [Bool.false_eq_true, if_false]
            rw [parseStatus_txn cx {} rfl (.ok ()) (by simp)]
            refine ⟨_, _, _, rfl, ?_, ?_⟩
            · intro b hb
              have : b = true := by simpa [seenTxnDelete, seenWrite] using hb.symm
              exact .inr ⟨this, _, rfl, rfl⟩
            · intro hs
              cases hmiss hs

theorem takeAway_exec (T : Turn Bool) (k : Bytes) (hk : k.length < 2 ^ 32) (h0 : k ≠ [])
    (hT : T.act = .update (takeAway k)) (snap db : DB) :
    ((T.exec snap db).2 = db ∨ (T.exec snap db).2 = db.del k) ∧
    ((T.exec snap db).1 = .returned (.ok true) → (T.exec snap db).2 = db.del k ∧ T.noted snap ≠ []) ∧
    (snap.get k = none → (T.exec snap db).1 ≠ .returned (.ok true)) := by
  obtain ⟨cx, net, fail, act, since⟩ := T
  simp only at hT
  subst hT
  obtain ⟨r, n, l, hrun, hr, hmiss⟩ := takeAway_run cx net snap k hk h0
  simp only [Turn.exec, Turn.noted, Client.update, hrun]
  cases r with
  | err e => simp
  | panic => simp
  | ok b =>
    rcases hr b rfl with ⟨rfl, s, rfl, hp⟩ | ⟨rfl, s, rfl, hp⟩
    · have hc : (contCommit cx s fail db).2 = db := by simp [contCommit, STxn.commit, hp]
      have hd : (commit cx (net n) fail (.live s) db).2 = db := by
        cases net n <;> simp [commit, hc]
      simp only
      generalize commit cx (net n) fail (.live s) db = x at hd ⊢
      obtain ⟨r', db'⟩ := x
      simp only at hd
      subst hd
      cases r' <;> simp
    · have hw : s.txn.writes cx = [(k, none)] := by
        have : cx.order [⟨k, k, 1, none⟩] = [⟨k, k, 1, none⟩] := List.Perm.eq_singleton (cx.order_perm _)
        simp [STxn.writes, hp, effective, this]
      have hd : commit cx (net n) fail (.live s) db = (.ok (), db.del k) ∧ fail = none ∧ net n = .good ∨
          ((∀ u, (commit cx (net n) fail (.live s) db).1 ≠ .ok u) ∧
            ((commit cx (net n) fail (.live s) db).2 = db ∨ (commit cx (net n) fail (.live s) db).2 = db.del k)) := by
        cases fail with
        | some e =>
          right
          cases net n
          case good =>
            simp only [commit, contCommit, STxn.commit, hp, List.cons_ne_nil, if_false]
            rw [parseStatus_write cx {} rfl (.err e) (by simp)]
            simp [seenWrite]
          all_goals simp [commit, contCommit, STxn.commit, hp]
        | none =>
          cases net n
          case good =>
            left
            simp only [commit, contCommit, STxn.commit, hp, hw, List.cons_ne_nil, if_false]
            rw [parseStatus_write cx {} rfl (.ok ()) (by simp)]
            simp [seenWrite, applyWrites, applyWrite]
          all_goals right; simp [commit, contCommit, STxn.commit, hp, hw, applyWrites, applyWrite]
      simp only
      rcases hd with ⟨hd, hf, hn⟩ | ⟨hd1, hd2⟩
      · rw [hd]
        refine ⟨.inr rfl, fun _ => ⟨rfl, ?_⟩, fun hs => absurd rfl (hmiss hs)⟩
        simp [hf, hn, STxn.noted, hp]
      · generalize commit cx (net n) fail (.live s) db = x at hd1 hd2 ⊢
        obtain ⟨r', db'⟩ := x
        cases r' with
        | ok u => exact absurd rfl (hd1 u)
        | err e => exact ⟨hd2, by simp, by simp⟩
        | panic => exact ⟨hd2, by simp, by simp⟩

/-- An entry is taken away once: of any number of clients that try (each with an Update that looks it up and
deletes it if it is there) at most one is told that it got it, whatever else goes on, if nobody puts it back. -/
theorem C82_take_once (db₀ : DB) (k : Bytes) (hk : k.length < 2 ^ 32) (h0 : k ≠ []) (h : List (Turn Bool))
    (hf : ∀ T ∈ h, T.Fits) (ha : Accepted db₀ h)
    (hh : ∀ T ∈ h, T.act = .update (takeAway k) ∨ ∀ snap, k ∉ T.noted snap)
    (after mid before : List (Turn Bool)) (T U : Turn Bool) (e : h = after ++ T :: (mid ++ U :: before))
    (hT : T.act = .update (takeAway k)) (hU : U.act = .update (takeAway k))
    (hgot : told db₀ before U = .returned (.ok true)) :
    told db₀ (mid ++ U :: before) T ≠ .returned (.ok true) := by
  subst e
  have gone : (contents db₀ (U :: before)).get k = none := by
    rw [contents_cons, ((takeAway_exec U k hk h0 hU _ _).2.1 hgot).1]
    simp
  have still : (contents db₀ (mid ++ U :: before)).get k = none := by
    have : ∀ m, (∀ V ∈ m, V ∈ mid) → (contents db₀ (m ++ U :: before)).get k = none := by
      intro m
      induction m with
      | nil => exact fun _ => gone
      | cons V m ih =>
        intro hm
        have ih := ih (fun W hW => hm W (by simp [hW]))
        have hV : V ∈ after ++ T :: (mid ++ U :: before) := by
          have := hm V (by simp)
          simp [this]
        rw [List.cons_append, contents_cons]
        rcases hh V hV with hv | hv
        · rcases (takeAway_exec V k hk h0 hv (seen db₀ (m ++ U :: before) V) (contents db₀ (m ++ U :: before))).1
            with h | h
          · rw [h]; exact ih
          · rw [h]; simp
        · rw [exec_frame V (hf V hV) _ _ k (hv _)]
          exact ih
    exact this mid (fun _ h => h)
  intro hg
  have ha := accepted_suffix db₀ after _ ha
  have hw := ((takeAway_exec T k hk h0 hT _ _).2.1 hg).2
  have hr := replay db₀ T (mid ++ U :: before) (hf T (by simp))
    (fun V hV => hf V (List.mem_append_right _ (List.mem_cons_of_mem _ hV))) ha hw
  unfold told at hg
  rw [hr] at hg
  exact (takeAway_exec T k hk h0 hT _ _).2.2 still hg

/-! ### Examples and counterexamples -/

/-- Everything arrives. -/
def arriving : Nat → Wireless := fun _ => .good

/-- A store with one entry. -/
def oneEntry : DB := OMap.empty.set [1] { value := [2] }

/-- A client with an Update in calm circumstances. -/
def updates (f : CProg Bool) (since : Nat) : Turn Bool := ⟨calmCtx, arriving, none, .update f, since⟩

/-- Two clients try to take the same entry at the same time; the storage refuses the second one, it tries
again and does not find it.  Meanwhile another one puts something elsewhere, and a View that began before all
of them still sees the entry. -/
def rush : List (Turn Bool) :=
  [⟨calmCtx, arriving, none, .view (.get [1] (fun r => .done (.ok (match r with | .ok _ => true | _ => false)))), 0⟩,
   updates (takeAway [1]) 2,
   ⟨calmCtx, arriving, some .conflict, .update (takeAway [1]), 0⟩,
   updates (takeAway [1]) 0,
   ⟨calmCtx, arriving, none, .call (.set [7] [8] none), 0⟩]

/-- All ways to single one out. -/
def splits {A : Type} : List A → List (A × List A)
  | [] => []
  | U :: before => (U, before) :: splits before

theorem mem_splits {A : Type} (after before : List A) (U : A) : (U, before) ∈ splits (after ++ U :: before) := by
  induction after with
  | nil => simp [splits]
  | cons T rest ih => simp [splits, ih]

/-- `Accepted`, computed. -/
def acceptedBy {α : Type} (db₀ : DB) : List (Turn α) → Bool
  | [] => true
  | T :: rest => acceptedBy db₀ rest && (decide (T.since ≤ rest.length) &&
      ((T.noted (seen db₀ rest T)).isEmpty || (splits rest).all (fun x => decide (x.2.length < T.since) ||
        (T.looked (seen db₀ rest T)).all (fun k => !(x.1.noted (seen db₀ x.2 x.1)).contains k))))

theorem acceptedBy_sound {α : Type} (db₀ : DB) (h : List (Turn α)) (hc : acceptedBy db₀ h = true) :
    Accepted db₀ h := by
  induction h with
  | nil => trivial
  | cons T rest ih =>
    simp only [acceptedBy, Bool.and_eq_true, decide_eq_true_eq, Bool.or_eq_true, List.isEmpty_iff] at hc
    obtain ⟨h1, h2, h3⟩ := hc
    refine ⟨ih h1, h2, ?_⟩
    intro hw after U before e hl k hk hn
    rcases h3 with h3 | h3
    · exact hw h3
    · rw [List.all_eq_true] at h3
      have := h3 (U, before) (by rw [e]; exact mem_splits after before U)
      simp only [Bool.or_eq_true, decide_eq_true_eq, List.all_eq_true, Bool.not_eq_true', List.contains_eq_mem,
        decide_eq_false_iff_not] at this
      rcases this with h | h
      · omega
      · exact h k hk hn

/-- The rush meets the conditions; the first client gets the entry, the second one is refused and then finds
nothing, the View still sees it. -/
example : (∀ T ∈ rush, T.Fits) ∧ Accepted oneEntry rush ∧
    (∀ T ∈ rush, T.act = .update (takeAway [1]) ∨ ∀ snap, [1] ∉ T.noted snap) ∧
    (splits rush).map (fun x => told oneEntry x.2 x.1) =
      [.returned (.ok true), .returned (.ok false), .returned (.err (.rpc 2 [])), .returned (.ok true),
       .answered .done] := by
  refine ⟨?_, acceptedBy_sound _ _ (by decide +kernel), ?_, by decide +kernel⟩
  · intro T hT
    simp only [rush, List.mem_cons, List.not_mem_nil, or_false] at hT
    rcases hT with rfl | rfl | rfl | rfl | rfl
    · trivial
    · exact takeAway_plain _
    · exact takeAway_plain _
    · exact takeAway_plain _
    · exact ⟨by decide, by decide⟩
  · intro T hT
    simp only [rush, List.mem_cons, List.not_mem_nil, or_false] at hT
    rcases hT with rfl | rfl | rfl | rfl | rfl
    · exact .inr (fun snap => by simp [Turn.noted])
    · exact .inl rfl
    · exact .inl rfl
    · exact .inl rfl
    · exact .inr (fun snap => by simp only [Turn.noted]; split <;> simp)

/-- The storage would not have let the second one through. -/
example : acceptedBy oneEntry [updates (takeAway [1]) 0, updates (takeAway [1]) 0] = false := by decide +kernel

/-- The body does not scan; it may delete any number of times. -/
def NoScan {α : Type} : CProg α → Prop
  | .done _ => True
  | .get _ c => ∀ r, NoScan (c r)
  | .exists _ c => ∀ r, NoScan (c r)
  | .set _ _ _ c => ∀ r, NoScan (c r)
  | .del _ c => ∀ r, NoScan (c r)
  | .scan _ _ _ => False

/-- Deletes two entries, after a first request. -/
def deletesTwo (k k' : Bytes) : CProg Bool :=
  .get [9] (fun _ => .del k (fun _ => .del k' (fun _ => .done (.ok true))))

/-- Writes one entry if another one is there. -/
def writesIf (k v k' : Bytes) : CProg Bool :=
  .set k v none (fun _ => .get k' (fun r => match r with
    | .ok _ => .done (.ok true)
    | _ => .done (.err .io)))

/-- With two Deletes in a transaction it is not so: the buffer they share makes the first one delete a key
that is neither of the two (C58) and is not recorded as written, so that another transaction that depends on
that key is let through although it is gone. -/
theorem C82_deletes_false : ¬ ∀ (db₀ : DB) (h : List (Turn Bool)),
    (∀ T ∈ h, ∃ f, T.act = .update f ∧ NoScan f) → Accepted db₀ h →
    ∀ after T before, h = after ++ T :: before → T.noted (seen db₀ before T) ≠ [] →
      told db₀ before T = (T.alone (serial db₀ before)).1 := by
  intro hall
  have := hall (oneEntry.set [7, 2, 3] { value := [4] })
    [updates (writesIf [8] [1] [7, 2, 3]) 0, updates (deletesTwo [1, 2, 3] [7]) 0]
    (by
      intro T hT
      simp only [List.mem_cons, List.not_mem_nil, or_false] at hT
      rcases hT with rfl | rfl
      · exact ⟨_, rfl, fun _ r => by cases r <;> trivial⟩
      · exact ⟨_, rfl, fun _ _ _ => trivial⟩)
    (acceptedBy_sound _ _ (by decide +kernel)) [] _ _ rfl (by decide +kernel)
  revert this
  decide +kernel

/-- The body deletes at most once; it may scan. -/
def OneDelete {α : Type} (mayDelete : Bool) : CProg α → Prop
  | .done _ => True
  | .get _ c => ∀ r, OneDelete mayDelete (c r)
  | .exists _ c => ∀ r, OneDelete mayDelete (c r)
  | .set _ _ _ c => ∀ r, OneDelete mayDelete (c r)
  | .del _ c => mayDelete = true ∧ ∀ r, OneDelete false (c r)
  | .scan _ _ c => ∀ r, OneDelete mayDelete (c r)

/-- Writes an entry and gives up if there is another one with the prefix. -/
def onlyOne (p : Bytes) (k v : Bytes) : CProg Bool :=
  .set k v none (fun _ => .scan { pfx := p } 10 (fun r => match r with
    | .ok l => if l.length ≤ 1 then .done (.ok true) else .done (.err .io)
    | _ => .done (.err .io)))

/-- With scans it is not so either: an entry that was not there is not recorded as read, so two transactions
that each make sure to be the only one are both let through. -/
theorem C82_scans_false : ¬ ∀ (db₀ : DB) (h : List (Turn Bool)),
    (∀ T ∈ h, ∃ f, T.act = .update f ∧ OneDelete true f) → Accepted db₀ h →
    ∀ after T before, h = after ++ T :: before → T.noted (seen db₀ before T) ≠ [] →
      told db₀ before T = (T.alone (serial db₀ before)).1 := by
  intro hall
  have := hall oneEntry [updates (onlyOne [5] [5, 1] [0]) 0, updates (onlyOne [5] [5, 2] [0]) 0]
    (by
      intro T hT
      simp only [List.mem_cons, List.not_mem_nil, or_false] at hT
      rcases hT with rfl | rfl <;>
      · refine ⟨_, rfl, fun _ r => ?_⟩
        cases r with
        | ok l => simp only; split <;> trivial
        | err e => trivial
        | panic => trivial)
    (acceptedBy_sound _ _ (by decide +kernel)) [] _ _ rfl (by decide +kernel)
  revert this
  decide +kernel

end Mondis.Props
