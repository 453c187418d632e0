import Verif.Lemmas.MetaTxn
import Verif.Props.Txn
/-!
# C47, C48, C49: the metadata store

`Spec/Meta.lean` says what package meta keeps and what its functions mean.  Here: every history of
transactions on a database is a history of that specification.
-/
namespace Mondis.Props
open Mondis Spec Structure Schema Meta Util

/-- One transaction on a database that holds `M`. -/
theorem txn_effect (J : Json) {α : Type} (T : MetaTxn α) {B : Nat} {M : MState} {db : DB} (h : Keeps J B M db)
    (ht : T.prog.Text M) (hB : B + 2 * T.prog.calls M < 2 ^ 63) (hs : T.prog.Strict) :
    ∃ M', T.Effect M (T.run J db).1 M' ∧ Keeps J (B + 2 * T.prog.calls M) M' (T.run J db).2 := by
  have hmono : Keeps J (B + 2 * T.prog.calls M) M db := by
    obtain ⟨⟨A, h1, h2⟩, h3⟩ := h
    exact ⟨⟨A, h1.mono (by omega), h2⟩, h3⟩
  unfold MetaTxn.run
  cases hu : T.update with
  | false =>
    simp only [Bool.false_eq_true, if_false, runInNewTxn]
    refine ⟨M, ?_, hmono⟩
    unfold Util.body
    rcases run_client (env := { T.env with update := false }) T.prog h ht hB hs with ⟨e, he, hr⟩ | ⟨hr, -⟩
    · refine .inr (.inr ⟨rfl, e, hr, ?_⟩)
      rcases he with ⟨-, rfl⟩ | ⟨rfl, n, hn⟩
      · exact .inl ⟨hu, rfl⟩
      · exact .inr (.inl ⟨rfl, n, hn⟩)
    · exact .inr (.inl ⟨rfl, hr, .inl hu⟩)
  | true =>
    simp only [if_true, runInNewUpdateTxn]
    have hrun := run_client (env := { T.env with update := true }) T.prog h ht hB hs
    have hv : (Util.body T.env true (T.prog.code J) db).2.view =
        applyWrites db (Util.body T.env true (T.prog.code J) db).2.writes := Prog.run_start_view _ _ _
    change (∃ e, _ ∧ (Util.body T.env true (T.prog.code J) db).1 = _) ∨
      ((Util.body T.env true (T.prog.code J) db).1 = _ ∧ Keeps _ _ _ (Util.body T.env true (T.prog.code J) db).2.view) at hrun
    cases hb : Util.body T.env true (T.prog.code J) db with
    | mk r t =>
      rw [hb] at hrun hv
      simp only at hrun hv
      cases r with
      | err e =>
        refine ⟨M, ?_, hmono⟩
        rcases hrun with ⟨e', he, hr⟩ | ⟨hr, -⟩
        · cases hr
          refine .inr (.inr ⟨rfl, e, rfl, ?_⟩)
          rcases he with ⟨h', -⟩ | ⟨rfl, n, hn⟩
          · cases h'
          · exact .inr (.inl ⟨rfl, n, hn⟩)
        · exact .inr (.inl ⟨rfl, hr, .inr (by simp)⟩)
      | panic =>
        refine ⟨M, ?_, hmono⟩
        rcases hrun with ⟨e', he, hr⟩ | ⟨hr, -⟩
        · cases hr
        · exact .inr (.inl ⟨rfl, hr, .inr (by simp)⟩)
      | ok a =>
        rcases hrun with ⟨e', he, hr⟩ | ⟨hr, hk⟩
        · cases hr
        · simp only [Txn.commit]
          by_cases hw : t.writes = []
          · rw [if_pos hw]
            refine ⟨(T.prog.sem M).2, .inl ⟨hu, a, rfl, by rw [hr]⟩, ?_⟩
            rw [hv, hw] at hk
            exact hk
          · rw [if_neg hw]
            cases hf : T.fail with
            | none =>
              refine ⟨(T.prog.sem M).2, .inl ⟨hu, a, rfl, by rw [hr]⟩, ?_⟩
              rw [hv] at hk
              exact hk
            | some e =>
              exact ⟨M, .inr (.inr ⟨rfl, e, rfl, .inr (.inr ⟨hu, hf⟩)⟩), hmono⟩

/-- One transaction when nothing is refused. -/
theorem txn_calm (J : Json) {α : Type} (T : MetaTxn α) {B : Nat} {M : MState} {db : DB} (h : Keeps J B M db)
    (ht : T.prog.Text M) (hB : B + 2 * T.prog.calls M < 2 ^ 63) (hc : T.Calm) :
    (T.run J db).1 = (T.prog.sem M).1 ∧ Keeps J (B + 2 * T.prog.calls M) (T.next M) (T.run J db).2 := by
  have hmono : Keeps J (B + 2 * T.prog.calls M) M db := by
    obtain ⟨⟨A, h1, h2⟩, h3⟩ := h
    exact ⟨⟨A, h1.mono (by omega), h2⟩, h3⟩
  unfold MetaTxn.run MetaTxn.next
  rcases hc with ⟨hu, hf, hbig⟩ | ⟨hu, hw⟩
  · simp only [hu, if_true, runInNewUpdateTxn]
    have hrun := run_client_calm (env := { T.env with update := true }) T.prog h ht hB (.inl ⟨rfl, hbig⟩)
    have hv : (Util.body T.env true (T.prog.code J) db).2.view =
        applyWrites db (Util.body T.env true (T.prog.code J) db).2.writes := Prog.run_start_view _ _ _
    change ((Util.body T.env true (T.prog.code J) db).1 = _ ∧ Keeps _ _ _ (Util.body T.env true (T.prog.code J) db).2.view) at hrun
    cases hb : Util.body T.env true (T.prog.code J) db with
    | mk r t =>
      rw [hb] at hrun hv
      obtain ⟨hr, hk⟩ := hrun
      simp only at hr hk hv
      cases hsem : T.prog.sem M with
      | mk r' M' =>
        rw [hsem] at hr hk
        simp only at hr hk
        subst hr
        cases r with
        | err e => exact ⟨rfl, hmono⟩
        | panic => exact ⟨rfl, hmono⟩
        | ok a =>
          simp only [Txn.commit, hf]
          rw [hv] at hk
          by_cases hw : t.writes = []
          · rw [if_pos hw]
            rw [hw] at hk
            exact ⟨rfl, hk⟩
          · rw [if_neg hw]
            exact ⟨rfl, hk⟩
  · simp only [hu, Bool.false_eq_true, if_false, runInNewTxn]
    exact ⟨(run_client_calm (env := { T.env with update := false }) T.prog h ht hB (.inr hw)).1, hmono⟩

theorem runAll_explained (J : Json) {α : Type} (Ts : List (MetaTxn α)) {B : Nat} {M : MState} {db : DB}
    (h : Keeps J B M db) (hs : ∀ T ∈ Ts, T.prog.Strict) (n : Nat) (hf : Fits n M Ts) (hB : B + n < 2 ^ 63) :
    ∃ M', Explained M Ts (runAll J Ts db).1 M' ∧ Keeps J (B + n) M' (runAll J Ts db).2 := by
  induction Ts generalizing B M db n with
  | nil =>
    refine ⟨M, .nil, ?_⟩
    obtain ⟨⟨A, h1, h2⟩, h3⟩ := h
    exact ⟨⟨A, h1.mono (by omega), h2⟩, h3⟩
  | cons T Ts ih =>
    obtain ⟨f1, f2, f3⟩ := hf
    obtain ⟨M', he, hk⟩ := txn_effect J T h f1 (by omega) (hs T (by simp))
    obtain ⟨M'', hx, hk'⟩ := ih hk (fun U hU => hs U (by simp [hU])) _ (f3 _ _ he) (by omega)
    refine ⟨M'', .cons he hx, ?_⟩
    have e : B + 2 * T.prog.calls M + (n - 2 * T.prog.calls M) = B + n := by omega
    rwa [e] at hk'

theorem effect_next {α : Type} (T : MetaTxn α) (M : MState) : T.Effect M (T.prog.sem M).1 (T.next M) := by
  unfold MetaTxn.Effect MetaTxn.next
  cases hu : T.update with
  | false => exact .inr (.inl ⟨rfl, rfl, .inl rfl⟩)
  | true =>
    cases hr : T.prog.sem M with
    | mk r M' =>
      cases r with
      | ok a => exact .inl ⟨rfl, a, rfl, rfl⟩
      | err e => exact .inr (.inl ⟨rfl, rfl, .inr (by simp)⟩)
      | panic => exact .inr (.inl ⟨rfl, rfl, .inr (by simp)⟩)

theorem runAll_calm (J : Json) {α : Type} (Ts : List (MetaTxn α)) {B : Nat} {M : MState} {db : DB}
    (h : Keeps J B M db) (hc : ∀ T ∈ Ts, T.Calm) (n : Nat) (hf : Fits n M Ts) (hB : B + n < 2 ^ 63) :
    (runAll J Ts db).1 = answers M Ts ∧ ∃ M', Keeps J (B + n) M' (runAll J Ts db).2 := by
  induction Ts generalizing B M db n with
  | nil =>
    refine ⟨rfl, M, ?_⟩
    obtain ⟨⟨A, h1, h2⟩, h3⟩ := h
    exact ⟨⟨A, h1.mono (by omega), h2⟩, h3⟩
  | cons T Ts ih =>
    obtain ⟨f1, f2, f3⟩ := hf
    obtain ⟨he, hk⟩ := txn_calm J T h f1 (by omega) (hc T (by simp))
    have := ih hk (fun U hU => hc U (by simp [hU])) _ (f3 _ _ (effect_next T M)) (by omega)
    have e : B + 2 * T.prog.calls M + (n - 2 * T.prog.calls M) = B + n := by omega
    rw [e] at this
    refine ⟨?_, this.2⟩
    simp only [runAll, answers, he, this.1]

/-! ### C48: the metadata store behaves as maps -/

/-- Any history of transactions, each an arbitrary program over the functions of package meta, under any
circumstances: the answers and effects are those of the specification, transaction by transaction, except that
the engine may refuse a transaction, which then has no effect at all. -/
theorem C48_history (J : Json) {α : Type} (Ts : List (MetaTxn α)) (db : DB)
    (h0 : Fresh Sequence.metaPrefix db) (hs : ∀ T ∈ Ts, T.prog.Strict) (hf : Fits (2 ^ 63 - 1) {} Ts) :
    ∃ M, Explained {} Ts (runAll J Ts db).1 M :=
  let ⟨M, h, _⟩ := runAll_explained J Ts (Keeps.start h0) hs _ hf (by decide)
  ⟨M, h⟩

/-- When nothing is refused, the answers are exactly the specified ones (also of programs that carry on after
errors). -/
theorem C48_history_calm (J : Json) {α : Type} (Ts : List (MetaTxn α)) (db : DB)
    (h0 : Fresh Sequence.metaPrefix db) (hc : ∀ T ∈ Ts, T.Calm) (hf : Fits (2 ^ 63 - 1) {} Ts) :
    (runAll J Ts db).1 = answers {} Ts :=
  (runAll_calm J Ts (Keeps.start h0) hc _ hf (by decide)).1

/-! ### Concurrent histories -/

theorem commits_keep (J : Json) {α : Type} (db₀ : DB) (h0 : Fresh Sequence.metaPrefix db₀) (h : List (MetaCommit α))
    (ha : Accepted db₀ (h.map (·.committed J)))
    (hs : ∀ T ∈ h, T.prog.Strict ∧ T.prog.Only (fun _ c => c.scans = false))
    (hok : ∀ later before T, h = later ++ T :: before → ∃ a, T.answer J db₀ before = .ok a)
    (n : Nat) (hn : n < 2 ^ 63) (hf : FitsCommits n h) :
    Keeps J n (metaAfter h) (serial db₀ (h.map (·.committed J))) ∧
    ∀ later before T, h = later ++ T :: before → T.answer J db₀ before = (T.prog.sem (metaAfter before)).1 := by
  induction h generalizing n with
  | nil =>
    refine ⟨?_, ?_⟩
    · obtain ⟨⟨A, h1, h2⟩, h3⟩ := Keeps.start (J := J) h0
      exact ⟨⟨A, h1.mono (by omega), h2⟩, h3⟩
    · intro later before T e
      cases later <;> cases e
  | cons T rest ih =>
    obtain ⟨f1, m, f2, f3⟩ := hf
    obtain ⟨hk, hr⟩ := ih ha.1 (fun U hU => hs U (by simp [hU]))
      (fun later before U e => hok (T :: later) before U (by rw [e]; rfl)) m (by omega) f3
    have hfree : ∀ U ∈ (T :: rest).map (·.committed J), U.prog.ScanFree := by
      intro U hU
      obtain ⟨V, hV, rfl⟩ := List.mem_map.mp hU
      exact code_scanFree _ (hs V hV).2
    have hser := (C60_serializable db₀ _ hfree ha).2 [] (rest.map (·.committed J)) (T.committed J) rfl
    obtain ⟨a, hans⟩ := hok [] rest T rfl
    have hans' := hans
    unfold MetaCommit.answer at hans
    rw [hser] at hans
    have hrun := run_client (env := T.env) T.prog hk f1 (by omega) (hs T (by simp)).1
    change (∃ e, _ ∧ ((T.committed J).outcome (serial db₀ (rest.map (·.committed J)))).1 = _) ∨
      (((T.committed J).outcome (serial db₀ (rest.map (·.committed J)))).1 = _ ∧
        Keeps _ _ _ ((T.committed J).outcome (serial db₀ (rest.map (·.committed J)))).2.view) at hrun
    rw [hans] at hrun
    rcases hrun with ⟨e, -, h⟩ | ⟨hres, hkeep⟩
    · cases h
    · constructor
      · have hv : ((T.committed J).outcome (serial db₀ (rest.map (·.committed J)))).2.view = _ :=
          Prog.run_start_view _ _ _
        rw [hv] at hkeep
        obtain ⟨⟨A, h1, h2⟩, h3⟩ := hkeep
        exact ⟨⟨A, h1.mono (by omega), h2⟩, h3⟩
      · intro later before U e
        cases later with
        | nil =>
          cases e
          rw [hans', hres]
        | cons V later =>
          cases e
          exact hr later before U rfl

/-- Any number of transactions over the functions that do not list entries, running concurrently in any
interleaving the engine accepts: each answered as the specification says when run one after the other in commit
order. -/
theorem C48_concurrent (J : Json) {α : Type} (db₀ : DB) (h0 : Fresh Sequence.metaPrefix db₀) (h : List (MetaCommit α))
    (ha : Accepted db₀ (h.map (·.committed J)))
    (hs : ∀ T ∈ h, T.prog.Strict ∧ T.prog.Only (fun _ c => c.scans = false))
    (hok : ∀ later before T, h = later ++ T :: before → ∃ a, T.answer J db₀ before = .ok a)
    (hf : FitsCommits (2 ^ 63 - 1) h) (later before : List (MetaCommit α)) (T : MetaCommit α)
    (e : h = later ++ T :: before) : T.answer J db₀ before = (T.prog.sem (metaAfter before)).1 :=
  (commits_keep J db₀ h0 h ha hs hok _ (by decide) hf).2 later before T e

/-! ### C47: global ids -/

theorem Consecutive.append {a b c : Int64} {rs qs : List (Int64 × Int64)} (h : Consecutive a rs b)
    (h' : Consecutive b qs c) : Consecutive a (rs ++ qs) c := by
  induction h with
  | nil => exact h'
  | cons _ ih => exact .cons (ih h')

theorem call_ids (M : MState) {β : Type} (c : MetaCall β) :
    Consecutive (M.globalID.getD 0) (c.ids (c.sem M).1) ((c.sem M).2.globalID.getD 0) := by
  have key : ∀ r : Res β × MState, r.2 = M → Consecutive (M.globalID.getD 0) [] (r.2.globalID.getD 0) := by
    intro r hr; rw [hr]; exact .nil
  cases c with
  | genGlobalID =>
    have e : M.globalID.getD 0 + 1 - 1 = M.globalID.getD 0 := Int64.add_sub_cancel _ _
    simp only [MetaCall.sem, MetaCall.ids, Option.getD_some, e]
    exact .cons .nil
  | genGlobalIDs n => exact .cons .nil
  | dropDatabase db => simp only [MetaCall.sem, MetaCall.ids, ifDB]; (repeat' split) <;> exact .nil
  | createDatabase db => simp only [MetaCall.sem, MetaCall.ids]; (repeat' split) <;> exact .nil
  | updateDatabase db => simp only [MetaCall.sem, MetaCall.ids, ifDB]; (repeat' split) <;> exact .nil
  | createCollection db c => simp only [MetaCall.sem, MetaCall.ids, ifDB]; (repeat' split) <;> exact .nil
  | dropCollection db c d => simp only [MetaCall.sem, MetaCall.ids, ifDB, ifColl]; (repeat' split) <;> exact .nil
  | updateCollection db c => simp only [MetaCall.sem, MetaCall.ids, ifDB, ifColl]; (repeat' split) <;> exact .nil
  | listCollections db => simp only [MetaCall.sem, MetaCall.ids, ifDB]; (repeat' split) <;> exact .nil
  | getDatabase db => simp only [MetaCall.sem, MetaCall.ids]; (repeat' split) <;> exact .nil
  | getCollection db c => simp only [MetaCall.sem, MetaCall.ids, ifDB]; (repeat' split) <;> exact .nil
  | deQueueDDLJob l => simp only [MetaCall.sem, MetaCall.ids]; (repeat' split) <;> exact .nil
  | getDDLJobByIdx l i => simp only [MetaCall.sem, MetaCall.ids]; (repeat' split) <;> exact .nil
  | updateDDLJob l i j => simp only [MetaCall.sem, MetaCall.ids]; (repeat' split) <;> exact .nil
  | getHistoryDDLJob id => simp only [MetaCall.sem, MetaCall.ids]; (repeat' split) <;> exact .nil
  | getDDLReorgHandle id => simp only [MetaCall.sem, MetaCall.ids]; (repeat' split) <;> exact .nil
  | getGlobalID => simp only [MetaCall.sem, MetaCall.ids]; (repeat' split) <;> exact .nil
  | _ => exact .nil

theorem client_ids {α : Type} (p : Client α) (M : MState) (got : List (Int64 × Int64)) (o : Int64)
    (h : Consecutive o got (M.globalID.getD 0)) {a : α} {ids : List (Int64 × Int64)}
    (hr : ((p.withIDs got).sem M).1 = .ok (a, ids)) :
    (∃ rest, ids = got ++ rest) ∧ Consecutive o ids (((p.withIDs got).sem M).2.globalID.getD 0) := by
  induction p generalizing M got with
  | done r =>
    cases r with
    | ok b =>
      simp only [Client.withIDs, Client.sem, Res.map', Res.ok.injEq, Prod.mk.injEq] at hr
      obtain ⟨-, rfl⟩ := hr
      exact ⟨⟨[], by simp⟩, h⟩
    | err e => simp [Client.withIDs, Client.sem, Res.map'] at hr
    | panic => simp [Client.withIDs, Client.sem, Res.map'] at hr
  | call c k ih =>
    obtain ⟨⟨rest, h1⟩, h2⟩ := ih _ _ _ (Consecutive.append h (call_ids M c)) hr
    exact ⟨⟨_, by rw [h1, List.append_assoc]⟩, h2⟩

/-- The ranges obtained by these commits (newest first), in commit order. -/
def rangesOf (J : Json) {α : Type} (db₀ : DB) : List (MetaCommit (α × List (Int64 × Int64))) → List (Int64 × Int64)
  | [] => []
  | T :: before => rangesOf J db₀ before ++ (match T.answer J db₀ before with
    | .ok (_, ids) => ids
    | _ => [])

/-- Whatever transactions run concurrently and whatever else they do, the ranges of ids obtained from
GenGlobalID and GenGlobalIDs by those that commit follow one another without gap or overlap, from 0, in commit
order. -/
theorem C47_consecutive (J : Json) {α : Type} (db₀ : DB) (h0 : Fresh Sequence.metaPrefix db₀)
    (h : List (MetaCommit (α × List (Int64 × Int64))))
    (hp : ∀ T ∈ h, ∃ p : Client α, T.prog = p.withIDs [])
    (ha : Accepted db₀ (h.map (·.committed J)))
    (hs : ∀ T ∈ h, T.prog.Strict ∧ T.prog.Only (fun _ c => c.scans = false))
    (hok : ∀ later before T, h = later ++ T :: before → ∃ a, T.answer J db₀ before = .ok a)
    (hf : FitsCommits (2 ^ 63 - 1) h) :
    ∃ last, Consecutive 0 (rangesOf J db₀ h) last := by
  have hc := C48_concurrent J db₀ h0 h ha hs hok hf
  have key : ∀ later before, h = later ++ before →
      Consecutive 0 (rangesOf J db₀ before) ((metaAfter before).globalID.getD 0) := by
    intro later before
    induction before generalizing later with
    | nil => intro _; exact .nil
    | cons T before ih =>
      intro e
      have hi := ih (later ++ [T]) (by rw [e, List.append_assoc]; rfl)
      have ht := hc later before T e
      obtain ⟨⟨a, ids⟩, hans⟩ := hok later before T e
      obtain ⟨p, hpT⟩ := hp T (by rw [e]; simp)
      rw [hans, hpT] at ht
      have := (client_ids p (metaAfter before) [] _ .nil ht.symm).2
      simp only [rangesOf, hans, metaAfter, hpT]
      exact Consecutive.append hi this
  exact ⟨_, key [] h rfl⟩

/-- Ranges that follow one another, each from a smaller to a larger id, are in increasing order, so no id is in
two of them. -/
theorem C47_increasing {o last : Int64} {rs : List (Int64 × Int64)} (h : Consecutive o rs last)
    (hm : ∀ r ∈ rs, r.1 ≤ r.2) : rs.Pairwise (fun r q => r.2 ≤ q.1) ∧ ∀ r ∈ rs, o ≤ r.1 := by
  induction h with
  | nil => exact ⟨.nil, by simp⟩
  | @cons a b c rs h ih =>
    obtain ⟨h1, h2⟩ := ih (fun r hr => hm r (by simp [hr]))
    refine ⟨List.pairwise_cons.mpr ⟨fun q hq => h2 q hq, h1⟩, ?_⟩
    intro r hr
    rcases List.mem_cons.mp hr with rfl | hr
    · exact Int64.le_refl _
    · exact Int64.le_trans (hm (a, b) (by simp)) (h2 r hr)

/-- So no id is handed out twice, whatever transactions run concurrently, as long as every range that was
answered goes from a smaller to a larger id (no negative request, no overflow of the 64-bit counter). -/
theorem C47_never_twice (J : Json) {α : Type} (db₀ : DB) (h0 : Fresh Sequence.metaPrefix db₀)
    (h : List (MetaCommit (α × List (Int64 × Int64))))
    (hp : ∀ T ∈ h, ∃ p : Client α, T.prog = p.withIDs [])
    (ha : Accepted db₀ (h.map (·.committed J)))
    (hs : ∀ T ∈ h, T.prog.Strict ∧ T.prog.Only (fun _ c => c.scans = false))
    (hok : ∀ later before T, h = later ++ T :: before → ∃ a, T.answer J db₀ before = .ok a)
    (hf : FitsCommits (2 ^ 63 - 1) h)
    (hm : ∀ r ∈ rangesOf J db₀ h, r.1 ≤ r.2) (i j : Nat) (hij : i < j) (hj : j < (rangesOf J db₀ h).length)
    (id : Int64) (hid : ((rangesOf J db₀ h)[i]).1 < id ∧ id ≤ ((rangesOf J db₀ h)[i]).2) :
    ¬ (((rangesOf J db₀ h)[j]).1 < id ∧ id ≤ ((rangesOf J db₀ h)[j]).2) := by
  obtain ⟨last, hc⟩ := C47_consecutive J db₀ h0 h hp ha hs hok hf
  have hp := List.pairwise_iff_getElem.mp (C47_increasing hc hm).1 i j (by omega) hj hij
  intro hid'
  have h1 := Int64.le_iff_toInt_le.mp hp
  have h2 := Int64.lt_iff_toInt_lt.mp hid'.1
  have h3 := Int64.le_iff_toInt_le.mp hid.2
  omega

end Mondis.Props
