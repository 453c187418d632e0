import Verif.Lemmas.DdlSane
import Verif.Props.Meta
/-!
# Package ddl: one transaction, and the sequences of document ids
-/
namespace Mondis.Ddl
open Mondis Spec Schema Meta Props Structure Util

/-- What a transaction leaves when it is not refused. -/
def leaves {α : Type} (r : Res α) (M M' : MState) : MState := match r with
  | .ok _ => M'
  | _ => M

theorem Keeps.mono {J : Json} {B B' : Nat} {M : MState} {db : DB} (h : Keeps J B M db) (hB : B ≤ B') : Keeps J B' M db := by
  obtain ⟨⟨A, h1, h2⟩, h3⟩ := h
  exact ⟨⟨A, h1.mono (by omega), h2⟩, h3⟩

theorem txn_quiet (J : Json) {α : Type} (T : MetaTxn α) {B n : Nat} {M M' : MState} {db : DB} {r : Res α}
    (h : Keeps J B M db) (hu : T.update = true) (hbig : ∀ n, T.env.tooBig n = false) (hr : Runs T.prog M n r M')
    (hB : B + 2 * n < 2 ^ 63) :
    ((T.run J db).1 = r ∧ Keeps J (B + 2 * n) (leaves r M M') (T.run J db).2) ∨
    (∃ e, T.fail = some e ∧ (T.run J db).1 = .err e ∧ Keeps J (B + 2 * n) M (T.run J db).2) := by
  obtain ⟨h1, h2, h3⟩ := hr
  have hmono := Keeps.mono h (Nat.le_add_right B (2 * n))
  unfold MetaTxn.run
  simp only [hu, if_true, runInNewUpdateTxn]
  have hrun := run_client_calm (env := { T.env with update := true }) T.prog h h2 (by omega) (.inl ⟨rfl, hbig⟩)
  have hv : (Util.body T.env true (T.prog.code J) db).2.view =
      applyWrites db (Util.body T.env true (T.prog.code J) db).2.writes := Prog.run_start_view _ _ _
  change ((Util.body T.env true (T.prog.code J) db).1 = _ ∧ Keeps _ _ _ (Util.body T.env true (T.prog.code J) db).2.view) at hrun
  cases hb : Util.body T.env true (T.prog.code J) db with
  | mk r' t =>
    rw [hb, h1] at hrun
    rw [hb] at hv
    obtain ⟨hr, hk⟩ := hrun
    simp only at hr hk hv
    subst hr
    cases r' with
    | err e => exact .inl ⟨rfl, hmono⟩
    | panic => exact .inl ⟨rfl, hmono⟩
    | ok a =>
      simp only [Txn.commit]
      rw [hv] at hk
      have hk := Keeps.mono hk (B' := B + 2 * n) (by omega)
      by_cases hw : t.writes = []
      · rw [if_pos hw]
        rw [hw] at hk
        exact .inl ⟨rfl, hk⟩
      · rw [if_neg hw]
        cases hf : T.fail with
        | none => exact .inl ⟨rfl, hk⟩
        | some e => exact .inr ⟨e, rfl, rfl, hmono⟩

/-- Only the counters of document ids may change. -/
def SameButDids (M M' : MState) : Prop := ∃ d, M' = { M with dids := d }

theorem SameButDids.refl (M : MState) : SameButDids M M := ⟨M.dids, rfl⟩
theorem SameButDids.trans {M M' M'' : MState} (h : SameButDids M M') (h' : SameButDids M' M'') : SameButDids M M'' := by
  obtain ⟨d, rfl⟩ := h
  obtain ⟨d', rfl⟩ := h'
  exact ⟨d', rfl⟩

theorem SameButDids.holds {A : DState} {M M' : MState} (h : SameButDids M M') (hh : A.Holds M) : A.Holds M' := by
  obtain ⟨d, rfl⟩ := h
  exact ⟨hh.lastID, hh.version, hh.diff, hh.noDiff, hh.dbs, hh.colls, hh.queue, hh.history⟩

theorem bump_code (J : Json) (db c step : Int64) :
    (Client.one (.incDidSequence db c step)).code J = (didCell db c).inc step := by
  have key : ∀ p : Prog Int64, (mapOut (fun i => Out.int i.toInt) p).andThen (fun r => (SProg.prog Sequence.metaPrefix
      ((match r with
        | .ok (.int i) => SProg.done (.ok (Int64.ofInt i))
        | .ok _ => .done .panic
        | .err e => .done (.err e)
        | .panic => .done .panic).andThen SProg.done))) = p := by
    intro p
    induction p with
    | done r => cases r <;> simp [mapOut, Prog.andThen, SProg.prog, SProg.andThen, Bind.bind, Prog.bind, Pure.pure]
    | get k f ih => exact congrArg (Prog.get k) (funext fun r => ih r)
    | set k v m f ih => exact congrArg (Prog.set k v m) (funext fun r => ih r)
    | del k f ih => exact congrArg (Prog.del k) (funext fun r => ih r)
    | scan o f ih => exact congrArg (Prog.scan o) (funext fun r => ih r)
  exact key _

/-- The stored counter of document ids of a collection. -/
def did (M : MState) (d c : Int64) : Int := (((M.dids d).get (textOf c)).getD 0).toInt

/-- The counter, `step` later. -/
def bumped (M : MState) (d c step : Int64) : MState :=
  { M with dids := put M.dids d ((M.dids d).set (textOf c) (((M.dids d).get (textOf c)).getD 0 + step)) }

theorem did_bumped {M : MState} {d c step : Int64} (h1 : -2 ^ 63 ≤ did M d c + step.toInt) (h2 : did M d c + step.toInt < 2 ^ 63) (d' c' : Int64) :
    did (bumped M d c step) d' c' = did M d' c' + (if d' = d ∧ c' = c then step.toInt else 0) := by
  unfold did at h1 h2
  unfold did bumped put
  simp only
  by_cases hd : d' = d
  · subst hd
    rw [if_pos rfl, OMap.get_set]
    by_cases hc : c' = c
    · subst hc
      rw [if_pos rfl, if_pos ⟨rfl, rfl⟩]
      exact toInt_add (by omega) (by omega)
    · rw [if_neg (fun h => hc (textOf_inj.mp h).symm), if_neg (fun h => hc h.2)]
      omega
  · rw [if_neg hd, if_neg (fun h => hd h.1)]
    omega

/-- Renewing the lease of a sequence of document ids. -/
theorem renew_did (J : Json) {B : Nat} {M : MState} {db : DB} {s : Sequence.Seq} {d c : Int64} {env : Env} {fail : Option Err}
    (h : Keeps J B M db) (hs : s.cell = didCell d c) (hbig : ∀ n, env.tooBig n = false) (hB : B + 2 < 2 ^ 63)
    (hd : 0 ≤ did M d c) (hb : 0 ≤ s.bandwidth.toInt) (hd' : did M d c + s.bandwidth.toInt < 2 ^ 63) :
    ∃ M', SameButDids M M' ∧ Keeps J (B + 2) M' (s.renewLease ⟨env, db, fail⟩ 0 db).2.2 ∧
      (s.renewLease ⟨env, db, fail⟩ 0 db).2.1.cell = s.cell ∧
      (s.renewLease ⟨env, db, fail⟩ 0 db).2.1.bandwidth = s.bandwidth ∧
      (s.renewLease ⟨env, db, fail⟩ 0 db).2.1.closed = s.closed ∧
      (s.renewLease ⟨env, db, fail⟩ 0 db).2.1.putbacks = s.putbacks ∧
      (((s.renewLease ⟨env, db, fail⟩ 0 db).1 = .ok () ∧ M' = bumped M d c s.bandwidth ∧
          (s.renewLease ⟨env, db, fail⟩ 0 db).2.1.next.toInt = did M d c ∧
          (s.renewLease ⟨env, db, fail⟩ 0 db).2.1.leased.toInt = did M d c + s.bandwidth.toInt) ∨
        (M' = M ∧ (s.renewLease ⟨env, db, fail⟩ 0 db).2.1 = s ∧
          ∃ e, fail = some e ∧ (s.renewLease ⟨env, db, fail⟩ 0 db).1 = .err e)) := by
  have hr : Runs (Client.one (.incDidSequence d c s.bandwidth)) M 1 (.ok (((M.dids d).get (textOf c)).getD 0 + s.bandwidth))
      (bumped M d c s.bandwidth) :=
    Runs.one trivial rfl
  have hq := txn_quiet J ⟨true, env, fail, Client.one (.incDidSequence d c s.bandwidth)⟩ h rfl hbig hr hB
  have hrun : (⟨true, env, fail, Client.one (.incDidSequence d c s.bandwidth)⟩ : MetaTxn Int64).run J db =
      runInNewUpdateTxn env fail (s.cell.inc s.bandwidth) db db := by
    rw [hs, ← bump_code J]; rfl
  rw [hrun] at hq
  unfold did at hd hd'
  have hsum : (((M.dids d).get (textOf c)).getD 0 + s.bandwidth).toInt =
      (((M.dids d).get (textOf c)).getD 0).toInt + s.bandwidth.toInt := toInt_add (by omega) (by omega)
  unfold Sequence.Seq.renewLease
  simp only [if_pos]
  cases hx : runInNewUpdateTxn env fail (s.cell.inc s.bandwidth) db db with
  | mk r db' =>
    rw [hx] at hq
    rcases hq with ⟨hr, hk⟩ | ⟨e, hf, hr, hk⟩
    · simp only at hr
      subst hr
      refine ⟨_, ⟨_, rfl⟩, hk, rfl, rfl, rfl, rfl, .inl ⟨rfl, rfl, ?_, hsum⟩⟩
      show ((((M.dids d).get (textOf c)).getD 0 + s.bandwidth) - s.bandwidth).toInt = _
      rw [toInt_sub (by rw [hsum]; omega) (by rw [hsum]; omega), hsum]
      unfold did
      omega
    · simp only at hr
      subst hr
      exact ⟨M, .refl M, hk, rfl, rfl, rfl, rfl, .inr ⟨rfl, rfl, e, hf, rfl⟩⟩

/-- The sequence of a collection. -/
def Regular (s : Sequence.Seq) (d c : Int64) : Prop :=
  s.cell = didCell d c ∧ s.bandwidth = defaultDIDBandWidth ∧ s.closed = false ∧ s.putbacks = []

theorem createSequence_taken {w : World} {d c : Int64} {env : Env} {fail : Option Err} {s : Sequence.Seq}
    (h : w.seqs c = some s) : createSequence d c env fail w = (.err errSequenceAlreadyExists, w) := by
  unfold createSequence
  rw [h]
  rfl

theorem didCell_valid (d c : Int64) : (didCell d c).valid = true := by
  simp only [didCell, Sequence.Cell.valid, dbKeyByID, didSequenceKeyByID]
  simp [idKey, dbPrefix, didSequencePrefix]

theorem bandwidth_toInt : defaultDIDBandWidth.toInt = 1000 := by decide

theorem createSequence_free (J : Json) {B : Nat} {M : MState} {w : World} {d c : Int64} {env : Env} {fail : Option Err}
    (h : Keeps J B M w.db) (hs : w.seqs c = none) (hbig : ∀ n, env.tooBig n = false) (hB : B + 2 < 2 ^ 63)
    (hd : 0 ≤ did M d c) (hd' : did M d c + 1000 < 2 ^ 63) :
    ∃ db' M', SameButDids M M' ∧ Keeps J (B + 2) M' db' ∧
      ((∃ s, Regular s d c ∧ createSequence d c env fail w = (.ok (), { w with db := db', seqs := w.seqs.set c s }) ∧
          s.next.toInt = did M d c ∧ s.leased.toInt = did M d c + 1000 ∧
          ∀ d' c', did M' d' c' = did M d' c' + (if d' = d ∧ c' = c then 1000 else 0)) ∨
       (M' = M ∧ ∃ e, fail = some e ∧ createSequence d c env fail w = (.err e, { w with db := db' }))) := by
  obtain ⟨M', h1, h2, h3, h4, h5, h6, h7⟩ := renew_did J (s := { cell := didCell d c, bandwidth := defaultDIDBandWidth })
    (fail := fail) h rfl hbig hB hd (by show 0 ≤ defaultDIDBandWidth.toInt; rw [bandwidth_toInt]; omega)
    (by show _ + defaultDIDBandWidth.toInt < _; rw [bandwidth_toInt]; omega)
  unfold createSequence Sequence.Seq.new
  rw [hs, didCell_valid]
  have hz : ¬ defaultDIDBandWidth = 0 := by decide
  simp only [Option.isSome_none, Bool.false_eq_true, if_false, if_neg hz]
  cases hx : Sequence.Seq.renewLease { cell := didCell d c, bandwidth := defaultDIDBandWidth } ⟨env, w.db, fail⟩ 0 w.db with
  | mk r x =>
    obtain ⟨s, db'⟩ := x
    rw [hx] at h2 h3 h4 h5 h6 h7
    simp only [bandwidth_toInt] at h2 h3 h4 h5 h6 h7
    refine ⟨db', M', h1, h2, ?_⟩
    rcases h7 with ⟨rfl, rfl, k1, k2⟩ | ⟨rfl, -, e, hf, rfl⟩
    · refine .inl ⟨s, ⟨h3, h4, h5, h6⟩, rfl, k1, k2, ?_⟩
      intro d' c'
      rw [did_bumped (by rw [bandwidth_toInt]; omega) (by rw [bandwidth_toInt]; omega), bandwidth_toInt]
    · exact .inr ⟨rfl, e, hf, rfl⟩

/-- A new lease. -/
def Lease (M : MState) (s : Sequence.Seq) (d c : Int64) : Prop :=
  s.next.toInt = did M d c ∧ s.leased.toInt = did M d c + 1000

/-- The sequences created after a commit. -/
theorem afterCommit_ok (J : Json) (env : Env) (hbig : ∀ n, env.tooBig n = false) (l : List (Int64 × Int64)) :
    ∀ {B : Nat} {M : MState} {w : World}, Keeps J B M w.db → (l.map Prod.snd).Nodup → (∀ p ∈ l, w.seqs p.2 = none) →
      B + 2 * l.length < 2 ^ 63 → (∀ p ∈ l, 0 ≤ did M p.1 p.2 ∧ did M p.1 p.2 + 1000 < 2 ^ 63) →
      ∃ db' q M', SameButDids M M' ∧ Keeps J (B + 2 * l.length) M' db' ∧
        afterCommit env l w = { w with db := db', seqs := q } ∧
        (∀ p ∈ l, ∃ s, q p.2 = some s ∧ Regular s p.1 p.2 ∧ Lease M s p.1 p.2) ∧ (∀ c, c ∉ l.map Prod.snd → q c = w.seqs c) ∧
        ∀ d c, did M' d c = did M d c + (if (d, c) ∈ l then 1000 else 0) := by
  induction l with
  | nil => exact fun h _ _ _ _ => ⟨_, _, _, .refl _, h, rfl, fun p hp => absurd hp List.not_mem_nil, fun c _ => rfl,
      fun d c => by simp⟩
  | cons p l ih =>
    intro B M w h hn hs hB hdid
    obtain ⟨d, c⟩ := p
    rw [List.map_cons, List.nodup_cons] at hn
    rw [List.length_cons] at hB ⊢
    obtain ⟨k1, k2⟩ := hdid (d, c) List.mem_cons_self
    obtain ⟨db', M', h1, h2, ⟨s, hr, h3, hl1, hl2, hdid'⟩ | ⟨-, e, hf, -⟩⟩ :=
      createSequence_free J (d := d) (fail := none) h (hs (d, c) List.mem_cons_self) hbig (by omega) k1 k2
    case inr => cases hf
    have hne : ∀ p ∈ l, p.2 ≠ c := fun p hp e => hn.1 (List.mem_map.mpr ⟨p, hp, e⟩)
    have hfree : ∀ p ∈ l, (w.seqs.set c s) p.2 = none := by
      intro p hp
      show (if p.2 = c then some s else w.seqs p.2) = none
      rw [if_neg (hne p hp)]
      exact hs p (List.mem_cons_of_mem _ hp)
    have hsame : ∀ p ∈ l, did M' p.1 p.2 = did M p.1 p.2 := by
      intro p hp
      rw [hdid', if_neg (fun h => hne p hp h.2)]
      omega
    obtain ⟨db'', q, M'', g1, g2, g3, g4, g5, g6⟩ := ih (w := { w with db := db', seqs := w.seqs.set c s }) h2 hn.2 hfree (by omega)
      (fun p hp => by rw [hsame p hp]; exact hdid p (List.mem_cons_of_mem _ hp))
    refine ⟨db'', q, M'', h1.trans g1, Keeps.mono g2 (by omega), ?_, ?_, ?_, ?_⟩
    · rw [afterCommit, h3]
      exact g3
    · intro p hp
      rcases List.mem_cons.mp hp with rfl | hp
      · refine ⟨s, ?_, hr, hl1, hl2⟩
        rw [g5 _ hn.1]
        exact if_pos rfl
      · obtain ⟨s', a1, a2, a3, a4⟩ := g4 p hp
        rw [hsame p hp] at a3 a4
        exact ⟨s', a1, a2, a3, a4⟩
    · intro x hx
      rw [List.map_cons, List.mem_cons, not_or] at hx
      rw [g5 x hx.2]
      exact if_neg hx.1
    · intro d' c'
      rw [g6, hdid']
      by_cases hl : (d', c') ∈ l
      · rw [if_pos hl, if_neg (fun h => hne _ hl h.2), if_pos (List.mem_cons_of_mem _ hl)]
        omega
      · by_cases he : d' = d ∧ c' = c
        · rw [if_neg hl, if_pos he, if_pos (by rw [he.1, he.2]; exact List.mem_cons_self)]
          omega
        · have hnot : ¬ (d', c') ∈ (d, c) :: l := by
            rw [List.mem_cons, not_or]
            exact ⟨fun h => he ⟨(Prod.mk.inj h).1, (Prod.mk.inj h).2⟩, hl⟩
          rw [if_neg hl, if_neg he, if_neg hnot]
          omega

/-- The sequences Init creates. -/
theorem initSequences_cases (J : Json) (env : Env) (hbig : ∀ n, env.tooBig n = false) (fail : Int64 → Option Err)
    (l : List (Int64 × Int64)) :
    ∀ {B : Nat} {M : MState} {w : World}, Keeps J B M w.db → (l.map Prod.snd).Nodup →
      B + 2 * l.length < 2 ^ 63 → (∀ p ∈ l, 0 ≤ did M p.1 p.2 ∧ did M p.1 p.2 + 1000 < 2 ^ 63) →
      ∃ db' q M', SameButDids M M' ∧ Keeps J (B + 2 * l.length) M' db' ∧
        (initSequences env fail l w).2 = { w with db := db', seqs := q } ∧
        (∀ c, (q c = w.seqs c ∧ ∀ d, did M' d c = did M d c) ∨ ∃ p ∈ l, p.2 = c ∧ w.seqs c = none ∧
          (∃ s, q c = some s ∧ Regular s p.1 c ∧ Lease M s p.1 c) ∧ ∀ d, did M' d c = did M d c + (if d = p.1 then 1000 else 0)) ∧
        (((initSequences env fail l w).1 = .ok () ∧ (∀ p ∈ l, w.seqs p.2 = none) ∧ ∀ p ∈ l, (q p.2).isSome) ∨
         ((initSequences env fail l w).1 = .err errSequenceAlreadyExists ∧ ∃ p ∈ l, (w.seqs p.2).isSome) ∨
         ∃ p ∈ l, ∃ e, fail p.2 = some e ∧ (initSequences env fail l w).1 = .err e) := by
  induction l with
  | nil => exact fun h _ _ _ => ⟨_, _, _, .refl _, h, rfl, fun c => .inl ⟨rfl, fun d => rfl⟩,
      .inl ⟨rfl, fun p hp => absurd hp List.not_mem_nil, fun p hp => absurd hp List.not_mem_nil⟩⟩
  | cons p l ih =>
    intro B M w h hn hB hdid
    obtain ⟨d, c⟩ := p
    rw [List.map_cons, List.nodup_cons] at hn
    rw [List.length_cons] at hB ⊢
    obtain ⟨b1, b2⟩ := hdid (d, c) List.mem_cons_self
    cases hw : w.seqs c with
    | some s =>
      refine ⟨w.db, w.seqs, M, .refl M, Keeps.mono h (by omega), ?_, fun c => .inl ⟨rfl, fun d => rfl⟩, .inr (.inl ⟨?_, ?_⟩)⟩
      · rw [initSequences, createSequence_taken hw]
      · rw [initSequences, createSequence_taken hw]
      · exact ⟨(d, c), List.mem_cons_self, by rw [hw]; rfl⟩
    | none =>
      obtain ⟨db', M', h1, h2, ⟨s, hr, h3, hl1, hl2, hdid'⟩ | ⟨hM, e, hf, h3⟩⟩ :=
        createSequence_free J (d := d) (fail := fail c) h hw hbig (by omega) b1 b2
      case inr =>
        refine ⟨db', w.seqs, M', h1, Keeps.mono h2 (by omega), ?_, fun c => .inl ⟨rfl, fun d => by rw [hM]⟩,
          .inr (.inr ⟨(d, c), List.mem_cons_self, e, hf, ?_⟩)⟩
        · rw [initSequences, h3]
        · rw [initSequences, h3]
      have hset : ∀ x, x ≠ c → (w.seqs.set c s) x = w.seqs x := fun x hx => if_neg hx
      have hne : ∀ p ∈ l, p.2 ≠ c := fun p hp e => hn.1 (List.mem_map.mpr ⟨p, hp, e⟩)
      have hsame : ∀ x, x ≠ c → ∀ d, did M' d x = did M d x := by
        intro x hx d
        rw [hdid', if_neg (fun h => hx h.2)]
        omega
      obtain ⟨db'', q, M'', g1, g2, g3, g4, g5⟩ := ih (w := { w with db := db', seqs := w.seqs.set c s }) h2 hn.2 (by omega)
        (fun p hp => by rw [hsame _ (hne p hp)]; exact hdid p (List.mem_cons_of_mem _ hp))
      have hself : q c = some s ∧ ∀ d, did M'' d c = did M' d c := by
        rcases g4 c with ⟨e, e'⟩ | ⟨p, hp, e, -⟩
        · exact ⟨by rw [e]; exact if_pos rfl, e'⟩
        · exact absurd e (hne p hp)
      have e : initSequences env fail ((d, c) :: l) w = initSequences env fail l { w with db := db', seqs := w.seqs.set c s } := by
        rw [initSequences, h3]
      refine ⟨db'', q, M'', h1.trans g1, Keeps.mono g2 (by omega), by rw [e]; exact g3, ?_, ?_⟩
      · intro x
        by_cases hx : x = c
        · subst hx
          refine .inr ⟨(d, x), List.mem_cons_self, rfl, hw, ⟨s, hself.1, hr, hl1, hl2⟩, ?_⟩
          intro d'
          rw [hself.2, hdid']
          by_cases hd : d' = d
          · rw [if_pos ⟨hd, rfl⟩, if_pos hd]
          · rw [if_neg (fun h => hd h.1), if_neg hd]
        · rcases g4 x with ⟨e, e'⟩ | ⟨p, hp, e, hwx, ⟨s', a1, a2, a3, a4⟩, hs⟩
          · exact .inl ⟨by rw [e]; exact hset x hx, fun d => by rw [e', hsame x hx]⟩
          · refine .inr ⟨p, List.mem_cons_of_mem _ hp, e, ?_, ⟨s', a1, a2, ?_, ?_⟩, ?_⟩
            · rw [← hset x hx]; exact hwx
            · rw [a3, hsame x hx]
            · rw [a4, hsame x hx]
            · intro d'; rw [hs, hsame x hx]
      · rw [e]
        rcases g5 with ⟨k1, k2, k3⟩ | ⟨k1, p, hp, k2⟩ | ⟨p, hp, k⟩
        · refine .inl ⟨k1, ?_, ?_⟩
          · intro p hp
            rcases List.mem_cons.mp hp with rfl | hp
            · exact hw
            · have := k2 p hp
              change (w.seqs.set c s) p.2 = none at this
              rwa [hset _ (hne p hp)] at this
          · intro p hp
            rcases List.mem_cons.mp hp with rfl | hp
            · rw [hself.1]; rfl
            · exact k3 p hp
        · refine .inr (.inl ⟨k1, p, List.mem_cons_of_mem _ hp, ?_⟩)
          change ((w.seqs.set c s) p.2).isSome = true at k2
          rwa [hset _ (hne p hp)] at k2
        · exact .inr (.inr ⟨p, List.mem_cons_of_mem _ hp, k⟩)

/-- Drawing an id. -/
theorem nextId_did (J : Json) {B : Nat} {M : MState} {db : DB} {s : Sequence.Seq} {d c : Int64} {env : Env} {fail : Option Err}
    (h : Keeps J B M db) (hs : Regular s d c) (hbig : ∀ n, env.tooBig n = false) (hB : B + 2 < 2 ^ 63)
    (hd : 0 ≤ did M d c) (hd' : did M d c + 1000 < 2 ^ 63)
    (hl : 0 ≤ s.next.toInt ∧ s.next.toInt ≤ s.leased.toInt ∧ s.leased.toInt ≤ did M d c) :
    ∃ M', SameButDids M M' ∧ Keeps J (B + 2) M' (s.nextId ⟨env, db, fail⟩ db).2.2 ∧
      Regular (s.nextId ⟨env, db, fail⟩ db).2.1 d c ∧
      (∀ d' c', did M d' c' ≤ did M' d' c' ∧ did M' d' c' ≤ did M d' c' + 1000) ∧
      (s.nextId ⟨env, db, fail⟩ db).2.1.next.toInt ≤ (s.nextId ⟨env, db, fail⟩ db).2.1.leased.toInt ∧
      (s.nextId ⟨env, db, fail⟩ db).2.1.leased.toInt ≤ did M' d c ∧
      ((∃ v, (s.nextId ⟨env, db, fail⟩ db).1 = .ok v ∧ s.next.toInt < v.toInt ∧ (s.nextId ⟨env, db, fail⟩ db).2.1.next = v) ∨
       ∃ e, fail = some e ∧ (s.nextId ⟨env, db, fail⟩ db).1 = .err e ∧ (s.nextId ⟨env, db, fail⟩ db).2.1 = s) := by
  obtain ⟨h1, h2, h3, h4⟩ := hs
  obtain ⟨b1, b2, b3⟩ := hl
  have one : (1 : Int64).toInt = 1 := by decide
  unfold Sequence.Seq.nextId
  rw [h3, h4]
  simp only [Bool.false_eq_true, if_false, List.getLast?_nil]
  by_cases hl : s.next ≥ s.leased
  · simp only [if_pos hl]
    have hbw : s.bandwidth.toInt = 1000 := by rw [h2]; exact bandwidth_toInt
    obtain ⟨M', k1, k2, k3, k4, k5, k6, k7⟩ := renew_did J (s := s) (fail := fail) h h1 hbig hB hd (by omega) (by omega)
    refine ⟨M', k1, ?_⟩
    rw [h1] at k3; rw [h2] at k4; rw [h3] at k5; rw [h4] at k6
    rcases k7 with ⟨e, e2, e3, e4⟩ | ⟨e2, e3, e, hf, e'⟩
    · rw [e]
      have hM : ∀ d' c', did M' d' c' = did M d' c' + (if d' = d ∧ c' = c then 1000 else 0) := by
        intro d' c'
        rw [e2, did_bumped (by omega) (by omega), hbw]
      have hnext : (Sequence.Seq.renewLease s ⟨env, db, fail⟩ 0 db).2.1.next.toInt + 1 =
          ((Sequence.Seq.renewLease s ⟨env, db, fail⟩ 0 db).2.1.next + 1).toInt := by
        rw [toInt_add (by rw [one]; omega) (by rw [one]; omega), one]
      refine ⟨k2, ⟨k3, k4, k5, k6⟩, ?_, ?_, ?_, .inl ⟨_, rfl, ?_, rfl⟩⟩
      · intro d' c'
        rw [hM]
        split <;> omega
      · show ((Sequence.Seq.renewLease s ⟨env, db, fail⟩ 0 db).2.1.next + 1).toInt ≤ _
        rw [← hnext]
        show _ ≤ (Sequence.Seq.renewLease s ⟨env, db, fail⟩ 0 db).2.1.leased.toInt
        omega
      · rw [hM, if_pos ⟨rfl, rfl⟩]
        show (Sequence.Seq.renewLease s ⟨env, db, fail⟩ 0 db).2.1.leased.toInt ≤ _
        omega
      · rw [← hnext]
        omega
    · rw [e']
      refine ⟨k2, ⟨k3, k4, k5, k6⟩, fun d' c' => by rw [e2]; omega, ?_, ?_, .inr ⟨e, hf, rfl, e3⟩⟩
      · show (Sequence.Seq.renewLease s ⟨env, db, fail⟩ 0 db).2.1.next.toInt ≤ (Sequence.Seq.renewLease s ⟨env, db, fail⟩ 0 db).2.1.leased.toInt
        rw [e3]; exact b2
      · show (Sequence.Seq.renewLease s ⟨env, db, fail⟩ 0 db).2.1.leased.toInt ≤ _
        rw [e3, e2]; exact b3
  · simp only [if_neg hl]
    have hlt : s.next.toInt < s.leased.toInt := by
      by_cases hh : s.leased.toInt ≤ s.next.toInt
      · exact absurd (Int64.le_iff_toInt_le.mpr hh) hl
      · omega
    have hnext : s.next.toInt + 1 = (s.next + 1).toInt := by
      rw [toInt_add (by rw [one]; omega) (by rw [one]; omega), one]
    exact ⟨M, .refl M, Keeps.mono h (by omega), ⟨h1, h2, h3, h4⟩, fun d' c' => by omega, by rw [← hnext]; omega, b3,
      .inl ⟨_, rfl, by rw [← hnext]; omega, rfl⟩⟩

/-! ### Transactions that leave the counters alone -/

/-- Not a call that changes the counters of document ids. -/
def NoDid (β : Type) (c : MetaCall β) : Prop := ∀ M, (c.sem M).2.dids = M.dids

theorem dids_only {α : Type} {p : Client α} (h : p.Only NoDid) (M : MState) : (p.sem M).2.dids = M.dids := by
  induction p generalizing M with
  | done r => rfl
  | call c k ih =>
    obtain ⟨h1, h2⟩ := h
    exact (ih _ (h2 _) _).trans (h1 M)

end Mondis.Ddl
