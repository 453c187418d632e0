import Verif.Lemmas.Race
import Verif.Lemmas.DdlFacts
/-!
# Package ddl: every history of calls made while the worker is at work
-/
namespace Mondis.Race
open Mondis Schema Spec Meta Ddl Util

section
variable {α β : Type}

theorem blind_bind (a : Res (List DBInfo)) (p : Client α) (f : α → Client β) :
    blind a (p.bind f) = (blind a p).bind (fun x => blind a (f x)) := by
  induction p with
  | done r => cases r <;> rfl
  | call c k ih =>
    cases c <;> first
      | exact ih a
      | (show Client.call _ _ = Client.call _ _; congr 1; funext r; exact ih r)

variable {J : Json} {K B : Nat} {A : DState} {M : MState}

/-- The transaction on its own copy. -/
theorem body_runs {p : Client α} {M M' : MState} {n : Nat} {r : Res α} {db : DB} {env : Env} (hk : Keeps J B M db)
    (hbig : ∀ n, env.tooBig n = false) (hr : Runs p M n r M') (hB : B + 2 * n < 2 ^ 63) :
    (Util.body env true (p.code J) db).1 = r ∧ Keeps J (B + 2 * n) M' (Util.body env true (p.code J) db).2.view ∧
      ((Util.body env true (p.code J) db).2.writes = [] → (Util.body env true (p.code J) db).2.view = db) := by
  obtain ⟨h1, h2, h3⟩ := hr
  have hrun := run_client_calm (env := { env with update := true }) p hk h2 (by omega) (.inl ⟨rfl, hbig⟩)
  have hv : (Util.body env true (p.code J) db).2.view =
      applyWrites db (Util.body env true (p.code J) db).2.writes := Prog.run_start_view _ _ _
  rw [h1] at hrun
  exact ⟨hrun.1, Keeps.mono hrun.2 (by omega), fun e => by rw [hv, e]; rfl⟩

theorem late_err {p : Client α} {env : Env} {fail : Option Err} {snap db : DB}
    (h : ∀ a, (Util.body env true (p.code J) snap).1 ≠ .ok a) :
    lateTxn J env fail p snap db = ((Util.body env true (p.code J) snap).1, db) := by
  unfold lateTxn Util.runInNewUpdateTxn
  revert h
  generalize refusal _ snap db fail = f
  generalize Util.body env true (p.code J) snap = y
  obtain ⟨r, t⟩ := y
  intro h
  cases r with
  | ok a => exact absurd rfl (h a)
  | err e => rfl
  | panic => rfl

theorem late_ok {p : Client α} {env : Env} {fail : Option Err} {snap db : DB} {a : α}
    (h : (lateTxn J env fail p snap db).1 = .ok a) : (Util.body env true (p.code J) snap).1 = .ok a := by
  revert h
  unfold lateTxn Util.runInNewUpdateTxn
  generalize refusal _ snap db fail = f
  generalize Util.body env true (p.code J) snap = y
  obtain ⟨r, t⟩ := y
  cases r with
  | ok b =>
    simp only [Txn.commit]
    by_cases hw : t.writes = []
    · rw [if_pos hw]; exact id
    · rw [if_neg hw]
      cases f with
      | none => exact id
      | some e => intro h; cases h
  | err e => intro h; cases h
  | panic => intro h; cases h

theorem listing_eq {db : DB} {env : Env} (hk : Keeps J B M db) (hbig : ∀ n, env.tooBig n = false) (hB : B + 2 < 2 ^ 63) :
    listing J (Txn.start { env with update := true } db) = .ok (M.dbs.ents.map Prod.snd) := by
  have hr : Runs (Client.one .listDatabases) M 1 (.ok (M.dbs.ents.map Prod.snd)) M := Runs.one trivial rfl
  have h := (body_runs (J := J) hk hbig hr (by omega)).1
  unfold Util.body at h
  unfold listing
  have e : (Client.one MetaCall.listDatabases).code J =
      ((MetaCode J .listDatabases).prog Sequence.metaPrefix).andThen (fun r => Prog.done r) := code_call _ _
  rw [e, Prog.run_andThen] at h
  exact h

theorem same_dbs {A A' : DState} {M M' : MState} (h : A.Holds M) (h' : A'.Holds M') (e : A'.dbs = A.dbs) : M'.dbs = M.dbs := by
  apply OMap.ext
  intro k
  have key : ∀ p, M'.dbs.get k = some p ↔ M.dbs.get k = some p := by
    intro p
    rw [h.dbs, h'.dbs, e]
  cases hx : M.dbs.get k with
  | none =>
    cases hy : M'.dbs.get k with
    | none => rfl
    | some p => rw [(key p).mp hy] at hx; cases hx
  | some p => exact (key p).mpr hx

/-! ### What was there once -/

/-- What was there once. -/
structure Saw (J : Json) (B : Nat) (A An : DState) (db : DB) : Prop where
  sane : An.Sane
  kept : ∃ M, An.Holds M ∧ Keeps J B M db
  last : An.lastID ≤ A.lastID
  dbs : ∀ d ∈ An.dbs, d ∈ A.dbs

/-- What was there since the last turn of the worker. -/
structure Since (K : Nat) (A An : DState) (v : Vars) : Prop where
  small : An.Small K
  dbs : An.dbs = A.dbs
  queue : ∃ l, A.queue = An.queue ++ l
  vars : VarsOK An v

/-- The process is, and was, as `S` says. -/
structure HubOK (J : Json) (K B : Nat) (S : Span) (h : Hub) : Prop where
  now : Serves J K B S.proc h.w
  len : S.past.length = h.past.length
  past : ∀ (n : Nat) (A : DState) (db : DB), S.past[n]? = some A → h.past[n]? = some db → Saw J B S.proc.state A db
  turn : S.turn = h.turn
  since : ∀ n : Nat, n < S.turn → ∀ A : DState, S.past[n]? = some A → Since K S.proc.state A h.w.vars

variable {S : Span} {h : Hub}

theorem HubOK.saw (H : HubOK J K B S h) (n : Nat) : Saw J B S.proc.state (S.seen n) (h.snap n) := by
  have refl : Saw J B S.proc.state S.proc.state h.w.db := by
    obtain ⟨M, h1, h2, -⟩ := H.now.kept
    exact ⟨H.now.sane, ⟨M, h1, h2⟩, Nat.le_refl _, fun d hd => hd⟩
  cases n with
  | zero => exact refl
  | succ n =>
    show Saw J B S.proc.state (S.past.getD n S.proc.state) (h.past.getD n h.w.db)
    rw [List.getD_eq_getElem?_getD, List.getD_eq_getElem?_getD]
    cases hA : S.past[n]? with
    | none =>
      have : h.past[n]? = none := by
        rw [List.getElem?_eq_none_iff] at hA ⊢
        rw [← H.len]; exact hA
      rw [this]
      exact refl
    | some A =>
      cases hd : h.past[n]? with
      | none =>
        rw [List.getElem?_eq_none_iff, ← H.len, ← List.getElem?_eq_none_iff, hA] at hd
        cases hd
      | some db => exact H.past n A db hA hd

theorem HubOK.seenSince (H : HubOK J K B S h) {n : Nat} (hn : n ≤ S.turn) : Since K S.proc.state (S.seen n) h.w.vars := by
  have refl : Since K S.proc.state S.proc.state h.w.vars := ⟨H.now.small, rfl, ⟨[], (List.append_nil _).symm⟩, H.now.vars⟩
  cases n with
  | zero => exact refl
  | succ n =>
    show Since K S.proc.state (S.past.getD n S.proc.state) _
    rw [List.getD_eq_getElem?_getD]
    cases hA : S.past[n]? with
    | none => exact refl
    | some A => exact H.since n (by omega) A hA

/-- Ids are only taken and databases only added. -/
def Goes (A A' : DState) : Prop := A.lastID ≤ A'.lastID ∧ ∀ d ∈ A.dbs, d ∈ A'.dbs

/-- Requests are only added. -/
def Waits (A A' : DState) (v v' : Vars) : Prop := A'.dbs = A.dbs ∧ (∃ l, A'.queue = A.queue ++ l) ∧ v' = v

theorem Goes.refl (A : DState) : Goes A A := ⟨Nat.le_refl _, fun _ h => h⟩
theorem Waits.refl (A : DState) (v : Vars) : Waits A A v v := ⟨rfl, ⟨[], (List.append_nil _).symm⟩, rfl⟩

theorem Saw.goes {B' : Nat} {A A' An : DState} {db : DB} (h : Saw J B A An db) (hg : Goes A A') (hB : B ≤ B') : Saw J B' A' An db :=
  ⟨h.sane, by obtain ⟨M, h1, h2⟩ := h.kept; exact ⟨M, h1, Keeps.mono h2 hB⟩, Nat.le_trans h.last hg.1,
    fun d hd => hg.2 d (h.dbs d hd)⟩

theorem Since.waits {A A' An : DState} {v v' : Vars} (h : Since K A An v) (hw : Waits A A' v v') : Since K A' An v' := by
  obtain ⟨h1, ⟨l, h2⟩, h3⟩ := hw
  obtain ⟨l', h4⟩ := h.queue
  exact ⟨h.small, by rw [h1]; exact h.dbs, ⟨l' ++ l, by rw [h2, h4, List.append_assoc]⟩, by rw [h3]; exact h.vars⟩

theorem HubOK.then {B' : Nat} (H : HubOK J K B S h) {e : Ev} {Q : Proc} {w : World} (hB : B ≤ B') (hs : Serves J K B' Q w)
    (hg : Goes S.proc.state Q.state)
    (hw : (∀ o₁ o₂ o₃ c env, e.ev ≠ .work o₁ o₂ o₃ c env) → e.ev ≠ .crash → Waits S.proc.state Q.state h.w.vars w.vars) :
    HubOK J K B' (S.then e Q) (h.then e w) := by
  obtain ⟨M, m1, m2, -⟩ := H.now.kept
  have hpast : ∀ (n : Nat) (A : DState) (db : DB), (S.proc.state :: S.past)[n]? = some A → (h.w.db :: h.past)[n]? = some db → Saw J B' Q.state A db := by
    intro n A db h1 h2
    cases n with
    | zero =>
      cases h1; cases h2
      exact Saw.goes ⟨H.now.sane, ⟨M, m1, m2⟩, Nat.le_refl _, fun d hd => hd⟩ hg hB
    | succ n => exact (H.past n A db h1 h2).goes hg hB
  have hlen : (S.proc.state :: S.past).length = (h.w.db :: h.past).length := by rw [List.length_cons, List.length_cons, H.len]
  have other : (∀ o₁ o₂ o₃ c env, e.ev ≠ .work o₁ o₂ o₃ c env) → e.ev ≠ .crash →
      HubOK J K B' ⟨Q, S.proc.state :: S.past, S.turn + 1⟩ ⟨w, h.w.db :: h.past, h.turn + 1⟩ := by
    intro h1 h2
    refine ⟨hs, hlen, hpast, by show S.turn + 1 = _; rw [H.turn], ?_⟩
    intro n hn A hA
    have hw := hw h1 h2
    cases n with
    | zero =>
      cases hA
      exact Since.waits ⟨H.now.small, rfl, ⟨[], (List.append_nil _).symm⟩, H.now.vars⟩ hw
    | succ n => exact (H.since n (Nat.lt_of_succ_lt_succ hn) A hA).waits hw
  unfold Span.then Hub.then
  cases hev : e.ev with
  | crash => exact ⟨hs, rfl, fun n A db h1 => (nomatch h1), rfl, fun n hn => absurd hn (Nat.not_lt_zero _)⟩
  | work o₁ o₂ o₃ c env => exact ⟨hs, hlen, hpast, rfl, fun n hn => absurd hn (Nat.not_lt_zero _)⟩
  | createSchema o i c => exact other (fun _ _ _ _ _ x => by rw [hev] at x; cases x) (fun x => by rw [hev] at x; cases x)
  | addIndex i c => exact other (fun _ _ _ _ _ x => by rw [hev] at x; cases x) (fun x => by rw [hev] at x; cases x)
  | getJob id c => exact other (fun _ _ _ _ _ x => by rw [hev] at x; cases x) (fun x => by rw [hev] at x; cases x)
  | draw x c => exact other (fun _ _ _ _ _ x => by rw [hev] at x; cases x) (fun x => by rw [hev] at x; cases x)
  | init o env fail => exact other (fun _ _ _ _ _ x => by rw [hev] at x; cases x) (fun x => by rw [hev] at x; cases x)

/-! ### CreateSchema -/

/-- CreateSchema that was told other databases. -/
theorem runs_blind_create (o : Order) {i : CreateSchemaInput} {L : List DBInfo} (hs : A.Sane) (h : A.Holds M) (ht : TextInput i)
    (hv : ValidInput i) (hw : ¬ WithIndex i) (hL : L.find? (fun d => decide (d.name = i.db)) = none) :
    (A.queue.length ≤ 100 ∧ ∃ j M', Runs (blind (.ok L) (createSchema o i)) M 4 (.ok j) M' ∧ (A.enqueued i).Holds M' ∧ M'.dids = M.dids ∧
      j.id = DState.createJobID A.lastID i) ∨
    Runs (blind (.ok L) (createSchema o i)) M 4 (.err errJobsInQueueExceeded) M := by
  unfold createSchema
  have e := (validate_cases o i).elim (fun x => x.2) (fun x => absurd hv x.1)
  rw [e]
  simp only
  have hfull := queue_full h hs
  have hsplit : blind (.ok L) (createSchemaTxn i) = (Client.one (.ddlJobQueueLen .default)).bind (fun n =>
      blind (.ok L) (if n > maxJobsInQueue then .done (.err errJobsInQueueExceeded)
        else (checkDBNameNotExists i.db).bind fun _ => (Client.one (.genGlobalIDs i.idsTaken)).bind fun x =>
          match createJob i x.1 with
          | .ok j => (Client.one (.enQueueDDLJob .default j)).bind fun _ => pure j.sealed
          | .err e => .done (.err e)
          | .panic => .done .panic)) := blind_bind _ _ _
  rw [hsplit]
  by_cases hq : 100 < A.queue.length
  · right
    refine Runs.mono (Runs.bind (n := 1) (m := 0) (runs_queueLen M) ?_) (by omega)
    rw [if_pos (hfull.mpr hq)]
    exact Runs.done _ _
  left
  have hq' : ¬ Int64.ofInt (M.queue .default).length > maxJobsInQueue := fun x => hq (hfull.mp x)
  let M₁ : MState := { M with globalID := some (M.globalID.getD 0 + i.idsTaken) }
  have hg : Runs (Client.one (.genGlobalIDs i.idsTaken)) M 1 (.ok (Int64.ofNat A.lastID, Int64.ofNat A.lastID + i.idsTaken)) M₁ := by
    rw [← h.lastID]
    exact Runs.one trivial rfl
  have hj := createJob_ok i A.lastID hw
  let job : Job := { id := DState.createJobID A.lastID i, type := .createSchema, arg := .db (requested A.lastID i) }
  have hk : Runs (Client.one (.enQueueDDLJob .default job)) M₁ 1 (.ok ())
      (withQueue M₁ (M.queue .default ++ [stored job])) :=
    Runs.one ⟨(requested_plain _ ht).text, by intro a ha; cases ha⟩ rfl
  refine ⟨by omega, job.sealed, withQueue M₁ (M.queue .default ++ [stored job]), ?_, ?_, rfl, rfl⟩
  · refine Runs.mono (Runs.bind (n := 1) (m := 2) (runs_queueLen M) ?_) (by omega)
    rw [if_neg hq', blind_bind]
    have hc : blind (.ok L) (checkDBNameNotExists i.db) = .done (.ok ()) := by
      have e1 : checkDBNameNotExists i.db = (Client.one .listDatabases).bind (fun l =>
          match l.find? (fun d => decide (d.name = i.db)) with
          | some _ => .done (.err errDBAlreadyExists)
          | none => pure ()) := by
        unfold checkDBNameNotExists getDbInfo
        show Client.call _ _ = Client.call _ _
        congr 1
        funext r
        cases r with
        | ok l =>
          show Client.bind (Client.done (.ok (l.find? _))) _ = _
          cases hx : l.find? (fun d => decide (d.name = i.db)) <;> simp only [Client.bind, hx] <;> rfl
        | err e => rfl
        | panic => rfl
      rw [e1]
      show blind (.ok L) (match L.find? (fun d => decide (d.name = i.db)) with
        | some _ => .done (.err errDBAlreadyExists)
        | none => pure ()) = _
      rw [hL]
      rfl
    rw [hc]
    show Runs (blind (.ok L) ((Client.one (.genGlobalIDs i.idsTaken)).bind _)) M 2 _ _
    rw [blind_bind]
    refine Runs.bind (n := 1) (m := 1) hg ?_
    simp only
    rw [hj]
    exact Runs.bind (n := 1) (m := 0) (f := fun _ => pure job.sealed) hk (Runs.pure _ _)
  · refine ⟨?_, h.version, h.diff, h.noDiff, h.dbs, h.colls, ?_, h.history⟩
    · show M.globalID.getD 0 + i.idsTaken = _
      rw [h.lastID]
      show Int64.ofNat A.lastID + Int64.ofNat _ = Int64.ofNat _
      rw [← Int64.ofNat_add]
      rfl
    · show (M.queue .default ++ [stored job]) = _
      rw [h.queue]
      show _ = List.map jobOf (A.queue ++ [_])
      rw [List.map_append]; rfl

theorem snap_zero (h : Hub) : h.snap 0 = h.w.db := rfl

/-- Two views of what one store holds. -/
theorem probe {c : MetaCall β} {B B' : Nat} {M M' : MState} {db : DB} (hk : Keeps J B M db) (hk' : Keeps J B' M' db) (ht : c.Text)
    (hB : B + 2 < 2 ^ 63) (hB' : B' + 2 < 2 ^ 63) : (c.sem M).1 = (c.sem M').1 := by
  have h1 := (body_runs (J := J) (env := ⟨true, 0, fun _ => false, fun _ => false⟩) hk (fun _ => rfl) (Runs.one (M := M) (r := (c.sem M).1) (M' := (c.sem M).2) ht rfl) (by omega)).1
  have h2 := (body_runs (J := J) (env := ⟨true, 0, fun _ => false, fun _ => false⟩) hk' (fun _ => rfl) (Runs.one (M := M') (r := (c.sem M').1) (M' := (c.sem M').2) ht rfl) (by omega)).1
  exact h1.symm.trans h2

theorem late_commit {p : Client α} {env : Env} {fail : Option Err} {snap db : DB} {a : α}
    (hb : (Util.body env true (p.code J) snap).1 = .ok a)
    (h : ∀ k ∈ (Util.body env true (p.code J) snap).2.reads, snap.get k = db.get k) :
    (lateTxn J env fail p snap db).1 = .ok a ∨ ∃ e, fail = some e ∧ lateTxn J env fail p snap db = (.err e, db) := by
  unfold lateTxn refusal
  rw [if_pos h]
  unfold Util.runInNewUpdateTxn
  revert hb h
  generalize Util.body env true (p.code J) snap = y
  obtain ⟨r, t⟩ := y
  intro hb _
  simp only at hb
  subst hb
  simp only [Txn.commit]
  by_cases hw : t.writes = []
  · rw [if_pos hw]; exact .inl rfl
  · rw [if_neg hw]
    cases fail with
    | none => exact .inl rfl
    | some e => exact .inr ⟨e, rfl, rfl⟩

/-- What a step does. -/
def Stepped (J : Json) (K B : Nat) (S : Span) (h : Hub) (e : Ev) : Prop :=
  ∃ Q, S.Does e (h.does J e).1 Q ∧ Serves J K (B + cost K S.proc.state) Q (h.does J e).2 ∧
    Q.state.lastID ≤ S.proc.state.lastID + K + 2 ∧ Goes S.proc.state Q.state ∧
    ((∀ o₁ o₂ o₃ c env, e.ev ≠ .work o₁ o₂ o₃ c env) → e.ev ≠ .crash →
      Waits S.proc.state Q.state h.w.vars (h.does J e).2.vars)

theorem step_create (H : HubOK J K B S h) {o : Order} {i : CreateSchemaInput} {c : Circ} {n : Nat}
    (hf : EvFits K (.createSchema o i c)) (hB : B + cost K S.proc.state < 2 ^ 63) (hid : S.proc.state.lastID + K + 2 < 2 ^ 63) :
    Stepped J K B S h ⟨.createSchema o i c, n⟩ := by
  obtain ⟨ht, hKi, hroom⟩ := hf
  have hw := H.now
  obtain ⟨M, hh, hk, hlease⟩ := hw.kept
  have hsaw := H.saw n
  obtain ⟨Ms, hhs, hks⟩ := hsaw.kept
  have hsmall : B + 2 * 4 + 2 < 2 ^ 63 := by unfold cost at hB; omega
  obtain ⟨r, A', M', hr, hc, hok⟩ := runs_createSchema o i hsaw.sane hhs ht
  obtain ⟨b1, b2, b3⟩ := body_runs (J := J) hks hroom hr (by omega)
  have idle : ∀ x : Res Job, (∀ j, x ≠ .ok j) → lateTxn J c.env c.fail (Ddl.createSchema o i) (h.snap n) h.w.db = (x, h.w.db) →
      S.Does ⟨.createSchema o i c, n⟩ (.job x) S.proc → Stepped J K B S h ⟨.createSchema o i c, n⟩ := by
    intro x hx e hd
    refine ⟨S.proc, ?_, ?_, by omega, Goes.refl _, fun _ _ => ?_⟩
    · simp only [Hub.does, e]
      cases x with
      | ok j => exact absurd rfl (hx j)
      | err e => exact hd
      | panic => exact hd
    · simp only [Hub.does, e]
      exact hw.mono (by omega)
    · exact Waits.refl _ _
  by_cases hrok : ∃ j, r = .ok j
  case neg =>
    have hne : ∀ j, r ≠ .ok j := fun j e => hrok ⟨j, e⟩
    exact idle r hne (by rw [late_err (fun a => by rw [b1]; exact hne a), b1]) (.create hc hne)
  obtain ⟨j, rfl⟩ := hrok
  have hc' := hc
  cases hc' with
  | ok _ a1 a2 a3 a4 a5 a6 a7 a8 =>
    have hholds := hok j rfl
    by_cases hreads : ∀ k ∈ (Util.body c.env true ((Ddl.createSchema o i).code J) (h.snap n)).2.reads, (h.snap n).get k = h.w.db.get k
    case neg =>
      have hpos : 0 < n := by
        cases n with
        | zero => exact absurd (fun k _ => rfl) hreads
        | succ n => exact Nat.succ_pos n
      obtain ⟨g1, g2 | ⟨g2, g3⟩⟩ := late_refused (J := J) (p := Ddl.createSchema o i) c.env c.fail (h.snap n) h.w.db hreads
      · exact idle (.err .conflict) (by intro j e; cases e) (Prod.ext g2 g1) (.createRefused (.inr ⟨hpos, rfl⟩))
      · exfalso
        rw [b3 (g3 ⟨j, b1⟩)] at b2
        have hp := probe (c := .ddlJobQueueLen .default) hks b2 trivial (by omega) (by omega)
        have hp : (Res.ok (Int64.ofInt (Ms.queue .default).length) : Res Int64) = .ok (Int64.ofInt (M'.queue .default).length) := hp
        rw [hhs.queue, hholds.queue, List.length_map, List.length_map] at hp
        have hq1 := hsaw.sane.queueLen
        have hq2 := hsaw.last
        have : ((S.seen n).enqueued i).queue.length = (S.seen n).queue.length + 1 := by
          show ((S.seen n).queue ++ [_]).length = _
          rw [List.length_append]; rfl
        rw [this] at hp
        have hp := ofNat_inj (a := (S.seen n).queue.length) (b := (S.seen n).queue.length + 1) (by omega) (by omega) (Res.ok.inj hp)
        omega
    rcases late_commit (J := J) (fail := c.fail) (db := h.w.db) b1 hreads with hl | ⟨e, hfail, hl⟩
    case inr => exact idle (.err e) (by intro j e; cases e) hl (.createRefused (.inl hfail))
    have hlist : listing J (Txn.start { c.env with update := true } (h.snap n)) = .ok (Ms.dbs.ents.map Prod.snd) :=
      listing_eq hks hroom (by omega)
    have hlate := late_blind (J := J) (early_create o i) c.env c.fail (h.snap n) h.w.db hreads
    rw [hlist] at hlate
    have hfind : (Ms.dbs.ents.map Prod.snd).find? (fun d => decide (d.name = i.db)) = none := (named_none_iff hhs i.db).mpr a3
    rcases runs_blind_create o hw.sane hh ht a1 a4 hfind with ⟨hlen, j', M'', hr', hholds', hdids, hjid⟩ | hr'
    case inr =>
      exfalso
      have hq := txn_quiet J ⟨true, c.env, c.fail, blind (.ok (Ms.dbs.ents.map Prod.snd)) (Ddl.createSchema o i)⟩ hk rfl hroom hr' (by omega)
      change ((Util.runInNewUpdateTxn _ _ _ _ _).1 = _ ∧ _) ∨ (∃ e, _ ∧ (Util.runInNewUpdateTxn _ _ _ _ _).1 = _ ∧ _) at hq
      rw [← hlate, hl] at hq
      rcases hq with ⟨e, -⟩ | ⟨e, -, e', -⟩ <;> contradiction
    have hq := txn_quiet J ⟨true, c.env, c.fail, blind (.ok (Ms.dbs.ents.map Prod.snd)) (Ddl.createSchema o i)⟩ hk rfl hroom hr' (by omega)
    change ((Util.runInNewUpdateTxn _ _ _ _ _).1 = _ ∧ Keeps J _ _ (Util.runInNewUpdateTxn _ _ _ _ _).2) ∨
      (∃ e, _ ∧ (Util.runInNewUpdateTxn _ _ _ _ _).1 = _ ∧ _) at hq
    simp only at hq
    rw [← hlate, hl] at hq
    rcases hq with ⟨e, hkeep⟩ | ⟨e, -, e', -⟩
    case inr => cases e'
    cases e
    have hkeep := Keeps.mono hkeep (B' := B + cost K S.proc.state) (by unfold cost; omega)
    have hlast : S.proc.state.lastID = (S.seen n).lastID := by
      rw [a5] at hjid
      unfold DState.createJobID at hjid
      have := distinct_length i.collections
      have := hsaw.last
      have := ofNat_inj (by omega) (by omega) hjid
      omega
    refine ⟨{ S.proc with state := S.proc.state.enqueued i }, ?_, ?_, ?_, ?_, fun _ _ => ?_⟩
    · simp only [Hub.does, hl]
      rw [heard_eq hw]
      exact .created hc hlast hlen
    · simp only [Hub.does]
      exact hw.enqueue (sane_created hw.sane ht (by omega)) (small_created hw.small (by omega)) hholds' hkeep
        ((hlease.mono (by omega)).same hdids rfl) rfl ⟨_, rfl⟩
    · show S.proc.state.lastID + (2 + _ + _) ≤ _; omega
    · exact ⟨Nat.le_add_right _ _, fun d hd => hd⟩
    · exact ⟨rfl, ⟨_, rfl⟩, rfl⟩

/-! ### AddIndex -/

/-- AddIndex told what the database is. -/
def indexTold (i : AddIndexInput) (d : Option DBInfo) : Client Job :=
  (Client.bind (Client.done (.ok d)) (fun
    | none => .done (.err Ddl.errDBNotExists)
    | some d => match d.collections.get i.collection with
      | none => .done (.err Ddl.errCollectionNotExists)
      | some c => pure (c.indices.bind (fun m => m.get i.index.name)).isSome)).bind (fun ex =>
  if ex then .done (.err errIndexAlreadyExists)
  else (Client.one (.genGlobalIDs 2)).bind fun x =>
    (Client.one (.enQueueDDLJob .default (⟨x.1 + 2, .addIndex, .none, none, 0,
      .idx { i.index.toModel with id := x.1 + 1, jobRedundant := some { db := i.db, collection := i.collection } },
      none, .absent, 0, 0⟩ : Job))).bind fun _ => pure (⟨x.1 + 2, .addIndex, .none, none, 0,
      .idx { i.index.toModel with id := x.1 + 1, jobRedundant := some { db := i.db, collection := i.collection } },
      none, .absent, 0, 0⟩ : Job).sealed)

theorem blind_index (i : AddIndexInput) (L : List DBInfo) :
    blind (.ok L) (addIndexTxn i) = indexTold i (L.find? (fun d => decide (d.name = i.db))) := by
  have h : blind (.ok L) (addIndexTxn i) = blind (.ok L) (indexTold i (L.find? (fun d => decide (d.name = i.db)))) := rfl
  rw [h]
  exact blind_dry _ (early_index i (.ok L))

theorem runs_told {k : Res (List DBInfo) → Client α} {n : Nat} {r : Res α} {M' : MState} (h : Runs (.call .listDatabases k) M n r M') :
    Runs (k (.ok (M.dbs.ents.map Prod.snd))) M n r M' :=
  ⟨h.1, h.2.1.2, by have := h.2.2; simp only [Client.calls] at this; exact Nat.le_trans (Nat.le_add_left _ _) this⟩

theorem runs_blind_index {i : AddIndexInput} {n : Nat} {r : Res Job} {M' : MState} {L : List DBInfo} (h : Runs (addIndexTxn i) M n r M')
    (hL : L.find? (fun d => decide (d.name = i.db)) = named M i.db) : Runs (blind (.ok L) (addIndexTxn i)) M n r M' := by
  rw [blind_index, hL]
  exact runs_told h

theorem step_index (H : HubOK J K B S h) {i : AddIndexInput} {c : Circ} {n : Nat}
    (hf : EvFits K (.addIndex i c)) (hB : B + cost K S.proc.state < 2 ^ 63) (hid : S.proc.state.lastID + K + 2 < 2 ^ 63) :
    Stepped J K B S h ⟨.addIndex i c, n⟩ := by
  obtain ⟨ht, hroom⟩ := hf
  have hw := H.now
  obtain ⟨M, hh, hk, hlease⟩ := hw.kept
  have hsaw := H.saw n
  have hsl := hsaw.last
  obtain ⟨Ms, hhs, hks⟩ := hsaw.kept
  have hsmall : B + 2 * 4 + 2 < 2 ^ 63 := by unfold cost at hB; omega
  obtain ⟨r, A', M', hr, hc, -, -, hok⟩ := runs_addIndex (K := K) i hsaw.sane hhs ht (by omega)
  obtain ⟨b1, b2, b3⟩ := body_runs (J := J) hks hroom hr (by omega)
  have idle : ∀ x : Res Job, (∀ j, x ≠ .ok j) → lateTxn J c.env c.fail (addIndexTxn i) (h.snap n) h.w.db = (x, h.w.db) →
      S.Does ⟨.addIndex i c, n⟩ (.job x) S.proc → Stepped J K B S h ⟨.addIndex i c, n⟩ := by
    intro x hx e hd
    refine ⟨S.proc, ?_, ?_, by omega, Goes.refl _, fun _ _ => ?_⟩
    · simp only [Hub.does, e]
      cases x with
      | ok j => exact absurd rfl (hx j)
      | err e => exact hd
      | panic => exact hd
    · simp only [Hub.does, e]
      exact hw.mono (by omega)
    · exact Waits.refl _ _
  by_cases hrok : ∃ j, r = .ok j
  case neg =>
    have hne : ∀ j, r ≠ .ok j := fun j e => hrok ⟨j, e⟩
    exact idle r hne (by rw [late_err (fun a => by rw [b1]; exact hne a), b1]) (.index hc hne)
  obtain ⟨j, rfl⟩ := hrok
  have hc' := hc
  cases hc' with
  | ok d _ a1 a2 a3 a4 a5 a6 a7 =>
    have hholds := hok j rfl
    by_cases hreads : ∀ k ∈ (Util.body c.env true ((addIndexTxn i).code J) (h.snap n)).2.reads, (h.snap n).get k = h.w.db.get k
    case neg =>
      have hpos : 0 < n := by
        cases n with
        | zero => exact absurd (fun k _ => rfl) hreads
        | succ n => exact Nat.succ_pos n
      obtain ⟨g1, g2 | ⟨g2, g3⟩⟩ := late_refused (J := J) (p := addIndexTxn i) c.env c.fail (h.snap n) h.w.db hreads
      · exact idle (.err .conflict) (by intro j e; cases e) (Prod.ext g2 g1) (.indexRefused (.inr ⟨hpos, rfl⟩))
      · exfalso
        rw [b3 (g3 ⟨j, b1⟩)] at b2
        have hp := probe (c := .ddlJobQueueLen .default) hks b2 trivial (by omega) (by omega)
        have hp : (Res.ok (Int64.ofInt (Ms.queue .default).length) : Res Int64) = .ok (Int64.ofInt (M'.queue .default).length) := hp
        rw [hhs.queue, hholds.queue, List.length_map, List.length_map, List.length_append] at hp
        have hq1 := hsaw.sane.queueLen
        have hp := ofNat_inj (a := (S.seen n).queue.length) (b := (S.seen n).queue.length + 1) (by omega) (by omega) (Res.ok.inj hp)
        omega
    rcases late_commit (J := J) (fail := c.fail) (db := h.w.db) b1 hreads with hl | ⟨e, hfail, hl⟩
    case inr => exact idle (.err e) (by intro j e; cases e) hl (.indexRefused (.inl hfail))
    have hlist : listing J (Txn.start { c.env with update := true } (h.snap n)) = .ok (Ms.dbs.ents.map Prod.snd) :=
      listing_eq hks hroom (by omega)
    have hlate := late_blind (J := J) (early_index i) c.env c.fail (h.snap n) h.w.db hreads
    rw [hlist] at hlate
    have hfind : (Ms.dbs.ents.map Prod.snd).find? (fun d => decide (d.name = i.db)) = named M i.db := by
      have e1 := named_some hhs hsaw.sane a1
      have e2 := named_some hh hw.sane (hsaw.dbs d a1)
      rw [a2] at e1 e2
      rw [e2]
      exact e1
    obtain ⟨r', A'', M'', hr', hc'', hs'', hsm'', hok''⟩ := runs_addIndex (K := K) i hw.sane hh ht (by omega)
    have hq := txn_quiet J ⟨true, c.env, c.fail, blind (.ok (Ms.dbs.ents.map Prod.snd)) (addIndexTxn i)⟩ hk rfl hroom
      (runs_blind_index hr' hfind) (by omega)
    change ((Util.runInNewUpdateTxn _ _ _ _ _).1 = _ ∧ Keeps J _ _ (Util.runInNewUpdateTxn _ _ _ _ _).2) ∨
      (∃ e, _ ∧ (Util.runInNewUpdateTxn _ _ _ _ _).1 = _ ∧ _) at hq
    simp only at hq
    rw [← hlate, hl] at hq
    rcases hq with ⟨e, hkeep⟩ | ⟨e, -, e', -⟩
    case inr => cases e'
    subst e
    have hkeep := Keeps.mono hkeep (B' := B + cost K S.proc.state) (by unfold cost; omega)
    have hlast : S.proc.state.lastID = (S.seen n).lastID := by
      cases hc'' with
      | ok d' _ c1 c2 c3 c4 c5 c6 c7 =>
        rw [a4] at c4
        have := ofNat_inj (by omega) (by omega) c4
        omega
    refine ⟨{ S.proc with state := A'' }, ?_, ?_, ?_, ?_, fun _ _ => ?_⟩
    · simp only [Hub.does, hl]
      rw [heard_eq hw]
      exact .indexed hc hc'' hlast
    · simp only [Hub.does]
      have hl' := hlease.mono (B' := B + cost K S.proc.state) (by omega)
      cases hc'' with
      | ok d' _ c1 c2 c3 c4 c5 c6 c7 =>
        exact hw.enqueue hs'' (hsm'' hw.small) (hok'' _ rfl) hkeep (hl'.same (hr'.dids (only_addIndex i)) rfl) rfl ⟨_, rfl⟩
    · cases hc'' with
      | ok d' _ c1 c2 c3 c4 c5 c6 c7 => show S.proc.state.lastID + 2 ≤ _; omega
    · cases hc'' with
      | ok d' _ c1 c2 c3 c4 c5 c6 c7 => exact ⟨Nat.le_add_right _ _, fun d hd => hd⟩
    · cases hc'' with
      | ok d' _ c1 c2 c3 c4 c5 c6 c7 => exact ⟨rfl, ⟨_, rfl⟩, rfl⟩

/-! ### GetHistoryJob -/

theorem late_quiet {p : Client α} (hp : (p.code J).Writes (fun _ => False)) (env : Env) (fail : Option Err) (snap db : DB) :
    lateTxn J env fail p snap db = ((Util.body env true (p.code J) snap).1, db) := by
  have hq := (run_quiet hp (Txn.start { env with update := true } snap)).2.1
  change (Util.body env true (p.code J) snap).2.writes = [] at hq
  unfold lateTxn Util.runInNewUpdateTxn
  revert hq
  generalize refusal _ snap db fail = f
  generalize Util.body env true (p.code J) snap = y
  obtain ⟨r, t⟩ := y
  intro hq
  cases r with
  | ok a => simp only [Txn.commit]; rw [if_pos hq]
  | err e => rfl
  | panic => rfl

theorem step_getJob (H : HubOK J K B S h) {id : Int64} {c : Circ} {n : Nat}
    (hf : EvFits K (.getJob id c)) (hB : B + cost K S.proc.state < 2 ^ 63) : Stepped J K B S h ⟨.getJob id c, n⟩ := by
  have hsaw := H.saw n
  obtain ⟨Ms, hhs, hks⟩ := hsaw.kept
  have b := (body_runs (J := J) hks hf (finishedJob_eq hsaw.sane hhs id).2 (by unfold cost at hB; omega)).1
  have hq : ((getHistoryJob id).code J).Writes (fun _ => False) := by
    show ((Client.call _ _).code J).Writes _
    rw [code_call]
    exact Prog.Writes.andThen (looks_quiet trivial) (fun _ => trivial)
  have hl := late_quiet hq c.env c.fail (h.snap n) h.w.db
  refine ⟨S.proc, ?_, ?_, by omega, Goes.refl _, fun _ _ => Waits.refl _ _⟩
  · simp only [Hub.does, hl, b]
    exact .getJob
  · simp only [Hub.does, hl]
    exact H.now.mono (by omega)

/-! ### The worker -/

theorem work_dbs (hs : A.Sane) : A.work.dbs = A.dbs ∨ A.work.dbs.length = A.dbs.length + 1 := by
  rcases head_cases hs with hq | ⟨j, d, q, hq⟩ | ⟨j, d, q, hq⟩ | ⟨j, d, q, hq⟩ | ⟨j, i, s, q, hq, hst⟩
  · rw [work_nil hq]; exact .inl rfl
  · rw [work_failed hq]; exact .inl rfl
  · rw [work_done hq]; exact .inl rfl
  · by_cases hh : A.Has d.name
    · rw [work_taken hq hh]; exact .inl rfl
    · rw [work_create hq hh]; exact .inr (by show (A.dbs ++ [d]).length = _; rw [List.length_append]; rfl)
  · rw [work_index hq (by rcases hst with rfl | rfl <;> decide)]; exact .inl rfl

/-- Whether the first job can be read. -/
theorem first_failed (hs : A.Sane) (h : A.Holds M) :
    (∃ e, ((MetaCall.getDDLJobByIdx .default 0).sem M).1 = .err e) ↔ ∃ j d q, A.queue = (.create j d, .failed) :: q := by
  have hq' := h.queue
  have no : ∀ x : Option Job, ((MetaCall.getDDLJobByIdx .default 0).sem M).1 = .ok x →
      (∃ e, ((MetaCall.getDDLJobByIdx .default 0).sem M).1 = .err e) → False := by
    rintro x h1 ⟨e, h2⟩
    rw [h1] at h2; cases h2
  rcases head_cases hs with hq | ⟨j, d, q, hq⟩ | ⟨j, d, q, hq⟩ | ⟨j, d, q, hq⟩ | ⟨j, i, s, q, hq, hst⟩
  · rw [hq] at hq'
    refine ⟨fun x => (no none (by rw [sem_first_nil hq']) x).elim, ?_⟩
    rintro ⟨j, d, q, e⟩; rw [hq] at e; cases e
  · rw [hq, List.map_cons] at hq'
    refine ⟨fun _ => ⟨j, d, q, hq⟩, fun _ => ?_⟩
    rw [sem_first hq']
    exact ⟨_, rfl⟩
  · rw [hq, List.map_cons] at hq'
    refine ⟨fun x => (no _ (by rw [sem_first hq']; rfl) x).elim, ?_⟩
    rintro ⟨j, d, q, e⟩; rw [hq] at e; cases e
  · rw [hq, List.map_cons] at hq'
    refine ⟨fun x => (no _ (by rw [sem_first hq']; rfl) x).elim, ?_⟩
    rintro ⟨j, d, q, e⟩; rw [hq] at e; cases e
  · rw [hq, List.map_cons] at hq'
    refine ⟨fun x => (no (some (jobOf (.index j i, s))) (by rw [sem_first hq']; rcases hst with rfl | rfl <;> rfl) x).elim, ?_⟩
    rintro ⟨j, d, q, e⟩; rw [hq] at e; cases e

theorem does_work_now {o₁ o₂ o₃ : Order} {c : Circ} {env : Env} {n : Nat}
    (e : lateTxn J c.env c.fail (workTxn o₁ o₂ o₃ h.w.vars) (h.snap (min n h.turn)) h.w.db =
      Util.runInNewUpdateTxn c.env c.fail ((workTxn o₁ o₂ o₃ h.w.vars).code J) h.w.db h.w.db) :
    h.does J ⟨.work o₁ o₂ o₃ c env, n⟩ = h.w.step J (.work o₁ o₂ o₃ c env) := by
  simp only [Hub.does, World.step]
  rw [e]
  rfl

theorem work_goes (hs : A.Sane) : Goes A A.work := by
  refine ⟨by rw [work_lastID hs]; exact Nat.le_refl _, fun x hx => ?_⟩
  rcases head_cases hs with hq | ⟨j, d, q, hq⟩ | ⟨j, d, q, hq⟩ | ⟨j, d, q, hq⟩ | ⟨j, i, s, q, hq, hst⟩
  · rw [work_nil hq]; exact hx
  · rw [work_failed hq]; exact hx
  · rw [work_done hq]; exact hx
  · by_cases hh : A.Has d.name
    · rw [work_taken hq hh]; exact hx
    · rw [work_create hq hh]; exact List.mem_append_left _ hx
  · rw [work_index hq (by rcases hst with rfl | rfl <;> decide)]; exact hx

theorem step_work (H : HubOK J K B S h) {o₁ o₂ o₃ : Order} {c : Circ} {env : Env} {n : Nat}
    (hf : EvFits K (.work o₁ o₂ o₃ c env)) (hB : B + cost K S.proc.state < 2 ^ 63) :
    Stepped J K B S h ⟨.work o₁ o₂ o₃ c env, n⟩ := by
  have hw := H.now
  have nowork : ∀ (P : Prop), (∀ o₁' o₂' o₃' c' env', (Ddl.Ev.work o₁ o₂ o₃ c env) ≠ .work o₁' o₂' o₃' c' env') → P :=
    fun P x => absurd rfl (x o₁ o₂ o₃ c env)
  have now : h.does J ⟨.work o₁ o₂ o₃ c env, n⟩ = h.w.step J (.work o₁ o₂ o₃ c env) → Stepped J K B S h ⟨.work o₁ o₂ o₃ c env, n⟩ := by
    intro e
    obtain ⟨Q, h1, h2, h3⟩ := Ddl.step_work J hw hf hB
    refine ⟨Q, by rw [e]; exact .work h1, by rw [e]; exact h2, h3, ?_, fun x => nowork _ x⟩
    generalize (h.w.step J (.work o₁ o₂ o₃ c env)).1 = a at h1
    cases h1 with
    | work => exact work_goes hw.sane
    | workRefused => exact Goes.refl _
    | workNot => exact Goes.refl _
  cases hrun : S.proc.running with
  | false =>
    refine now ?_
    simp only [Hub.does, World.step]
    rw [if_pos (.inr (by rw [hw.up]; exact hrun)), if_pos (.inr (by rw [hw.up]; exact hrun))]
  | true =>
    have hroom := hf.1
    have hsaw := H.saw (min n h.turn)
    have hsl := hsaw.last
    have hsince := H.seenSince (n := min n h.turn) (by rw [H.turn]; exact Nat.min_le_right _ _)
    obtain ⟨M, hh, hk, hlease⟩ := hw.kept
    obtain ⟨Ms, hhs, hks⟩ := hsaw.kept
    have hsmall : B + 2 * (6 + K) + 2 < 2 ^ 63 := by unfold cost at hB; omega
    obtain ⟨r, M', hr, hc⟩ := runs_work o₁ o₂ o₃ hsince.vars hsaw.sane hsince.small hhs
    obtain ⟨b1, b2, b3⟩ := body_runs (J := J) hks hroom hr (by omega)
    by_cases hreads : ∀ k ∈ (Util.body c.env true ((workTxn o₁ o₂ o₃ h.w.vars).code J) (h.snap (min n h.turn))).2.reads,
        (h.snap (min n h.turn)).get k = h.w.db.get k
    case pos =>
      refine now (does_work_now (late_now (early_work o₁ o₂ o₃ _) _ _ _ _ hreads ?_))
      rw [listing_eq hks hroom (by omega), listing_eq hk hroom (by omega), same_dbs hh hhs hsince.dbs]
    have hpos : 0 < min n h.turn := by
      rcases Nat.eq_zero_or_pos (min n h.turn) with e | e
      · rw [e] at hreads
        exact absurd (fun k _ => rfl) hreads
      · exact e
    have missed : ∀ (x : Res WorkOut) (v : Vars), VarsOK S.proc.state v →
        h.does J ⟨.work o₁ o₂ o₃ c env, n⟩ = (.worked x, { h.w with vars := v }) → Stepped J K B S h ⟨.work o₁ o₂ o₃ c env, n⟩ := by
      intro x v hv e
      refine ⟨S.proc, by rw [e]; exact .workMissed hrun (by rw [H.turn]; exact hpos), ?_, by omega, Goes.refl _, fun x => nowork _ x⟩
      rw [e]
      have hm := hw.mono (B' := B + cost K S.proc.state) (by omega)
      exact ⟨hm.sane, hm.small, hm.kept, hm.up, hv, hm.has, hm.seqs, hm.all, hm.free⟩
    have clear : VarsOK S.proc.state {} := fun x => absurd rfl x
    have hgo : ¬ (h.w.stuck = true ∨ h.w.up = false) := by rw [hw.free, hw.up, hrun]; simp
    obtain ⟨g1, g2⟩ := late_refused (J := J) (p := workTxn o₁ o₂ o₃ h.w.vars) c.env c.fail (h.snap (min n h.turn)) h.w.db hreads
    cases hx : lateTxn J c.env c.fail (workTxn o₁ o₂ o₃ h.w.vars) (h.snap (min n h.turn)) h.w.db with
    | mk x db' =>
      rw [hx] at g1 g2
      simp only at g1 g2
      subst g1
      cases x with
      | err e => exact missed (.err e) {} clear (by simp only [Hub.does]; rw [if_neg hgo, hx])
      | panic => exact missed .panic {} clear (by simp only [Hub.does]; rw [if_neg hgo, hx])
      | ok out =>
        rcases g2 with g2 | ⟨g2, g3⟩
        · cases g2
        rw [b3 (g3 ⟨out, g2.symm⟩)] at b2
        rw [b1] at g2
        rcases hc with ⟨e, rfl, -⟩ | ⟨out', rfl, hw1, hw2, -, -, hw5, -⟩
        · cases g2
        cases g2
        have hdbs : (S.seen (min n h.turn)).work.dbs = (S.seen (min n h.turn)).dbs := by
          rcases work_dbs hsaw.sane with e | e
          · exact e
          · exfalso
            have hp := probe (c := .getSchemaVersion) hks b2 trivial (by omega) (by omega)
            have hp : (Res.ok (Ms.version.getD 0) : Res Int64) = .ok (M'.version.getD 0) := hp
            rw [hhs.version, hw1.version, e] at hp
            have h1 := hsaw.sane.count
            have h2 := hsaw.sane.small
            have hid := hw.sane.small
            have hq := hsaw.sane
            have hp := ofNat_inj (by omega) (by have := (sane_work hsaw.sane).count; have := (sane_work hsaw.sane).small; omega) (Res.ok.inj hp)
            omega
        have hafter : out.after = [] := by
          apply List.eq_nil_iff_forall_not_mem.mpr
          intro p hp
          obtain ⟨h1, h2⟩ := (hw5 p).mp hp
          apply h2
          unfold DState.collections at h1 ⊢
          rw [hdbs] at h1
          exact h1
        refine missed (.ok out) (if out.nojob then {} else out.vars) ?_ ?_
        · split
          · exact clear
          · intro hne
            have h1 := (first_failed (sane_work hsaw.sane) hw1).mpr (hw2 hne)
            rw [← probe (c := .getDDLJobByIdx .default 0) hks b2 trivial (by omega) (by omega)] at h1
            obtain ⟨j, d, q, e⟩ := (first_failed hsaw.sane hhs).mp h1
            obtain ⟨l, hl⟩ := hsince.queue
            exact ⟨j, d, q ++ l, by rw [hl, e]; rfl⟩
        · simp only [Hub.does]
          rw [if_neg hgo, hx]
          simp only
          rw [hafter]
          rfl

/-! ### Everything else -/

theorem createSequence_vars (d c : Int64) (env : Env) (fail : Option Err) (w : World) : (createSequence d c env fail w).2.vars = w.vars := by
  unfold createSequence
  split
  · rfl
  · split <;> rfl

theorem initSequences_vars (env : Env) (fail : Int64 → Option Err) (l : List (Int64 × Int64)) (w : World) :
    (initSequences env fail l w).2.vars = w.vars := by
  induction l generalizing w with
  | nil => rfl
  | cons p l ih =>
    obtain ⟨d, c⟩ := p
    have hv := createSequence_vars d c env (fail c) w
    simp only [initSequences]
    split
    · rename_i w' e
      rw [ih]
      rw [e] at hv; exact hv
    · rename_i w' e
      rw [e] at hv; exact hv
    · rename_i w' e
      rw [e] at hv; exact hv

theorem step_vars (w : World) (e : Ddl.Ev) (h : (∃ x c, e = .draw x c) ∨ ∃ o env fail, e = .init o env fail) : (w.step J e).2.vars = w.vars := by
  rcases h with ⟨x, c, rfl⟩ | ⟨o, env, fail, rfl⟩
  · simp only [World.step]
    split <;> rfl
  · simp only [World.step]
    split
    · split
      · exact initSequences_vars _ _ _ _
      · exact initSequences_vars _ _ _ _
    · rfl
    · rfl

theorem state_same {P Q : Proc} {e : Ddl.Ev} {a : Answer} (h : P.Step e a Q) (h1 : ∀ o i c, e ≠ .createSchema o i c)
    (h2 : ∀ i c, e ≠ .addIndex i c) (h3 : ∀ o₁ o₂ o₃ c env, e ≠ .work o₁ o₂ o₃ c env) : Q.state = P.state := by
  cases h <;> first | rfl | (exact absurd rfl (h1 _ _ _)) | (exact absurd rfl (h2 _ _)) | (exact absurd rfl (h3 _ _ _ _ _))

theorem step_hub (H : HubOK J K B S h) {e : Ev} (hf : EvFits K e.ev) (hB : B + cost K S.proc.state < 2 ^ 63)
    (hid : S.proc.state.lastID + K + 2 < 2 ^ 63) : Stepped J K B S h e := by
  obtain ⟨ev, n⟩ := e
  cases ev with
  | createSchema o i c => exact step_create H hf hB hid
  | addIndex i c => exact step_index H hf hB hid
  | getJob id c => exact step_getJob H hf hB
  | work o₁ o₂ o₃ c env => exact step_work H hf hB
  | draw x c =>
    obtain ⟨Q, h1, h2, h3⟩ := Ddl.step_draw J H.now hf hB
    have e : Q.state = S.proc.state := state_same h1 (by simp) (by simp) (by simp)
    refine ⟨Q, .draw h1, h2, h3, by rw [e]; exact Goes.refl _, fun _ _ => ?_⟩
    rw [e]
    exact ⟨rfl, ⟨[], (List.append_nil _).symm⟩, step_vars h.w _ (.inl ⟨x, c, rfl⟩)⟩
  | crash =>
    exact ⟨_, .crash .crash, H.now.crash.mono (by omega), by show S.proc.state.lastID ≤ _; omega, Goes.refl _, fun _ x => absurd rfl x⟩
  | init o env fail =>
    obtain ⟨Q, h1, h2, h3⟩ := Ddl.step_init J H.now hf hB
    have e : Q.state = S.proc.state := state_same h1 (by simp) (by simp) (by simp)
    refine ⟨Q, .init h1, h2, h3, by rw [e]; exact Goes.refl _, fun _ _ => ?_⟩
    rw [e]
    exact ⟨rfl, ⟨[], (List.append_nil _).symm⟩, step_vars h.w _ (.inr ⟨o, env, fail, rfl⟩)⟩

end
end Mondis.Race
