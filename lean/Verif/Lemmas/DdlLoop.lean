import Verif.Spec.DdlLoop
import Verif.Lemmas.DdlFacts
/-!
# Package ddl: when the worker works
-/
namespace Mondis.Loop
open Mondis Spec Schema Ddl Meta

/-- What a turn answers that is not refused. -/
def Verdict (A : DState) (r : Res WorkOut) : Prop :=
  (A.queue = [] ∧ ∃ out, r = .ok out ∧ out.nojob = true) ∨
  ((∃ x q, A.queue = (x, .failed) :: q) ∧ ∃ e, r = .err e) ∨
  (∃ x s q, A.queue = (x, s) :: q ∧ s ≠ .failed ∧ ∃ out, r = .ok out ∧ out.nojob = false ∧
    (out.vars.err ≠ none → ∃ x q, A.work.queue = (x, .failed) :: q))

theorem runs_verdict {A : DState} {M : MState} {K : Nat} (o₁ o₂ o₃ : Order) {v : Vars} (hv : VarsOK A v) (hs : A.Sane) (hK : A.Small K)
    (h : A.Holds M) : ∃ r M', Runs (workTxn o₁ o₂ o₃ v) M (6 + K) r M' ∧ Verdict A r := by
  rcases head_cases hs with hq | ⟨j, d, q, hq⟩ | ⟨j, d, q, hq⟩ | ⟨j, d, q, hq⟩ | ⟨j, i, s, q, hq, hst⟩
  · exact ⟨_, _, (runs_work_nil o₁ o₂ o₃ v h hq).mono (by omega), .inl ⟨hq, _, rfl, rfl⟩⟩
  · exact ⟨_, _, (runs_work_failed o₁ o₂ o₃ v h hq).mono (by omega), .inr (.inl ⟨⟨_, _, hq⟩, _, rfl⟩)⟩
  · obtain ⟨M', h1, h2⟩ := runs_work_done o₁ o₂ o₃ v hs h hq
    refine ⟨_, M', h1.mono (by omega), .inr (.inr ⟨_, _, _, hq, by decide, _, rfl, rfl, fun hne => ?_⟩)⟩
    obtain ⟨j', d', q', e⟩ := hv hne
    rw [hq] at e; cases e
  · by_cases hh : A.Has d.name
    · obtain ⟨M', h1, h2⟩ := runs_work_taken o₁ o₂ o₃ v hs h hq hh
      exact ⟨_, M', h1.mono (by omega), .inr (.inr ⟨_, _, _, hq, by decide, _, rfl, rfl, fun _ => ⟨_, _, by rw [work_taken hq hh]⟩⟩)⟩
    · obtain ⟨M', h1, h2⟩ := runs_work_create o₁ o₂ o₃ v hs h hq hh
      have hk := hK j d .waiting (by rw [hq]; exact List.mem_cons_self)
      exact ⟨_, M', h1.mono (by omega), .inr (.inr ⟨_, _, _, hq, by decide, _, rfl, rfl, fun hne => absurd rfl hne⟩)⟩
  · have hv' : v.err = none := by
      cases he : v.err with
      | none => rfl
      | some e =>
        obtain ⟨j', d', q', e⟩ := hv (by rw [he]; simp)
        rw [hq] at e; cases e
    obtain ⟨M', h1, h2⟩ := runs_work_index o₁ o₂ o₃ v hv' hs h hq
    have hs' : s ≠ .failed := by rcases hst with rfl | rfl <;> decide
    exact ⟨_, M', h1.mono (by omega), .inr (.inr ⟨_, _, _, hq, hs', _, rfl, rfl, fun hne => absurd hv' hne⟩)⟩

/-- What a turn answers. -/
theorem turn_answer (J : Json) {K B : Nat} {P : Proc} {w : World} (h : Serves J K B P w) {o₁ o₂ o₃ : Order} {c : Circ} {env : Env}
    (hf : EvFits K (.work o₁ o₂ o₃ c env)) (hB : B + Ddl.cost K P.state < 2 ^ 63) (hrun : P.running = true) :
    ∃ r, (w.step J (.work o₁ o₂ o₃ c env)).1 = .worked r ∧ (Verdict P.state r ∨ ∃ e, c.fail = some e ∧ r = .err e) := by
  obtain ⟨hroom, -⟩ := hf
  obtain ⟨M, hh, hk, -⟩ := h.kept
  obtain ⟨r, M', hr, hv⟩ := runs_verdict o₁ o₂ o₃ h.vars h.sane h.small hh
  have hq := txn_quiet J ⟨true, c.env, c.fail, workTxn o₁ o₂ o₃ w.vars⟩ hk rfl hroom hr (by unfold Ddl.cost at hB; omega)
  have key : (w.step J (.work o₁ o₂ o₃ c env)).1 =
      .worked ((⟨true, c.env, c.fail, workTxn o₁ o₂ o₃ w.vars⟩ : MetaTxn WorkOut).run J w.db).1 := by
    simp only [World.step]
    rw [if_neg (by rw [h.free, h.up, hrun]; simp)]
    split
    · rename_i e; rw [e]
    · rfl
  rw [key]
  rcases hq with ⟨e1, -⟩ | ⟨e, hfail, e1, -⟩
  · exact ⟨_, rfl, .inl (by rw [e1]; exact hv)⟩
  · exact ⟨_, rfl, .inr ⟨e, hfail, e1⟩⟩

/-! ### One step -/

/-- What is known of the worker. -/
structure Base (L : Loop) (P : Proc) : Prop where
  steps : ∃ es, SSteps {} es L.answers P
  up : L.awake = true → P.running = true

/-- What happened in one step. -/
inductive Moves (L : Loop) (P : Proc) : Act → Loop → Proc → Prop where
  | tick {L'} : L'.answers = L.answers → (P.running = true → L'.awake = true) → Moves L P .tick L' P
  | sleeps {e b} : isTurn e = true → L.awake = false → Moves L P (.ev e b) L P
  | turn {o₁ o₂ o₃ c env b r L' Q} : L.awake = true → (Verdict P.state r ∨ ∃ e, c.fail = some e ∧ r = .err e) →
      L'.answers = L.answers ++ [.worked r] → L'.awake = goesOn (.worked r) →
      P.Step (.work o₁ o₂ o₃ c env) (.worked r) Q → Moves L P (.ev (.work o₁ o₂ o₃ c env) b) L' Q
  | call {e b a L' Q} : isTurn e = false → P.Step e a Q → L'.answers = L.answers ++ [a] → L'.awake = awakeAfter L.awake b a e →
      Moves L P (.ev e b) L' Q

theorem running_step {P Q : Proc} {e : Ev} {a : Ddl.Answer} (h : P.Step e a Q) (hc : e ≠ .crash) (hr : P.running = true) : Q.running = true := by
  cases h <;> first | exact hr | rfl | exact absurd rfl hc

theorem notified {P Q : Proc} {e : Ev} {a : Ddl.Answer} (h : P.Step e a Q) (hn : notifies a = true) : P.running = true := by
  have key : ∀ r, notifies (.job (P.heard r)) = true → P.running = true := by
    intro r hr
    cases r with
    | ok j =>
      cases hp : P.running with
      | true => rfl
      | false => simp [Proc.heard, hp, notifies] at hr
    | _ => cases hr
  cases h <;> first | exact key _ hn | cases hn

theorem loop_step (J : Json) {K B : Nat} {P : Proc} {L : Loop} (h : Serves J K B P L.world) (hb : Base L P) {a : Act}
    (hf : match a with
      | .ev e _ => EvFits K e
      | .tick => True) (hB : B + Ddl.cost K P.state < 2 ^ 63) (hid : P.state.lastID + K + 2 < 2 ^ 63) :
    ∃ Q, Serves J K (B + Ddl.cost K P.state) Q (L.step J a).world ∧ Base (L.step J a) Q ∧ Q.state.lastID ≤ P.state.lastID + K + 2 ∧
      Moves L P a (L.step J a) Q := by
  cases a with
  | tick =>
    have hup : L.world.up = true → P.running = true := fun e => by rw [← h.up]; exact e
    refine ⟨P, h.mono (by omega), ⟨hb.steps, fun e => ?_⟩, by omega, .tick rfl (fun e => ?_)⟩
    · rcases Bool.or_eq_true _ _ ▸ (show (L.awake || L.world.up) = true from e) with e | e
      · exact hb.up e
      · exact hup e
    · show (L.awake || L.world.up) = true
      rw [h.up, e, Bool.or_true]
  | ev e b =>
    by_cases hs : isTurn e = true ∧ L.awake = false
    · have e1 : L.step J (.ev e b) = L := by simp only [Loop.step]; exact if_pos hs
      rw [e1]
      exact ⟨P, h.mono (by omega), hb, by omega, .sleeps hs.1 hs.2⟩
    · have e1 : L.step J (.ev e b) =
          ⟨(L.world.step J e).2, awakeAfter L.awake b (L.world.step J e).1 e, L.answers ++ [(L.world.step J e).1]⟩ := by
        simp only [Loop.step]; exact if_neg hs
      rw [e1]
      obtain ⟨Q, h1, h2, h3⟩ := step_serves J h (e := e) hf hB hid
      obtain ⟨es, hes⟩ := hb.steps
      have hsteps : ∃ es, SSteps {} es (L.answers ++ [(L.world.step J e).1]) Q :=
        ⟨es ++ [e], hes.append (.cons h.sane h2.sane h1 .nil)⟩
      cases ht : isTurn e with
      | true =>
        have haw : L.awake = true := by
          cases ha : L.awake with
          | true => rfl
          | false => exact absurd ⟨ht, ha⟩ hs
        cases e with
        | work o₁ o₂ o₃ c env =>
          obtain ⟨r, k1, k2⟩ := turn_answer J h hf hB (hb.up haw)
          rw [k1] at h1
          refine ⟨Q, h2, ⟨hsteps, fun _ => running_step h1 (by simp) (hb.up haw)⟩, h3, .turn haw k2 (by rw [k1]) ?_ h1⟩
          show goesOn _ = _
          rw [k1]
        | _ => cases ht
      | false =>
        refine ⟨Q, h2, ⟨hsteps, fun e' => ?_⟩, h3, .call ht h1 rfl rfl⟩
        have e' : awakeAfter L.awake b (L.world.step J e).1 e = true := e'
        have hc : e ≠ .crash := fun x => by rw [x] at e'; exact absurd e' (by simp [awakeAfter])
        have hx : (L.awake || (b && notifies (L.world.step J e).1)) = true := by
          cases e with
          | crash => exact absurd rfl hc
          | work _ _ _ _ _ => cases ht
          | _ => exact e'
        rcases Bool.or_eq_true _ _ ▸ hx with hx | hx
        · exact running_step h1 hc (hb.up hx)
        · exact running_step h1 hc (notified h1 (Bool.and_eq_true _ _ ▸ hx).2)

/-! ### Histories -/

theorem run_append (J : Json) (as bs : List Act) (L : Loop) : run J (as ++ bs) L = run J bs (run J as L) := by
  induction as generalizing L with
  | nil => rfl
  | cons a as ih => exact ih _

/-- What holds at the start and is kept holds in the end; `I` may depend on what is still to come. -/
theorem loop_from (J : Json) {K : Nat} (c : Nat) {I : List Act → Loop → Proc → Prop}
    (hI : ∀ a as B P L L' Q, Serves J K B P L.world → Base L P → Base L' Q → L' = L.step J a → Moves L P a L' Q → I (a :: as) L P → I as L' Q)
    (as : List Act) : ∀ {B : Nat} {P : Proc} {L : Loop}, Serves J K B P L.world → Base L P → I as L P →
    (∀ a ∈ as, match a with
      | .ev e _ => EvFits K e
      | .tick => True) → B + as.length * c < 2 ^ 63 → 4 * K + 1026 + 2 * (P.state.lastID + as.length * (K + 2)) ≤ c →
    P.state.lastID + as.length * (K + 2) < 2 ^ 63 →
    ∃ Q, Serves J K (B + as.length * c) Q (run J as L).world ∧ Base (run J as L) Q ∧ I [] (run J as L) Q ∧
      Q.state.lastID ≤ P.state.lastID + as.length * (K + 2) := by
  induction as with
  | nil => exact fun h hb hi _ _ _ _ => ⟨_, h.mono (by simp), hb, hi, by simp⟩
  | cons a as ih =>
    intro B P L h hb hi hf hB hc hid
    rw [List.length_cons] at hB hc hid ⊢
    have e1 : (as.length + 1) * (K + 2) = as.length * (K + 2) + (K + 2) := Nat.succ_mul _ _
    have e2 : (as.length + 1) * c = as.length * c + c := Nat.succ_mul _ _
    rw [e1] at hc hid
    rw [e2] at hB ⊢
    have hcost : Ddl.cost K P.state ≤ c := by unfold Ddl.cost; omega
    obtain ⟨Q, h1, h2, h3, h4⟩ := loop_step J h hb (hf a List.mem_cons_self) (by omega) (by omega)
    obtain ⟨R, k1, k2, k3, k4⟩ := ih (h1.mono (B' := B + c) (by omega)) h2 (hI a as B P L _ Q h hb h2 rfl h4 hi)
      (fun a ha => hf a (List.mem_cons_of_mem _ ha)) (by omega) (by omega) (by omega)
    exact ⟨R, k1.mono (by omega), k2, k3, by rw [e1]; omega⟩

/-- A history in two parts: what holds after the first part, and is kept in the second, holds in the end. -/
theorem loop_two (J : Json) {K : Nat} {as₁ as₂ : List Act} {db : DB} (hdb : Props.Fresh Sequence.metaPrefix db)
    (hb : Spec.Loop.Brief K (as₁ ++ as₂)) :
    ∃ B P, Serves J K B P (run J as₁ { world := { db := db } }).world ∧ Base (run J as₁ { world := { db := db } }) P ∧
      ∀ I : List Act → Loop → Proc → Prop,
        (∀ a as B P L L' Q, Serves J K B P L.world → Base L P → Base L' Q → L' = L.step J a → Moves L P a L' Q → I (a :: as) L P → I as L' Q) →
        I as₂ (run J as₁ { world := { db := db } }) P →
        ∃ Q, Serves J K (2 ^ 62) Q (run J (as₁ ++ as₂) { world := { db := db } }).world ∧
          I [] (run J (as₁ ++ as₂) { world := { db := db } }) Q := by
  have h0 : Base { world := { db := db } } {} := ⟨⟨[], .nil⟩, fun h => by cases h⟩
  by_cases hpos : 1 ≤ (as₁ ++ as₂).length
  · obtain ⟨hf, hn⟩ := hb
    have hb' : Spec.Brief K (List.replicate (as₁ ++ as₂).length Ev.crash) :=
      ⟨fun e he => by rw [(List.mem_replicate.mp he).2]; trivial, by rw [List.length_replicate]; exact hn⟩
    obtain ⟨k1, k2⟩ := brief_budget hb' (by rw [List.length_replicate]; exact hpos)
    rw [List.length_replicate] at k1 k2
    generalize hc : 4 * ((as₁ ++ as₂).length + 1) * (K + 300) = c at k1 hn
    rw [List.length_append] at k1 k2 hn
    have e1 : (as₁.length + as₂.length) * (K + 2) = as₁.length * (K + 2) + as₂.length * (K + 2) := Nat.add_mul _ _ _
    have e2 : (as₁.length + as₂.length) * c = as₁.length * c + as₂.length * c := Nat.add_mul _ _ _
    rw [e1] at k1 k2
    rw [e2] at hn
    obtain ⟨P, h1, h2, -, h3⟩ := loop_from J (K := K) c (I := fun _ _ _ => True) (fun _ _ _ _ _ _ _ _ _ _ _ _ _ => trivial) as₁
      (L := { world := { db := db } }) (Serves.start J K hdb) h0 trivial (fun a ha => hf a (List.mem_append_left _ ha))
      (by omega) (by show 4 * K + 1026 + 2 * (0 + _) ≤ _; omega) (by show 0 + _ < _; omega)
    have h3 : P.state.lastID ≤ 0 + as₁.length * (K + 2) := h3
    refine ⟨_, P, h1, h2, fun I hI hi => ?_⟩
    obtain ⟨Q, h4, -, h5, -⟩ := loop_from J (K := K) c hI as₂ h1 h2 hi (fun a ha => hf a (List.mem_append_right _ ha))
      (by omega) (by omega) (by omega)
    rw [run_append]
    exact ⟨Q, h4.mono (by omega), h5⟩
  · have h1 : as₁ = [] := List.eq_nil_of_length_eq_zero (by rw [List.length_append] at hpos; omega)
    have h2 : as₂ = [] := List.eq_nil_of_length_eq_zero (by rw [List.length_append] at hpos; omega)
    subst h1 h2
    exact ⟨0, {}, Serves.start J K hdb, h0, fun I _ hi => ⟨{}, (Serves.start J K hdb).mono (by omega), hi⟩⟩

end Mondis.Loop
