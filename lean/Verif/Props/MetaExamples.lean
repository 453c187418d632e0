import Verif.Props.MetaFacts
import Verif.Props.Client
import Verif.Lemmas.ClientStatic
/-!
# C47, C48, C49: concrete histories meeting the hypotheses
-/
namespace Mondis.Props
open Mondis Spec Structure Schema Meta Util

/-- A history of programs that always pass text and make at most `k` calls fits. -/
theorem fits_of {α : Type} (k : Nat) (Ts : List (MetaTxn α)) (h : ∀ T ∈ Ts, ∀ M, T.prog.Text M ∧ T.prog.calls M ≤ k)
    (n : Nat) (hn : 2 * k * Ts.length ≤ n) (M : MState) : Fits n M Ts := by
  induction Ts generalizing n M with
  | nil => trivial
  | cons T Ts ih =>
    obtain ⟨h1, h2⟩ := h T (by simp) M
    simp only [List.length_cons, Nat.mul_add, Nat.mul_one] at hn
    refine ⟨h1, by omega, fun r M' _ => ih (fun U hU => h U (by simp [hU])) _ (by omega) _⟩

/-- Likewise for commits. -/
theorem fitsCommits_of {α : Type} (k : Nat) (h : List (MetaCommit α))
    (hh : ∀ T ∈ h, ∀ M, T.prog.Text M ∧ T.prog.calls M ≤ k) (n : Nat) (hn : 2 * k * h.length ≤ n) : FitsCommits n h := by
  induction h generalizing n with
  | nil => trivial
  | cons T Ts ih =>
    obtain ⟨h1, h2⟩ := hh T (by simp) (metaAfter Ts)
    simp only [List.length_cons, Nat.mul_add, Nat.mul_one] at hn
    exact ⟨h1, n - 2 * T.prog.calls (metaAfter Ts), by omega, ih (fun U hU => hh U (by simp [hU])) _ (by omega)⟩

/-- "ab" -/
def nameAB : Bytes := "ab".toUTF8.toList

/-- Create a database with a collection. -/
def demoCreate : Client Int64 := do
  let (s, e) ← Client.one (.genGlobalIDs 3)
  Client.one (.createDatabase { id := s + 1, name := nameAB })
  Client.one (.createCollection (s + 1) { id := s + 2, name := nameAB })
  pure e

/-- Read the collection back. -/
def demoRead (db c : Int64) : Client Int64 := do
  let c ← Client.one (.getCollection db c)
  pure c.id

theorem demoCreate_strict : demoCreate.Strict :=
  .bind (Client.strict_one _) fun _ => .bind (Client.strict_one _) fun _ => .bind (Client.strict_one _) fun _ => trivial

theorem demoCreate_only : demoCreate.Only (fun _ c => c.scans = false) :=
  .bind (Client.only_one rfl) fun _ => .bind (Client.only_one rfl) fun _ => .bind (Client.only_one rfl) fun _ => trivial

theorem demoRead_strict (db c : Int64) : (demoRead db c).Strict := .bind (Client.strict_one _) fun _ => trivial

theorem demoCreate_within : demoCreate.Within 3 := by
  have hd : ∀ i, (DBInfo.Text { id := i, name := nameAB }) :=
    fun i => ⟨⟨"ab", rfl⟩, by simp, by intro k c h; cases h⟩
  have hc : ∀ i, (CollectionInfo.Text { id := i, name := nameAB }) :=
    fun i => ⟨⟨"ab", rfl⟩, by simp, by intro k h; cases h⟩
  have : demoCreate.Within (1 + (1 + (1 + 0))) := .bind (Client.within_one trivial) fun _ =>
    .bind (Client.within_one (hd _)) fun _ => .bind (Client.within_one (hc _)) fun _ => trivial
  exact this

theorem demoCreate_fits (M : MState) : demoCreate.Text M ∧ demoCreate.calls M ≤ 3 :=
  ⟨demoCreate_within.text M, demoCreate_within.calls M⟩

theorem demoRead_fits (db c : Int64) (M : MState) : (demoRead db c).Text M ∧ (demoRead db c).calls M ≤ 3 :=
  have h : (demoRead db c).Within (1 + 0) := .bind (Client.within_one trivial) fun _ => trivial
  ⟨h.text M, Nat.le_trans (h.calls M) (by decide)⟩

/-- A database is created, read in a read-only transaction, and looked for under a wrong id. -/
def demoHistory : List (MetaTxn Int64) :=
  [⟨true, plainEnv, none, demoCreate⟩, ⟨false, plainEnv, none, demoRead 1 2⟩, ⟨true, plainEnv, none, demoRead 7 2⟩]

theorem demoHistory_fits : Fits (2 ^ 63 - 1) {} demoHistory := by
  refine fits_of 3 _ ?_ _ (by decide) _
  intro T hT M
  simp only [demoHistory, List.mem_cons, List.not_mem_nil, or_false] at hT
  rcases hT with rfl | rfl | rfl
  · exact demoCreate_fits M
  · exact demoRead_fits _ _ M
  · exact demoRead_fits _ _ M

/-- The hypotheses of C48_history hold and the answers are as expected. -/
example : ∃ M, Explained {} demoHistory (runAll plainJson demoHistory OMap.empty).1 M := by
  refine C48_history plainJson demoHistory OMap.empty (fun k _ => OMap.get_empty k) ?_ demoHistory_fits
  intro T hT
  simp only [demoHistory, List.mem_cons, List.not_mem_nil, or_false] at hT
  rcases hT with rfl | rfl | rfl
  · exact demoCreate_strict
  · exact demoRead_strict _ _
  · exact demoRead_strict _ _

/-- The same with C48_history_calm: the code answers 3, 2 and "database does not exist". -/
example : (runAll plainJson demoHistory OMap.empty).1 = [.ok 3, .ok 2, .err errDBNotExists] := by
  rw [C48_history_calm plainJson demoHistory OMap.empty (fun k _ => OMap.get_empty k) ?_ demoHistory_fits]
  · rfl
  · intro T hT
    simp only [demoHistory, List.mem_cons, List.not_mem_nil, or_false] at hT
    rcases hT with rfl | rfl | rfl
    · exact .inl ⟨rfl, rfl, fun _ => rfl⟩
    · exact .inr ⟨rfl, .bind (Client.only_one rfl) fun _ => trivial⟩
    · exact .inl ⟨rfl, rfl, fun _ => rfl⟩

/-- Obtain ids, and store a job. -/
def demoTake (n : Int64) (j : Job) : Client Unit := do
  let _ ← Client.one (.genGlobalIDs n)
  Client.one (.enQueueDDLJob .default j)

/-- A new schema version. -/
def demoVersion : Client Unit := do
  let _ ← Client.one .genSchemaVersion
  pure ()

/-- Three transactions; the newest started before the two others committed, but touches other keys. -/
def demoCommits : List (MetaCommit (Unit × List (Int64 × Int64))) :=
  [⟨plainEnv, demoVersion.withIDs [], 0⟩, ⟨plainEnv, (demoTake 5 {}).withIDs [], 1⟩,
    ⟨plainEnv, (demoTake 3 {}).withIDs [], 0⟩]

/-- None of these commits wrote one of the keys after commit number `snap`. -/
def noClash {α : Type} (db₀ : DB) (reads : List Bytes) (snap : Nat) : List (Committed α) → Bool
  | [] => true
  | U :: before => (decide (before.length < snap) || reads.all (fun k => !(writtenKeys db₀ before U).contains k)) &&
      noClash db₀ reads snap before

/-- A check for `Accepted`. -/
def acceptedCheck {α : Type} (db₀ : DB) : List (Committed α) → Bool
  | [] => true
  | T :: rest => acceptedCheck db₀ rest && decide (T.snap ≤ rest.length) &&
      noClash db₀ (T.outcome (snapshotOf db₀ rest T)).2.reads T.snap rest

theorem noClash_sound {α : Type} {db₀ : DB} {reads : List Bytes} {snap : Nat} {l : List (Committed α)}
    (h : noClash db₀ reads snap l = true) (before after : List (Committed α)) (U : Committed α)
    (e : l = after ++ U :: before) (hs : snap ≤ before.length) : ∀ k ∈ reads, k ∉ writtenKeys db₀ before U := by
  induction after generalizing l with
  | nil =>
    subst e
    simp only [List.nil_append, noClash, Bool.and_eq_true, Bool.or_eq_true, decide_eq_true_eq, List.all_eq_true,
      Bool.not_eq_true', List.contains_eq_mem, decide_eq_false_iff_not] at h
    rcases h.1 with h | h
    · omega
    · exact h
  | cons V after ih =>
    subst e
    simp only [List.cons_append, noClash, Bool.and_eq_true] at h
    exact ih h.2 rfl

theorem acceptedCheck_sound {α : Type} {db₀ : DB} {l : List (Committed α)} (h : acceptedCheck db₀ l = true) :
    Accepted db₀ l := by
  induction l with
  | nil => trivial
  | cons T rest ih =>
    simp only [acceptedCheck, Bool.and_eq_true, decide_eq_true_eq] at h
    exact ⟨ih h.1.1, h.1.2, fun before after U e hs => noClash_sound h.2 before after U e hs⟩

set_option maxRecDepth 100000 in
theorem demoCommits_accepted : Accepted OMap.empty (demoCommits.map (·.committed plainJson)) :=
  acceptedCheck_sound (by decide)

/-- All answers are without error. -/
def allOk {α : Type} (J : Json) (db₀ : DB) : List (MetaCommit α) → Bool
  | [] => true
  | T :: before => (match T.answer J db₀ before with
    | .ok _ => true
    | _ => false) && allOk J db₀ before

theorem allOk_sound {α : Type} {J : Json} {db₀ : DB} {h : List (MetaCommit α)} (hb : allOk J db₀ h = true)
    (later before : List (MetaCommit α)) (T : MetaCommit α) (e : h = later ++ T :: before) :
    ∃ a, T.answer J db₀ before = .ok a := by
  induction later generalizing h with
  | nil =>
    subst e
    simp only [List.nil_append, allOk, Bool.and_eq_true] at hb
    cases ha : T.answer J db₀ before with
    | ok a => exact ⟨a, rfl⟩
    | err e => rw [ha] at hb; exact absurd hb.1 (by simp)
    | panic => rw [ha] at hb; exact absurd hb.1 (by simp)
  | cons V later ih =>
    subst e
    simp only [List.cons_append, allOk, Bool.and_eq_true] at hb
    exact ih hb.2 rfl

theorem demoTake_strict (n : Int64) (j : Job) : (demoTake n j).Strict :=
  .bind (Client.strict_one _) fun _ => Client.strict_one _
theorem demoTake_only (n : Int64) (j : Job) : (demoTake n j).Only (fun _ c => c.scans = false) :=
  .bind (Client.only_one rfl) fun _ => Client.only_one rfl
theorem demoTake_within (n : Int64) (j : Job) (h : j.Text) : (demoTake n j).Within (1 + 1) :=
  .bind (Client.within_one trivial) fun _ => Client.within_one h
theorem demoVersion_strict : demoVersion.Strict := .bind (Client.strict_one _) fun _ => trivial
theorem demoVersion_only : demoVersion.Only (fun _ c => c.scans = false) := .bind (Client.only_one rfl) fun _ => trivial
theorem demoVersion_within : demoVersion.Within (1 + 1) :=
  .bind (k := 1) (Client.within_one trivial) fun _ => trivial

theorem demoJob_text : Job.Text {} := ⟨trivial, by intro a h; cases h⟩

set_option maxRecDepth 100000 in
/-- The hypotheses of C47_consecutive hold of concurrent transactions that do obtain ids. -/
example : (∃ last, Consecutive 0 (rangesOf plainJson OMap.empty demoCommits) last) ∧
    rangesOf plainJson OMap.empty demoCommits = [(0, 3), (3, 8)] := by
  refine ⟨C47_consecutive plainJson OMap.empty (fun k _ => OMap.get_empty k) demoCommits ?_ demoCommits_accepted ?_
    (allOk_sound (by decide)) ?_, by decide⟩
  · intro T hT
    simp only [demoCommits, List.mem_cons, List.not_mem_nil, or_false] at hT
    rcases hT with rfl | rfl | rfl <;> exact ⟨_, rfl⟩
  · intro T hT
    simp only [demoCommits, List.mem_cons, List.not_mem_nil, or_false] at hT
    rcases hT with rfl | rfl | rfl
    · exact ⟨Client.withIDs_strict demoVersion_strict _, Client.withIDs_only demoVersion_only _⟩
    · exact ⟨Client.withIDs_strict (demoTake_strict _ _) _, Client.withIDs_only (demoTake_only _ _) _⟩
    · exact ⟨Client.withIDs_strict (demoTake_strict _ _) _, Client.withIDs_only (demoTake_only _ _) _⟩
  · refine fitsCommits_of 2 _ ?_ _ (by decide)
    intro T hT M
    simp only [demoCommits, List.mem_cons, List.not_mem_nil, or_false] at hT
    have a : ∀ p : Client Unit, p.Within 2 → (p.withIDs []).Text M ∧ (p.withIDs []).calls M ≤ 2 :=
      fun p h => ⟨(Client.withIDs_within h _).text M, (Client.withIDs_within h _).calls M⟩
    rcases hT with rfl | rfl | rfl
    · exact a _ demoVersion_within
    · exact a _ (demoTake_within _ _ demoJob_text)
    · exact a _ (demoTake_within _ _ demoJob_text)

/-! ### The queue -/

theorem withJobs_strict (l : ListKey) {α : Type} {p : Client α} (h : p.Strict) (a t : List Job) :
    (withJobs l a t p).Strict := by
  induction p generalizing a t with
  | done r => trivial
  | call c k ih =>
    obtain ⟨h1, h2, h3⟩ := h
    refine ⟨?_, ?_, fun r => ih r (h3 r) _ _⟩
    · show withJobs l _ _ (k (.err .readOnlyTxn)) = _
      rw [h1]; rfl
    · show withJobs l _ _ (k (.err .txnTooBig)) = _
      rw [h2]; rfl

theorem withJobs_only (l : ListKey) {P : ∀ β : Type, MetaCall β → Prop} {α : Type} {p : Client α} (h : p.Only P)
    (a t : List Job) : (withJobs l a t p).Only P := by
  induction p generalizing a t with
  | done r => trivial
  | call c k ih => exact ⟨h.1, fun r => ih r (h.2 r) _ _⟩

theorem withJobs_within (l : ListKey) {α : Type} {p : Client α} {n : Nat} (h : p.Within n) (a t : List Job) :
    (withJobs l a t p).Within n := by
  induction p generalizing a t n with
  | done r => exact Client.Within.mono (k := 0) trivial (Nat.zero_le _)
  | call c k ih =>
    cases n with
    | zero => exact h.elim
    | succ n => exact ⟨h.1, fun r => ih r (h.2 r) _ _⟩

/-- Take a job from the list. -/
def demoPop : Client Unit := do
  let _ ← Client.one (.deQueueDDLJob .default)
  pure ()

/-- Two jobs are added, one of them is taken, by concurrent transactions. -/
def demoQueue : List (MetaCommit (Unit × List Job × List Job)) :=
  [⟨plainEnv, withJobs .default [] [] demoPop, 2⟩, ⟨plainEnv, withJobs .default [] [] (demoTake 1 { id := 8 }), 1⟩,
    ⟨plainEnv, withJobs .default [] [] (demoTake 1 { id := 7 }), 0⟩]

set_option maxRecDepth 100000 in
/-- The hypotheses of C49_fifo hold of transactions that do add and take jobs. -/
example : (∃ waiting, (jobsOf plainJson OMap.empty demoQueue).1 = (jobsOf plainJson OMap.empty demoQueue).2 ++ waiting) ∧
    (jobsOf plainJson OMap.empty demoQueue).1.map Job.id = [7, 8] ∧
    (jobsOf plainJson OMap.empty demoQueue).2.map Job.id = [7] := by
  have hq : ∀ T ∈ demoQueue, ∃ p : Client Unit, p.Only (fun _ c => Polite .default c) ∧ p.Strict ∧
      p.Only (fun _ c => c.scans = false) ∧ p.Within 2 ∧ T.prog = withJobs .default [] [] p := by
    intro T hT
    simp only [demoQueue, List.mem_cons, List.not_mem_nil, or_false] at hT
    have t : ∀ i, Job.Text { id := i } := fun _ => ⟨trivial, by intro a h; cases h⟩
    rcases hT with rfl | rfl | rfl
    · exact ⟨demoPop, .bind (Client.only_one trivial) fun _ => trivial, .bind (Client.strict_one _) fun _ => trivial,
        .bind (Client.only_one rfl) fun _ => trivial,
        (show demoPop.Within (1 + 1) from .bind (k := 1) (Client.within_one trivial) fun _ => trivial), rfl⟩
    · exact ⟨demoTake 1 { id := 8 }, .bind (Client.only_one trivial) fun _ => Client.only_one rfl, demoTake_strict _ _, demoTake_only _ _,
        demoTake_within _ _ (t _), rfl⟩
    · exact ⟨demoTake 1 { id := 7 }, .bind (Client.only_one trivial) fun _ => Client.only_one rfl, demoTake_strict _ _, demoTake_only _ _,
        demoTake_within _ _ (t _), rfl⟩
  refine ⟨C49_fifo plainJson .default OMap.empty (fun k _ => OMap.get_empty k) demoQueue ?_
    (acceptedCheck_sound (by decide)) ?_ (allOk_sound (by decide)) ?_, by decide, by decide⟩
  · intro T hT
    obtain ⟨p, h1, -, -, -, h5⟩ := hq T hT
    exact ⟨p, h1, h5⟩
  · intro T hT
    obtain ⟨p, -, h2, h3, -, h5⟩ := hq T hT
    rw [h5]
    exact ⟨withJobs_strict _ h2 _ _, withJobs_only _ h3 _ _⟩
  · refine fitsCommits_of 2 _ ?_ _ (by decide)
    intro T hT M
    obtain ⟨p, -, -, -, h4, h5⟩ := hq T hT
    rw [h5]
    exact ⟨(withJobs_within _ h4 _ _).text M, (withJobs_within _ h4 _ _).calls M⟩

/-- The hypotheses of C48_listings and C49_history_newest_first hold of non-empty metadata. -/
example : ∃ M, Reachable M ∧ M.dbs.ents.length = 1 ∧ (M.colls 1).ents.length = 1 :=
  ⟨(demoCreate.sem {}).2, ⟨Int64, [⟨true, plainEnv, none, demoCreate⟩], [.ok 3],
    .cons (.inl ⟨rfl, 3, rfl, rfl⟩) .nil⟩, rfl, rfl⟩

end Mondis.Props
