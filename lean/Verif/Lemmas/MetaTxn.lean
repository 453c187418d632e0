import Verif.Lemmas.MetaClient
/-!
# Transactions over package meta
-/
namespace Mondis
open Spec Structure Props Schema Meta Util

/-- The committed database holds exactly the metadata `M`; at most `B` elements were ever added. -/
structure Keeps (J : Json) (B : Nat) (M : MState) (db : DB) : Prop where
  ex : ∃ A, Rep Sequence.metaPrefix B A db ∧ Tidy A ∧ Abs J M A
  noTTL : ∀ k v, IsPrefixOf Sequence.metaPrefix k → db.get k = some v → v.expiresAt = 0

theorem Keeps.start {J : Json} {db : DB} (h : Fresh Sequence.metaPrefix db) : Keeps J 0 {} db where
  ex := ⟨SState.init, rep_fresh h, tidy_init, abs_init J⟩
  noTTL := fun k v hk hv => by rw [h k hk] at hv; cases hv

section
variable {J : Json} {α : Type}

theorem structure_sem (p : Client α) {M : MState} {A : SState} (h : Abs J M A) (ht : p.Text M) :
    ((p.structure J).sem A).1 = (p.sem M).1 ∧ Abs J (p.sem M).2 ((p.structure J).sem A).2 ∧
    (p.structure J).spent A ≤ 2 * p.calls M := by
  induction p generalizing M A with
  | done r => exact ⟨rfl, h, Nat.zero_le _⟩
  | call c k ih =>
    obtain ⟨h1, h2⟩ := call_sem c h ht.1
    simp only [Client.structure, SProg.sem_andThen, SProg.spent_andThen, Client.sem, Client.calls, h1]
    obtain ⟨g1, g2, g3⟩ := ih (c.sem M).1 h2 ht.2
    refine ⟨g1, g2, ?_⟩
    have := (call_well J c).spent A
    omega

theorem structure_plain (p : Client α) : (p.structure J).Plain := by
  induction p with
  | done r => trivial
  | call c k ih => exact SProg.Plain.andThen (call_well J c).plain ih

theorem structure_handsOn (p : Client α) (h : p.Strict) : (p.structure J).HandsOn := by
  induction p with
  | done r => trivial
  | call c k ih =>
    refine SProg.HandsOn.andThen (call_well J c).handsOn ?_ ?_ (fun r => ih r (h.2.2 r))
    · show (k _).structure J = _; rw [h.1]; rfl
    · show (k _).structure J = _; rw [h.2.1]; rfl

theorem structure_reads (p : Client α) (h : p.Only (fun _ c => c.writes = false)) : (p.structure J).Reads := by
  induction p with
  | done r => trivial
  | call c k ih =>
    refine SProg.Reads.andThen ?_ (fun r => ih r (h.2 r))
    have := call_well J c
    rw [h.1] at this
    exact this.reads

theorem andThen_assoc {α β γ : Type} (p : Prog α) (f : Res α → Prog β) (g : Res β → Prog γ) :
    (p.andThen f).andThen g = p.andThen (fun r => (f r).andThen g) := by
  induction p with
  | done r => rfl
  | get k c ih => simp only [Prog.andThen, ih]
  | set k v m c ih => simp only [Prog.andThen, ih]
  | del k c ih => simp only [Prog.andThen, ih]
  | scan o c ih => simp only [Prog.andThen, ih]

theorem prog_andThen {α β : Type} (q : SProg α) (f : Res α → SProg β) : (q.andThen f).prog Sequence.metaPrefix =
    (q.prog Sequence.metaPrefix).andThen (fun r => (f r).prog Sequence.metaPrefix) := by
  induction q with
  | done r => rfl
  | op o c ih => simp only [SProg.andThen, SProg.prog, andThen_assoc, ih]

theorem code_scanFree (p : Client α) (h : p.Only (fun _ c => c.scans = false)) : (p.code J).ScanFree := by
  induction p with
  | done r => trivial
  | call c k ih =>
    have hw := call_well J c
    rw [h.1] at hw
    unfold Client.code
    rw [Client.structure, prog_andThen]
    exact Prog.ScanFree.andThen hw.scanFree (fun r => ih r (h.2 r))

theorem run_client (p : Client α) {B : Nat} {M : MState} {db : DB} {env : Env} (h : Keeps J B M db)
    (ht : p.Text M) (hB : B + 2 * p.calls M < 2 ^ 63) (hs : p.Strict) :
    (∃ e, SProg.EnvErr env e ∧ ((p.code J).run (Txn.start env db)).1 = .err e) ∨
    (((p.code J).run (Txn.start env db)).1 = (p.sem M).1 ∧
      Keeps J (B + 2 * p.calls M) (p.sem M).2 ((p.code J).run (Txn.start env db)).2.view) := by
  obtain ⟨⟨A, hr, htidy, habs⟩, hn⟩ := h
  obtain ⟨g1, g2, g3⟩ := structure_sem p habs ht
  have hh := holds_start env hr hn
  rcases SProg.sim (p.structure J) hh (by omega) htidy (structure_plain p) (structure_handsOn p hs) with h | ⟨h1, h2, h3⟩
  · exact .inl h
  · refine .inr ⟨by rw [← g1]; exact h1, ⟨_, ?_, h3, g2⟩, h2.noTTL⟩
    refine Rep.mono h2.raw ?_
    omega

theorem run_client_calm (p : Client α) {B : Nat} {M : MState} {db : DB} {env : Env} (h : Keeps J B M db)
    (ht : p.Text M) (hB : B + 2 * p.calls M < 2 ^ 63)
    (hc : (env.update = true ∧ ∀ n, env.tooBig n = false) ∨ p.Only (fun _ c => c.writes = false)) :
    ((p.code J).run (Txn.start env db)).1 = (p.sem M).1 ∧
      Keeps J (B + 2 * p.calls M) (p.sem M).2 ((p.code J).run (Txn.start env db)).2.view := by
  obtain ⟨⟨A, hr, htidy, habs⟩, hn⟩ := h
  obtain ⟨g1, g2, g3⟩ := structure_sem p habs ht
  have hh := holds_start env hr hn
  obtain ⟨h1, h2, h3⟩ := SProg.sim_calm (p.structure J) hh (by omega) htidy (structure_plain p)
    (hc.imp id (structure_reads p))
  refine ⟨by rw [← g1]; exact h1, ⟨_, ?_, h3, g2⟩, h2.noTTL⟩
  refine Rep.mono h2.raw ?_
  omega

end
end Mondis
