import Verif.Model.Meta
import Verif.Props.Structure
/-!
# Programs over structures: what they mean, and that running them in a transaction does that
-/
namespace Mondis
open Spec Structure Props

namespace SProg

/-- Meaning over the specified structures. -/
def sem {α : Type} : SProg α → SState → Res α × SState
  | done r, A => (r, A)
  | op o c, A => (c (o.step A).1).sem (o.step A).2

/-- Elements and fields added along the run. -/
def spent {α : Type} : SProg α → SState → Nat
  | done _, _ => 0
  | op o c, A => cost o + (c (o.step A).1).spent (o.step A).2

theorem sem_andThen {α β : Type} (p : SProg α) (f : Res α → SProg β) (A : SState) :
    (p.andThen f).sem A = (f (p.sem A).1).sem (p.sem A).2 := by
  induction p generalizing A with
  | done r => rfl
  | op o c ih => exact ih _ _

theorem spent_andThen {α β : Type} (p : SProg α) (f : Res α → SProg β) (A : SState) :
    (p.andThen f).spent A = p.spent A + (f (p.sem A).1).spent (p.sem A).2 := by
  induction p generalizing A with
  | done r => simp [andThen, spent, sem]
  | op o c ih => simp only [andThen, spent, sem, ih]; omega

/-- Keys and fields an operation names are short, and it stores no empty field value. -/
def ShortOp : SOp → Prop
  | .hset k f v => k.length ≤ 100 ∧ f.length ≤ 100 ∧ v ≠ []
  | .hsetInt k f _ | .hinc k f _ => k.length ≤ 100 ∧ f.length ≤ 100
  | .hdel k fs => k.length ≤ 100 ∧ ∀ f ∈ fs, f.length ≤ 100
  | o => o.key.length ≤ 100

/-- All operations a program can make are short. -/
def Plain {α : Type} : SProg α → Prop
  | done _ => True
  | op o c => ShortOp o ∧ ∀ r, (c r).Plain

theorem Plain.andThen {α β : Type} {p : SProg α} {f : Res α → SProg β} (hp : p.Plain)
    (hf : ∀ r, (f r).Plain) : (p.andThen f).Plain := by
  induction p with
  | done r => exact hf r
  | op o c ih => exact ⟨hp.1, fun r => ih r (hp.2 r)⟩

/-- Operations that only read. -/
def ReadOp : SOp → Prop
  | .get _ | .getInt _ | .hget _ _ | .hgetInt _ _ | .hlen _ | .hkeys _ | .hgetN _ _ | .hgetAll _
  | .hgetNDesc _ _ | .llen _ | .lgetAll _ | .lindex _ _ => True
  | _ => False

/-- A program that only reads. -/
def Reads {α : Type} : SProg α → Prop
  | done _ => True
  | op o c => ReadOp o ∧ ∀ r, (c r).Reads

theorem Reads.andThen {α β : Type} {p : SProg α} {f : Res α → SProg β} (hp : p.Reads)
    (hf : ∀ r, (f r).Reads) : (p.andThen f).Reads := by
  induction p with
  | done r => exact hf r
  | op o c ih => exact ⟨hp.1, fun r => ih r (hp.2 r)⟩

/-- The ways the circumstances alone can make a write fail. -/
def EnvErr (env : Env) (e : Err) : Prop :=
  (env.update = false ∧ e = .readOnlyTxn) ∨ (e = .txnTooBig ∧ ∃ n, env.tooBig n = true)

/-- The program hands on the errors of a transaction that is read-only or full. -/
def HandsOn {α : Type} : SProg α → Prop
  | done _ => True
  | op _ c => c (.err .readOnlyTxn) = done (.err .readOnlyTxn) ∧ c (.err .txnTooBig) = done (.err .txnTooBig) ∧
      ∀ r, (c r).HandsOn

theorem HandsOn.andThen {α β : Type} {p : SProg α} {f : Res α → SProg β} (hp : p.HandsOn)
    (h1 : f (.err .readOnlyTxn) = done (.err .readOnlyTxn)) (h2 : f (.err .txnTooBig) = done (.err .txnTooBig))
    (hf : ∀ r, (f r).HandsOn) : (p.andThen f).HandsOn := by
  induction p with
  | done r => exact hf r
  | op o c ih =>
    refine ⟨?_, ?_, fun r => ih r (hp.2.2 r)⟩
    · show (c _).andThen f = _; rw [hp.1]; exact h1
    · show (c _).andThen f = _; rw [hp.2.1]; exact h2

end SProg

/-- All fields stored are short. -/
def Tidy (A : SState) : Prop := ∀ k f, (A k).hash.get f ≠ none → f.length ≤ 100

theorem tidy_init : Tidy SState.init := by
  intro k f h; exact absurd rfl h

theorem foldl_del_get (fs : List Bytes) (h : OMap Bytes) (f : Bytes)
    (hne : (fs.foldl OMap.del h).get f ≠ none) : h.get f ≠ none := by
  induction fs generalizing h with
  | nil => exact hne
  | cons g fs ih =>
    have := ih _ hne
    rw [OMap.get_del] at this
    split at this
    · exact absurd rfl this
    · exact this

theorem tidy_upd {A : SState} {k : Bytes} {o : Obj} (h : Tidy A)
    (ho : ∀ f, o.hash.get f ≠ none → f.length ≤ 100) : Tidy (A.upd k o) := by
  intro j f hf
  unfold SState.upd at hf
  split at hf
  · exact ho f hf
  · exact h j f hf

theorem tidy_step {A : SState} {op : SOp} (h : Tidy A) (hs : SProg.ShortOp op) : Tidy (op.step A).2 := by
  unfold SOp.step
  have hk : ∀ f, (A op.key).hash.get f ≠ none → f.length ≤ 100 := h op.key
  have hset : ∀ (g v : Bytes), g.length ≤ 100 → ∀ f, ((A op.key).hash.set g v).get f ≠ none → f.length ≤ 100 := by
    intro g v hg f hf
    rw [OMap.get_set] at hf
    split at hf
    · subst_vars; exact hg
    · exact hk f hf
  apply tidy_upd h
  cases op with
  | hset k g v => exact hset g v hs.2.1
  | hsetInt k g v => exact hset g _ hs.2
  | hinc k g v =>
    simp only [SOp.sem]
    split
    · exact hset g _ hs.2
    · exact hk
    · exact hk
  | hdel k fs => exact fun f hf => hk f (foldl_del_get fs _ f hf)
  | hclear k => intro f hf; exact absurd rfl hf
  | inc k s => simp only [SOp.sem]; (repeat' split) <;> exact hk
  | get k => simp only [SOp.sem]; split <;> exact hk
  | getInt k => simp only [SOp.sem]; split <;> exact hk
  | hget k g => simp only [SOp.sem]; split <;> exact hk
  | hgetInt k g => simp only [SOp.sem]; split <;> exact hk
  | lpop k => simp only [SOp.sem]; split <;> exact hk
  | rpop k => simp only [SOp.sem]; split <;> exact hk
  | lindex k g => simp only [SOp.sem]; (repeat' split) <;> exact hk
  | lset k g v => simp only [SOp.sem]; split <;> exact hk
  | _ => exact hk

theorem short_key {op : SOp} (hs : SProg.ShortOp op) : op.key.length ≤ 100 := by
  cases op <;> first | exact hs | exact hs.1

theorem short_lossless {A : SState} {op : SOp} (hs : SProg.ShortOp op) : Lossless A op := by
  cases op <;> first | trivial | exact .inl hs.2.2

theorem short_fits {A : SState} {op : SOp} (h : Tidy A) (hs : SProg.ShortOp op) :
    KeysFit Sequence.metaPrefix A op := by
  have hk := short_key hs
  have e : ∀ f : Bytes, f.length ≤ 100 → (Memcomparable.encodeGroups f).length ≤ 117 := by
    intro f hf; rw [Memcomparable.encodeGroups_length]; omega
  have := e _ hk
  refine keysFit_of (b := 95) (pfx := [109, 100, 95, 109]) (by decide) (by simp; omega) ?_
  intro f hf
  have hf' : f.length ≤ 100 := by
    cases op with
    | hset k g v => cases hf; exact hs.2.1
    | hsetInt k g v => cases hf; exact hs.2
    | hinc k g v => cases hf; exact hs.2
    | hdel k fs => exact hs.2 f hf
    | hclear k => exact h k f hf
    | _ => exact hf.elim
  have := e _ hf'
  simp; omega

namespace SProg

theorem envErr_of {env : Env} {k : Bytes} {e : Err} (hk : keyErr k = none) (h : env.WriteErr k e) : EnvErr env e := by
  rcases h with h | h | h
  · exact .inl h
  · rw [hk] at h; cases h
  · exact .inr h

/-- The result of running the program in a transaction. -/
theorem run_prog_op {α : Type} {pfx : Bytes} (o : SOp) (c : Res Out → SProg α) (t : Txn) :
    ((SProg.op o c).prog pfx).run t =
      ((c ((exec pfx o).run t).1).prog pfx).run ((exec pfx o).run t).2 := by
  show ((exec pfx o).andThen _).run t = _
  rw [Prog.run_andThen]

theorem read_no_write {pfx : Bytes} {A : SState} {o : SOp} (h : ReadOp o) (k : Bytes) : ¬ MayWrite pfx A o k := by
  cases o <;> first | exact fun h => h | exact h.elim

/-- **Simulation**: a program over structures in a transaction does what it means, or the circumstances
refused a write and the program handed that error on. -/
theorem sim {α : Type} (p : SProg α) {B : Int} {A : SState} {t : Txn} (h : Holds Sequence.metaPrefix B A t)
    (hB : B + p.spent A < 2 ^ 63) (ht : Tidy A) (hp : p.Plain) (hh : p.HandsOn) :
    (∃ e, EnvErr t.env e ∧ ((p.prog Sequence.metaPrefix).run t).1 = .err e) ∨
    (((p.prog Sequence.metaPrefix).run t).1 = (p.sem A).1 ∧
      Holds Sequence.metaPrefix (B + p.spent A) (p.sem A).2 ((p.prog Sequence.metaPrefix).run t).2 ∧
      Tidy (p.sem A).2) := by
  induction p generalizing B A t with
  | done r => exact .inr ⟨rfl, by simpa [spent, sem, prog, Prog.run] using h, ht⟩
  | op o c ih =>
    simp only [spent] at hB
    have hfit := short_fits ht hp.1
    rw [run_prog_op]
    rcases step_run o h (by omega) (short_lossless hp.1) with ⟨k, e, hk, he, hr⟩ | ⟨hr, hh'⟩
    · left
      have he' := envErr_of (hfit k hk) he
      refine ⟨e, he', ?_⟩
      rw [hr]
      rcases he' with ⟨_, rfl⟩ | ⟨rfl, _⟩
      · rw [hh.1]; rfl
      · rw [hh.2.1]; rfl
    · rw [hr]
      have := ih (o.step A).1 hh' (by omega) (tidy_step ht hp.1) (hp.2 _) (hh.2.2 _)
      rw [Prog.run_env] at this
      rcases this with h | ⟨h1, h2, h3⟩
      · exact .inl h
      · refine .inr ⟨h1, ?_, h3⟩
        have e : B + ((SProg.op o c).spent A : Nat) = B + cost o + ((c (o.step A).1).spent (o.step A).2 : Nat) := by
          simp only [spent]; omega
        rw [e]; exact h2

/-- The same when no write can fail or nothing is written: the program does what it means. -/
theorem sim_calm {α : Type} (p : SProg α) {B : Int} {A : SState} {t : Txn} (h : Holds Sequence.metaPrefix B A t)
    (hB : B + p.spent A < 2 ^ 63) (ht : Tidy A) (hp : p.Plain)
    (hc : (t.env.update = true ∧ ∀ n, t.env.tooBig n = false) ∨ p.Reads) :
    ((p.prog Sequence.metaPrefix).run t).1 = (p.sem A).1 ∧
      Holds Sequence.metaPrefix (B + p.spent A) (p.sem A).2 ((p.prog Sequence.metaPrefix).run t).2 ∧
      Tidy (p.sem A).2 := by
  induction p generalizing B A t with
  | done r => exact ⟨rfl, by simpa [spent, sem, prog, Prog.run] using h, ht⟩
  | op o c ih =>
    simp only [spent] at hB
    have hfit := short_fits ht hp.1
    rw [run_prog_op]
    rcases step_run o h (by omega) (short_lossless hp.1) with ⟨k, e, hk, he, hr⟩ | ⟨hr, hh'⟩
    · exfalso
      rcases hc with hc | hc
      · exact Env.Writable.not_err ⟨hc.1, hfit k hk, hc.2⟩ e he
      · exact read_no_write hc.1 k hk
    · rw [hr]
      obtain ⟨h1, h2, h3⟩ := ih (o.step A).1 hh' (by omega) (tidy_step ht hp.1) (hp.2 _)
        (by rw [Prog.run_env]; exact hc.imp id (fun h => h.2 _))
      refine ⟨h1, ?_, h3⟩
      have e : B + ((SProg.op o c).spent A : Nat) = B + cost o + ((c (o.step A).1).spent (o.step A).2 : Nat) := by
        simp only [spent]; omega
      rw [e]; exact h2

end SProg
end Mondis
