import Verif.Lemmas.DomainEvents
/-!
# The document process: what is needed of package ddl

The facts about documents hold whatever package ddl does within these limits.
-/
namespace Mondis.Spec
open Mondis Schema Meta Ddl Domain

/-- What a call, or a turn of the worker, may do, even if others are under way at the same time. -/
inductive Proc.Loose (P : Proc) : Ddl.Ev → Ddl.Answer → Proc → Prop where
  | now {e a Q} : P.Step e a Q → Loose P e a Q
  /-- not accepted -/
  | not {e r} : (∃ o i c, e = .createSchema o i c) ∨ (∃ i c, e = .addIndex i c) → (∀ j, r ≠ .ok j) → Loose P e (.job r) P
  | created {o i c} {j : Job} : j.id = DState.createJobID P.state.lastID i →
      Loose P (.createSchema o i c) (.job (P.heard (.ok j))) { P with state := P.state.enqueued i }
  /-- what is found is there -/
  | found {id c r} : (∀ j, r = .ok (some j) → ∃ d, (id, d) ∈ P.state.finished) → Loose P (.getJob id c) (.found r) P
  /-- a turn in vain -/
  | missed {o₁ o₂ o₃ c env r} : P.running = true → Loose P (.work o₁ o₂ o₃ c env) (.worked r) P

variable {D : Type}

/-- One event. -/
abbrev Site.Walk (norm : D → Res D) (S : Site D) := S.StepBy (fun P => P.Loose) norm

/-- A history. -/
abbrev Site.Walks (norm : D → Res D) (S : Site D) := S.StepsBy (fun P => P.Loose) norm

theorem Site.StepBy.mono {L L' : Proc → Ddl.Ev → Ddl.Answer → Proc → Prop} {norm : D → Res D} {S S' : Site D} {e : Domain.Ev D}
    {a : Domain.Answer D} (h : S.StepBy L norm e a S') (hL : ∀ d b Q, e = .ddl d → L S.proc d b Q → L' S.proc d b Q) : S.StepBy L' norm e a S' := by
  cases h with
  | crash hp => exact .crash hp
  | ddl hd hc hp => exact .ddl hd hc (hL _ _ _ rfl hp)
  | ddlNot he hr => exact .ddlNot he hr
  | drawNot h => exact .drawNot h
  | drawRefused h1 h2 h3 => exact .drawRefused h1 h2 h3
  | draw h1 h2 => exact .draw h1 h2
  | reloadBusy h => exact .reloadBusy h
  | reloadSame h1 h2 => exact .reloadSame h1 h2
  | reload h1 h2 => exact .reload h1 h2
  | publishNot h => exact .publishNot h
  | publish h => exact .publish h
  | begin => exact .begin
  | snapshot h1 h2 => exact .snapshot h1 h2
  | snapshotNot h => exact .snapshotNot h
  | insert h1 h2 h3 => exact .insert h1 h2 h3
  | insertNot h => exact .insertNot h
  | op h1 h2 => exact .op h1 h2
  | opNot h => exact .opNot h
  | discard h1 h2 => exact .discard h1 h2
  | discardNot h => exact .discardNot h
  | commit h1 h2 => exact .commit h1 h2
  | commitNot h => exact .commitNot h
  | finish h1 h2 h3 => exact .finish h1 h2 h3
  | finishNot h => exact .finishNot h

theorem Site.StepBy.walk {norm : D → Res D} {S S' : Site D} {e : Domain.Ev D} {a : Domain.Answer D} (h : S.Step norm e a S') : S.Walk norm e a S' :=
  h.mono (fun _ _ _ _ h => .now h)

theorem Site.StepsBy.walks {norm : D → Res D} {S R : Site D} {es : List (Domain.Ev D)} {as : List (Domain.Answer D)} (h : S.Steps norm es as R) :
    S.Walks norm es as R := by
  induction h with
  | nil => exact .nil
  | cons h _ ih => exact .cons h.walk ih

end Mondis.Spec
