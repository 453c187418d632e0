import Verif.Props.ClientTxn
/-!
# C74: a connection that breaks in the middle of a client transaction

Before its first answer a transaction reports a broken connection by an error.  From then on it reports it
by a panic: `getRespFrame` receives from a closed channel and the nil frame is dereferenced.
-/
namespace Mondis.Spec
open Client (CProg)

/-- The next thing the body does is to send a request. -/
def Sends {α : Type} (update : Bool) : CProg α → Prop
  | .done _ => False
  | .get _ _ => True
  | .exists _ _ => True
  | .set _ _ _ _ => update = true
  | .del _ _ => update = true
  | .scan _ limit _ => 0 < limit

/-- The body does not panic of its own accord. -/
def Composed {α : Type} : CProg α → Prop
  | .done r => r ≠ .panic
  | .get _ c => ∀ r, Composed (c r)
  | .exists _ c => ∀ r, Composed (c r)
  | .set _ _ _ c => ∀ r, Composed (c r)
  | .del _ c => ∀ r, Composed (c r)
  | .scan _ _ c => ∀ r, Composed (c r)

end Mondis.Spec

namespace Mondis.Props
open Mondis Wire Server Client Spec Util

/-- The connection breaks after the frame was written and before its answer is back. -/
def Breaks (w : Wireless) : Prop := w = .lostRequest ∨ w = .lostAnswer

theorem live_break (cx : Ctx) {w : Wireless} (hw : Breaks w) (upd : Bool) (snap : DB) (s : Server.Stream) (cmd : Cmd)
    (p : Bytes) : request cx w upd snap (.live s) cmd p = (.panic, .dead true) := by
  rcases hw with rfl | rfl <;> rfl

theorem run_break {α : Type} (cx : Ctx) (net : Nat → Wireless) (upd : Bool) (snap : DB) (f : CProg α) (m n : Nat)
    (g : CProg α) (s : Server.Stream) (hm : afterCalls cx net upd snap f m = (g, n, .live s)) (hg : Sends upd g)
    (hw : Breaks (net n)) : run cx net upd snap f 0 .fresh = (.panic, n + 1, .dead true) := by
  rw [run_afterCalls cx net upd snap f m, hm]
  cases g with
  | done r => exact absurd hg id
  | get k c => simp only [run, live_break cx hw]; rfl
  | «exists» k c => simp only [run, live_break cx hw]; rfl
  | set k v vm c =>
    have hu : upd = true := hg
    subst hu
    simp only [run, live_break cx hw]; rfl
  | del k c =>
    have hu : upd = true := hg
    subst hu
    simp only [run, live_break cx hw]; rfl
  | scan o lim c =>
    have hl : ¬ lim ≤ 0 := by have : 0 < lim := hg; omega
    simp only [run, live_break cx hw, if_neg hl]; rfl

/-- If a body has received an answer, sends another request and the connection breaks before the answer to
that is back, Update does not return an error: it panics, whatever the body and the storage; nothing is
written. -/
theorem C74_update_panics {α : Type} (cx : Ctx) (net : Nat → Wireless) (fail : Option Err) (snap db : DB) (f : CProg α)
    (m n : Nat) (g : CProg α) (s : Server.Stream) (hm : afterCalls cx net true snap f m = (g, n, .live s))
    (hg : Sends true g) (hw : Breaks (net n)) : update cx net fail f snap db = (.panic, db) := by
  unfold update
  rw [run_break cx net true snap f m n g s hm hg hw]

/-- The same in a View. -/
theorem C74_view_panics {α : Type} (cx : Ctx) (net : Nat → Wireless) (snap db : DB) (f : CProg α) (m n : Nat)
    (g : CProg α) (s : Server.Stream) (hm : afterCalls cx net false snap f m = (g, n, .live s)) (hg : Sends false g)
    (hw : Breaks (net n)) : view cx net f snap db = (.panic, db) := by
  unfold view
  rw [run_break cx net false snap f m n g s hm hg hw]

/-- If all requests of the body were answered and it is the commit whose answer does not come, Update
panics too, and either nothing is written or, if the request had reached the server, exactly what a
commit over a working connection writes. -/
theorem C74_commit_panics {α : Type} (cx : Ctx) (net : Nat → Wireless) (fail : Option Err) (snap db : DB) (f : CProg α)
    (m n : Nat) (a : α) (s : Server.Stream) (hm : afterCalls cx net true snap f m = (.done (.ok a), n, .live s))
    (hw : Breaks (net n)) :
    (update cx net fail f snap db).1 = .panic ∧
    (update cx net fail f snap db).2 = match net n with
      | .lostAnswer => (commit cx .good fail (.live s) db).2
      | _ => db := by
  unfold update
  rw [run_afterCalls cx net true snap f m, hm]
  rcases hw with hw | hw <;> simp [run, commit, hw]

/-- As long as no request was answered, a broken connection is reported by errors: a body that does not
panic of its own accord does not panic, nor does the commit, and nothing is written. -/
theorem C74_unanswered_errs {α : Type} (cx : Ctx) (net : Nat → Wireless) (fail : Option Err) (snap db : DB) (f : CProg α)
    (hf : Composed f) (hnet : ∀ n, net n ≠ .good) :
    (update cx net fail f snap db).1 ≠ .panic ∧ (update cx net fail f snap db).2 = db ∧
    (view cx net f snap db).1 ≠ .panic := by
  have req : ∀ upd l cmd p w, w ≠ Wireless.good → l = .fresh ∨ l = .dead false →
      (request cx w upd snap l cmd p).1 = .err .net ∧
      ((request cx w upd snap l cmd p).2 = .fresh ∨ (request cx w upd snap l cmd p).2 = .dead false) := by
    intro upd l cmd p w hw hl
    rcases hl with rfl | rfl
    · cases w with
      | good => exact absurd rfl hw
      | refused => exact ⟨rfl, .inl rfl⟩
      | lostRequest => exact ⟨rfl, .inr rfl⟩
      | lostAnswer => exact ⟨rfl, .inr rfl⟩
    · exact ⟨by simp [request], .inr rfl⟩
  have key : ∀ upd n l, l = Link.fresh ∨ l = .dead false →
      (run cx net upd snap f n l).1 ≠ .panic ∧
      ((run cx net upd snap f n l).2.2 = .fresh ∨ (run cx net upd snap f n l).2.2 = .dead false) := by
    intro upd
    induction f with
    | done r => intro n l hl; exact ⟨hf, hl⟩
    | get k c ih =>
      intro n l hl
      obtain ⟨h1, h2⟩ := req upd l .get (KeyRequest.mk k).marshal (net n) (hnet n) hl
      simp only [run, h1]
      exact ih _ (hf _) _ _ h2
    | «exists» k c ih =>
      intro n l hl
      obtain ⟨h1, h2⟩ := req upd l .exists (KeyRequest.mk k).marshal (net n) (hnet n) hl
      simp only [run, h1]
      exact ih _ (hf _) _ _ h2
    | set k v vm c ih =>
      intro n l hl
      obtain ⟨h1, h2⟩ := req upd l .set (setBytes k v vm) (net n) (hnet n) hl
      simp only [run, h1]
      split
      · exact ih _ (hf _) _ _ hl
      · exact ih _ (hf _) _ _ h2
    | del k c ih =>
      intro n l hl
      obtain ⟨h1, h2⟩ := req upd l .delete (KeyRequest.mk k).marshal (net n) (hnet n) hl
      simp only [run, h1]
      split
      · exact ih _ (hf _) _ _ hl
      · exact ih _ (hf _) _ _ h2
    | scan o lim c ih =>
      intro n l hl
      obtain ⟨h1, h2⟩ := req upd l .scan (scanBytes o (if lim > 1000 then 1000 else lim)) (net n) (hnet n) hl
      simp only [run, h1]
      split
      · exact ih _ (hf _) _ _ hl
      · exact ih _ (hf _) _ _ h2
  obtain ⟨h1, h2⟩ := key true 0 .fresh (.inl rfl)
  refine ⟨?_, ?_, (key false 0 .fresh (.inl rfl)).1⟩
  · unfold update
    generalize run cx net true snap f 0 .fresh = x at h1 h2
    obtain ⟨r, n, l⟩ := x
    cases r with
    | panic => exact absurd rfl h1
    | err e => simp
    | ok a => rcases h2 with h2 | h2 <;> (simp only at h2; subst h2; simp [commit])
  · unfold update
    generalize run cx net true snap f 0 .fresh = x at h1 h2
    obtain ⟨r, n, l⟩ := x
    cases r with
    | panic => exact absurd rfl h1
    | err e => simp
    | ok a => rcases h2 with h2 | h2 <;> (simp only at h2; subst h2; simp [commit])

/-- A frame whose writing fails is reported by an error at any time: the panic comes from waiting. -/
theorem C74_refused_errs (cx : Ctx) (upd : Bool) (snap : DB) (l : Link) (cmd : Cmd) (p : Bytes) :
    (request cx .refused upd snap l cmd p).1 = .err .net := by
  cases l <;> simp [request]

/-- Read a key and write another: the first request is answered, the second is not. -/
example : ∃ s c, afterCalls calmCtx (fun n => if n = 0 then .good else .lostAnswer) true OMap.empty
    (.get [1] (fun _ => .del [2] (fun _ => .done (.ok ()))) : CProg Unit) 1 = (.del [2] c, 1, .live s) ∧
    Sends true (.del [2] c) ∧ Breaks .lostAnswer := by
  have hm : Small (OMap.empty : DB) := by intro e he; simp [OMap.empty] at he
  have h0 := first_get_calm calmCtx hm [1]
  simp only [afterCalls, stepCall, request, opening, keyReq_back0 [1] (by decide), if_true, Res.ok_bind]
  generalize parseGet (respGet calmCtx {} (STxn.get calmCtx ⟨true, OMap.empty, [], 0⟩ [1])).marshal = r at h0 ⊢
  cases r with
  | panic => exact absurd rfl h0
  | ok v => exact ⟨_, _, rfl, rfl, .inr rfl⟩
  | err e => exact ⟨_, _, rfl, rfl, .inr rfl⟩

/-- The whole Update of one Set whose commit is lost on the way back: a panic, and the key is there. -/
example : update calmCtx (fun n => if n = 0 then .good else .lostAnswer) none
    (.set [1] [2] none (fun r => .done r)) OMap.empty OMap.empty =
    (.panic, OMap.empty.set [1] { value := [2] }) := by
  unfold update
  simp only [run, request, opening, setReq_back [1] [2] none (by decide) (by decide)]
  rfl

example : Composed (.get [1] (fun _ => .done (.ok ())) : CProg Unit) ∧ ∀ n, (fun _ : Nat => Wireless.lostRequest) n ≠ .good :=
  ⟨fun _ => by simp [Composed], fun _ => by simp⟩

end Mondis.Props
