import Verif.Lemmas.StructShare
import Verif.Props.MetaExamples
/-!
# C81: structures shared by concurrent transactions

`Spec/StructShare` says what the clients do.  A history lists the transactions that were committed, newest first;
`Util.Accepted` is the engine's rule for letting them commit.  Note that a scan leaves nothing the engine checks at
commit.
-/
namespace Mondis.Share
open Mondis.Spec Mondis.Structure Mondis.Props Mondis.Prog

variable {α : Type}

theorem Fair.suffix {pfx : Bytes} {db₀ : DB} {after before : List (Client α)} (h : Fair pfx db₀ (after ++ before)) :
    Fair pfx db₀ before := by
  induction after with
  | nil => exact h
  | cons T after ih => exact ih h.1

theorem accepted_suffix {pfx : Bytes} {db₀ : DB} {after before : List (Client α)}
    (h : Util.Accepted db₀ ((after ++ before).map (Client.committed pfx))) :
    Util.Accepted db₀ (before.map (Client.committed pfx)) := by
  induction after with
  | nil => exact h
  | cons T after ih => exact ih h.1

theorem added_suffix (after before : List (Client α)) : added before ≤ added (after ++ before) := by
  induction after with
  | nil => exact Nat.le_refl _
  | cons T after ih => have := added_cons T (after ++ before); simp only [List.cons_append] at *; omega

/-- **C81**: transactions running at the same time, each any number of operations on strings, hashes and lists chosen
on the answers so far, HClear included, on a database in which nothing was stored under the prefix: every one that was
committed was answered as if the committed ones had run one after the other, in the order of their commits. -/
theorem C81_concurrent (pfx : Bytes) (db₀ : DB) (hfresh : Fresh pfx db₀) (h : List (Client α))
    (ha : Util.Accepted db₀ (h.map (Client.committed pfx))) (hg : Fair pfx db₀ h) (hB : added h < 2 ^ 63)
    (after : List (Client α)) (T : Client α) (before : List (Client α)) (e : h = after ++ T :: before) (p : SProg α)
    (hp : T.body = .structs p) : answered pfx db₀ before T = (p.sem (state before)).1 :=
  ((shared hfresh h ha hg hB).members after T before e).answer p hp

/-- **C81**: a transaction opened at any time, whether or not it is committed, sees the structures as the transactions
committed before left them, also when it enumerates fields: it answers as the specification does. -/
theorem C81_snapshot (pfx : Bytes) (db₀ : DB) (hfresh : Fresh pfx db₀) (h : List (Client α))
    (ha : Util.Accepted db₀ (h.map (Client.committed pfx))) (hg : Fair pfx db₀ h)
    (after before : List (Client α)) (e : h = after ++ before) {β : Type} (q : SProg β) (env : Env)
    (hB : added h + q.spent (state before) < 2 ^ 63) (hal : Along (Fits pfx) q (state before))
    (hc : (env.update = true ∧ ∀ n, env.tooBig n = false) ∨ q.Reads) :
    ((q.prog pfx).run (Txn.start env (contents pfx db₀ before))).1 = (q.sem (state before)).1 := by
  subst e
  have hle := added_suffix after before
  have hs := shared hfresh before (accepted_suffix ha) hg.suffix (by omega)
  exact sim_fits q (holds_start env hs.rep (hs.noTTL [] before rfl)) (by omega) hal hc

/-! ### A shared queue -/

/-- RPush of one value. -/
def put (q v : Bytes) : SProg Bytes := .op (.rpush q [v]) (fun r => .done (r.map' (fun _ => v)))
/-- LPop. -/
def take (q : Bytes) : SProg Bytes := SProg.bytesOp (.lpop q)

/-- What clients of a queue do. -/
inductive Job where
  | put (v : Bytes)
  | take

/-- The transaction of a client of the queue `q`. -/
def client (q : Bytes) (j : Env × Job × Nat) : Client Bytes :=
  ⟨j.1, .structs (match j.2.1 with
    | .put v => put q v
    | .take => take q), j.2.2⟩

/-- The values put, oldest first (the jobs are listed newest first). -/
def puts : List (Env × Job × Nat) → List Bytes
  | [] => []
  | j :: rest => puts rest ++ match j.2.1 with
    | .put v => [v]
    | .take => []

/-- The values the takers were answered, oldest first. -/
def takes (pfx q : Bytes) (db₀ : DB) : List (Env × Job × Nat) → List Bytes
  | [] => []
  | j :: rest => takes pfx q db₀ rest ++ match j.2.1, answered pfx db₀ (rest.map (client q)) (client q j) with
    | .take, .ok b => [b]
    | _, _ => []

theorem queue_aux (pfx q : Bytes) (db₀ : DB) (hfresh : Fresh pfx db₀) (hk : ∀ k, LKey pfx q k → keyErr k = none)
    (h : List (Env × Job × Nat))
    (hc : ∀ j ∈ h, j.1.update = true ∧ ∀ n, j.1.tooBig n = false)
    (ha : Util.Accepted db₀ ((h.map (client q)).map (Client.committed pfx))) (hB : h.length < 2 ^ 63) :
    Fair pfx db₀ (h.map (client q)) ∧ added (h.map (client q)) ≤ h.length ∧
      takes pfx q db₀ h ++ (state (h.map (client q)) q).list = puts h := by
  induction h with
  | nil => exact ⟨trivial, Nat.le_refl _, rfl⟩
  | cons j rest ih =>
    obtain ⟨env, j, snap⟩ := j
    simp only [List.length_cons] at hB
    obtain ⟨i1, i2, i3⟩ := ih (fun j hj => hc j (by simp [hj])) ha.1 (by omega)
    have hfair : Fair pfx db₀ (((env, j, snap) :: rest).map (client q)) := by
      refine ⟨i1, ?_⟩
      cases j with
      | put v => exact ⟨⟨⟨⟨hk, trivial⟩, trivial⟩, trivial⟩, .inl (hc (env, .put v, snap) (by simp))⟩
      | take =>
        refine ⟨⟨⟨⟨hk, trivial⟩, trivial⟩, ?_⟩, .inl (hc (env, .take, snap) (by simp))⟩
        generalize (SOp.step (state (rest.map (client q))) (.lpop q)).1 = r
        cases r with
        | ok o => cases o <;> trivial
        | err e => trivial
        | panic => trivial
    have hadd : added (((env, j, snap) :: rest).map (client q)) ≤ rest.length + 1 := by
      cases j with
      | put v => simp only [List.map_cons, added, client, put, SProg.spent, cost, List.length_cons, List.length_nil]; omega
      | take =>
        have : (take q).spent (state (rest.map (client q))) = 0 := by
          unfold take SProg.bytesOp
          simp only [SProg.spent, cost]
          split <;> rfl
        simp only [List.map_cons, added, client, this]; omega
    refine ⟨hfair, by simpa using hadd, ?_⟩
    have hans := C81_concurrent pfx db₀ hfresh _ ha hfair (by omega) [] (client q (env, j, snap)) (rest.map (client q)) rfl
    cases j with
    | put v =>
      simp only [takes, puts, List.map_cons, state, client, put, SProg.sem, SOp.step, SOp.sem, SOp.key, upd_same,
        List.append_nil]
      rw [← List.append_assoc, i3]
    | take =>
      have hans := hans (take q) rfl
      simp only [takes, puts, List.map_cons, List.append_nil]
      rw [hans, ← i3]
      simp only [state, client, take, SProg.bytesOp, SProg.sem, SOp.step, SOp.key, SOp.sem]
      cases hl : (state (rest.map (client q)) q).list with
      | nil => simp [SProg.sem, upd_same, hl]
      | cons v l => simp [SProg.sem, upd_same]

/-- **C81**: a list under any key used as a queue by any number of producers (RPush) and consumers (LPop) running
transactions at the same time: the values the consumers were given, in the order of their commits, followed by the
values still in the list, are the values put, in the order of the producers' commits.  None is lost, none is handed out
twice, none overtakes another. -/
theorem C81_queue (pfx q : Bytes) (db₀ : DB) (hfresh : Fresh pfx db₀) (hk : ∀ k, LKey pfx q k → keyErr k = none)
    (h : List (Env × Job × Nat)) (hc : ∀ j ∈ h, j.1.update = true ∧ ∀ n, j.1.tooBig n = false)
    (ha : Util.Accepted db₀ ((h.map (client q)).map (Client.committed pfx))) (hB : h.length < 2 ^ 63) :
    ∃ left, takes pfx q db₀ h ++ left = puts h ∧ ∀ env : Env,
      (((SProg.listOp (.lgetAll q)).prog pfx).run (Txn.start env (contents pfx db₀ (h.map (client q))))).1 =
        .ok left.reverse := by
  obtain ⟨h1, h2, h3⟩ := queue_aux pfx q db₀ hfresh hk h hc ha hB
  refine ⟨_, h3, fun env => ?_⟩
  rw [C81_snapshot pfx db₀ hfresh _ ha h1 [] _ rfl]
  · rfl
  · simp only [SProg.listOp, SProg.spent, cost, SOp.step, SOp.sem]; omega
  · exact ⟨⟨fun k hk => hk.elim, trivial⟩, trivial⟩
  · right
    refine ⟨trivial, fun r => ?_⟩
    cases r with
    | ok o => cases o <;> trivial
    | err e => trivial
    | panic => trivial

/-! ### The hypotheses can be met; enumerations are not covered -/

/-- An operation, and its answer. -/
def one (o : SOp) : SProg Out := .op o .done
/-- Two operations, and the answer of the first. -/
def two (o o' : SOp) : SProg Out := .op o (fun r => .op o' (fun _ => .done r))
/-- Two operations, and the answer of the second. -/
def two' (o o' : SOp) : SProg Out := .op o (fun _ => .op o' .done)

/-- Newest first: two fields are stored in a hash; meanwhile a counter is incremented; one client overwrites a field;
meanwhile another clears the hash (both saw the two first commits). -/
def demoHistory : List (Client Out) :=
  [⟨calm, .structs (two' (.hclear [97]) (.hlen [97])), 2⟩,
   ⟨calm, .structs (two (.hget [97] [1]) (.hset [97] [1] [9])), 2⟩,
   ⟨calm, .structs (one (.inc [98] 7)), 0⟩,
   ⟨calm, .structs (two' (.hset [97] [1] [7]) (.hset [97] [2] [8])), 0⟩]

set_option maxRecDepth 100000 in
theorem demo_accepted : Util.Accepted OMap.empty (demoHistory.map (Client.committed [109])) :=
  acceptedCheck_sound (by decide +kernel)

theorem demo_fits (A : SState) (o : SOp) (h : (match o with
    | .hset k f v => k.length ≤ 10 ∧ f.length ≤ 10 ∧ v ≠ []
    | .hget k _ | .hlen k | .inc k _ | .set k _ | .get k => k.length ≤ 10
    | .hclear k => k.length ≤ 10 ∧ ∀ f, (A k).hash.get f ≠ none → f.length ≤ 10
    | _ => False)) : Fits [109] A o := by
  have e : ∀ f : Bytes, f.length ≤ 10 → (Memcomparable.encodeGroups f).length ≤ 18 := by
    intro f hf; rw [Memcomparable.encodeGroups_length]; omega
  cases o with
  | hset k f v =>
    have a := e k h.1; have b := e f h.2.1
    refine ⟨keysFit_of (by decide) (by simp [SOp.key]; omega) ?_, .inl h.2.2⟩
    rintro g rfl; simp [SOp.key]; omega
  | hclear k =>
    have a := e k h.1
    refine ⟨keysFit_of (by decide) (by simp [SOp.key]; omega) ?_, trivial⟩
    intro g hg; have := e g (h.2 g hg); simp [SOp.key]; omega
  | hget k f => exact ⟨fun _ h => h.elim, trivial⟩
  | hlen k => exact ⟨fun _ h => h.elim, trivial⟩
  | get k => exact ⟨fun _ h => h.elim, trivial⟩
  | inc k s =>
    have a := e k h
    exact ⟨keysFit_of (by decide) (by simp [SOp.key]; omega) (fun g hg => hg.elim), trivial⟩
  | set k s =>
    have a := e k h
    exact ⟨keysFit_of (by decide) (by simp [SOp.key]; omega) (fun g hg => hg.elim), trivial⟩
  | _ => exact h.elim

theorem demo_fair : Fair [109] OMap.empty demoHistory := by
  have hcalm : calm.update = true ∧ ∀ n, calm.tooBig n = false := ⟨rfl, fun _ => rfl⟩
  refine ⟨⟨⟨⟨trivial, ?_, .inl hcalm⟩, ?_, .inl hcalm⟩, ?_, .inl hcalm⟩, ?_, .inl hcalm⟩
  · exact ⟨⟨demo_fits _ _ (by simp), trivial⟩, ⟨demo_fits _ _ (by simp), trivial⟩, trivial⟩
  · exact ⟨⟨demo_fits _ _ (by simp), trivial⟩, trivial⟩
  · exact ⟨⟨demo_fits _ _ (by simp), trivial⟩, ⟨demo_fits _ _ (by simp), trivial⟩, trivial⟩
  · refine ⟨⟨demo_fits _ _ ⟨by simp, ?_⟩, trivial⟩, ⟨demo_fits _ _ (by simp), trivial⟩, trivial⟩
    intro f hf
    have hall : ∀ g ∈ ((state (demoHistory.tail) [97]).hash.ents.map Prod.fst), g.length ≤ 10 := by decide +kernel
    exact hall f ((OMap.mem_keys_iff _ f).mpr hf)

/-- The history meets the hypotheses, and the client that cleared the hash found no field afterwards although another
one overwrote a field in the meantime. -/
example : answered [109] OMap.empty demoHistory.tail (demoHistory.head (by decide)) = .ok (.int 0) :=
  C81_concurrent [109] OMap.empty (fun _ _ => rfl) demoHistory demo_accepted demo_fair (by decide +kernel)
    [] _ demoHistory.tail rfl _ rfl

/-- The first client of `C81_enumeration_false`: is the hash empty?  Then set the string. -/
def looks : SProg Out := two (.hkeys [97]) (.set [98] [1])
/-- The second: is the string absent?  Then put a field into the hash. -/
def fills : SProg Out := two (.get [98]) (.hset [97] [2] [3])

set_option maxRecDepth 100000 in
/-- **C81**: the enumerations HKeys, HGetN, HGetAll and HGetNDesc are not protected: two transactions on an empty
database, one finds the hash without fields and sets a string, the other finds the string absent and adds a field to the
hash; both commit.  No order of the two explains both answers. -/
theorem C81_enumeration_false :
    let late : Client Out := ⟨calm, .structs looks, 0⟩
    let early : Client Out := ⟨calm, .structs fills, 0⟩
    Util.Accepted OMap.empty ([late, early].map (Client.committed [109])) ∧
    answered [109] OMap.empty [early] late = .ok (.list []) ∧
    answered [109] OMap.empty [] early = .err .keyNotFound ∧
    (looks.sem (fills.sem SState.init).2).1 ≠ .ok (.list []) ∧
    (fills.sem (looks.sem SState.init).2).1 ≠ .err .keyNotFound := by
  refine ⟨acceptedCheck_sound (by decide +kernel), by decide +kernel, by decide +kernel, by decide +kernel, by decide +kernel⟩

/-- A producer, a second producer that saw its commit, a consumer that saw both commits... -/
def demoQueue : List (Env × Job × Nat) := [(calm, .take, 2), (calm, .put [6], 1), (calm, .put [5], 0)]

set_option maxRecDepth 100000 in
/-- ...meet the hypotheses of `C81_queue`: the consumer was given the first value. -/
example : takes [109] [113] OMap.empty demoQueue = [[5]] ∧
    ∃ left, takes [109] [113] OMap.empty demoQueue ++ left = [[5], [6]] := by
  refine ⟨by decide +kernel, ?_⟩
  have hk : ∀ k, LKey [109] [113] k → keyErr k = none :=
    keysFit_of (A := SState.init) (op := .lpop [113]) (by decide) (by decide) (fun g hg => hg.elim)
  have hc : ∀ j ∈ demoQueue, j.1.update = true ∧ ∀ n, j.1.tooBig n = false := by
    intro j hj
    simp only [demoQueue, List.mem_cons, List.not_mem_nil, or_false] at hj
    rcases hj with rfl | rfl | rfl <;> exact ⟨rfl, fun _ => rfl⟩
  obtain ⟨left, h, -⟩ := C81_queue [109] [113] OMap.empty (fun _ _ => rfl) hk demoQueue hc
    (acceptedCheck_sound (by decide +kernel)) (by decide)
  exact ⟨left, h⟩

end Mondis.Share
