import Verif.Props.Malformed
import Verif.Model.ServerLevel
import Verif.Spec.ServerLevel
/-!
# C87: a server on a LevelDB database
-/
namespace Mondis.Props
open Mondis Spec Spec.Level Server LevelDB
open Mondis.Client (collect_eq parseScan_ok pbEntry CProg Wireless)

/-- A client's call, through client, wire, server and the LevelDB provider. -/
def performL (cx : Ctx) (fail : Option Err) (db : LDB) : Call → Answer × LDB
  | .set k v vm => let (r, db) := Client.Level.set cx fail db k v vm; (wrote r, db)
  | .delete k => let (r, db) := Client.Level.delete cx fail db k; (wrote r, db)
  | .get k => (readBack (Client.Level.get cx db k), db)
  | .exists k => (foundBack (Client.Level.exists' cx db k), db)
  | .scan o limit => (listed (Client.Level.scan cx db o limit), db)

theorem levelScan_eq (cx : Ctx) (db : LDB) (o : ScanOption) (limit : Int) (hd : SmallL db)
    (hp : o.pfx.length < 2 ^ 32) (hq : o.offset.length < 2 ^ 32) :
    Client.Level.scan cx db o limit =
      if limit ≤ 0 then .ok []
      else if o.reverse then .err (.rpc 2 (cx.txt .unsupported))
      else .ok (((fromOffset (fun _ => true) db o.pfx o.offset).take (min limit 1000).toNat).map
        (fun e => (e.1, ⟨e.2, 0, 0⟩))) := by
  unfold Client.Level.scan
  split
  · rfl
  · rename_i h
    simp only
    have hlim : (if limit > 1000 then (1000 : Int) else limit) = min limit 1000 := by split <;> omega
    rw [hlim]
    have h1 : 1 ≤ min limit 1000 := by omega
    have h2 : min limit 1000 ≤ 1000 := by omega
    generalize hn : min limit 1000 = n at h1 h2
    unfold Server.Level.cmdScan
    rw [Client.scanReq_back o n {} hp hq h1 h2]
    have hpso : (((none : Option Wire.PSO).getD {}).merge ⟨o.reverse, o.pfx, o.offset⟩) =
        ⟨o.reverse, o.pfx, o.offset⟩ := by simp [Wire.PSO.merge, Client.keep_nil]
    have hn' : (Int32.ofInt n).toInt = n := by
      rw [Int32.toInt_ofInt]
      exact Int.bmod_eq_of_le (by simp [Int32.size]; omega) (by simp [Int32.size]; omega)
    simp only [hpso, Server.Level.respScan, hn']
    rw [if_neg (by omega), if_neg (by omega)]
    obtain ⟨rev, p, q⟩ := o
    cases rev with
    | true =>
      simp only [LevelDB.scan, if_true, Res.ok_bind, Client.parseScan]
      rw [Client.scan_back' _ (Client.scan_small _ (cx.txt_short _) (by simp) (by simp))]
      rfl
    | false =>
      rw [C23_leveldb_scan]
      simp only [Res.ok_bind, Bool.false_eq_true, if_false]
      rw [collect_eq, List.nil_append]
      have hm : max 1 (n - (([] : List Wire.Entry).length : Int)).toNat = n.toNat := by simp; omega
      rw [hm, ← List.map_take]
      apply parseScan_ok
      apply Client.scan_small
      · simp
      · simp only [List.length_map, List.length_take]; omega
      · intro e he
        simp only [List.mem_map] at he
        obtain ⟨x, ⟨y, hy, rfl⟩, rfl⟩ := he
        have hy := List.mem_of_mem_take hy
        simp only [fromOffset, List.mem_filter] at hy
        exact hd y hy.1

/-- One call through the whole stack. -/
theorem performL_eq (cx : Ctx) (fail : Option Err) (db : LDB) (c : Call) (hd : SmallL db) (hc : Fits c) :
    performL cx fail db c = Spec.Level.serve fail.isNone db c := by
  cases c with
  | set k v vm =>
    simp only [performL, Client.Level.set, Server.Level.cmdSet, Spec.Level.serve]
    rw [Client.setReq_back k v vm hc.1 hc.2]
    simp only [Client.metaOf_back]
    cases vm with
    | some m =>
      simp only [Server.Level.put, LevelDB.set]
      simp only [Client.parseSet_write cx {} rfl (.err _) (by simp)]
      simp [seenWrite, wrote]
    | none =>
      cases fail with
      | some e =>
        simp only [Server.Level.put]
        simp only [Client.parseSet_write cx {} rfl (.err _) (by simp)]
        simp [seenWrite, wrote]
      | none =>
        simp only [Server.Level.put, LevelDB.set]
        simp only [Client.parseSet_write cx {} rfl (.ok ()) (by simp)]
        simp [seenWrite, wrote]
  | delete k =>
    simp only [performL, Client.Level.delete, Server.Level.cmdDelete, Spec.Level.serve]
    rw [Client.keyReq_back0 k hc]
    cases fail with
    | some e =>
      simp only [Server.Level.remove]
      simp only [Client.parseStatus_write cx {} rfl (.err _) (by simp)]
      simp [seenWrite, wrote]
    | none =>
      simp only [Server.Level.remove, LevelDB.delete]
      simp only [Client.parseStatus_write cx {} rfl (.ok ()) (by simp)]
      simp [seenWrite, wrote]
  | get k =>
    simp only [performL, Client.Level.get, Server.Level.cmdGet, Spec.Level.serve]
    rw [Client.keyReq_back0 k hc]
    simp only
    have hr : Server.Level.read db k = match db.get k with
        | some v => .ok ⟨v, 0, 0⟩
        | none => .err .keyNotFound := by
      unfold Server.Level.read LevelDB.get
      cases db.get k <;> rfl
    rw [(Client.parseGet_resp cx {} (by decide) _ (by rw [hr]; split <;> simp) ?_).1, hr]
    · cases db.get k <;> rfl
    · intro v hv
      rw [hr] at hv
      cases hg : db.get k with
      | none => rw [hg] at hv; cases hv
      | some w => rw [hg] at hv; cases hv; exact (hd _ ((OMap.get_eq_some_iff _ _ _).mp hg)).2
  | «exists» k =>
    simp only [performL, Client.Level.exists', Server.Level.cmdExists, Spec.Level.serve]
    rw [Client.keyReq_back0 k hc]
    simp only [LevelDB.exists']
    rw [Client.parseExists_resp cx {} _ (by simp)]
    rfl
  | scan o limit =>
    simp only [performL, Spec.Level.serve]
    rw [levelScan_eq cx db o limit hd hc.1 hc.2]
    by_cases h1 : limit ≤ 0
    · rw [if_pos h1, if_pos h1]; rfl
    · rw [if_neg h1, if_neg h1]
      by_cases h2 : o.reverse = true
      · rw [if_pos h2, if_pos h2]; rfl
      · rw [if_neg h2, if_neg h2]; rfl

theorem smallL_set {db : LDB} (hd : SmallL db) {k v : Bytes} (hk : k.length < 2 ^ 32) (hv : v.length < 2 ^ 32) :
    SmallL (db.set k v) := by
  intro e he
  have : (db.set k v).get e.1 = some e.2 := OMap.mem_get he
  rw [OMap.get_set] at this
  split at this
  · rename_i h
    injection this with this
    rw [← h, ← this]; exact ⟨hk, hv⟩
  · exact hd e ((OMap.get_eq_some_iff _ _ _).mp this)

theorem smallL_del {db : LDB} (hd : SmallL db) (k : Bytes) : SmallL (db.del k) := by
  intro e he
  have : (db.del k).get e.1 = some e.2 := OMap.mem_get he
  rw [OMap.get_del] at this
  split at this
  · cases this
  · exact hd e ((OMap.get_eq_some_iff _ _ _).mp this)

theorem smallL_serve {acc : Bool} {db : LDB} (hd : SmallL db) {c : Call} (hc : Fits c) :
    SmallL (Spec.Level.serve acc db c).2 := by
  cases c with
  | set k v vm =>
    simp only [Spec.Level.serve]
    split
    · exact smallL_set hd hc.1 hc.2
    · exact hd
  | delete k =>
    simp only [Spec.Level.serve]
    split
    · exact smallL_del hd k
    · exact hd
  | get k => simp only [Spec.Level.serve]; split <;> exact hd
  | «exists» k => exact hd
  | scan o l =>
    simp only [Spec.Level.serve]
    split
    · exact hd
    · split <;> exact hd

/-- Answers of a sequence of calls to a server on LevelDB, and the final contents. -/
def sequenceL {C : Type} (step : C → LDB → Call → Answer × LDB) : LDB → List (C × Call) → List Answer × LDB
  | db, [] => ([], db)
  | db, (x, c) :: r =>
    ((step x db c).1 :: (sequenceL step (step x db c).2 r).1, (sequenceL step (step x db c).2 r).2)

/-- Any sequence of calls, issued by any number of clients to a server on LevelDB, is answered as by one shared
ordered map (Spec/ServerLevel) to which the calls are applied one after the other. -/
theorem C87_history (db : LDB) (hd : SmallL db) (calls : List ((Ctx × Option Err) × Call))
    (hc : ∀ c ∈ calls, Fits c.2) :
    sequenceL (fun x => performL x.1 x.2) db calls =
      sequenceL (fun x => Spec.Level.serve x.2.isNone) db calls := by
  induction calls generalizing db with
  | nil => rfl
  | cons c calls ih =>
    obtain ⟨x, c⟩ := c
    have h1 := hc (x, c) (by simp)
    simp only [sequenceL]
    rw [performL_eq x.1 x.2 db c hd h1, ih _ (smallL_serve hd h1) (fun c' h' => hc c' (by simp [h']))]

theorem boxed_set (db : LDB) (k v : Bytes) : boxed (db.set k v) = (boxed db).set k { value := v } := by
  apply OMap.ext
  intro j
  rw [boxed_get, OMap.get_set, OMap.get_set, boxed_get]
  split <;> simp_all

theorem boxed_del (db : LDB) (k : Bytes) : boxed (db.del k) = (boxed db).del k := by
  apply OMap.ext
  intro j
  rw [boxed_get, OMap.get_del, OMap.get_del, boxed_get]
  split <;> simp_all

theorem serve_boxed (now : Int) (acc : Bool) (db : LDB) (c : Call) (hc : Common c) :
    Spec.serve now acc (boxed db) c = ((Spec.Level.serve acc db c).1, boxed (Spec.Level.serve acc db c).2) := by
  have hne : ∀ k : Bytes, storable k = true → k ≠ [] := by
    rintro _ h rfl; simp [storable] at h
  cases c with
  | set k v vm =>
    obtain ⟨rfl, hk⟩ := hc
    cases acc
    · simp [Spec.serve, Spec.Level.serve]
    · simp [Spec.serve, Spec.Level.serve, hk, boxed_set, mkVal]
  | delete k =>
    cases acc
    · simp [Spec.serve, Spec.Level.serve]
    · simp [Spec.serve, Spec.Level.serve, boxed_del, show storable k = true from hc]
  | get k =>
    simp only [Spec.serve, Spec.Level.serve, if_neg (hne k hc), boxed_get]
    cases db.get k <;> simp [Val.live]
  | «exists» k =>
    simp only [Spec.serve, Spec.Level.serve, if_neg (hne k hc), boxed_get]
    cases db.get k <;> simp [Val.live]
  | scan o limit =>
    obtain ⟨rev, p, q⟩ := o
    obtain ⟨hr, _⟩ := hc
    simp only at hr
    subst hr
    have hcov : covered now (boxed db) ⟨false, p, q⟩ =
        (fromOffset (fun _ => true) db p q).map (fun e => (e.1, ⟨e.2, 0, 0⟩)) := by
      simp only [covered, Bool.false_eq_true, if_false, fromOffset, boxed, List.filter_map]
      rfl
    simp only [Spec.serve, Spec.Level.serve, hcov, Bool.false_eq_true, if_false]
    split
    · rename_i h
      have : (min limit 1000).toNat = 0 := by omega
      rw [this]; simp
    · rw [← List.map_take]

theorem smallL_boxed {db : LDB} (hd : SmallL db) : Small (boxed db) := by
  intro e he
  simp only [boxed, List.mem_map] at he
  obtain ⟨x, hx, rfl⟩ := he
  exact hd x hx

/-- Clients that use neither expiry nor tags, nor keys Badger does not store, nor scans in reverse or from below the prefix,
cannot tell a server on LevelDB from one on Badger: they get the same answers to every sequence of calls, and in
the end the same is stored. -/
theorem C87_as_badger (db : LDB) (hd : SmallL db) (calls : List ((Ctx × Option Err) × Call))
    (hc : ∀ c ∈ calls, Fits c.2 ∧ Common c.2) (hb : ∀ c ∈ calls, c.1.1.env.tooBig 0 = false) :
    (sequenceL (fun x => performL x.1 x.2) db calls).1 = (sequence (fun x => perform x.1 x.2) (boxed db) calls).1 ∧
    boxed (sequenceL (fun x => performL x.1 x.2) db calls).2 =
      (sequence (fun x => perform x.1 x.2) (boxed db) calls).2 := by
  induction calls generalizing db with
  | nil => exact ⟨rfl, rfl⟩
  | cons c calls ih =>
    obtain ⟨x, c⟩ := c
    obtain ⟨hf, hk⟩ := hc (x, c) (by simp)
    have hs : c.Small := by
      cases c with
      | set k v vm => exact hf
      | delete k => exact hf
      | get k => exact hf
      | «exists» k => exact hf
      | scan o l => exact ⟨hf.1, hf.2, by unfold PlainScan; rw [hk.1]; simpa using hk.2⟩
    have ha : accepts x.1 x.2 = x.2.isNone := by
      have := hb (x, c) (by simp)
      simp only at this
      simp [accepts, this]
    simp only [sequenceL, sequence]
    rw [perform_eq x.1 x.2 (boxed db) c (smallL_boxed hd) hs, performL_eq x.1 x.2 db c hd hf, ha,
      serve_boxed _ _ _ _ hk]
    obtain ⟨i1, i2⟩ := ih _ (smallL_serve (acc := x.2.isNone) hd hf) (fun c' h' => hc c' (by simp [h']))
      (fun c' h' => hb c' (by simp [h']))
    exact ⟨by rw [i1], i2⟩

/-! ### Transactions -/

/-- No request of a transaction gets an answer: it panics in the server. -/
theorem opening_panics (cx : Ctx) (cmd : Cmd) (k v : Bytes) (vm : Option VMetaReq) (o : ScanOption) (n : Int)
    (hk : k.length < 2 ^ 32) (hv : v.length < 2 ^ 32) (hp : o.pfx.length < 2 ^ 32) (hq : o.offset.length < 2 ^ 32)
    (h1 : 1 ≤ n) (h2 : n ≤ 1000) :
    Server.Level.opening cx cmd (match cmd with
      | .set => Client.setBytes k v vm
      | .scan => Client.scanBytes o n
      | _ => (Wire.KeyRequest.mk k).marshal) = .panic := by
  cases cmd with
  | set => simp only [Server.Level.opening, Client.setReq_back k v vm hk hv]
  | delete => simp only [Server.Level.opening, Client.keyReq_back0 k hk]
  | get => simp only [Server.Level.opening, Client.keyReq_back0 k hk]
  | «exists» => simp only [Server.Level.opening, Client.keyReq_back0 k hk]
  | scan => simp only [Server.Level.opening, Client.scanReq_back o n {} hp hq h1 h2]

/-- Where the client's end is after `n` requests: it has reached the server if one of them was not refused. -/
def linkAt (net : Nat → Wireless) : Nat → Client.Level.Link
  | 0 => .fresh
  | n + 1 => match linkAt net n with
    | .fresh => if net n = .refused then .fresh else .dead false
    | l => l

theorem linkAt_cases (net : Nat → Wireless) (n : Nat) : linkAt net n = .fresh ∨ linkAt net n = .dead false := by
  induction n with
  | zero => exact .inl rfl
  | succ n ih =>
    unfold linkAt
    rcases ih with h | h <;> rw [h]
    · simp only; split
      · exact .inl rfl
      · exact .inr rfl
    · exact .inr rfl

theorem linkAt_fresh (net : Nat → Wireless) (n : Nat) : linkAt net n = .fresh ↔ ∀ i < n, net i = .refused := by
  induction n with
  | zero => simp [linkAt]
  | succ n ih =>
    unfold linkAt
    rcases linkAt_cases net n with h | h
    · rw [h]
      have hall := ih.mp h
      simp only
      constructor
      · intro hx i hi
        split at hx
        · rename_i hn
          by_cases hin : i = n
          · rw [hin]; exact hn
          · exact hall i (by omega)
        · cases hx
      · intro hx; rw [if_pos (hx n (by omega))]
    · rw [h]
      simp only [reduceCtorEq, false_iff]
      intro hx
      rw [h] at ih
      exact (nomatch ih.mpr (fun i hi => hx i (by omega)))

theorem request_deaf (cx : Ctx) (net : Nat → Wireless) (n : Nat) (cmd : Cmd) (p : Bytes)
    (hp : Server.Level.opening cx cmd p = .panic) :
    Client.Level.request cx (net n) (linkAt net n) cmd p = (.err .net, linkAt net (n + 1)) := by
  conv => rhs; unfold linkAt
  rcases linkAt_cases net n with h | h
  · rw [h]
    cases hn : net n <;> simp [Client.Level.request, hp]
  · rw [h]
    simp [Client.Level.request]

/-- Every request of a body fails, whatever the connection does. -/
theorem run_deaf {α : Type} (cx : Ctx) (net : Nat → Wireless) (upd : Bool) (f : CProg α) (hf : Sized f) :
    ∀ n, Client.Level.run cx net upd f n (linkAt net n) =
      ((deaf upd f).1, n + (deaf upd f).2, linkAt net (n + (deaf upd f).2)) := by
  have z : ({} : ScanOption).pfx.length < 2 ^ 32 := by decide
  have z' : ({} : ScanOption).offset.length < 2 ^ 32 := by decide
  have zk : ([] : Bytes).length < 2 ^ 32 := by decide
  induction f with
  | done r => intro n; rfl
  | get k c ih =>
    intro n
    simp only [Client.Level.run,
      request_deaf cx net n .get _ (opening_panics cx .get k [] none {} 1 hf.1 zk z z' (by omega) (by omega))]
    simp only [bind, Res.bind, Client.Level.resume, deaf]
    rw [ih _ (hf.2 _)]; simp only [Nat.add_assoc, Nat.add_comm 1]
  | «exists» k c ih =>
    intro n
    simp only [Client.Level.run,
      request_deaf cx net n .exists _ (opening_panics cx .exists k [] none {} 1 hf.1 zk z z' (by omega) (by omega))]
    simp only [bind, Res.bind, Client.Level.resume, deaf]
    rw [ih _ (hf.2 _)]; simp only [Nat.add_assoc, Nat.add_comm 1]
  | set k v vm c ih =>
    intro n
    cases upd with
    | false => simp only [Client.Level.run, deaf]; exact ih _ (hf.2.2 _) n
    | true =>
      simp only [Client.Level.run, Bool.not_true, Bool.false_eq_true, if_false,
        request_deaf cx net n .set _ (opening_panics cx .set k v vm {} 1 hf.1 hf.2.1 z z' (by omega) (by omega))]
      simp only [bind, Res.bind, Client.Level.resume, deaf]
      simp only [if_true]; rw [ih _ (hf.2.2 _)]; simp only [Nat.add_assoc, Nat.add_comm 1]
  | del k c ih =>
    intro n
    cases upd with
    | false => simp only [Client.Level.run, deaf]; exact ih _ (hf.2 _) n
    | true =>
      simp only [Client.Level.run, Bool.not_true, Bool.false_eq_true, if_false,
        request_deaf cx net n .delete _ (opening_panics cx .delete k [] none {} 1 hf.1 zk z z' (by omega) (by omega))]
      simp only [bind, Res.bind, Client.Level.resume, deaf]
      simp only [if_true]; rw [ih _ (hf.2 _)]; simp only [Nat.add_assoc, Nat.add_comm 1]
  | scan o lim c ih =>
    intro n
    by_cases h : lim ≤ 0
    · simp only [Client.Level.run, deaf, if_pos h]; exact ih _ (hf.2.2 _) n
    · simp only [Client.Level.run, if_neg h,
        request_deaf cx net n .scan _ (opening_panics cx .scan [] [] none o (if lim > 1000 then 1000 else lim) zk zk hf.1
          hf.2.1 (by split <;> omega) (by split <;> omega))]
      simp only [bind, Res.bind, Client.Level.resume, deaf, if_neg h]
      rw [ih _ (hf.2.2 _)]; simp only [Nat.add_assoc, Nat.add_comm 1]

/-- A transaction on a server on LevelDB: every request in it fails, whatever the connection does.  Update succeeds
only with a body that makes no request, or if none could be sent; View gives what the body gives.  Nothing is
written. -/
theorem C87_transactions {α : Type} (cx : Ctx) (net : Nat → Wireless) (f : CProg α) (hf : Sized f) (db : LDB) :
    Client.Level.update cx net f db =
      (match deaf true f with
        | (.ok a, n) => if (∀ i < n, net i = .refused) then .ok a else .err .net
        | (r, _) => r, db) ∧
    Client.Level.view cx net f db = ((deaf false f).1, db) := by
  constructor
  · unfold Client.Level.update
    have hr := run_deaf cx net true f hf 0
    simp only [linkAt, Nat.zero_add] at hr
    rw [hr]
    cases hd : deaf true f with
    | mk r n =>
      cases r with
      | ok a =>
        simp only
        rcases linkAt_cases net n with h | h
        · rw [h]
          simp only [Client.Level.commit]
          rw [if_pos ((linkAt_fresh net n).mp h)]
        · rw [h]
          have hn : ¬ ∀ i < n, net i = .refused := fun hx => by rw [(linkAt_fresh net n).mpr hx] at h; cases h
          simp only [Client.Level.commit, or_true, if_true]
          rw [if_neg hn]
      | err e => rfl
      | panic => rfl
  · unfold Client.Level.view
    have hr := run_deaf cx net false f hf 0
    simp only [linkAt, Nat.zero_add] at hr
    rw [hr]

/-- In particular Update never commits what its body wrote: a body that writes and reports what Set answered fails. -/
theorem C87_update_fails (cx : Ctx) (net : Nat → Wireless) (k v : Bytes) (vm : Option VMetaReq)
    (hk : k.length < 2 ^ 32) (hv : v.length < 2 ^ 32) (db : LDB) :
    Client.Level.update cx net (.set k v vm .done) db = (.err .net, db) := by
  have h := (C87_transactions cx net (.set k v vm .done) ⟨hk, hv, fun _ => trivial⟩ db).1
  simpa [deaf] using h

/-- Where Badger's transactions work LevelDB's do not: one Set in an Update on a working connection. -/
theorem C87_transactions_differ : ∃ (cx : Ctx) (f : CProg Unit) (db : LDB), Sized f ∧
    (Client.update cx (fun _ => .good) none f (boxed db) (boxed db)).1 = .ok () ∧
    (Client.Level.update cx (fun _ => .good) f db).1 = .err .net := by
  refine ⟨calmCtx, .set [1] [2] none .done, OMap.empty, ⟨by decide, by decide, fun _ => trivial⟩, ?_, ?_⟩
  · decide +kernel
  · rw [C87_update_fails _ _ _ _ _ (by decide) (by decide)]

/-! ### Malformed requests -/

/-- A request of its own (not part of a transaction), whatever its payload: what a server on LevelDB sends back, and the
contents afterwards. -/
def singleL (cx : Ctx) (fail : Option Err) (db : LDB) (cmd : Cmd) (payload : Bytes) : Res (Bytes × LDB) :=
  match cmd with
  | .set => Server.Level.cmdSet cx fail db payload
  | .delete => Server.Level.cmdDelete cx fail db payload
  | .get => (Server.Level.cmdGet cx db payload).map' (fun d => (d, db))
  | .exists => (Server.Level.cmdExists cx db payload).map' (fun d => (d, db))
  | .scan => (Server.Level.cmdScan cx db payload).map' (fun d => (d, db))

/-- A payload that is not a request of its kind is answered with the invalid-request code and the text of the error, and
changes nothing; as the first frame of a transaction too, which is then not opened. -/
theorem C87_malformed (cx : Ctx) (fail : Option Err) (db : LDB) (cmd : Cmd) (payload : Bytes) (e : Err)
    (h : malformed cmd payload e) :
    (∃ d, singleL cx fail db cmd payload = .ok (d, db) ∧ parseErr cmd d = some (.rpc 1 (cx.txt e))) ∧
    (∃ d, Server.Level.opening cx cmd payload = .ok d ∧ parseErr cmd d = some (.rpc 1 (cx.txt e))) := by
  cases cmd <;> simp only [malformed] at h
  · exact ⟨⟨_, by simp only [singleL, Server.Level.cmdSet, h]; rfl, by simp only [parseErr, invalid_answer]⟩,
      ⟨_, by simp only [Server.Level.opening, h]; rfl, by simp only [parseErr, invalid_answer]⟩⟩
  · exact ⟨⟨_, by simp only [singleL, Server.Level.cmdExists, h, Res.map']; rfl, by simp only [parseErr, exists_invalid]⟩,
      ⟨_, by simp only [Server.Level.opening, h]; rfl, by simp only [parseErr, exists_invalid]⟩⟩
  · exact ⟨⟨_, by simp only [singleL, Server.Level.cmdGet, h, Res.map']; rfl, by simp only [parseErr, get_invalid]⟩,
      ⟨_, by simp only [Server.Level.opening, h]; rfl, by simp only [parseErr, get_invalid]⟩⟩
  · exact ⟨⟨_, by simp only [singleL, Server.Level.cmdDelete, h]; rfl, by simp only [parseErr, status_invalid]⟩,
      ⟨_, by simp only [Server.Level.opening, h]; rfl, by simp only [parseErr, status_invalid]⟩⟩
  · exact ⟨⟨_, by simp only [singleL, Server.Level.cmdScan, h, Res.map']; rfl, by simp only [parseErr, scan_invalid]⟩,
      ⟨_, by simp only [Server.Level.opening, h]; rfl, by simp only [parseErr, scan_invalid]⟩⟩

/-! ### Concrete cases -/

/-- A history that exercises every call; the empty key is a key like any other. -/
example :
    let calls : List ((Ctx × Option Err) × Call) :=
      [((calmCtx, none), .set [1] [2, 3] none), ((calmCtx, none), .get [1]), ((calmCtx, none), .get [2]),
       ((calmCtx, none), .set [] [7] none), ((calmCtx, none), .get []), ((calmCtx, none), .exists [1]),
       ((calmCtx, none), .set [1] [4] (some ⟨0, 1⟩)), ((calmCtx, none), .scan { pfx := [1] } 5000),
       ((calmCtx, none), .scan { reverse := true } 10), ((calmCtx, some .io), .delete [1]),
       ((calmCtx, none), .delete [1]), ((calmCtx, none), .get [1])]
    (∀ c ∈ calls, Fits c.2) ∧
    (sequenceL (fun x => performL x.1 x.2) OMap.empty calls).1 =
      [.done, .value ⟨[2, 3], 0, 0⟩, .missing, .done, .value ⟨[7], 0, 0⟩, .found true, .failed,
       .entries [([1], ⟨[2, 3], 0, 0⟩)], .failed, .failed, .done, .missing] := by
  intro calls
  have hc : ∀ c ∈ calls, Fits c.2 := by
    intro c hc
    simp only [calls, List.mem_cons, List.not_mem_nil, or_false] at hc
    rcases hc with rfl | rfl | rfl | rfl | rfl | rfl | rfl | rfl | rfl | rfl | rfl | rfl <;> simp [Fits]
  refine ⟨hc, ?_⟩
  rw [C87_history _ (by intro e he; simp [OMap.empty] at he) _ hc]
  decide

/-- One that Badger answers in the same way. -/
example :
    let calls : List ((Ctx × Option Err) × Call) :=
      [((calmCtx, none), .set [1] [2, 3] none), ((calmCtx, none), .scan { pfx := [1] } 5000),
       ((calmCtx, some .io), .delete [1]), ((calmCtx, none), .get [1]), ((calmCtx, none), .exists [2])]
    (∀ c ∈ calls, Fits c.2 ∧ Common c.2) ∧ (∀ c ∈ calls, c.1.1.env.tooBig 0 = false) := by
  intro calls
  constructor
  · intro c hc
    simp only [calls, List.mem_cons, List.not_mem_nil, or_false] at hc
    rcases hc with rfl | rfl | rfl | rfl | rfl <;> refine ⟨by simp [Fits], ?_⟩ <;>
      first | exact ⟨rfl, by decide⟩ | exact ⟨rfl, .inl rfl⟩ | (show storable _ = true; decide)
  · intro c hc
    simp only [calls, List.mem_cons, List.not_mem_nil, or_false] at hc
    rcases hc with rfl | rfl | rfl | rfl | rfl <;> rfl

/-- An Update whose body swallows the errors succeeds if no request could be sent, and not otherwise. -/
example :
    let f : CProg Nat := .get [1] (fun _ => .set [2] [3] none (fun _ => .done (.ok 5)))
    Sized f ∧ deaf true f = (.ok 5, 2) ∧
    (Client.Level.update calmCtx (fun _ => .refused) f OMap.empty).1 = .ok 5 ∧
    (Client.Level.update calmCtx (fun n => if n = 0 then .refused else .good) f OMap.empty).1 = .err .net := by
  intro f
  have hf : Sized f := ⟨by decide, fun _ => ⟨by decide, by decide, fun _ => trivial⟩⟩
  have hd : deaf true f = (.ok 5, 2) := rfl
  refine ⟨hf, hd, ?_, ?_⟩
  · rw [(C87_transactions calmCtx _ f hf _).1, hd]; simp
  · rw [(C87_transactions calmCtx _ f hf _).1, hd]
    have : ¬ ∀ i < 2, (if i = 0 then Wireless.refused else Wireless.good) = .refused := by
      intro h; exact absurd (h 1 (by decide)) (by decide)
    simp only [if_neg this]

end Mondis.Props
