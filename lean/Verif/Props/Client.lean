import Verif.Lemmas.Client
import Verif.Lemmas.Store
import Verif.Props.Store
/-!
# C14, C16, C17, C18 through client and server: operations outside transactions
-/
namespace Mondis.Props
open Mondis Spec Server Store Scan
open Mondis.Client (collect_eq parseScan_ok pbEntry)

/-- The outcome of a write as an answer. -/
def wrote : Res Unit → Answer
  | .ok _ => .done
  | _ => .failed

/-- The outcome of a read as an answer. -/
def readBack : Res Val → Answer
  | .ok v => .value v
  | .err .keyNotFound => .missing
  | _ => .failed

/-- The outcome of Exists as an answer. -/
def foundBack : Res Bool → Answer
  | .ok b => .found b
  | _ => .failed

/-- The outcome of Scan as an answer. -/
def listed : Res (List (Bytes × Val)) → Answer
  | .ok l => .entries l
  | _ => .failed

/-- A client's call, through client, wire, server and provider. -/
def perform (cx : Ctx) (fail : Option Err) (db : DB) : Call → Answer × DB
  | .set k v vm => let (r, db) := Client.set cx fail db k v vm; (wrote r, db)
  | .delete k => let (r, db) := Client.delete cx fail db k; (wrote r, db)
  | .get k => (readBack (Client.get cx db k), db)
  | .exists k => (foundBack (Client.exists' cx db k), db)
  | .scan o limit => (listed (Client.scan cx db o limit), db)

theorem storable_iff (k : Bytes) : storable k = true ↔ keyErr k = none := by
  unfold storable keyErr
  rw [hasPrefix_eq]
  cases k with
  | nil => simp
  | cons a k =>
    simp only [List.length_cons, Nat.add_eq_zero_iff, Nat.one_ne_zero, and_false, if_false]
    by_cases h : badgerPrefix.isPrefixOf (a :: k) = true
    · simp [h]
    · by_cases h2 : 65000 < k.length + 1
      · simp [h]
      · simp [h]

/-- Does the storage accept a write? -/
def accepts (cx : Ctx) (fail : Option Err) : Bool := !cx.env.tooBig 0 && fail.isNone

theorem badger_set_eq (env : Env) (fail : Option Err) (db : DB) (k v : Bytes) (vm : Option VMetaReq) :
    ((!env.tooBig 0 && fail.isNone && storable k) = true →
      Badger.set env fail db k v vm = (.ok (), db.set k (mkVal env.now v vm))) ∧
    ((!env.tooBig 0 && fail.isNone && storable k) = false →
      ∃ e, Badger.set env fail db k v vm = (.err e, db)) := by
  unfold Badger.set Txn.set Txn.modify Txn.start
  simp only [Bool.not_true, if_false]
  have hs := storable_iff k
  cases hk : keyErr k with
  | some e =>
    rw [hk] at hs
    have : storable k = false := by simpa using hs
    simp [this]
  | none =>
    rw [hk] at hs
    have : storable k = true := by simpa using hs
    simp only [this, Bool.and_true]
    cases hb : env.tooBig 0 with
    | true => simp
    | false => cases fail <;> simp [Txn.commit, applyWrites, applyWrite]

theorem badger_delete_eq (env : Env) (fail : Option Err) (db : DB) (k : Bytes) :
    ((!env.tooBig 0 && fail.isNone && storable k) = true →
      Badger.delete env fail db k = (.ok (), db.del k)) ∧
    ((!env.tooBig 0 && fail.isNone && storable k) = false →
      ∃ e, Badger.delete env fail db k = (.err e, db)) := by
  unfold Badger.delete Txn.delete Txn.modify Txn.start
  simp only [Bool.not_true, if_false]
  have hs := storable_iff k
  cases hk : keyErr k with
  | some e =>
    rw [hk] at hs
    have : storable k = false := by simpa using hs
    simp [this]
  | none =>
    rw [hk] at hs
    have : storable k = true := by simpa using hs
    simp only [this, Bool.and_true]
    cases hb : env.tooBig 0 with
    | true => simp
    | false => cases fail <;> simp [Txn.commit, applyWrites, applyWrite]

theorem badger_get_eq (env : Env) (db : DB) (k : Bytes) :
    Badger.get env db k = if k = [] then .err .emptyKey else match db.get k with
      | some v => if v.live env.now then .ok v else .err .keyNotFound
      | none => .err .keyNotFound := by
  unfold Badger.get Txn.get Txn.start
  by_cases hk : k = []
  · simp [hk]
  · simp only [if_neg hk]
    cases db.get k with
    | none => rfl
    | some v => simp only; split <;> rfl

theorem badger_exists_eq (env : Env) (db : DB) (k : Bytes) :
    Badger.exists' env db k = if k = [] then .err .emptyKey else match db.get k with
      | some v => .ok (v.live env.now)
      | none => .ok false := by
  have h := badger_get_eq env db k
  unfold Badger.get at h
  unfold Badger.exists' Txn.exists'
  cases hg : (Txn.start { env with update := false } db).get k with
  | mk r t =>
    rw [hg] at h
    simp only at h
    subst h
    by_cases hk : k = []
    · simp [hk]
    · simp only [if_neg hk]
      cases db.get k with
      | none => rfl
      | some v =>
        by_cases hl : v.live env.now = true
        · simp [hl]
        · simp only [Bool.not_eq_true] at hl
          simp [hl]

theorem badger_scan_eq (env : Env) (db : DB) (o : ScanOption) (h : PlainScan o) :
    Badger.scan env db o = covered env.now db o := by
  obtain ⟨r, p, q⟩ := o
  unfold PlainScan at h
  unfold covered
  cases r with
  | false => simp only [Bool.false_eq_true, if_false] at h ⊢; exact C16_scan_forward env db p q h
  | true =>
    simp only [if_true] at h ⊢
    rcases h with ⟨h1, h2⟩ | ⟨h1, h2⟩
    · rw [if_neg h1]; exact C18_scan_reverse env db p q h1 h2
    · subst h1; subst h2; exact C18_scan_reverse_all env db

theorem covered_subset (now : Int) (m : DB) (o : ScanOption) : ∀ e ∈ covered now m o, e ∈ m.ents := by
  intro e he
  unfold covered at he
  split at he
  · split at he
    · simp only [List.mem_reverse, List.mem_filter] at he; exact he.1
    · simp only [downFrom, List.mem_reverse, List.mem_filter] at he; exact he.1
  · simp only [fromOffset, List.mem_filter] at he; exact he.1

/-- Client.Scan delivers the first min(limit, 1000) entries of the range, in order. -/
theorem C16_client_scan (cx : Ctx) (db : DB) (o : ScanOption) (limit : Int) (hd : Small db)
    (hp : o.pfx.length < 2 ^ 32) (hq : o.offset.length < 2 ^ 32) (ho : PlainScan o) :
    Client.scan cx db o limit = .ok ((covered cx.env.now db o).take (min limit 1000).toNat) := by
  unfold Client.scan
  split
  · rename_i h
    have : (min limit 1000).toNat = 0 := by omega
    rw [this]; simp
  · rename_i h
    simp only
    have hlim : (if limit > 1000 then (1000 : Int) else limit) = min limit 1000 := by split <;> omega
    rw [hlim]
    have h1 : 1 ≤ min limit 1000 := by omega
    have h2 : min limit 1000 ≤ 1000 := by omega
    generalize hn : min limit 1000 = n at h1 h2
    unfold Server.cmdScan
    rw [Client.scanReq_back o n {} hp hq h1 h2]
    have hpso : (((none : Option Wire.PSO).getD {}).merge ⟨o.reverse, o.pfx, o.offset⟩) =
        ⟨o.reverse, o.pfx, o.offset⟩ := by simp [Wire.PSO.merge, Client.keep_nil]
    have hn' : (Int32.ofInt n).toInt = n := by
      rw [Int32.toInt_ofInt]
      exact Int.bmod_eq_of_le (by simp [Int32.size]; omega) (by simp [Int32.size]; omega)
    simp only [hpso, respScan, hn']
    rw [if_neg (by omega), if_neg (by omega)]
    simp only [Res.ok_bind]
    rw [collect_eq, List.nil_append]
    have hm : max 1 (n - (([] : List Wire.Entry).length : Int)).toNat = n.toNat := by simp; omega
    rw [hm]
    have hsc : Badger.scan cx.env db ⟨o.reverse, o.pfx, o.offset⟩ = covered cx.env.now db o :=
      badger_scan_eq cx.env db o ho
    rw [hsc]
    apply parseScan_ok
    apply Client.scan_small
    · simp
    · simp only [List.length_map, List.length_take]; omega
    · intro e he
      simp only [List.mem_map] at he
      obtain ⟨x, hx, rfl⟩ := he
      exact hd x (covered_subset _ _ _ x (List.mem_of_mem_take hx))

/-- One call through the whole stack answers and acts as on one map. -/
theorem perform_eq (cx : Ctx) (fail : Option Err) (db : DB) (c : Call) (hd : Small db) (hc : c.Small) :
    perform cx fail db c = serve cx.env.now (accepts cx fail) db c := by
  cases c with
  | set k v vm =>
    obtain ⟨hk, hv⟩ := hc
    simp only [perform, Client.set, Server.cmdSet, serve]
    rw [Client.setReq_back k v vm hk hv]
    simp only [Client.metaOf_back]
    obtain ⟨h1, h2⟩ := badger_set_eq cx.env fail db k v vm
    by_cases h : (accepts cx fail && storable k) = true
    · rw [h1 h, if_pos h]
      simp only [Client.parseSet_write cx {} rfl (.ok ()) (by simp)]
      rfl
    · obtain ⟨e, he⟩ := h2 (by simpa [accepts] using h)
      rw [he, if_neg h]
      simp only [Client.parseSet_write cx {} rfl (.err e) (by simp)]
      rfl
  | delete k =>
    simp only [perform, Client.delete, Server.cmdDelete, serve]
    rw [Client.keyReq_back0 k hc]
    simp only
    obtain ⟨h1, h2⟩ := badger_delete_eq cx.env fail db k
    by_cases h : (accepts cx fail && storable k) = true
    · rw [h1 h, if_pos h]
      simp only [Client.parseStatus_write cx {} rfl (.ok ()) (by simp)]
      rfl
    · obtain ⟨e, he⟩ := h2 (by simpa [accepts] using h)
      rw [he, if_neg h]
      simp only [Client.parseStatus_write cx {} rfl (.err e) (by simp)]
      rfl
  | get k =>
    simp only [perform, Client.get, Server.cmdGet, serve]
    rw [Client.keyReq_back0 k hc]
    simp only
    have hv : ∀ v, Badger.get cx.env db k = .ok v → v.value.length < 2 ^ 32 := by
      intro v hv
      rw [badger_get_eq] at hv
      split at hv
      · cases hv
      · split at hv
        · rename_i v' hg
          split at hv
          · injection hv with hv; subst hv; exact (hd _ ((OMap.get_eq_some_iff _ _ _).mp hg)).2
          · cases hv
        · cases hv
    have hnp : Badger.get cx.env db k ≠ .panic := by
      rw [badger_get_eq]; split
      · simp
      · split
        · split <;> simp
        · simp
    rw [(Client.parseGet_resp cx {} (by decide) _ hnp hv).1, badger_get_eq]
    by_cases hk : k = []
    · simp [hk, seenGet, readBack]
    · simp only [if_neg hk]
      cases db.get k with
      | none => rfl
      | some v => simp only; split <;> rfl
  | «exists» k =>
    simp only [perform, Client.exists', Server.cmdExists, serve]
    rw [Client.keyReq_back0 k hc]
    simp only
    have hnp : Badger.exists' cx.env db k ≠ .panic := by
      rw [badger_exists_eq]; split
      · simp
      · split <;> simp
    rw [Client.parseExists_resp cx {} _ hnp, badger_exists_eq]
    by_cases hk : k = []
    · simp [hk, seenExists, foundBack]
    · simp only [if_neg hk]
      cases db.get k with
      | none => rfl
      | some v => rfl
  | scan o limit =>
    obtain ⟨h1, h2, h3⟩ := hc
    simp only [perform, serve]
    rw [C16_client_scan cx db o limit hd h1 h2 h3]
    rfl

theorem small_set {db : DB} (hd : Small db) {k : Bytes} {v : Val} (hk : k.length < 2 ^ 32)
    (hv : v.value.length < 2 ^ 32) : Small (db.set k v) := by
  intro e he
  have : (db.set k v).get e.1 = some e.2 := OMap.mem_get he
  rw [OMap.get_set] at this
  split at this
  · rename_i h
    injection this with this
    rw [← h, ← this]; exact ⟨hk, hv⟩
  · exact hd e ((OMap.get_eq_some_iff _ _ _).mp this)

theorem small_del {db : DB} (hd : Small db) (k : Bytes) : Small (db.del k) := by
  intro e he
  have : (db.del k).get e.1 = some e.2 := OMap.mem_get he
  rw [OMap.get_del] at this
  split at this
  · cases this
  · exact hd e ((OMap.get_eq_some_iff _ _ _).mp this)

theorem mkVal_value (now : Int) (v : Bytes) (vm : Option VMetaReq) : (mkVal now v vm).value = v := by
  unfold mkVal; split <;> rfl

theorem small_serve {now : Int} {acc : Bool} {db : DB} (hd : Small db) {c : Call} (hc : c.Small) :
    Small (serve now acc db c).2 := by
  cases c with
  | set k v vm =>
    simp only [serve]
    split
    · exact small_set hd hc.1 (by rw [mkVal_value]; exact hc.2)
    · exact hd
  | delete k =>
    simp only [serve]
    split
    · exact small_del hd k
    · exact hd
  | get k =>
    simp only [serve]
    split
    · exact hd
    · split <;> exact hd
  | «exists» k =>
    simp only [serve]
    split
    · exact hd
    · split <;> exact hd
  | scan o l => exact hd

/-- Answers of a sequence of calls, and the final contents. -/
def sequence {C : Type} (step : C → DB → Call → Answer × DB) : DB → List (C × Call) → List Answer × DB
  | db, [] => ([], db)
  | db, (x, c) :: r =>
    let (a, db) := step x db c
    let (as, db) := sequence step db r
    (a :: as, db)

/-- Any sequence of calls, issued by any number of clients under any circumstances, is answered as by
one shared ordered map to which the calls are applied one after the other. -/
theorem C14_history (db : DB) (hd : Small db) (calls : List ((Ctx × Option Err) × Call))
    (hc : ∀ c ∈ calls, c.2.Small) :
    sequence (fun x => perform x.1 x.2) db calls =
      sequence (fun x => serve x.1.env.now (accepts x.1 x.2)) db calls := by
  induction calls generalizing db with
  | nil => rfl
  | cons c calls ih =>
    obtain ⟨x, c⟩ := c
    have h1 := hc (x, c) (by simp)
    simp only [sequence]
    rw [perform_eq x.1 x.2 db c hd h1]
    rw [ih _ (small_serve hd h1) (fun c' h' => hc c' (by simp [h']))]

/-- In particular: after a successful Set, and until the next successful write to that key, Get returns
the value with its tag (while it has not expired), and Exists agrees. -/
theorem C14_get_after_set (cx : Ctx) (fail : Option Err) (db : DB) (hd : Small db) (k v : Bytes)
    (vm : Option VMetaReq) (hk : k.length < 2 ^ 32) (hv : v.length < 2 ^ 32)
    (hok : (Client.set cx fail db k v vm).1 = .ok ())
    (later : List ((Ctx × Option Err) × Call)) (hc : ∀ c ∈ later, c.2.Small)
    (hother : ∀ c ∈ later, (∀ v' vm', c.2 ≠ .set k v' vm') ∧ c.2 ≠ .delete k) (cx' : Ctx)
    (hlive : (mkVal cx.env.now v vm).live cx'.env.now = true) :
    let db' := (sequence (fun x => perform x.1 x.2) (Client.set cx fail db k v vm).2 later).2
    Client.get cx' db' k = .ok (mkVal cx.env.now v vm) ∧ Client.exists' cx' db' k = .ok true := by
  have hp := perform_eq cx fail db (.set k v vm) hd ⟨hk, hv⟩
  have hs : (Client.set cx fail db k v vm).2 = db.set k (mkVal cx.env.now v vm) ∧ k ≠ [] := by
    simp only [perform, hok, wrote, serve] at hp
    split at hp
    · rename_i h
      have h2 := congrArg Prod.snd hp
      refine ⟨h2, ?_⟩
      rintro rfl
      simp [storable] at h
    · have h1 := congrArg Prod.fst hp
      cases h1
  obtain ⟨hs, hne⟩ := hs
  rw [hs]
  have hd' : Small (db.set k (mkVal cx.env.now v vm)) := small_set hd hk (by rw [mkVal_value]; exact hv)
  have hkey : ∀ (l : List ((Ctx × Option Err) × Call)) (m : DB), Small m → m.get k = some (mkVal cx.env.now v vm) →
      (∀ c ∈ l, c.2.Small) → (∀ c ∈ l, (∀ v' vm', c.2 ≠ .set k v' vm') ∧ c.2 ≠ .delete k) →
      Small (sequence (fun x => perform x.1 x.2) m l).2 ∧
      (sequence (fun x => perform x.1 x.2) m l).2.get k = some (mkVal cx.env.now v vm) := by
    intro l
    induction l with
    | nil => intro m hm hg _ _; exact ⟨hm, hg⟩
    | cons c l ih =>
      intro m hm hg h1 h2
      obtain ⟨x, c⟩ := c
      have hcs := h1 (x, c) (by simp)
      have hno := h2 (x, c) (by simp)
      simp only [sequence]
      rw [perform_eq x.1 x.2 m c hm hcs]
      refine ih _ (small_serve hm hcs) ?_ (fun c' h' => h1 c' (by simp [h'])) (fun c' h' => h2 c' (by simp [h']))
      cases c with
      | set k' v' vm' =>
        simp only [serve]
        split
        · simp only [OMap.get_set]
          split
          · rename_i e; subst e; exact absurd rfl (hno.1 v' vm')
          · exact hg
        · exact hg
      | delete k' =>
        simp only [serve]
        split
        · simp only [OMap.get_del]
          split
          · rename_i e; subst e; exact absurd rfl hno.2
          · exact hg
        · exact hg
      | get k' =>
        simp only [serve]
        split
        · exact hg
        · split <;> exact hg
      | «exists» k' =>
        simp only [serve]
        split
        · exact hg
        · split <;> exact hg
      | scan o n => exact hg
  obtain ⟨hsm, hg⟩ := hkey later _ hd' (by simp [OMap.get_set]) hc hother
  intro db'
  have a1 := perform_eq cx' none db' (.get k) hsm hk
  have a2 := perform_eq cx' none db' (.exists k) hsm hk
  have hg' : db'.get k = some (mkVal cx.env.now v vm) := hg
  simp only [perform, serve, if_neg hne, hg', hlive, if_true] at a1 a2
  have a1 := congrArg Prod.fst a1
  have a2 := congrArg Prod.fst a2
  simp only at a1 a2
  constructor
  · cases h : Client.get cx' db' k with
    | ok x => rw [h] at a1; simp only [readBack] at a1; injection a1 with a1; rw [a1]
    | err e => rw [h] at a1; unfold readBack at a1; split at a1 <;> simp_all
    | panic => rw [h] at a1; simp [readBack] at a1
  · cases h : Client.exists' cx' db' k with
    | ok x => rw [h] at a2; simp only [foundBack] at a2; injection a2 with a2; rw [a2]
    | err e => rw [h] at a2; simp [foundBack] at a2
    | panic => rw [h] at a2; simp [foundBack] at a2

/-- After a successful Delete the key is gone. -/
theorem C14_get_after_delete (cx cx' : Ctx) (fail : Option Err) (db : DB) (hd : Small db) (k : Bytes)
    (hk : k.length < 2 ^ 32) (hok : (Client.delete cx fail db k).1 = .ok ()) :
    Client.get cx' (Client.delete cx fail db k).2 k = .err .keyNotFound ∧
    Client.exists' cx' (Client.delete cx fail db k).2 k = .ok false := by
  have hp := perform_eq cx fail db (.delete k) hd hk
  have hs : (Client.delete cx fail db k).2 = db.del k ∧ k ≠ [] := by
    simp only [perform, hok, wrote, serve] at hp
    split at hp
    · rename_i h
      have h2 := congrArg Prod.snd hp
      refine ⟨h2, ?_⟩
      rintro rfl
      simp [storable] at h
    · have h1 := congrArg Prod.fst hp
      cases h1
  obtain ⟨hs, hne⟩ := hs
  rw [hs]
  have hd' := small_del hd k
  have a1 := congrArg Prod.fst (perform_eq cx' none (db.del k) (.get k) hd' hk)
  have a2 := congrArg Prod.fst (perform_eq cx' none (db.del k) (.exists k) hd' hk)
  simp only [perform, serve, if_neg hne, OMap.get_del, if_true] at a1 a2
  constructor
  · cases h : Client.get cx' (db.del k) k with
    | ok x => rw [h] at a1; simp [readBack] at a1
    | err e => rw [h] at a1; unfold readBack at a1; split at a1 <;> simp_all
    | panic => rw [h] at a1; simp [readBack] at a1
  · cases h : Client.exists' cx' (db.del k) k with
    | ok x => rw [h] at a2; simp only [foundBack] at a2; injection a2 with a2; rw [a2]
    | err e => rw [h] at a2; simp [foundBack] at a2
    | panic => rw [h] at a2; simp [foundBack] at a2

/-- Paging with Client.Scan: asking for pages of n (1 ≤ n ≤ 1000) entries and going on from the
successor of the last key visits every entry under the prefix once, in order. -/
theorem C17_client_paging (cx : Ctx) (db : DB) (hd : Small db) (p : Bytes) (n : Nat) (hn : 0 < n)
    (hn2 : n ≤ 1000) (hp : p.length < 2 ^ 32 - 1) (fuel : Nat)
    (hkeys : ∀ e ∈ db.ents, e.1.length < 2 ^ 32 - 1)
    (hf : (fromOffset (·.live cx.env.now) db p []).length < fuel) :
    paging (fun o => match Client.scan cx db { pfx := p, offset := o } n with
        | .ok l => l
        | _ => []) Key.next n fuel [] =
      fromOffset (·.live cx.env.now) db p [] := by
  rw [← C17_paging cx.env db p n hn [] (.inl rfl) fuel hf]
  have hpage : ∀ o : Bytes, o.length < 2 ^ 32 → (o = [] ∨ p ≤ o) →
      (match Client.scan cx db { pfx := p, offset := o } n with
        | .ok l => l
        | _ => []) = (Badger.scan cx.env db { pfx := p, offset := o }).take n := by
    intro o h1 h2
    rw [C16_client_scan cx db _ n hd (by simp only; omega) h1 (by simp only [PlainScan]; exact h2)]
    rw [badger_scan_eq _ _ _ (by simp only [PlainScan]; exact h2)]
    have : (min (n : Int) 1000).toNat = n := by omega
    rw [this]
  have key : ∀ (fuel : Nat) (o : Bytes), o.length < 2 ^ 32 → (o = [] ∨ p ≤ o) →
      paging (fun o => match Client.scan cx db { pfx := p, offset := o } n with
        | .ok l => l
        | _ => []) Key.next n fuel o =
      paging (fun o => (Badger.scan cx.env db { pfx := p, offset := o }).take n) Key.next n fuel o := by
    intro fuel
    induction fuel with
    | zero => intro o _ _; rfl
    | succ fuel ih =>
      intro o h1 h2
      simp only [paging]
      rw [hpage o h1 h2]
      split
      · rfl
      · split
        · rfl
        · rename_i e he
          have hmem : e ∈ Badger.scan cx.env db { pfx := p, offset := o } :=
            List.mem_of_mem_take (List.mem_of_getLast? he)
          rw [C16_scan_forward cx.env db p o h2] at hmem
          simp only [fromOffset, List.mem_filter, Bool.and_eq_true, List.isPrefixOf_iff_prefix] at hmem
          obtain ⟨m1, _, m2, m3⟩ := hmem
          congr 1
          apply ih
          · have := hkeys e m1
            simp only [Key.next, List.length_append, List.length_singleton]
            omega
          · right
            have h3 : Key.hasPrefix e.1 p = true := by rw [hasPrefix_eq]; exact List.isPrefixOf_iff_prefix.mpr m2
            have h4 : p ≤ e.1 := le_of_hasPrefix h3
            have h5 : e.1 ≤ Key.next e.1 :=
              le_of_hasPrefix (by rw [hasPrefix_eq]; exact List.isPrefixOf_iff_prefix.mpr (List.prefix_append _ _))
            exact List.le_trans h4 h5
  exact key fuel [] (by decide) (.inl rfl)

/-- A context with no surprises. -/
def calmCtx : Ctx where
  env := plainEnv
  txt := fun _ => []
  txt_short := by intro e; decide
  order := id
  order_perm := fun l => List.Perm.refl l
  grow := id
  grow_le := fun n => Nat.le_refl n

/-- A history that meets the hypotheses and exercises every call. -/
example :
    let calls : List ((Ctx × Option Err) × Call) :=
      [((calmCtx, none), .set [1] [2, 3] none), ((calmCtx, none), .get [1]), ((calmCtx, none), .get [2]),
       ((calmCtx, none), .exists [1]), ((calmCtx, none), .set [1, 5] [] none),
       ((calmCtx, none), .scan { pfx := [1] } 5000), ((calmCtx, some .io), .delete [1]),
       ((calmCtx, none), .delete [1]), ((calmCtx, none), .get [1]), ((calmCtx, none), .set [] [1] none)]
    (∀ c ∈ calls, c.2.Small) ∧
    (sequence (fun x => serve x.1.env.now (accepts x.1 x.2)) OMap.empty calls).1 =
      [.done, .value { value := [2, 3] }, .missing, .found true, .done,
       .entries [([1], { value := [2, 3] }), ([1, 5], { value := [] })], .failed, .done, .missing, .failed] := by
  refine ⟨?_, by decide⟩
  intro c hc
  simp only [List.mem_cons, List.not_mem_nil, or_false] at hc
  rcases hc with h | h | h | h | h | h | h | h | h | h <;> subst h <;> simp [Call.Small, PlainScan]

end Mondis.Props
