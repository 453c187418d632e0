import Verif.Lemmas.ClientTxn
import Verif.Model.Util
/-!
# A tame client transaction behaves as a provider transaction
-/
namespace Mondis.Client
open Mondis Wire Server Spec Props

/-! ### Pending writes without aliasing -/

theorem lastWrite_eq_none {k : Bytes} {ws : List (Bytes × Option Val)} :
    lastWrite k ws = none ↔ k ∉ ws.map Prod.fst := by
  induction ws with
  | nil => simp [lastWrite]
  | cons w ws ih =>
    simp only [lastWrite, List.map_cons, List.mem_cons, not_or]
    cases h : lastWrite k ws with
    | some r =>
      have : ¬ (k ∉ ws.map Prod.fst) := by rw [← ih, h]; simp
      simp only [reduceCtorEq, false_iff]
      exact fun hh => this hh.2
    | none =>
      have := ih.mp h
      simp only
      by_cases e : w.1 = k
      · simp [e]
      · simp only [if_neg e, true_iff]; exact ⟨fun h => e h.symm, this⟩

theorem lastWrite_nodup {k : Bytes} {w : Option Val} {ws : List (Bytes × Option Val)}
    (hn : (ws.map Prod.fst).Nodup) : lastWrite k ws = some w ↔ (k, w) ∈ ws := by
  induction ws with
  | nil => simp [lastWrite]
  | cons x ws ih =>
    obtain ⟨a, b⟩ := x
    simp only [List.map_cons, List.nodup_cons] at hn
    have ih := ih hn.2
    simp only [lastWrite, List.mem_cons]
    cases h : lastWrite k ws with
    | some r =>
      rw [h] at ih
      simp only
      rw [ih]
      constructor
      · exact .inr
      · rintro (h1 | h1)
        · exfalso
          have hk : k ∈ ws.map Prod.fst := by
            apply Classical.byContradiction
            intro hh
            rw [lastWrite_eq_none.mpr hh] at h; cases h
          injection h1 with h1 _
          rw [h1] at hk; exact hn.1 hk
        · exact h1
    | none =>
      have hk := lastWrite_eq_none.mp h
      simp only
      by_cases e : a = k
      · subst e
        simp only [if_true, Option.some.injEq]
        constructor
        · intro h'; left; rw [h']
        · rintro (h' | h')
          · injection h' with _ h'; exact h'.symm
          · exact absurd (List.mem_map_of_mem (f := Prod.fst) h') hk
      · simp only [if_neg e, reduceCtorEq, false_iff]
        rintro (h' | h')
        · injection h' with h' _; exact e h'.symm
        · exact absurd (List.mem_map_of_mem (f := Prod.fst) h') hk

theorem lastWrite_perm {k : Bytes} {ws ws' : List (Bytes × Option Val)} (hp : ws.Perm ws')
    (hn : (ws.map Prod.fst).Nodup) : lastWrite k ws = lastWrite k ws' := by
  have hn' : (ws'.map Prod.fst).Nodup := (hp.map Prod.fst).nodup_iff.mp hn
  cases h : lastWrite k ws with
  | some w => exact ((lastWrite_nodup hn').mpr (hp.mem_iff.mp ((lastWrite_nodup hn).mp h))).symm
  | none =>
    refine (lastWrite_eq_none.mpr ?_).symm
    rw [← (hp.map Prod.fst).mem_iff]
    exact lastWrite_eq_none.mp h

/-- The write an entry stands for. -/
def PEntry.write (e : PEntry) : Bytes × Option Val := (e.mapKey, e.val)

theorem mem_effective {e : PEntry} {p : List PEntry} (h : e ∈ effective p) : e ∈ p := by
  induction p with
  | nil => simp [effective] at h
  | cons x p ih =>
    unfold effective at h
    split at h
    · exact List.mem_cons_of_mem _ (ih h)
    · rcases List.mem_cons.mp h with h | h
      · rw [h]; exact List.mem_cons_self
      · exact List.mem_cons_of_mem _ (ih h)

theorem effective_nodup (p : List PEntry) : ((effective p).map PEntry.mapKey).Nodup := by
  induction p with
  | nil => exact List.nodup_nil
  | cons x p ih =>
    unfold effective
    split
    · exact ih
    · rename_i h
      rw [List.map_cons, List.nodup_cons]
      refine ⟨?_, ih⟩
      intro hm
      obtain ⟨e, he, hk⟩ := List.mem_map.mp hm
      apply h
      rw [List.any_eq_true]
      exact ⟨e, mem_effective he, by simp [hk]⟩

theorem lastWrite_effective (k : Bytes) (p : List PEntry) :
    lastWrite k ((effective p).map PEntry.write) = lastWrite k (p.map PEntry.write) := by
  induction p with
  | nil => rfl
  | cons x p ih =>
    unfold effective
    split
    · rename_i h
      rw [ih]
      simp only [List.map_cons, lastWrite]
      cases hl : lastWrite k (p.map PEntry.write) with
      | some r => rfl
      | none =>
        have := lastWrite_eq_none.mp hl
        simp only
        rw [if_neg]
        rintro rfl
        apply this
        obtain ⟨e, he, hk⟩ := List.any_eq_true.mp h
        rw [List.map_map]
        refine List.mem_map.mpr ⟨e, he, ?_⟩
        simpa [PEntry.write] using hk
    · simp only [List.map_cons, lastWrite, ih]

/-- Entries whose key still reads as it was given. -/
def Unaliased (p : List PEntry) : Prop := ∀ e ∈ p, e.ekey = e.mapKey

theorem applyWrites_writes (cx : Ctx) (t : STxn) (h : Unaliased t.pending) (db : DB) :
    applyWrites db (t.writes cx) = applyWrites db (t.pending.map PEntry.write) := by
  have hw : t.writes cx = (cx.order (effective t.pending)).map PEntry.write := by
    unfold STxn.writes
    apply List.map_congr_left
    intro e he
    have := h e (mem_effective ((cx.order_perm _).mem_iff.mp he))
    simp [PEntry.write, this]
  apply OMap.ext
  intro k
  rw [get_applyWrites, get_applyWrites, hw]
  have hp : ((cx.order (effective t.pending)).map PEntry.write).Perm ((effective t.pending).map PEntry.write) :=
    (cx.order_perm _).map _
  have hn : (((effective t.pending).map PEntry.write).map Prod.fst).Nodup := by
    rw [List.map_map]; exact effective_nodup t.pending
  rw [← lastWrite_perm hp.symm hn, lastWrite_effective]

theorem find_lastWrite (k : Bytes) (p : List PEntry) :
    (p.reverse.find? (fun e => e.mapKey == k)).map PEntry.val = lastWrite k (p.map PEntry.write) := by
  induction p with
  | nil => rfl
  | cons x p ih =>
    simp only [List.reverse_cons, List.find?_append, List.map_cons, lastWrite]
    rw [← ih]
    cases p.reverse.find? (fun e => e.mapKey == k) with
    | some e => rfl
    | none =>
      simp only [Option.none_or, Option.map_none, List.find?_cons, List.find?_nil, PEntry.write]
      by_cases h : x.mapKey = k
      · simp [h]
      · have : (x.mapKey == k) = false := by simpa using h
        simp [this, h]

/-! ### Scans -/

theorem mem_iterate {prune : Bytes → Bool} {l : List (Bytes × Val)} {o : ScanOption} {e : Bytes × Val}
    (h : e ∈ Txn.iterate prune l o) : e ∈ l := by
  have ht : ∀ {p : Bytes × Val → Bool} {l : List (Bytes × Val)}, e ∈ l.takeWhile p → e ∈ l :=
    fun h => (List.takeWhile_sublist _).subset h
  have hd : ∀ {p : Bytes × Val → Bool} {l : List (Bytes × Val)}, e ∈ l.dropWhile p → e ∈ l :=
    fun h => (List.dropWhile_sublist _).subset h
  unfold Txn.iterate at h
  have h := ht h
  repeat' split at h
  all_goals first
    | exact (List.mem_filter.mp (List.mem_reverse.mp h)).1
    | exact (List.mem_filter.mp (List.mem_reverse.mp (hd h))).1
    | exact (List.mem_filter.mp h).1
    | exact (List.mem_filter.mp (hd h)).1

/-! ### The simulation -/

/-- The server's stream and the provider transaction it should be. -/
structure Sim (cx : Ctx) (snap : DB) (s : Stream) (t : Txn) : Prop where
  upd : s.txn.update = true
  snapEq : s.txn.snap = snap
  env : t.env = { cx.env with update := true }
  writes : t.writes = s.txn.pending.map PEntry.write
  keys : Unaliased s.txn.pending
  att : t.attempts = s.txn.attempts
  view : t.view = applyWrites snap t.writes
  small : Small t.view
  getSmall : s.getResp.value.length < 2 ^ 32
  sane : Sane s

variable {cx : Ctx} {snap : DB} {s : Stream} {t : Txn}

theorem Sim.get_eq (h : Sim cx snap s t) (k : Bytes) : s.txn.get cx k = (t.get k).1 := by
  have h1 : (t.get k).1 = if k = [] then .err .emptyKey else match t.view.get k with
      | some v => if v.live cx.env.now then .ok v else .err .keyNotFound
      | none => .err .keyNotFound := by
    unfold Txn.get
    rw [h.env]
    by_cases hk : k = []
    · simp [hk]
    · simp only [if_neg hk]
      cases t.view.get k with
      | none => rfl
      | some v => simp only; split <;> rfl
  rw [h1, h.view, h.writes, get_applyWrites, ← find_lastWrite]
  unfold STxn.get
  by_cases hk : k = []
  · simp [hk]
  simp only [if_neg hk]
  cases hf : s.txn.pending.reverse.find? (fun e => e.mapKey == k) with
  | none =>
    simp only [Option.map_none, Option.getD_none, STxn.readSnap, h.snapEq]
    cases OMap.get snap k <;> rfl
  | some e =>
    have hm : e ∈ s.txn.pending := List.mem_reverse.mp (List.mem_of_find?_eq_some hf)
    have he : e.mapKey = k := by simpa using List.find?_some hf
    have : e.ekey = k := by rw [h.keys e hm, he]
    simp only [Option.map_some, Option.getD_some, if_pos this]
    cases e.val with
    | none => rfl
    | some v => rfl

theorem Sim.exists_eq (h : Sim cx snap s t) (k : Bytes) : s.txn.exists' cx k = (t.exists' k).1 := by
  unfold STxn.exists' Txn.exists'
  rw [h.get_eq]
  cases hg : t.get k with
  | mk r t' =>
    cases r with
    | ok v => rfl
    | panic => rfl
    | err e => cases e <;> rfl

theorem Sim.view_eq (h : Sim cx snap s t) : applyWrites s.txn.snap (s.txn.writes cx) = t.view := by
  rw [applyWrites_writes cx _ h.keys, h.snapEq, h.view, h.writes]

theorem Sim.scan_eq (h : Sim cx snap s t) (o : ScanOption) : s.txn.scan cx o = t.scan o := by
  unfold STxn.scan Txn.scan
  rw [h.view_eq, h.env]

theorem Sim.commit_eq (h : Sim cx snap s t) (fail : Option Err) (db : DB) :
    s.txn.commit cx fail db = t.commit fail db := by
  unfold STxn.commit Txn.commit
  have : (t.writes = []) ↔ s.txn.pending = [] := by rw [h.writes]; simp
  by_cases hp : s.txn.pending = []
  · rw [if_pos hp, if_pos (this.mpr hp)]
  · rw [if_neg hp, if_neg (fun hh => hp (this.mp hh))]
    cases fail with
    | some e => rfl
    | none => simp only; rw [applyWrites_writes cx _ h.keys, h.writes]

/-- Writes: same outcome, still similar.  `s'` is any stream with the same transaction. -/
theorem Sim.modify (h : Sim cx snap s t) (k : Bytes) (g : Nat) (w : Option Val) (hk : k.length < 2 ^ 32)
    (hw : ∀ v, w = some v → v.value.length < 2 ^ 32) :
    (s.txn.modify cx k g w).1 = (t.modify k w).1 ∧ (t.modify k w).1 ≠ .panic ∧
    ∀ s' : Stream, s'.txn = (s.txn.modify cx k g w).2 → s'.getResp = s.getResp → Sane s' →
      Sim cx snap s' (t.modify k w).2 := by
  have hu : t.env.update = true := by rw [h.env]
  unfold STxn.modify Txn.modify
  simp only [h.upd, hu, Bool.not_true, Bool.false_eq_true, if_false]
  cases hke : keyErr k with
  | some e =>
    refine ⟨rfl, by simp, ?_⟩
    intro s' h1 h2 h3
    simp only at h1 ⊢
    exact ⟨by rw [h1]; exact h.upd, by rw [h1]; exact h.snapEq, h.env, by rw [h1]; exact h.writes,
      by rw [h1]; exact h.keys, by rw [h1]; exact h.att, h.view, h.small, by rw [h2]; exact h.getSmall, h3⟩
  | none =>
    simp only
    have hb : t.env.tooBig t.attempts = cx.env.tooBig s.txn.attempts := by rw [h.env, h.att]
    rw [hb]
    cases cx.env.tooBig s.txn.attempts with
    | true =>
      simp only [if_true]
      refine ⟨by simp, by simp, ?_⟩
      intro s' h1 h2 h3
      exact ⟨by simp [h1, h.upd], by rw [h1]; exact h.snapEq, h.env, by rw [h1]; exact h.writes,
        by rw [h1]; exact h.keys, by simp [h1, h.att], h.view, h.small, by rw [h2]; exact h.getSmall, h3⟩
    | false =>
      simp only [Bool.false_eq_true, if_false]
      refine ⟨by simp, by simp, ?_⟩
      intro s' h1 h2 h3
      refine ⟨by simp [h1, h.upd], by rw [h1]; exact h.snapEq, h.env, ?_, ?_, by simp [h1, h.att],
        ?_, ?_, by rw [h2]; exact h.getSmall, h3⟩
      · rw [h1]; simp [h.writes, PEntry.write]
      · rw [h1]
        intro e he
        rcases List.mem_append.mp he with he | he
        · exact h.keys e he
        · rw [List.mem_singleton.mp he]
      · show applyWrite t.view (k, w) = applyWrites snap (t.writes ++ [(k, w)])
        unfold applyWrites
        rw [List.foldl_append]
        rw [h.view]
        rfl
      · show Small (applyWrite t.view (k, w))
        cases w with
        | none => exact small_del h.small k
        | some v => exact small_set h.small hk (hw v rfl)

/-- What Exists makes of what Get finds. -/
def existsOf : Res Val → Res Bool
  | .ok _ => .ok true
  | .err .keyNotFound => .ok false
  | .err e => .err e
  | .panic => .panic

end Mondis.Client

namespace Mondis.Spec
open Client (CProg existsOf)

/-- A client transaction body as a program run directly on a provider transaction; only the errors are
shown as a client sees them. -/
def asProg {α : Type} (txt : Err → Bytes) : CProg α → Prog α
  | .done r => .done r
  | .get k c => .get k (fun r => asProg txt (c (seenGet txt r)))
  | .exists k c => .get k (fun r => asProg txt (c (seenExists txt (existsOf r))))
  | .set k v vm c => .set k v vm (fun r => asProg txt (c (seenTxnSet txt r)))
  | .del k c => .del k (fun r => asProg txt (c (seenTxnDelete txt r)))
  | .scan o limit c =>
    if limit ≤ 0 then asProg txt (c (.ok []))
    else .scan o (fun l => asProg txt (c (.ok (l.take (min limit 1000).toNat))))

/-- Bodies that stay clear of the server's reused variables: Set only as the very first request, after
the first request at most one Delete and at most one Scan, no empty keys.  Arguments below 4 GiB.
`first`: nothing was requested yet; `d`, `sc`: a later Delete or Scan was already made. -/
def Tame {α : Type} (first d sc : Bool) : CProg α → Prop
  | .done _ => True
  | .get k c => k ≠ [] ∧ k.length < 2 ^ 32 ∧ ∀ r, Tame false d sc (c r)
  | .exists k c => k ≠ [] ∧ k.length < 2 ^ 32 ∧ ∀ r, Tame false d sc (c r)
  | .set k v _ c => first = true ∧ k.length < 2 ^ 32 ∧ v.length < 2 ^ 32 ∧ ∀ r, Tame false d sc (c r)
  | .del k c => (first = true ∨ d = false) ∧ k ≠ [] ∧ k.length < 2 ^ 32 ∧
      ∀ r, Tame false (d || !first) sc (c r)
  | .scan o limit c =>
    (limit ≤ 0 → Tame first d sc (c (.ok []))) ∧
    (0 < limit → (first = true ∨ sc = false) ∧ o.pfx.length < 2 ^ 32 ∧ o.offset.length < 2 ^ 32 ∧
      ∀ r, Tame false d (sc || !first) (c r))

end Mondis.Spec

namespace Mondis.Client
open Mondis Wire Server Spec Props

variable {cx : Ctx} {snap : DB} {s : Stream} {t : Txn}

/-- A scan into an empty response, with options `o`. -/
theorem respScan_fresh {m : DB} (hm : Small m) (l : List (Bytes × Val)) (hl : ∀ e ∈ l, e ∈ m.ents)
    (scan : ScanOption → List (Bytes × Val)) (o : ScanOption) (hs : scan o = l) (limit : Int) (h0 : 0 < limit)
    (req : ScanRequest) (resp : ScanResponse)
    (hreq : req = ⟨some ⟨o.reverse, o.pfx, o.offset⟩, Int32.ofInt (if limit > 1000 then 1000 else limit)⟩)
    (hresp : resp.entries = []) :
    ∃ resp', respScan scan req resp = .ok resp' ∧
      parseScan resp'.marshal = .ok (l.take (min limit 1000).toNat) := by
  subst hreq
  have hlim : (if limit > 1000 then (1000 : Int) else limit) = min limit 1000 := by split <;> omega
  rw [hlim]
  have h1 : 1 ≤ min limit 1000 := by omega
  have h2 : min limit 1000 ≤ 1000 := by omega
  generalize hn : min limit 1000 = n at h1 h2
  have hn' : (Int32.ofInt n).toInt = n := by
    rw [Int32.toInt_ofInt]
    exact Int.bmod_eq_of_le (by simp [Int32.size]; omega) (by simp [Int32.size]; omega)
  simp only [respScan, hn']
  rw [if_neg (by omega), if_neg (by omega)]
  refine ⟨_, rfl, ?_⟩
  have hso : scan ⟨o.reverse, o.pfx, o.offset⟩ = l := hs
  rw [hso, hresp, collect_eq, List.nil_append]
  have hmx : max 1 (n - (([] : List Wire.Entry).length : Int)).toNat = n.toNat := by simp; omega
  rw [hmx]
  apply parseScan_ok
  apply scan_small
  · simp
  · simp only [List.length_map, List.length_take]; omega
  · intro e he
    simp only [List.mem_map] at he
    obtain ⟨x, hx, rfl⟩ := he
    exact hm x (hl x (List.mem_of_mem_take hx))

theorem scan_mem_view (t : Txn) (o : ScanOption) : ∀ e ∈ t.scan o, e ∈ t.view.ents := by
  intro e he
  exact (List.mem_filter.mp (mem_iterate he)).1

theorem get_ok_small {t : Txn} (h : Small t.view) {k : Bytes} {v : Val} (hg : (t.get k).1 = .ok v) :
    v.value.length < 2 ^ 32 := by
  unfold Txn.get at hg
  by_cases hk : k = []
  · simp [hk] at hg
  · simp only [if_neg hk] at hg
    split at hg
    · rename_i v' hv
      split at hg
      · injection hg with hg
        subst hg
        exact (h _ ((OMap.get_eq_some_iff _ _ _).mp hv)).2
      · cases hg
    · cases hg

theorem get_no_panic (t : Txn) (k : Bytes) : (t.get k).1 ≠ .panic := by
  unfold Txn.get
  by_cases hk : k = []
  · simp [hk]
  · simp only [if_neg hk]
    split
    · split <;> simp
    · simp

/-- Reading changes nothing the simulation speaks about. -/
theorem Sim.after_get (h : Sim cx snap s t) (k : Bytes) (s' : Stream) (h1 : s'.txn = s.txn)
    (h2 : s'.getResp.value.length < 2 ^ 32) (h3 : Sane s') : Sim cx snap s' (t.get k).2 := by
  have hg : (t.get k).2.env = t.env ∧ (t.get k).2.view = t.view ∧ (t.get k).2.writes = t.writes ∧
      (t.get k).2.attempts = t.attempts := by
    unfold Txn.get
    by_cases hk : k = []
    · simp [hk]
    · simp only [if_neg hk]
      split
      · split <;> (simp only; split <;> exact ⟨rfl, rfl, rfl, rfl⟩)
      · split <;> exact ⟨rfl, rfl, rfl, rfl⟩
  obtain ⟨a, b, c, d⟩ := hg
  exact ⟨by rw [h1]; exact h.upd, by rw [h1]; exact h.snapEq, by rw [a]; exact h.env,
    by rw [c, h1]; exact h.writes, by rw [h1]; exact h.keys, by rw [d, h1]; exact h.att,
    by rw [b, c]; exact h.view, by rw [b]; exact h.small, h2, h3⟩

theorem exists_fst (t : Txn) (k : Bytes) : (t.exists' k).1 = existsOf (t.get k).1 := by
  unfold Txn.exists' existsOf
  cases t.get k with
  | mk r t' => cases r with
    | ok v => rfl
    | panic => rfl
    | err e => cases e <;> rfl

/-- All frames arrive. -/
def allGood : Nat → Wireless := fun _ => .good

theorem seenWrite_calm (txt : Err → Bytes) (r : Res Unit) : seenWrite txt r ≠ .panic := by
  cases r <;> simp [seenWrite]

theorem seenTxnSet_calm (txt : Err → Bytes) (r : Res Unit) : seenTxnSet txt r ≠ .panic := by
  unfold seenTxnSet; split
  · simp
  · exact seenWrite_calm txt _

theorem seenTxnDelete_calm (txt : Err → Bytes) (r : Res Unit) : seenTxnDelete txt r ≠ .panic := by
  unfold seenTxnDelete; split
  · simp
  · exact seenWrite_calm txt _

theorem seenGet_calm (txt : Err → Bytes) {r : Res Val} (h : r ≠ .panic) : seenGet txt r ≠ .panic := by
  unfold seenGet; split <;> simp_all

theorem seenExists_calm (txt : Err → Bytes) {r : Res Bool} (h : r ≠ .panic) : seenExists txt r ≠ .panic := by
  unfold seenExists; split <;> simp_all

/-- From an open stream: the client's run is the provider's run. -/
theorem run_sim {α : Type} (f : CProg α) (d sc : Bool) (n : Nat) (s : Stream) (t : Txn)
    (hf : Tame false d sc f) (hs : Sim cx snap s t) (hd : d = false → s.delGen = 0)
    (hsc : sc = false → s.scanReq = {} ∧ s.scanResp.entries = []) :
    ∃ n' s', run cx allGood true snap f n (.live s) = (((asProg cx.txt f).run t).1, n', .live s') ∧
      Sim cx snap s' ((asProg cx.txt f).run t).2 := by
  induction f generalizing d sc n s t with
  | done r => exact ⟨n, s, rfl, hs⟩
  | get k c ih =>
    obtain ⟨hk, hkl, hc⟩ := hf
    have hreq : KeyRequest.unmarshal (KeyRequest.mk k).marshal s.getReq = .ok ⟨k⟩ := by
      have := keyReq_back k s.getReq.key hkl
      rw [if_neg hk] at this; exact this
    simp only [run, request, allGood, continued, contGet, hreq, asProg, Prog.run]
    have hp := parseGet_resp cx s.getResp hs.getSmall (s.txn.get cx k)
      (by rw [hs.get_eq]; exact get_no_panic t k)
      (fun v hv => get_ok_small hs.small (by rw [← hs.get_eq]; exact hv))
    simp only [ne_eq, not_true_eq_false, if_false, Res.ok_bind]
    rw [hp.1, hs.get_eq, resume_go (seenGet_calm _ (get_no_panic t k))]
    refine ih _ d sc (n + 1) _ _ (hc _) ?_ hd hsc
    exact hs.after_get k _ rfl (by rw [← hs.get_eq]; exact hp.2) ⟨hs.sane.1, hs.sane.2, hs.sane.3⟩
  | «exists» k c ih =>
    obtain ⟨hk, hkl, hc⟩ := hf
    have hreq : KeyRequest.unmarshal (KeyRequest.mk k).marshal s.existsReq = .ok ⟨k⟩ := by
      have := keyReq_back k s.existsReq.key hkl
      rw [if_neg hk] at this; exact this
    simp only [run, request, allGood, continued, contExists, hreq, asProg, Prog.run]
    have hnp : s.txn.exists' cx k ≠ .panic := by
      rw [hs.exists_eq, exists_fst]
      have := get_no_panic t k
      cases h : (t.get k).1 with
      | ok v => simp [existsOf]
      | panic => exact absurd h this
      | err e => cases e <;> simp [existsOf]
    have hp := parseExists_resp cx s.existsResp (s.txn.exists' cx k) hnp
    simp only [ne_eq, not_true_eq_false, if_false, Res.ok_bind]
    rw [hp, resume_go (seenExists_calm _ hnp), hs.exists_eq, exists_fst]
    refine ih _ d sc (n + 1) _ _ (hc _) ?_ hd hsc
    exact hs.after_get k _ rfl hs.getSmall ⟨hs.sane.1, hs.sane.2, hs.sane.3⟩
  | set k v vm c ih => exact absurd hf.1 (by simp)
  | del k c ih =>
    obtain ⟨h1, hk, hkl, hc⟩ := hf
    have hd0 : d = false := by simpa using h1
    subst hd0
    have hg := hd rfl
    have hreq : KeyRequest.unmarshal (KeyRequest.mk k).marshal s.deleteReq = .ok ⟨k⟩ := by
      have := keyReq_back k s.deleteReq.key hkl
      rw [if_neg hk] at this; exact this
    have hne : (KeyRequest.mk k).marshal ≠ [] := by
      unfold KeyRequest.marshal fBytes
      rw [if_pos (by cases k <;> simp_all)]; simp
    have hrd : readDeleteKey cx s (KeyRequest.mk k).marshal ⟨k⟩ =
        { s with deleteReq := ⟨k⟩, delGen := 1, delCap := cx.grow k.length } := by
      unfold readDeleteKey
      rw [if_neg hne, if_neg (by rw [hg]; simp), hg]
    simp only [run, request, allGood, continued, contDelete, hreq, hrd, asProg, Prog.run, Bool.not_true,
      Bool.false_eq_true, if_false]
    obtain ⟨m1, m2, m3⟩ := hs.modify k 1 none hkl (by intro v h; cases h)
    have hp := parseStatus_txn cx s.deleteResp hs.sane.delUnk (s.txn.modify cx k 1 none).1 (by rw [m1]; exact m2)
    simp only [ne_eq, not_true_eq_false, if_false, Res.ok_bind]
    rw [hp, m1, resume_go (seenTxnDelete_calm _ _)]
    refine ih _ true sc (n + 1) _ _ (by simpa using hc _) (m3 _ rfl rfl ?_) (by intro h; cases h) hsc
    exact ⟨hs.sane.1, hs.sane.2, by simp only [respTxnWrite_unk]; exact hs.sane.3⟩
  | scan o limit c ih =>
    obtain ⟨h1, h2⟩ := hf
    by_cases hl : limit ≤ 0
    · simp only [run, asProg, if_pos hl]
      exact ih _ d sc n s t (h1 hl) hs hd hsc
    · obtain ⟨hf1, hp, hq, hc⟩ := h2 (by omega)
      have hsc0 : sc = false := by simpa using hf1
      subst hsc0
      obtain ⟨hsr, hse⟩ := hsc rfl
      have hreq := scanReq_back o (if limit > 1000 then 1000 else limit) s.scanReq hp hq
        (by split <;> omega) (by split <;> omega)
      have hpso : ((s.scanReq.pso.getD {}).merge ⟨o.reverse, o.pfx, o.offset⟩) = ⟨o.reverse, o.pfx, o.offset⟩ := by
        rw [hsr]; simp [Wire.PSO.merge, keep_nil]
      rw [hpso] at hreq
      obtain ⟨resp', r1, r2⟩ := respScan_fresh hs.small (t.scan o) (scan_mem_view t o) (s.txn.scan cx) o (hs.scan_eq o)
        limit (by omega) _ s.scanResp rfl hse
      simp only [run, if_neg hl, request, allGood, continued, contScan, hreq, r1, asProg, Prog.run]
      simp only [ne_eq, not_true_eq_false, if_false, Res.ok_bind]
      rw [r2, resume_go (by simp)]
      refine ih _ d true (n + 1) _ _ (by simpa using hc _) ?_ hd (by intro h; cases h)
      exact ⟨hs.upd, hs.snapEq, hs.env, hs.writes, hs.keys, hs.att, hs.view, hs.small, hs.getSmall,
        ⟨hs.sane.1, hs.sane.2, hs.sane.3⟩⟩

theorem sim_start (cx : Ctx) (snap : DB) (hm : Small snap) :
    Sim cx snap { txn := ⟨true, snap, [], 0⟩ } (Txn.start { cx.env with update := true } snap) :=
  ⟨rfl, rfl, rfl, rfl, by intro e he; simp at he, rfl, rfl, hm, Nat.zero_lt_of_lt (by decide : 0 < 2 ^ 32), sane_fresh _⟩

/-- From the beginning. -/
theorem run_sim_fresh {α : Type} (f : CProg α) (n : Nat) (hf : Tame true false false f) (hm : Small snap) :
    let t0 := Txn.start { cx.env with update := true } snap
    ∃ n' l, run cx allGood true snap f n .fresh = (((asProg cx.txt f).run t0).1, n', l) ∧
      ((l = .fresh ∧ ((asProg cx.txt f).run t0).2 = t0) ∨
       ∃ s', l = .live s' ∧ Sim cx snap s' ((asProg cx.txt f).run t0).2) := by
  intro t0
  have hs : Sim cx snap { txn := ⟨true, snap, [], 0⟩ } t0 := sim_start cx snap hm
  induction f generalizing n with
  | done r => exact ⟨n, .fresh, rfl, .inl ⟨rfl, rfl⟩⟩
  | get k c ih =>
    obtain ⟨hk, hkl, hc⟩ := hf
    simp only [run, request, allGood, opening, keyReq_back0 k hkl, asProg, Prog.run]
    have hp := parseGet_resp cx {} (by decide) (STxn.get cx ⟨true, snap, [], 0⟩ k)
      (by rw [hs.get_eq]; exact get_no_panic t0 k)
      (fun v hv => get_ok_small hs.small (by rw [← hs.get_eq]; exact hv))
    simp only [ne_eq, not_true_eq_false, if_false, Res.ok_bind]
    rw [hp.1, hs.get_eq, resume_go (seenGet_calm _ (get_no_panic t0 k))]
    obtain ⟨n', s', e, h⟩ := run_sim (c (seenGet cx.txt (t0.get k).1)) false false (n + 1) _ _ (hc _)
      (hs.after_get k { txn := ⟨true, snap, [], 0⟩ } rfl (Nat.zero_lt_of_lt (by decide : 0 < 2 ^ 32)) (sane_fresh _))
      (fun _ => rfl) (fun _ => ⟨rfl, rfl⟩)
    exact ⟨n', .live s', e, .inr ⟨s', rfl, h⟩⟩
  | «exists» k c ih =>
    obtain ⟨hk, hkl, hc⟩ := hf
    simp only [run, request, allGood, opening, keyReq_back0 k hkl, asProg, Prog.run]
    have hnp : STxn.exists' cx ⟨true, snap, [], 0⟩ k ≠ .panic := by
      rw [hs.exists_eq, exists_fst]
      have := get_no_panic t0 k
      cases h : (t0.get k).1 with
      | ok v => simp [existsOf]
      | panic => exact absurd h this
      | err e => cases e <;> simp [existsOf]
    have hp := parseExists_resp cx {} _ hnp
    simp only [ne_eq, not_true_eq_false, if_false, Res.ok_bind]
    rw [hp, resume_go (seenExists_calm _ hnp), hs.exists_eq, exists_fst]
    obtain ⟨n', s', e, h⟩ := run_sim (c (seenExists cx.txt (existsOf (t0.get k).1))) false false (n + 1) _ _ (hc _)
      (hs.after_get k { txn := ⟨true, snap, [], 0⟩ } rfl (Nat.zero_lt_of_lt (by decide : 0 < 2 ^ 32)) (sane_fresh _))
      (fun _ => rfl) (fun _ => ⟨rfl, rfl⟩)
    exact ⟨n', .live s', e, .inr ⟨s', rfl, h⟩⟩
  | set k v vm c ih =>
    obtain ⟨_, hkl, hvl, hc⟩ := hf
    simp only [run, request, allGood, opening, setReq_back k v vm hkl hvl, metaOf_back, asProg, Prog.run,
      Bool.not_true, Bool.false_eq_true, if_false]
    obtain ⟨m1, m2, m3⟩ := hs.modify k 0 (some (mkVal cx.env.now v vm)) hkl (by
      intro x hx; injection hx with hx; rw [← hx, mkVal_value]; exact hvl)
    have hp := parseSet_txn cx {} rfl (STxn.modify cx ⟨true, snap, [], 0⟩ k 0 (some (mkVal cx.env.now v vm))).1 (by
      rw [show (STxn.modify cx ⟨true, snap, [], 0⟩ k 0 (some (mkVal cx.env.now v vm))).1 = _ from m1]; exact m2)
    simp only [ne_eq, not_true_eq_false, if_false, Res.ok_bind]
    rw [hp, m1, resume_go (seenTxnSet_calm _ _)]
    have hset : t0.set k v vm = t0.modify k (some (mkVal cx.env.now v vm)) := rfl
    rw [hset]
    obtain ⟨n', s', e, h⟩ := run_sim (c (seenTxnSet cx.txt (t0.modify k (some (mkVal cx.env.now v vm))).1))
      false false (n + 1) _ _ (hc _) (m3 { txn := _ } rfl rfl (sane_fresh _)) (fun _ => rfl) (fun _ => ⟨rfl, rfl⟩)
    exact ⟨n', .live s', e, .inr ⟨s', rfl, h⟩⟩
  | del k c ih =>
    obtain ⟨_, hk, hkl, hc⟩ := hf
    simp only [run, request, allGood, opening, keyReq_back0 k hkl, asProg, Prog.run,
      Bool.not_true, Bool.false_eq_true, if_false]
    obtain ⟨m1, m2, m3⟩ := hs.modify k 0 none hkl (by intro v h; cases h)
    have hp := parseStatus_txn cx {} rfl (STxn.modify cx ⟨true, snap, [], 0⟩ k 0 none).1 (by
      rw [show (STxn.modify cx ⟨true, snap, [], 0⟩ k 0 none).1 = _ from m1]; exact m2)
    simp only [ne_eq, not_true_eq_false, if_false, Res.ok_bind]
    rw [hp, m1, resume_go (seenTxnDelete_calm _ _)]
    have hset : t0.delete k = t0.modify k none := rfl
    rw [hset]
    obtain ⟨n', s', e, h⟩ := run_sim (c (seenTxnDelete cx.txt (t0.modify k none).1))
      false false (n + 1) _ _ (by simpa using hc _) (m3 { txn := _ } rfl rfl (sane_fresh _)) (fun _ => rfl)
      (fun _ => ⟨rfl, rfl⟩)
    exact ⟨n', .live s', e, .inr ⟨s', rfl, h⟩⟩
  | scan o limit c ih =>
    obtain ⟨h1, h2⟩ := hf
    by_cases hl : limit ≤ 0
    · simp only [run, asProg, if_pos hl]
      exact ih _ n (h1 hl)
    · obtain ⟨hf1, hp, hq, hc⟩ := h2 (by omega)
      have hreq := scanReq_back o (if limit > 1000 then 1000 else limit) {} hp hq
        (by split <;> omega) (by split <;> omega)
      have hpso : (((none : Option PSO).getD {}).merge ⟨o.reverse, o.pfx, o.offset⟩) = ⟨o.reverse, o.pfx, o.offset⟩ := by
        simp [Wire.PSO.merge, keep_nil]
      rw [hpso] at hreq
      obtain ⟨resp', r1, r2⟩ := respScan_fresh hs.small (t0.scan o) (scan_mem_view t0 o)
        (STxn.scan cx ⟨true, snap, [], 0⟩) o (hs.scan_eq o) limit (by omega) _ {} rfl rfl
      simp only [run, if_neg hl, request, allGood, opening, hreq, r1, asProg, Prog.run]
      simp only [ne_eq, not_true_eq_false, if_false, Res.ok_bind]
      rw [r2, resume_go (by simp)]
      obtain ⟨n', s', e, h⟩ := run_sim (c (.ok ((t0.scan o).take (min limit 1000).toNat)))
        false false (n + 1) _ _ (by simpa using hc _) hs (fun _ => rfl) (fun _ => ⟨rfl, rfl⟩)
      exact ⟨n', .live s', e, .inr ⟨s', rfl, h⟩⟩

end Mondis.Client
