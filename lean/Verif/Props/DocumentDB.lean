import Verif.Spec.DocumentDB
import Verif.Lemmas.DocDBClosed
import Verif.Props.Index
/-!
# C75: package document as one system
-/
namespace Mondis.DocDB
open Mondis Prog Doc Spec Props

variable {D : Type} {C : Codec D} {IC : IndexCodec} {w : World} {db : DB} {es : List (Ev D)} {norm : D → Res D}

/-! ### Documents under names -/

/-- Documents by number under the names of their collections. -/
def byName (db : DB) (A : Docs D) : Library D := fun d name => if d = [] then
    match numberOf db name with
    | some x => A x
    | none => IMap.empty
  else IMap.empty

theorem byName_init (db : DB) : byName db (Docs.init : Docs D) = Library.empty := by
  funext d c
  unfold byName
  repeat' split
  all_goals rfl

theorem byName_upd {S : Store} {out : List (Bytes × UInt64)} (hn : Names S out) {c : Bytes} {x : Int64} (hx : numberOf S.db c = some x)
    (B : Docs D) (s : IMap D) : (byName S.db B).upd [] c s = byName S.db (B.upd x s) := by
  funext d' c'
  unfold Library.upd byName Docs.upd
  by_cases hd : d' = []
  · subst hd
    by_cases h : c' = c
    · subst h
      simp [hx]
    · simp only [true_and, if_neg h, if_true]
      cases hy : numberOf S.db c' with
      | none => rfl
      | some y =>
        have : y ≠ x := by
          rintro rfl
          exact h (hn.one hy hx)
        exact (if_neg this).symm
  · simp [hd]

theorem upd_same (N : Library D) (d c : Bytes) : N.upd d c (N d c) = N := by
  funext d' c'
  unfold Library.upd
  split
  · rename_i h; rw [h.1, h.2]
  · rfl

/-- What is asked of the records of a transaction. -/
def Placed (norm : D → Res D) (db : DB) (l : List (Rec D)) : Prop :=
  ∀ q ∈ l, q.1.db = [] ∧ (∀ x, q.2 = some x → numberOf db q.1.coll = some x) ∧
    (q.2 = none → (∀ m, q.1.call.sem norm m = (q.1.answer, m)) ∧ q.1.wrote = false)

theorem play_byName {S : Store} {out : List (Bytes × UInt64)} (hn : Names S out) (l : List (Rec D)) (h : Placed norm S.db l) (B : Docs D) :
    Spec.play norm (byName S.db B) (l.map Prod.fst) = ((reruns norm B l).1, byName S.db (reruns norm B l).2) := by
  induction l generalizing B with
  | nil => rfl
  | cons q l ih =>
    have ih := ih (fun q hq => h q (List.mem_cons_of_mem _ hq))
    obtain ⟨h0, h1, h2⟩ := h q List.mem_cons_self
    simp only [List.map_cons, Spec.play, reruns]
    cases hq : q.2 with
    | none =>
      obtain ⟨h3, -⟩ := h2 hq
      rw [h3]
      simp only
      rw [upd_same, ih]
      simp only [rerun, hq]
    | some x =>
      have hx := h1 x hq
      have hn' : byName S.db B q.1.db q.1.coll = B x := by unfold byName; rw [h0, hx]; rfl
      rw [hn', h0, byName_upd hn hx, ih]
      simp only [rerun, hq]

theorem serial_byName {S : Store} {out : List (Bytes × UInt64)} (hn : Names S out) {B B' : Docs D} (l : List (List (Rec D)))
    (h : ∀ t ∈ l, Placed norm S.db t) (hc : Chain norm B l B') :
    Serial norm (byName S.db B) (l.map (fun t => t.map Prod.fst)) (byName S.db B') := by
  induction l generalizing B with
  | nil => rw [show B' = B from hc]; rfl
  | cons t l ih =>
    obtain ⟨h1, h2⟩ := hc
    have hp := play_byName hn t (h t List.mem_cons_self) B
    refine ⟨?_, ?_⟩
    · rw [hp]
      simp only
      rw [h1]
      simp [answersOf]
    · rw [hp]
      exact ih (fun t ht => h t (List.mem_cons_of_mem _ ht)) h2

/-- The documents of a database are determined by it. -/
theorem holdings_unique {N N' : Library D} (h : Holdings C db N) (h' : Holdings C db N') (name : Bytes) : N [] name = N' [] name := by
  obtain ⟨A, ha, hn⟩ := h
  obtain ⟨A', ha', hn'⟩ := h'
  have hAA : A = A' := by
    funext x
    refine IMap.ext (fun i => ?_)
    exact (doc_at ha ha' rfl).symm
  subst hAA
  rw [hn, hn']

/-! ### Transactions -/

/-- The names at commit `v` are as good as the names now. -/
theorem Kept.holdings {g : Ghost D} {b : Nat} (h : Kept C w g b) {v : Nat} (hv : v ≤ w.store.now) :
    Holdings C (w.store.data v) (byName w.store.db (g.docs v)) := by
  refine ⟨g.docs v, h.docs v hv, fun name => ?_⟩
  unfold byName
  rw [if_pos rfl]
  cases hx : numberOf (w.store.data v) name with
  | some x => rw [h.number hv hx]
  | none =>
    cases hy : numberOf w.store.db name with
    | none => rfl
    | some y =>
      simp only
      refine IMap.ext (fun i => ?_)
      rw [IMap.get_empty]
      apply Classical.byContradiction
      intro hne
      obtain ⟨name', hn'⟩ := h.owned v hv y i hne
      have := h.names.one (h.number hv hn') hy
      subst this
      rw [hx] at hn'
      cases hn'

/-- C75: every transaction has one snapshot, of the time when it was begun.  What its calls answer, whichever objects they are
made on, is what they answer when run one after the other, with nothing else happening, on the documents stored then; in a
read-only transaction a call that would write is refused, and every other one answers from those documents. -/
theorem C75_snapshot {l₁ l₂ : List (Ev D)} {env : Env} (hdb : Blank db) (hb : Brief es) (he : es = l₁ ++ .begin env :: l₂)
    (k : Nat) (hk : k = (run C IC l₁ (World.start db)).2.sessions.length) (ts : List (Said D))
    (hts : ts = saidIn k es (run C IC es (World.start db)).1) :
    ∃ N, Holdings C (run C IC l₁ (World.start db)).2.store.db N ∧
      (env.update = true → (Spec.play C.norm N ts).1 = ts.map (·.answer)) ∧
      (env.update = false → ∀ q ∈ ts, q.answer = (q.call.sem C.norm (N q.db q.coll)).1 ∨
        (q.call.reads = false ∧ q.answer = .err .readOnlyTxn)) := by
  obtain ⟨g, ht⟩ := told (C := C) IC hdb es hb.1 hb.2
  have hw : (run C IC es (World.start db)).2 = (run C IC l₂ ((run C IC l₁ (World.start db)).2.step C IC (.begin env)).2).2 := by
    rw [he, run_append]; rfl
  have ha := run_after C IC l₂ ((run C IC l₁ (World.start db)).2.step C IC (.begin env)).2
  rw [← hw] at ha
  have hlog := ht.log k
  rw [← hts] at hlog
  have hk₁ := ht.kept
  generalize (run C IC es (World.start db)).2 = w' at ha hk₁
  generalize (run C IC l₁ (World.start db)).2 = w at ha hk ⊢
  obtain ⟨s, h1, h2, h3, -⟩ := ha.sess k ⟨Txn.start env w.store.db, w.store.now, .live⟩ (by
    show (w.sessions ++ [_])[k]? = _
    rw [hk, List.getElem?_append_right (Nat.le_refl _), Nat.sub_self]; rfl)
  have h2 : s.v = w.store.now := h2
  have h3 : s.txn.env = env := h3
  have hs := hk₁.sess k s h1
  have hd : w'.store.data s.v = w.store.db := by rw [h2]; exact ha.store.data _ (Nat.le_refl _)
  refine ⟨_, by rw [← hd]; exact hk₁.holdings hs.le, fun hu => ?_, fun hu q hq => ?_⟩
  · rw [← hlog, play_byName hk₁.names _ hs.recs]
    simp only
    rw [(hs.tale (by rw [h3]; exact hu)).own]
    simp [answersOf]
  · rw [← hlog] at hq
    obtain ⟨r, hr, rfl⟩ := List.mem_map.mp hq
    obtain ⟨i0, i1, i2⟩ := hs.recs r hr
    rcases (hs.heard (by rw [h3]; exact hu)).2.2 r hr with h4 | h4
    · left
      cases hr2 : r.2 with
      | none => rw [(i2 hr2).1]
      | some x =>
        simp only [rerun, hr2] at h4
        rw [h4]
        unfold byName
        rw [i0, i1 x hr2]
        rfl
    · exact .inr h4

/-- C75: transactions that wrote something are serializable, in the order of their commits, whatever objects and processes made
their calls, and whatever happened to names, sequences and indexes meanwhile.  Run one after the other in that order, from no
documents, their calls answer what they answered, and what is stored afterwards is what is stored.  It is assumed that no such
transaction has counted or emptied a collection to which another one, committed in the meantime, has written. -/
theorem C75_serializable (hdb : Blank db) (hb : Brief es) (hun : Undisturbed C IC es (World.start db))
    (as : List (Answer D)) (has : as = (run C IC es (World.start db)).1) :
    ∃ N, Serial C.norm Library.empty ((writersIn es as).map (fun k => saidIn k es as)) N ∧
      Holdings C (run C IC es (World.start db)).2.store.db N := by
  obtain ⟨g, ht⟩ := told (C := C) IC hdb es hb.1 hb.2
  rw [← has] at ht
  unfold Undisturbed at hun
  rw [← has] at hun
  generalize (run C IC es (World.start db)).2 = w at ht hun ⊢
  have hcalm : Calm w g := by
    intro j k ho q hq hp r hr
    have hm : ∀ k q, q ∈ (g.tr k).recs → q.1 ∈ saidIn k es as := fun k q hq => by
      rw [← ht.log k]; exact List.mem_map.mpr ⟨q, hq, rfl⟩
    exact hun j k ho q.1 (hm k q hq) hp r.1 (hm j r hr)
  have hch := ht.kept.chain hcalm
  have hw : g.writers = writersIn es as := by
    unfold Ghost.writers writersIn
    rw [ht.commits]
    exact List.filter_congr (fun k _ => by rw [ht.log])
  rw [hw] at hch
  have hpl : ∀ t ∈ (writersIn es as).map (fun k => (g.tr k).recs), Placed C.norm w.store.db t := by
    intro t hm
    obtain ⟨k, hk, rfl⟩ := List.mem_map.mp hm
    have hk : k ∈ g.commits := by rw [ht.commits]; exact (List.mem_filter.mp hk).1
    obtain ⟨s, hs, -⟩ := ht.kept.commits k hk
    exact (ht.kept.sess k s hs).recs
  have := serial_byName ht.kept.names _ hpl hch
  rw [byName_init, List.map_map] at this
  refine ⟨_, ?_, ht.kept.holdings (Nat.le_refl _)⟩
  have e : (writersIn es as).map (fun k => saidIn k es as) = (writersIn es as).map ((fun t => t.map Prod.fst) ∘ fun k => (g.tr k).recs) :=
    List.map_congr_left (fun k _ => (ht.log k).symm)
  rw [e]
  exact this

theorem said_sub {l : List (Ev D)} {k : Nat} {q : Said D} (h : q ∈ saidIn k es (run C IC es w).1) :
    q ∈ saidIn k (es ++ l) (run C IC (es ++ l) w).1 := by
  rw [run_append]
  unfold saidIn at h ⊢
  rw [List.zip_append (run_length C IC es w).symm, List.filterMap_append]
  exact List.mem_append_left _ h

theorem undisturbed_left {l : List (Ev D)} (h : Undisturbed C IC (es ++ l) w) : Undisturbed C IC es w := by
  intro j k ho q hq hp r hr
  refine h j k ?_ q (said_sub hq) hp r (said_sub hr)
  obtain ⟨sj, sk, m, n, h1, h2, h3, h4, h5⟩ := ho
  have ha := run_after C IC l (run C IC es w).2
  have hkeep : ∀ (i : Nat) s n, (run C IC es w).2.sessions[i]? = some s → s.phase = .committed n → (run C IC (es ++ l) w).2.sessions[i]? = some s := by
    intro i s n hi hp
    obtain ⟨s', a1, -, -, a2⟩ := ha.sess i s hi
    rw [a2 (by rw [hp]; nofun)] at a1
    rw [run_append]; exact a1
  exact ⟨sj, sk, m, n, hkeep _ _ _ h1 h3, hkeep _ _ _ h2 h4, h3, h4, h5⟩

/-- C75: a read-only transaction has its place in that order too.  Its calls answer from the documents that the transactions
committed before it was begun have left, run one after the other. -/
theorem C75_readers {l₁ l₂ : List (Ev D)} {env : Env} (hdb : Blank db) (hb : Brief es) (hun : Undisturbed C IC es (World.start db))
    (he : es = l₁ ++ .begin env :: l₂) (hr : env.update = false)
    (k : Nat) (hk : k = (run C IC l₁ (World.start db)).2.sessions.length)
    (as : List (Answer D)) (has : as = (run C IC l₁ (World.start db)).1) :
    ∃ N, Serial C.norm Library.empty ((writersIn l₁ as).map (fun j => saidIn j l₁ as)) N ∧
      ∀ q ∈ saidIn k es (run C IC es (World.start db)).1,
        q.answer = (q.call.sem C.norm (N q.db q.coll)).1 ∨ (q.call.reads = false ∧ q.answer = .err .readOnlyTxn) := by
  obtain ⟨N, h1, -, h3⟩ := C75_snapshot hdb hb he k hk _ rfl
  have hb' : Brief l₁ := by
    refine ⟨?_, fun env hx => hb.2 env (by rw [he]; exact List.mem_append_left _ hx)⟩
    have := hb.1
    rw [he, List.length_append] at this
    omega
  rw [he] at hun
  obtain ⟨N', h4, h5⟩ := C75_serializable hdb hb' (undisturbed_left hun) as has
  refine ⟨N', h4, fun q hq => ?_⟩
  have hq0 : q.db = [] := by
    obtain ⟨x, -, hx⟩ := List.mem_filterMap.mp hq
    unfold saidOf at hx
    repeat' split at hx
    all_goals first | cases hx; done | (cases hx; rfl)
  have := h3 hr q hq
  rw [hq0, holdings_unique h1 h5] at this
  rw [hq0]
  exact this

/-- C75: InsertOne never gives the same id twice for a collection, whichever object or process is asked, and whatever is
closed, crashes or is refused in between. -/
theorem C75_ids (hdb : Blank db) (hb : Brief es) (name : Bytes) : (idsIn name es (run C IC es (World.start db)).1).Nodup := by
  obtain ⟨g, ht⟩ := told (C := C) IC hdb es hb.1 hb.2
  exact ht.nodup name

/-! ### Names -/

/-- C75: a collection name has one number, once and for all, and no other name has it. -/
theorem C75_names (hdb : Blank db) (hb : Brief es) :
    (∀ l₁ l₂, es = l₁ ++ l₂ → ∀ name x, numberOf (run C IC l₁ (World.start db)).2.store.db name = some x →
      numberOf (run C IC es (World.start db)).2.store.db name = some x) ∧
    ∀ name name' x, numberOf (run C IC es (World.start db)).2.store.db name = some x →
      numberOf (run C IC es (World.start db)).2.store.db name' = some x → name = name' := by
  obtain ⟨g, ht⟩ := told (C := C) IC hdb es hb.1 hb.2
  refine ⟨fun l₁ l₂ he name x hx => ?_, fun name name' x => ht.kept.names.one⟩
  have ha := run_after C IC l₂ (run C IC l₁ (World.start db)).2
  rw [show (run C IC l₂ (run C IC l₁ (World.start db)).2).2 = (run C IC es (World.start db)).2 by rw [he, run_append]] at ha
  rw [Store.db, ← ha.store.data _ (Nat.le_refl _)] at hx
  exact ht.kept.number ha.store.now hx

/-- C75: all Collection objects of a name, in whatever DB object and process, are of the collection with the number stored for the
name, so two of them are of the same collection exactly if they have the same name. -/
theorem C75_handles (hdb : Blank db) (hb : Brief es) (i j : Nat) (o o' : Obj) (name name' : Bytes) (cl cl' : Coll)
    (ho : (run C IC es (World.start db)).2.obj i = some o) (hc : o.colls.get name = some cl)
    (ho' : (run C IC es (World.start db)).2.obj j = some o') (hc' : o'.colls.get name' = some cl') :
    numberOf (run C IC es (World.start db)).2.store.db name = some cl.cid ∧ (cl.cid = cl'.cid ↔ name = name') := by
  obtain ⟨g, ht⟩ := told (C := C) IC hdb es hb.1 hb.2
  have h1 := ((ht.kept.objs i o ho).colls name cl hc).1
  have h2 := ((ht.kept.objs j o' ho').colls name' cl' hc').1
  refine ⟨h1, fun h => ?_, fun h => ?_⟩
  · rw [← h] at h2
    exact ht.kept.names.one h1 h2
  · subst h
    rw [h1] at h2
    exact Option.some.inj h2

/-- C75: Collection refuses the empty name and the names of the package's own two counters, without doing anything; no Collection
object has such a name, so the ids of a collection come from a counter that serves nothing else. -/
theorem C75_proper {name : Bytes} (hn : name = [] ∨ reserved name = true) :
    (∀ w i how v env c, (World.step C IC w (.lookup i name how v env c)).2 = w ∧
      (World.step C IC w (.lookup i name how v env c)).1.failed = true) ∧
    ∀ (i : Nat) (o : Obj), (run C IC es (World.start db)).2.obj i = some o → o.colls.get name = none := by
  refine ⟨fun w i how v env c => ?_, fun i o ho => ?_⟩
  · simp only [World.step]
    split
    · exact ⟨rfl, rfl⟩
    · split
      · unfold World.lookup
        by_cases h : name = []
        · rw [if_pos h]; exact ⟨rfl, rfl⟩
        · rw [if_neg h, if_pos (hn.resolve_left h)]; exact ⟨rfl, rfl⟩
      · exact ⟨rfl, rfl⟩
  · cases hc : o.colls.get name with
    | none => rfl
    | some cl =>
      have h0 : AllProper (World.start db) := fun j o ho => by simp [World.start, World.obj] at ho
      obtain ⟨h1, h2⟩ := (h0.run es i o ho).colls name cl hc
      rcases hn with hn | hn
      · exact absurd hn h1
      · rw [h2] at hn; cases hn

/-! ### Close -/

/-- C75: when Close has returned, nothing that is done on the object has any effect: no call of it is still under way, and
every new one fails.  (A call of Collection that began before Close may still return an object made earlier.) -/
theorem C75_closed {l₁ l₂ : List (Ev D)} {i : Nat} {env : Env} {e : Ev D}
    (ha : ((run C IC l₁ w).2.step C IC (.closed i env)).1 = .closed) (w' : World) (hw : w' = (run C IC (l₁ ++ .closed i env :: l₂) w).2)
    (he : callOf w' i e) : (w'.step C IC e).2 = w' ∧
      ((w'.step C IC e).1.failed = true ∨ ∃ name how v env c, e = .lookup i name how v env c ∧ how ≠ .usual) := by
  have h := (shut_closed (C := C) (IC := IC) (w' := ((run C IC l₁ w).2.step C IC (.closed i env)).2) rfl ha).run (C := C) (IC := IC) l₂
  rw [run_append] at hw
  rw [← show w' = (run C IC l₂ ((run C IC l₁ w).2.step C IC (.closed i env)).2).2 from hw] at h
  exact h.call e he

/-! ### A call without a transaction -/

theorem clash_now (S : Store) (ks : List Bytes) : S.clash ks S.now = false := by
  unfold Store.clash
  rw [List.any_eq_false]
  intro n hn
  have := List.mem_range.mp hn
  rw [decide_eq_false (by omega)]; simp

/-- C75: a call without a transaction (C41, C42) is NewTransaction, the call and Commit. -/
theorem C75_alone {i : Nat} {name : Bytes} {ob : Obj} {cl : Coll} {o : Domain.Op D} {env : Env} {fail : Option Err} {x : Unit}
    (ho : w.obj i = some ob) (hc : ob.colls.get name = some cl) (hst : ob.st = .open) (hm : o.marshal C = .ok x) (hl : listsAll o = false)
    (w' : World) (k : Nat) (hk : k = w.sessions.length) (as : List (Answer D))
    (h : run C IC [.begin { env with update := updates false (o.at cl.cid) }, .op k i name o .usual] w = (as, w')) :
    ∃ r, as = [.none, .out r] ∧ w'.store = w.store ∧
      auto false C (o.at cl.cid) env fail w.store.db =
        if updates false (o.at cl.cid) = true then match r with
          | .ok y => (match (w'.step C IC (.commit k fail)).1 with
              | .committed (.ok _) => .ok y
              | .committed (.err e) => .err e
              | _ => .panic, (w'.step C IC (.commit k fail)).2.store.db)
          | .err e => (.err e, w.store.db)
          | .panic => (.panic, w.store.db)
        else (r, w.store.db) := by
  generalize hu : updates false (o.at cl.cid) = u at h ⊢
  have hcall : (World.call { w with sessions := w.sessions ++ [⟨Txn.start { env with update := u } w.store.db, w.store.now, .live⟩] } i name .usual)
      = some (ob, cl, .ok ()) := by
    unfold World.call
    rw [show World.obj { w with sessions := w.sessions ++ [⟨Txn.start { env with update := u } w.store.db, w.store.now, .live⟩] } i = some ob from ho]
    simp only [hc, hst, enter, checkState]
  have hget : (w.sessions ++ [⟨Txn.start { env with update := u } w.store.db, w.store.now, .live⟩])[k]? =
      some ⟨Txn.start { env with update := u } w.store.db, w.store.now, .live⟩ := by
    rw [hk, List.getElem?_append_right (Nat.le_refl _), Nat.sub_self]; rfl
  simp only [run, World.step, hget, hcall, hm, hl, and_self, if_true] at h
  cases h
  refine ⟨_, rfl, rfl, ?_⟩
  unfold auto
  rw [hu]
  have hset : ∀ s : Session, ((w.sessions ++ [(⟨Txn.start { env with update := u } w.store.db, w.store.now, .live⟩ : Session)]).set k s)[k]? = some s := by
    intro s
    rw [List.getElem?_set_self (by rw [hk]; simp)]
  cases u with
  | false => rfl
  | true =>
    generalize hz : World.step C IC (World.putSession _ k _) (.commit k fail) = z
    have hz1 : z.1 = .committed (w.store.commit ((exec C (o.at cl.cid)).run (Txn.start { env with update := true } w.store.db)).2 w.store.now fail).1 ∧
        z.2.store = (w.store.commit ((exec C (o.at cl.cid)).run (Txn.start { env with update := true } w.store.db)).2 w.store.now fail).2 := by
      rw [← hz]
      simp only [World.step, World.putSession, hset, if_true, and_self]
    clear hz
    obtain ⟨a, w''⟩ := z
    obtain ⟨rfl, hw''⟩ := hz1
    simp only at hw''
    simp only [hw'']
    unfold Util.runInNewUpdateTxn Util.body
    cases hr : (exec C (o.at cl.cid)).run (Txn.start { env with update := true } w.store.db) with
    | mk r t =>
      cases r with
      | err e => rfl
      | panic => rfl
      | ok y =>
        simp only
        have hcm : w.store.commit t w.store.now fail = match t.commit fail w.store.db with
            | (.ok _, db) => (.ok (), if t.writes = [] then w.store else w.store.push db (t.writes.map Prod.fst))
            | (.err e, _) => (.err e, w.store)
            | (.panic, _) => (.panic, w.store) := by
          unfold Store.commit
          rw [clash_now]
          rfl
        simp only [hcm]
        cases hw : t.commit fail w.store.db with
        | mk q db' =>
          have hdb : t.writes = [] → db' = w.store.db := by
            intro hx
            unfold Txn.commit at hw
            rw [if_pos hx] at hw
            cases hw; rfl
          have herr : (∀ x, q ≠ .ok x) → db' = w.store.db := by
            intro hx
            unfold Txn.commit at hw
            split at hw
            · cases hw; exact absurd rfl (hx _)
            · split at hw
              · cases hw; rfl
              · cases hw; exact absurd rfl (hx _)
          cases q with
          | ok _ =>
            simp only
            by_cases hx : t.writes = []
            · rw [hdb hx, if_pos hx]; rfl
            · rw [if_neg hx, db_push]; rfl
          | err e => simp only; rw [herr nofun]; rfl
          | panic => simp only; rw [herr nofun]; rfl

end Mondis.DocDB
