import Verif.Lemmas.DomainChain
import Verif.Props.DomainExamples
/-!
# C73: transactions as if one after the other
-/
namespace Mondis.Props
open Mondis Prog Spec Schema Doc Domain Ddl

variable {D : Type} {norm : D → Res D} {J : Json} {C : Codec D} {K : Nat} {db : DB}

/-- `N` are the documents in this database: what is stored under the number that a process loading the schema now finds for a
collection. -/
def Holdings (J : Json) (C : Codec D) (db : DB) (N : Library D) : Prop :=
  ∃ A : Docs D, HoldsDocs C A db ∧ ∀ env, ∃ c, freshLoad J env db = .ok c ∧
    ∀ name coll, N name coll = match MetaCache.collectionInfo c name coll with
      | some ci => A ci.id
      | none => IMap.empty

/-- Documents by number under the names of their collections. -/
def named (dbs : List DBInfo) (A : Docs D) : Library D := fun d c =>
  match collectionIn dbs (some dbs.length) d c with
  | some x => A x
  | none => IMap.empty

theorem named_init (dbs : List DBInfo) : named dbs (Docs.init : Docs D) = Library.empty := by
  funext d c
  unfold named
  split <;> rfl

theorem library_upd_same (N : Library D) (d c : Bytes) : N.upd d c (N d c) = N := by
  funext d' c'
  unfold Library.upd
  split
  · rename_i h; rw [h.1, h.2]
  · rfl

theorem named_upd {A : DState} (hs : A.Sane) {d c : Bytes} {x : Int64} (hx : collectionIn A.dbs (some A.dbs.length) d c = some x) (B : Docs D) (s : IMap D) :
    (named A.dbs B).upd d c s = named A.dbs (B.upd x s) := by
  funext d' c'
  unfold Library.upd named Docs.upd
  by_cases h : d' = d ∧ c' = c
  · rw [if_pos h, h.1, h.2, hx]
    exact (if_pos rfl).symm
  · rw [if_neg h]
    cases hy : collectionIn A.dbs (some A.dbs.length) d' c' with
    | none => rfl
    | some y =>
      have : y ≠ x := by
        rintro rfl
        exact h (collectionIn_inj hs hy hx)
      exact (if_neg this).symm

theorem play_named {A : DState} (hs : A.Sane) (l : List (Rec D))
    (h : ∀ q ∈ l, (∀ x, q.2 = some x → collectionIn A.dbs (some A.dbs.length) q.1.db q.1.coll = some x) ∧
      (q.2 = none → (∀ s, q.1.call.sem norm s = (q.1.answer, s)) ∧ q.1.wrote = false)) (B : Docs D) :
    Spec.play norm (named A.dbs B) (l.map Prod.fst) = ((reruns norm B l).1, named A.dbs (reruns norm B l).2) := by
  induction l generalizing B with
  | nil => rfl
  | cons q l ih =>
    have ih := ih (fun q hq => h q (List.mem_cons_of_mem _ hq))
    obtain ⟨h1, h2⟩ := h q List.mem_cons_self
    simp only [List.map_cons, Spec.play, reruns]
    cases hq : q.2 with
    | none =>
      obtain ⟨h3, -⟩ := h2 hq
      rw [h3]
      simp only
      rw [library_upd_same, ih]
      simp only [rerun, hq]
    | some x =>
      have hx := h1 x hq
      have hn : named A.dbs B q.1.db q.1.coll = B x := by unfold named; rw [hx]
      rw [hn, named_upd hs hx, ih]
      simp only [rerun, hq]

theorem holdings_of {S : Site D} {w : Domain.World} (h : Match J C K (2 ^ 62) S w) : Holdings J C w.ddl.db (named S.proc.state.dbs S.docs) := by
  refine ⟨S.docs, h.docs, fun env => ?_⟩
  obtain ⟨c, h1, h2⟩ := h.freshLoad (by omega) env
  refine ⟨c, h1, fun name coll => ?_⟩
  have h3 := h2.collection name coll
  have h4 : collectionIn S.proc.state.dbs (if S.proc.state.dbs.length = 0 then none else some S.proc.state.dbs.length) name coll =
      collectionIn S.proc.state.dbs (some S.proc.state.dbs.length) name coll := by
    split
    · rename_i h0
      rw [List.length_eq_zero_iff.mp h0]
      rfl
    · rfl
  rw [h4] at h3
  unfold named
  rw [← h3]
  cases MetaCache.collectionInfo c name coll <;> rfl

variable {es : List (Domain.Ev D)}

theorem course_snapshot {R : Tape D} {es : List (Domain.Ev D)} {as : List (Domain.Answer D)} {S : Site D} {w : Domain.World} {g : Ghost D}
    (hc : Course J C K R es as S w g) {k : Nat} {l₁ l₂ : List (Domain.Ev D)} {s₀ : Session} (he : es = l₁ ++ .snapshot k :: l₂)
    (hs : (R l₁).2.session k = some s₀) (hf : s₀.phase = .fresh) (ts : List (Said D)) (hts : ts = saidIn k es as) :
    ∃ N, Holdings J C (R l₁).2.ddl.db N ∧
      (s₀.txn.update = true → (Spec.play C.norm N ts).1 = ts.map (·.answer)) ∧
      (s₀.txn.update = false → ∀ q ∈ ts, q.answer = (q.call.sem C.norm (N q.db q.coll)).1 ∨
        (q.call.reads = false ∧ q.answer = .err .readOnlyTxn)) := by
  obtain ⟨⟨S₁, m1, m2, m3⟩, hu, -, -⟩ := hc.since k l₁ l₂ s₀ he hs hf
  have hlog := hc.log k
  rw [← hts] at hlog
  have hids := hc.ids k
  rw [m3] at hids
  obtain ⟨t1, t2⟩ := hc.told k
  rw [m2] at t1 t2
  refine ⟨_, holdings_of m1, fun hx => ?_, fun hx q hq => ?_⟩
  · rw [← hlog, play_named m1.serves.sane _ hids]
    simp only
    rw [t1 (hu.trans hx)]
    simp [answersOf]
  · rw [← hlog] at hq
    obtain ⟨r, hr, rfl⟩ := List.mem_map.mp hq
    obtain ⟨h1, h2⟩ := hids r hr
    rcases t2 (hu.trans hx) r hr with h3 | h3
    · left
      cases hr2 : r.2 with
      | none => rw [(h2 hr2).1]
      | some x =>
        simp only [rerun, hr2] at h3
        rw [h3]
        unfold named
        rw [h1 x hr2]
    · exact .inr h3

/-- C73: every transaction has one snapshot.  What its calls answer is what they answer when run one after the other, with
nothing else happening, on the documents stored when it took its snapshot; in a read-only transaction a call that would write
is refused, and every other one answers from those documents. -/
theorem C73_snapshot {k : Nat} {l₁ l₂ : List (Domain.Ev D)} {s₀ : Session} (hdb : Fresh Sequence.metaPrefix db) (hd : NoDocs db)
    (hb : DomainBrief K es) (he : es = l₁ ++ .snapshot k :: l₂)
    (hs : (Domain.run J C l₁ { ddl := { db := db } }).2.session k = some s₀) (hf : s₀.phase = .fresh)
    (ts : List (Said D)) (hts : ts = saidIn k es (Domain.run J C es { ddl := { db := db } }).1) :
    ∃ N, Holdings J C (Domain.run J C l₁ { ddl := { db := db } }).2.ddl.db N ∧
      (s₀.txn.update = true → (Spec.play C.norm N ts).1 = ts.map (·.answer)) ∧
      (s₀.txn.update = false → ∀ q ∈ ts, q.answer = (q.call.sem C.norm (N q.db q.coll)).1 ∨
        (q.call.reads = false ∧ q.answer = .err .readOnlyTxn)) := by
  obtain ⟨S, g, hc⟩ := run_course J C hdb hd hb
  exact course_snapshot hc he hs hf ts hts

theorem serial_of_chain {A : DState} (hs : A.Sane) {B B' : Docs D} (l : List (List (Rec D)))
    (h : ∀ t ∈ l, ∀ q ∈ t, (∀ x, q.2 = some x → collectionIn A.dbs (some A.dbs.length) q.1.db q.1.coll = some x) ∧
      (q.2 = none → (∀ s, q.1.call.sem norm s = (q.1.answer, s)) ∧ q.1.wrote = false)) (hc : Chain norm B l B') :
    Serial norm (named A.dbs B) (l.map (fun t => t.map Prod.fst)) (named A.dbs B') := by
  induction l generalizing B with
  | nil => rw [show B' = B from hc]; rfl
  | cons t l ih =>
    obtain ⟨h1, h2⟩ := hc
    have hp := play_named hs t (h t List.mem_cons_self) B
    refine ⟨?_, ?_⟩
    · rw [hp]
      simp only
      rw [h1]
      simp [answersOf]
    · rw [hp]
      exact ih (fun t ht => h t (List.mem_cons_of_mem _ ht)) h2

theorem course_serial {R : Tape D} {es : List (Domain.Ev D)} {as : List (Domain.Answer D)} {S : Site D} {w : Domain.World} {g : Ghost D}
    (hc : Course J C K R es as S w g) (hdet : DetectsOn J C R es) (hun : UndisturbedOn J C R es) :
    ∃ N, Serial C.norm Library.empty ((writersIn es as).map (fun k => saidIn k es as)) N ∧ Holdings J C w.ddl.db N := by
  have hch := hc.chain hdet hun
  refine ⟨_, ?_, holdings_of hc.matches⟩
  rw [← named_init S.proc.state.dbs]
  have := serial_of_chain hc.matches.serves.sane _ ?_ hch
  · rw [List.map_map] at this
    have e : (writersIn es as).map (fun k => saidIn k es as) = (writersIn es as).map ((fun t => t.map Prod.fst) ∘ fun k => (g k).recs) :=
      List.map_congr_left (fun k _ => (hc.log k).symm)
    rw [e]
    exact this
  · intro t ht q hq
    obtain ⟨k, -, rfl⟩ := List.mem_map.mp ht
    obtain ⟨h1, h2⟩ := hc.ids k q hq
    obtain ⟨l, hl⟩ := hc.dbs k
    refine ⟨fun x hx => ?_, h2⟩
    rw [hl]
    exact collectionIn_all (h1 x hx)

/-- C73: transactions that wrote something are serializable, in the order of their commits.  Run one after the other in that
order, from no documents, with nothing else happening, their calls answer what they answered, and what is stored afterwards
is what is stored.  It is assumed that the engine detects conflicts, and that no such transaction has listed, counted or
emptied a collection to which another one, committed in the meantime, has written. -/
theorem C73_serializable (hdb : Fresh Sequence.metaPrefix db) (hd : NoDocs db) (hb : DomainBrief K es)
    (hdet : Detects J C es { ddl := { db := db } }) (hun : Undisturbed J C es { ddl := { db := db } })
    (as : List (Domain.Answer D)) (has : as = (Domain.run J C es { ddl := { db := db } }).1) :
    ∃ N, Serial C.norm Library.empty ((writersIn es as).map (fun k => saidIn k es as)) N ∧
      Holdings J C (Domain.run J C es { ddl := { db := db } }).2.ddl.db N := by
  obtain ⟨S, g, hc⟩ := run_course J C hdb hd hb
  rw [← has] at hc
  exact course_serial hc hdet hun

/-- The documents of a database are determined by it. -/
theorem holdings_unique {db : DB} {N N' : Library D} (h : Holdings J C db N) (h' : Holdings J C db N') : N = N' := by
  obtain ⟨A, ha, hn⟩ := h
  obtain ⟨A', ha', hn'⟩ := h'
  have hAA : A = A' := by
    funext x
    refine IMap.ext (fun i => ?_)
    have h1 := ha.rep.docs x i
    have h2 := ha'.rep.docs x i
    cases e1 : (A x).get i <;> cases e2 : (A' x).get i <;> cases e3 : db.get (documentKey x i) <;>
      simp only [e1, e2, e3, Shows] at h1 h2 <;> first | rfl | cases h1 | cases h2 | skip
    rw [h1] at h2
    cases h2; rfl
  subst hAA
  obtain ⟨c, hc, h1⟩ := hn plainEnv
  obtain ⟨c', hc', h2⟩ := hn' plainEnv
  rw [hc] at hc'
  cases hc'
  funext d c
  rw [h1, h2]

/-- C73: a read-only transaction has its place in that order too.  Its calls answer from the documents that the transactions
committed before its snapshot have left, run one after the other. -/
theorem C73_readers {k : Nat} {l₁ l₂ : List (Domain.Ev D)} {s₀ : Session} (hdb : Fresh Sequence.metaPrefix db) (hd : NoDocs db)
    (hb : DomainBrief K es) (hdet : Detects J C es { ddl := { db := db } }) (hun : Undisturbed J C es { ddl := { db := db } })
    (he : es = l₁ ++ .snapshot k :: l₂)
    (hs : (Domain.run J C l₁ { ddl := { db := db } }).2.session k = some s₀) (hf : s₀.phase = .fresh) (hr : s₀.txn.update = false)
    (as : List (Domain.Answer D)) (has : as = (Domain.run J C l₁ { ddl := { db := db } }).1) :
    ∃ N, Serial C.norm Library.empty ((writersIn l₁ as).map (fun j => saidIn j l₁ as)) N ∧
      ∀ q ∈ saidIn k es (Domain.run J C es { ddl := { db := db } }).1,
        q.answer = (q.call.sem C.norm (N q.db q.coll)).1 ∨ (q.call.reads = false ∧ q.answer = .err .readOnlyTxn) := by
  obtain ⟨N, h1, -, h3⟩ := C73_snapshot hdb hd hb he hs hf _ rfl
  subst he
  obtain ⟨N', h4, h5⟩ := C73_serializable hdb hd (DomainBrief.left hb) (detects_left (R := tapeOf J C _) hdet)
    (undisturbed_left (R := tapeOf J C _) (by show (Domain.run J C _ _).1 = _; rw [drun_append]; rfl) (drun_length J C _ _) hun) as has
  cases holdings_unique h1 h5
  exact ⟨N, h4, h3 hr⟩

/-! ## Cases -/

/-- The places of an overlap in a history. -/
def places (es : List (Domain.Ev D)) : List (Nat × Nat × Nat × Nat × Nat) :=
  (List.range es.length).flatMap (fun n₁ => match (es[n₁]? : Option (Domain.Ev D)) with
    | some (Domain.Ev.snapshot k) => (List.range es.length).flatMap (fun n₃ => match (es[n₃]? : Option (Domain.Ev D)) with
      | some (Domain.Ev.finish k' _) => if k' = k then (List.range n₃).filterMap (fun n₂ => match (es[n₂]? : Option (Domain.Ev D)) with
          | some (Domain.Ev.finish j _) => if n₁ < n₂ then some (n₁, n₂, n₃, j, k) else none
          | _ => none) else []
      | _ => [])
    | _ => [])

theorem overlap_places {R : Tape D} {j k : Nat} {sj sk : Session} (h : OverlapOn J C R es j k sj sk) :
    ∃ n₁ n₂ n₃, (n₁, n₂, n₃, j, k) ∈ places es ∧ (R (es.take n₂)).2.session j = some sj ∧
      (R (es.take n₃)).2.session k = some sk := by
  obtain ⟨l₁, l₂, f, l₃, g, l₄, s₀, h1, h2, h3, h4, h5, h6, h7⟩ := h
  have e2 : es.take (l₁.length + 1 + l₂.length) = l₁ ++ .snapshot k :: l₂ := by
    rw [h1, show l₁ ++ .snapshot k :: (l₂ ++ .finish j f :: (l₃ ++ .finish k g :: l₄)) =
      (l₁ ++ .snapshot k :: l₂) ++ .finish j f :: (l₃ ++ .finish k g :: l₄) by simp]
    rw [List.take_append_of_le_length (by simp; omega), List.take_of_length_le (by simp; omega)]
  have e3 : es.take (l₁.length + 1 + l₂.length + 1 + l₃.length) = l₁ ++ .snapshot k :: (l₂ ++ .finish j f :: l₃) := by
    rw [h1, show l₁ ++ .snapshot k :: (l₂ ++ .finish j f :: (l₃ ++ .finish k g :: l₄)) =
      (l₁ ++ .snapshot k :: (l₂ ++ .finish j f :: l₃)) ++ .finish k g :: l₄ by simp]
    rw [List.take_append_of_le_length (by simp; omega), List.take_of_length_le (by simp; omega)]
  have g1 : es[l₁.length]? = some (.snapshot k) := by rw [h1]; simp
  have g2 : es[l₁.length + 1 + l₂.length]? = some (.finish j f) := by
    rw [h1, show l₁ ++ .snapshot k :: (l₂ ++ .finish j f :: (l₃ ++ .finish k g :: l₄)) =
      (l₁ ++ .snapshot k :: l₂) ++ .finish j f :: (l₃ ++ .finish k g :: l₄) by simp]
    rw [List.getElem?_append_right (by simp; omega)]
    have : l₁.length + 1 + l₂.length - (l₁ ++ Ev.snapshot k :: l₂).length = 0 := by simp; omega
    rw [this]; rfl
  have g3 : es[l₁.length + 1 + l₂.length + 1 + l₃.length]? = some (.finish k g) := by
    rw [h1, show l₁ ++ .snapshot k :: (l₂ ++ .finish j f :: (l₃ ++ .finish k g :: l₄)) =
      (l₁ ++ .snapshot k :: (l₂ ++ .finish j f :: l₃)) ++ .finish k g :: l₄ by simp]
    rw [List.getElem?_append_right (by simp; omega)]
    have : l₁.length + 1 + l₂.length + 1 + l₃.length - (l₁ ++ Ev.snapshot k :: (l₂ ++ Ev.finish j f :: l₃)).length = 0 := by simp; omega
    rw [this]; rfl
  have hlt : ∀ {n : Nat} {e : Domain.Ev D}, es[n]? = some e → n < es.length := by
    intro n e h
    exact (List.getElem?_eq_some_iff.mp h).1
  refine ⟨l₁.length, l₁.length + 1 + l₂.length, l₁.length + 1 + l₂.length + 1 + l₃.length, ?_, by rw [e2]; exact h4, by rw [e3]; exact h6⟩
  unfold places
  refine List.mem_flatMap.mpr ⟨_, List.mem_range.mpr (hlt g1), ?_⟩
  rw [g1]
  refine List.mem_flatMap.mpr ⟨_, List.mem_range.mpr (hlt g3), ?_⟩
  rw [g3]
  simp only [if_true]
  refine List.mem_filterMap.mpr ⟨l₁.length + 1 + l₂.length, List.mem_range.mpr (by omega), ?_⟩
  rw [g2]
  simp only
  rw [if_pos (by omega)]

/-- What `Detects` asks of one overlap. -/
def clash (sj sk : Option Session) : Bool :=
  match sj, sk with
  | some sj, some sk => !sk.txn.kv.writes.isEmpty && sk.txn.kv.reads.any (fun x => sj.txn.kv.writes.any (fun p => decide (p.1 = x)))
  | _, _ => false

theorem detectsOn_of {R : Tape D}
    (h : (places es).all (fun p => !clash ((R (es.take p.2.1)).2.session p.2.2.2.1) ((R (es.take p.2.2.1)).2.session p.2.2.2.2)) = true) :
    DetectsOn J C R es := by
  intro j k sj sk ho hw x hx hm
  obtain ⟨n₁, n₂, n₃, h1, h2, h3⟩ := overlap_places ho
  have := List.all_eq_true.mp h _ h1
  simp only at this
  rw [h2, h3] at this
  obtain ⟨p, hp, rfl⟩ := List.mem_map.mp hm
  simp only [clash, Bool.not_eq_true', Bool.and_eq_false_iff, Bool.not_eq_false'] at this
  rcases this with this | this
  · exact hw (List.isEmpty_iff.mp this)
  · have := List.any_eq_false.mp this p.1 hx
    exact this (List.any_eq_true.mpr ⟨p, hp, decide_eq_true rfl⟩)

theorem detects_of {w : Domain.World}
    (h : (places es).all (fun p => !clash ((Domain.run J C (es.take p.2.1) w).2.session p.2.2.2.1)
      ((Domain.run J C (es.take p.2.2.1) w).2.session p.2.2.2.2)) = true) : Detects J C es w :=
  detectsOn_of (R := tapeOf J C w) h

/-- What `Undisturbed` asks of one overlap. -/
def disturbed (tj tk : List (Said D)) : Bool :=
  tk.any Said.wrote && tk.any (fun q => !q.call.point && tj.any (fun r => r.wrote && decide (r.db = q.db ∧ r.coll = q.coll)))

theorem undisturbedOn_of {R : Tape D}
    (h : (places es).all (fun p => !disturbed (saidIn p.2.2.2.1 es (R es).1) (saidIn p.2.2.2.2 es (R es).1)) = true) :
    UndisturbedOn J C R es := by
  intro j k sj sk ho hw q hq hp r hr hrw he
  obtain ⟨n₁, n₂, n₃, h1, -, -⟩ := overlap_places ho
  have := List.all_eq_true.mp h _ h1
  simp only [disturbed, Bool.not_eq_true', Bool.and_eq_false_iff] at this
  rcases this with this | this
  · rw [hw] at this; cases this
  · have := List.any_eq_false.mp this q hq
    refine this ?_
    rw [hp]
    exact List.any_eq_true.mpr ⟨r, hr, by rw [hrw]; exact decide_eq_true he⟩

theorem undisturbed_of {w : Domain.World}
    (h : (places es).all (fun p => !disturbed (saidIn p.2.2.2.1 es (Domain.run J C es w).1) (saidIn p.2.2.2.2 es (Domain.run J C es w).1)) = true) :
    Undisturbed J C es w :=
  undisturbedOn_of (R := tapeOf J C w) h

set_option maxRecDepth 100000

/-- Two transactions at the same time: one looks for document 9 of "y" and inserts it; the other counts "x", inserts into "y"
and stores document 3 of "x", and commits first. -/
def together : List (Domain.Ev Bytes) :=
  opened ++ refresh ++ [.begin true plainEnv, .begin true plainEnv, .snapshot 1, .snapshot 2, .op 1 nameA nameY (.getOne 9) true,
    .op 1 nameA nameY (.insertManaged 9 [5]) true, .op 2 nameA nameX .count true, .insert 2 nameA nameY [0, 6] true quiet,
    .op 2 nameA nameX (.upsert 3 [7]) true, .commit 1, .commit 2, .finish 2 none, .finish 1 none]

theorem together_brief : DomainBrief 2 together := by
  refine ⟨fits_append (fits_append opened_fits refresh_fits) ?_, by decide⟩
  intro e he
  simp only [List.mem_cons, List.not_mem_nil, or_false] at he
  rcases he with rfl | rfl | rfl | rfl | rfl | rfl | rfl | rfl | rfl | rfl | rfl | rfl | rfl <;> first | trivial | exact roomy

/-- There is an overlap, both have written, and one has read. -/
example : places together = [(12, 21, 22, 2, 1)] ∧ writersIn together (told together) = [2, 1] ∧
    ((saidIn 1 together (told together)).map (·.answer)) = [.err errDocNotFound, .ok .unit] := by
  refine ⟨by decide +kernel, by decide +kernel, by decide +kernel⟩

example : ∃ N, Serial demoCodec.norm Library.empty ((writersIn together (told together)).map (fun k => saidIn k together (told together))) N ∧
    Holdings plainJson demoCodec (world together).ddl.db N :=
  C73_serializable (K := 2) freshDB noDocs together_brief (detects_of (by decide +kernel)) (undisturbed_of (by decide +kernel)) _ rfl

/-- The snapshot of transaction 1 in `together`: it is fresh when it takes it. -/
example : ∃ N, Holdings plainJson demoCodec (world (together.take 12)).ddl.db N ∧
    (Spec.play demoCodec.norm N (saidIn 1 together (told together))).1 = [.err errDocNotFound, .ok .unit] := by
  have h0 : ((world (together.take 12)).session 1).map (fun s => (s.phase, s.txn.update)) = some (.fresh, true) := by decide +kernel
  cases hs : (world (together.take 12)).session 1 with
  | none => rw [hs] at h0; cases h0
  | some s₀ =>
    rw [hs] at h0
    have h1 : s₀.phase = .fresh ∧ s₀.txn.update = true := by
      have := Option.some.inj h0
      exact ⟨congrArg Prod.fst this, congrArg Prod.snd this⟩
    obtain ⟨N, a1, a2, -⟩ := C73_snapshot (J := plainJson) (C := demoCodec) (k := 1) (l₁ := together.take 12) (l₂ := together.drop 13)
      freshDB noDocs together_brief rfl hs h1.1 _ rfl
    refine ⟨N, a1, (a2 h1.2).trans ?_⟩
    show (saidIn 1 together (told together)).map (·.answer) = _
    decide +kernel

/-- A read-only transaction after the first of the two commits of `together`. -/
def reader : List (Domain.Ev Bytes) :=
  together.take 22 ++ [.begin false plainEnv, .snapshot 3, .finish 1 none, .op 3 nameA nameY (.getOne 9) true, .op 3 nameA nameX (.getOne 3) true,
    .op 3 nameA nameX (.upsert 3 [8]) true]

theorem reader_brief : DomainBrief 2 reader := by
  refine ⟨fits_append (fun e he => together_brief.1 e (List.mem_of_mem_take he)) ?_, by decide⟩
  intro e he
  simp only [List.mem_cons, List.not_mem_nil, or_false] at he
  rcases he with rfl | rfl | rfl | rfl | rfl | rfl <;> first | trivial | exact roomy

/-- It does not see what is committed after its snapshot, and may not write. -/
example : ((saidIn 3 reader (told reader)).map (·.answer)) = [.err errDocNotFound, .ok (.doc [7]), .err .readOnlyTxn] ∧
    ∃ N, Serial demoCodec.norm Library.empty ((writersIn (reader.take 23) (told (reader.take 23))).map
        (fun j => saidIn j (reader.take 23) (told (reader.take 23)))) N ∧
      ∀ q ∈ saidIn 3 reader (told reader),
        q.answer = (q.call.sem demoCodec.norm (N q.db q.coll)).1 ∨ (q.call.reads = false ∧ q.answer = .err .readOnlyTxn) := by
  have h0 : ((world (reader.take 23)).session 3).map (fun s => (s.phase, s.txn.update)) = some (.fresh, false) := by decide +kernel
  cases hs : (world (reader.take 23)).session 3 with
  | none => rw [hs] at h0; cases h0
  | some s₀ =>
    rw [hs] at h0
    have h1 : s₀.phase = .fresh ∧ s₀.txn.update = false := by
      have := Option.some.inj h0
      exact ⟨congrArg Prod.fst this, congrArg Prod.snd this⟩
    exact ⟨by decide +kernel, C73_readers (J := plainJson) (C := demoCodec) (k := 3) (l₁ := reader.take 23) (l₂ := reader.drop 24) freshDB noDocs
      reader_brief (detects_of (by decide +kernel)) (undisturbed_of (by decide +kernel)) rfl hs h1.1 h1.2 _ rfl⟩

/-- Two transactions count "x" at the same time, and each inserts a document of its own. -/
def phantoms : List (Domain.Ev Bytes) :=
  opened ++ refresh ++ [.begin true plainEnv, .begin true plainEnv, .snapshot 1, .snapshot 2, .op 1 nameA nameX .count true,
    .op 1 nameA nameX (.insertManaged 9 [5]) true, .op 2 nameA nameX .count true, .op 2 nameA nameX (.insertManaged 8 [5]) true,
    .commit 1, .commit 2, .finish 2 none, .finish 1 none]

theorem phantoms_brief : DomainBrief 2 phantoms := by
  refine ⟨fits_append (fits_append opened_fits refresh_fits) ?_, by decide⟩
  intro e he
  simp only [List.mem_cons, List.not_mem_nil, or_false] at he
  rcases he with rfl | rfl | rfl | rfl | rfl | rfl | rfl | rfl | rfl | rfl | rfl | rfl <;> first | trivial | exact roomy

/-- `Undisturbed` cannot be left out: both transactions of `phantoms` commit although the engine detects conflicts between
keys, and they could not have run one after the other, in either order. -/
example : Detects plainJson demoCodec phantoms { ddl := { db := OMap.empty } } ∧ writersIn phantoms (told phantoms) = [2, 1] ∧
    (∀ N, ¬ Serial demoCodec.norm Library.empty [saidIn 2 phantoms (told phantoms), saidIn 1 phantoms (told phantoms)] N) ∧
    (∀ N, ¬ Serial demoCodec.norm Library.empty [saidIn 1 phantoms (told phantoms), saidIn 2 phantoms (told phantoms)] N) := by
  refine ⟨detects_of (by decide +kernel), by decide +kernel, fun N h => ?_, fun N h => ?_⟩
  · exact absurd h.2.1 (by decide +kernel)
  · exact absurd h.2.1 (by decide +kernel)

/-- `Detects` cannot be left out: an engine that lets both transactions of this history commit loses an update. -/
def lost : List (Domain.Ev Bytes) :=
  opened ++ refresh ++ [.begin true plainEnv, .begin true plainEnv, .snapshot 1, .snapshot 2, .op 1 nameA nameX (.getOne 9) true,
    .op 1 nameA nameX (.upsert 9 [5]) true, .op 2 nameA nameX (.getOne 9) true, .op 2 nameA nameX (.upsert 9 [6]) true,
    .commit 1, .commit 2, .finish 2 none, .finish 1 none]

example : Undisturbed plainJson demoCodec lost { ddl := { db := OMap.empty } } ∧ writersIn lost (told lost) = [2, 1] ∧
    ∀ N, ¬ Serial demoCodec.norm Library.empty [saidIn 2 lost (told lost), saidIn 1 lost (told lost)] N := by
  refine ⟨undisturbed_of (by decide +kernel), by decide +kernel, fun N h => ?_⟩
  exact absurd h.2.1 (by decide +kernel)

end Mondis.Props
