import Verif.Lemmas.DomainIds
import Verif.Lemmas.DomainJobs
import Verif.Lemmas.DomainDuty
/-!
# Properties of a process serving documents

`Domain.run J C es { ddl := { db := db } }` is a history on a database with no metadata and no documents:
any interleaving of calls of package ddl, turns of the worker, reloads and publications of the schema,
operations in any number of transactions, commits that may be refused, crashes and restarts.
-/
namespace Mondis.Props
open Mondis Spec Schema Meta Ddl Domain Doc

variable {D : Type} {J : Json} {C : Codec D} {K : Nat} {db : DB}

theorem drun_append (J : Json) (C : Codec D) (es es' : List (Domain.Ev D)) (w : Domain.World) :
    Domain.run J C (es ++ es') w =
      ((Domain.run J C es w).1 ++ (Domain.run J C es' (Domain.run J C es w).2).1, (Domain.run J C es' (Domain.run J C es w).2).2) := by
  induction es generalizing w with
  | nil => rfl
  | cons e es ih => simp only [List.cons_append, Domain.run, ih]

theorem DomainBrief.left {es es' : List (Domain.Ev D)} (h : DomainBrief K (es ++ es')) : DomainBrief K es := by
  refine ⟨fun e he => h.1 e (List.mem_append_left _ he), Nat.lt_of_le_of_lt ?_ h.2⟩
  have : es.length ≤ (es ++ es').length := by simp
  exact Nat.mul_le_mul this (Nat.mul_le_mul_right _ (Nat.mul_le_mul_left _ (by omega)))

theorem drun_length (J : Json) (C : Codec D) (es : List (Domain.Ev D)) (w : Domain.World) : (Domain.run J C es w).1.length = es.length := by
  induction es generalizing w with
  | nil => rfl
  | cons e es ih => simp only [Domain.run, List.length_cons, ih]

theorem steps_append {norm : D → Res D} {S R : Site D} {es es' : List (Domain.Ev D)} {as as' : List (Domain.Answer D)}
    (h : S.Walks norm (es ++ es') (as ++ as') R) (hl : as.length = es.length) : ∃ Q, S.Walks norm es as Q ∧ Q.Walks norm es' as' R := by
  induction es generalizing S as with
  | nil => cases as with
    | nil => exact ⟨S, .nil, h⟩
    | cons _ _ => cases hl
  | cons e es ih => cases as with
    | nil => cases hl
    | cons a as =>
      cases h with
      | cons h1 h2 =>
        obtain ⟨Q, h3, h4⟩ := ih h2 (by simpa using hl)
        exact ⟨Q, .cons h1 h3, h4⟩

theorem steps_trans {norm : D → Res D} {S Q R : Site D} {es es' : List (Domain.Ev D)} {as as' : List (Domain.Answer D)}
    (h : S.Walks norm es as Q) (h' : Q.Walks norm es' as' R) : S.Walks norm (es ++ es') (as ++ as') R := by
  induction h with
  | nil => exact h'
  | cons a _ ih => exact .cons a (ih h')

/-- A history in two parts. -/
theorem run_match_two (J : Json) (C : Codec D) {es es' : List (Domain.Ev D)} (hdb : Fresh Sequence.metaPrefix db)
    (hd : NoDocs db) (hb : DomainBrief K (es ++ es')) :
    ∃ S R, Site.Walks C.norm {} es (Domain.run J C es { ddl := { db := db } }).1 S ∧
      Match J C K (2 ^ 62) S (Domain.run J C es { ddl := { db := db } }).2 ∧
      S.Walks C.norm es' (Domain.run J C es' (Domain.run J C es { ddl := { db := db } }).2).1 R ∧
      Match J C K (2 ^ 62) R (Domain.run J C es' (Domain.run J C es { ddl := { db := db } }).2).2 := by
  by_cases hpos : 1 ≤ (es ++ es').length
  · obtain ⟨b1, b2⟩ := domain_budget hb.2 hpos
    have b3 := hb.2
    have ek : (es ++ es').length * (K + 2) = es.length * (K + 2) + es'.length * (K + 2) := by
      rw [List.length_append, Nat.add_mul]
    have ec : (es ++ es').length * (4 * ((es ++ es').length + 1) * (K + 300)) =
        es.length * (4 * ((es ++ es').length + 1) * (K + 300)) + es'.length * (4 * ((es ++ es').length + 1) * (K + 300)) := by
      rw [← Nat.add_mul, ← List.length_append]
    rw [ec] at b3
    rw [ek] at b1 b2
    generalize 4 * ((es ++ es').length + 1) * (K + 300) = c at b1 b2 b3
    have s0 : (({} : Site D).proc.state.lastID) = 0 := rfl
    obtain ⟨S, h1, h2, h3⟩ := run_match_from J C c es (match_start J C K hdb hd) (fun e he => hb.1 e (List.mem_append_left _ he))
      (by omega) (by rw [s0]; omega) (by rw [s0]; omega)
    rw [s0] at h3
    obtain ⟨R, h4, h5, h6⟩ := run_match_from J C c es' h2 (fun e he => hb.1 e (List.mem_append_right _ he)) (by omega)
      (by omega) (by omega)
    exact ⟨S, R, h1.walks, h2.mono (by omega), h4.walks, h5.mono (by omega)⟩
  · have he : es = [] ∧ es' = [] := by
      cases es with
      | nil => cases es' with
        | nil => exact ⟨rfl, rfl⟩
        | cons _ _ => simp at hpos
      | cons _ _ => simp at hpos
    rw [he.1, he.2]
    have h := match_start J C K hdb hd
    exact ⟨{}, {}, .nil, h.mono (by omega), .nil, h.mono (by omega)⟩

/-! ## C72: the whole process -/

/-- C72: the answers of every history are those of the specification, and the documents stored in the end are the
specification's. -/
theorem C72_refines {es : List (Domain.Ev D)} (hdb : Fresh Sequence.metaPrefix db) (hd : NoDocs db) (hb : DomainBrief K es) :
    ∃ S, Site.Steps C.norm {} es (Domain.run J C es { ddl := { db := db } }).1 S ∧
      HoldsDocs C S.docs (Domain.run J C es { ddl := { db := db } }).2.ddl.db := by
  obtain ⟨S, h1, h2⟩ := run_match J C hdb hd hb
  exact ⟨S, h1, h2.docs⟩

/-! ## C53: reloading the schema -/

/-- What a process that has no schema loads from the database. -/
def freshLoad (J : Json) (env : Env) (db : DB) : Res (Option MetaCache) :=
  ((⟨false, env, none, reloadSchema none⟩ : MetaTxn (Option MetaCache)).run J db).1

/-- Two schemas are the same up to the states of what is in them: both are missing, or they have the same version and the
same databases with the same collections. -/
def SameSchema (a b : Option MetaCache) : Prop :=
  a.map (·.version) = b.map (·.version) ∧
    ∀ name, (a.bind (fun c => c.db name)).map blankDB = (b.bind (fun c => c.db name)).map blankDB

theorem SchemaIs.same {dbs : List DBInfo} {n : Option Nat} {a b : Option MetaCache} (ha : SchemaIs dbs n a) (hb : SchemaIs dbs n b) :
    SameSchema a b := by
  cases n with
  | none => cases a with
    | none => cases b with
      | none => exact ⟨rfl, fun _ => rfl⟩
      | some b => exact hb.elim
    | some a => exact ha.elim
  | some n => cases a with
    | none => exact ha.elim
    | some a => cases b with
      | none => exact hb.elim
      | some b =>
        obtain ⟨v, ha⟩ := ha
        obtain ⟨v', hb⟩ := hb
        refine ⟨by simp only [Option.map_some, ha.version, hb.version], fun name => ?_⟩
        show (a.db name).map blankDB = (b.db name).map blankDB
        rw [ha.dbs, hb.dbs]

theorem Match.schemaIs {S : Site D} {B : Nat} {w : Domain.World} (h : Match J C K B S w) : SchemaIs S.proc.state.dbs S.schema w.handle.cache := by
  cases hs : S.schema with
  | none => rw [h.noSchema.mp hs]; trivial
  | some n => cases hc : w.handle.cache with
    | none => rw [h.noSchema.mpr hc] at hs; cases hs
    | some c =>
      obtain ⟨v₀, a, -⟩ := h.shown
      exact ⟨v₀, a n c hs hc⟩

/-- A process with no schema loads everything. -/
theorem Match.freshLoad {S : Site D} {B : Nat} {w : Domain.World} (h : Match J C K B S w) (hB : B + 204 < 2 ^ 63) (env : Env) :
    ∃ o, freshLoad J env w.ddl.db = .ok o ∧
      SchemaIs S.proc.state.dbs (if S.proc.state.dbs.length = 0 then none else some S.proc.state.dbs.length) o := by
  have hlen : S.proc.state.dbs.length < 2 ^ 63 := by
    have := h.serves.sane.count
    have := h.serves.sane.small
    omega
  obtain ⟨M, hh, hk, -⟩ := h.serves.kept
  have hk : Keeps J B M w.ddl.db := hk
  rcases runs_reload_none h.serves.sane hh hlen with ⟨e, hr⟩ | ⟨e, c, hr, hp⟩
  · exact ⟨none, reload_reads J hk hr hB env, by rw [if_pos e]; trivial⟩
  · exact ⟨some c, reload_reads J hk hr hB env, by rw [if_neg (by omega)]; exact ⟨_, hp⟩⟩

/-- A publication, a reload and a publication. -/
theorem steps_refresh {norm : D → Res D} {S R : Site D} {env : Env} {as : List (Domain.Answer D)}
    (h : S.Walks norm [.publish, .reload env, .publish] as R) :
    (∃ b, as[1]? = some (.reloaded (.ok b))) ∧ R.proc = S.proc ∧ R.docs = S.docs ∧ R.visits = S.visits ∧ R.pool = S.pool ∧
      R.loaded = none ∧ R.schema.getD 0 = S.proc.state.dbs.length := by
  cases h with
  | cons h1 h =>
  cases h with
  | cons h2 h =>
  cases h with
  | cons h3 h =>
  cases h
  have key : ∀ {S : Site D} {a₂ a₃ S₂ S₃}, S.loaded = none → S.Walk norm (.reload env) a₂ S₂ → S₂.Walk norm .publish a₃ S₃ →
      (∃ b, a₂ = .reloaded (.ok b)) ∧ S₃.proc = S.proc ∧ S₃.docs = S.docs ∧ S₃.visits = S.visits ∧ S₃.pool = S.pool ∧
      S₃.loaded = none ∧ S₃.schema.getD 0 = S.proc.state.dbs.length := by
    intro S a₂ a₃ S₂ S₃ hl h2 h3
    cases h2 with
    | reloadBusy h => exact absurd hl h
    | reloadSame _ h =>
      cases h3 with
      | publishNot _ => exact ⟨⟨_, rfl⟩, rfl, rfl, rfl, rfl, hl, h⟩
      | publish h' => rw [hl] at h'; cases h'
    | reload _ h =>
      cases h3 with
      | publishNot h' => cases h'
      | publish h' => cases h'; exact ⟨⟨_, rfl⟩, rfl, rfl, rfl, rfl, rfl, rfl⟩
  have fin : ∀ {S₁ : Site D} {a₁ a₂ a₃ : Domain.Answer D}, (∃ b, a₂ = .reloaded (.ok b)) →
      ∃ b, [a₁, a₂, a₃][1]? = some (.reloaded (.ok b)) := by
    rintro S₁ a₁ a₂ a₃ ⟨b, rfl⟩
    exact ⟨b, rfl⟩
  cases h1 with
  | publishNot hl =>
    obtain ⟨x, y⟩ := key hl h2 h3
    exact ⟨fin (S₁ := S) x, y⟩
  | publish hl =>
    obtain ⟨x, y⟩ := key rfl h2 h3
    exact ⟨fin (S₁ := S) x, y⟩

/-- The schema known after a reload. -/
theorem Match.known {S : Site D} {B : Nat} {w : Domain.World} (h : Match J C K B S w) (e : S.schema.getD 0 = S.proc.state.dbs.length) :
    S.schema = if S.proc.state.dbs.length = 0 then none else some S.proc.state.dbs.length := by
  have hp := h.schemaIs
  cases hs : S.schema with
  | none =>
    rw [hs] at e
    have e : 0 = S.proc.state.dbs.length := e
    rw [if_pos e.symm]
  | some n =>
    rw [hs] at e hp
    cases hc : w.handle.cache with
    | none => rw [hc] at hp; exact hp.elim
    | some c =>
      rw [hc] at hp
      obtain ⟨v₀, hp⟩ := hp
      have := hp.pos
      have e : n = _ := e
      rw [if_neg (by omega), ← e]

/-- C53: after a reload (what an earlier one read being published first) the published schema is what a process starting
now would load. -/
theorem C53_converges {es : List (Domain.Ev D)} {env env' : Env} (hdb : Fresh Sequence.metaPrefix db) (hd : NoDocs db)
    (hb : DomainBrief K (es ++ [.publish, .reload env, .publish])) :
    ∃ o, freshLoad J env' (Domain.run J C (es ++ [.publish, .reload env, .publish]) { ddl := { db := db } }).2.ddl.db = .ok o ∧
      SameSchema (Domain.run J C (es ++ [.publish, .reload env, .publish]) { ddl := { db := db } }).2.handle.cache o := by
  obtain ⟨S, R, -, hm, hs, hm'⟩ := run_match_two J C hdb hd hb
  rw [drun_append]
  dsimp only
  obtain ⟨-, hp, -, -, -, -, he⟩ := steps_refresh hs
  obtain ⟨o, ho, hi⟩ := hm'.freshLoad (by omega) env'
  rw [← hp] at he
  rw [← hm'.known he] at hi
  exact ⟨o, ho, hm'.schemaIs.same hi⟩

theorem step_reloaded {norm : D → Res D} {S S' : Site D} {e : Domain.Ev D} {r : Res Bool} (h : S.Walk norm e (.reloaded r) S') : ∃ b, r = .ok b := by
  generalize ha : (Domain.Answer.reloaded r : Domain.Answer D) = a at h
  cases h with
  | reloadSame => cases ha; exact ⟨_, rfl⟩
  | reload => cases ha; exact ⟨_, rfl⟩
  | commit =>
    rename_i k v _ _
    unfold Site.commits at ha
    split at ha
    · cases ha
    · split at ha
      · cases ha
      · split at ha <;> cases ha
  | _ => cases ha

/-- C53: a reload never fails. -/
theorem C53_no_error {es : List (Domain.Ev D)} (hdb : Fresh Sequence.metaPrefix db) (hd : NoDocs db) (hb : DomainBrief K es)
    {r : Res Bool} (h : .reloaded r ∈ (Domain.run J C es { ddl := { db := db } }).1) : ∃ b, r = .ok b := by
  obtain ⟨S, hs, -⟩ := run_match J C hdb hd hb
  replace hs := hs.walks
  generalize (Domain.run J C es { ddl := { db := db } }).1 = as at h hs
  clear hb
  generalize ({} : Site D) = S₀ at hs
  induction hs with
  | nil => cases h
  | cons h1 _ ih =>
    rcases List.mem_cons.mp h with e | h
    · rw [← e] at h1; exact step_reloaded h1
    · exact ih h

/-- The version of the schema that is published, the number of databases in it. -/
def publishedVersion (w : Domain.World) : Option Int := w.handle.cache.map (·.version)

theorem Match.published {S : Site D} {B : Nat} {w : Domain.World} (h : Match J C K B S w) :
    publishedVersion w = S.schema.map Int.ofNat := by
  have hp := h.schemaIs
  unfold publishedVersion
  cases hs : S.schema with
  | none => rw [h.noSchema.mp hs]; rfl
  | some n =>
    rw [hs] at hp
    cases hc : w.handle.cache with
    | none => rw [hc] at hp; exact hp.elim
    | some c =>
      rw [hc] at hp
      obtain ⟨v₀, hp⟩ := hp
      simp only [Option.map_some, hp.version]; rfl

/-- The schema published later. -/
theorem published_grows {S R : Site D} {B : Nat} {w w' : Domain.World} {es' : List (Domain.Ev D)} {as : List (Domain.Answer D)}
    (hm : Match J C K B S w) (hk : Known S) (hs' : S.Walks C.norm es' as R) (hm' : Match J C K B R w')
    (hc : ∀ e ∈ es', e ≠ .ddl .crash) {c : MetaCache} (h : w.handle.cache = some c) :
    ∃ c', w'.handle.cache = some c' ∧ c.version ≤ c'.version ∧
      ∀ name d, c.db name = some d → ∃ d', c'.db name = some d' ∧ blankDB d' = blankDB d := by
  obtain ⟨-, ⟨l, hl⟩, hg⟩ := steps_grow hs' hk
  obtain ⟨ho, -⟩ := hg hc
  have h1 := hm.schemaIs
  have h2 := hm'.schemaIs
  rw [h] at h1
  cases hn : S.schema with
  | none => rw [hn] at h1; exact h1.elim
  | some n =>
    rw [hn] at h1 ho
    cases hn' : R.schema with
    | none => cases ho.2 hn'
    | some n' =>
      rw [hn'] at h2 ho
      cases hc' : w'.handle.cache with
      | none => rw [hc'] at h2; exact h2.elim
      | some c' =>
        rw [hc'] at h2
        obtain ⟨v, h1⟩ := h1
        obtain ⟨v', h2⟩ := h2
        have hle : n ≤ n' := ho.1
        refine ⟨c', rfl, by rw [h1.version, h2.version]; omega, fun name d hd => ?_⟩
        have e1 := h1.dbs name
        have e2 := h2.dbs name
        rw [hd] at e1
        have e3 : R.proc.state.dbs.take n' = S.proc.state.dbs.take n ++ (R.proc.state.dbs.take n').drop n := by
          have a : R.proc.state.dbs.take n = S.proc.state.dbs.take n := by rw [hl, List.take_append_of_le_length h1.le]
          have b := (List.take_append_drop n (R.proc.state.dbs.take n')).symm
          rw [List.take_take, Nat.min_eq_left hle, a] at b
          exact b
        rw [e3, List.find?_append] at e2
        cases hf : (S.proc.state.dbs.take n).find? (fun d => decide (d.name = name)) with
        | none => rw [hf] at e1; cases e1
        | some x =>
          rw [hf] at e1 e2
          cases hx : c'.db name with
          | none => rw [hx] at e2; cases e2
          | some d' =>
            rw [hx] at e2
            simp only [Option.map_some, Option.some.injEq, Option.some_or] at e1 e2
            exact ⟨d', rfl, e2.trans e1.symm⟩

/-- C53: as long as the process lives the published schema only grows: the version does not get smaller, and what it says
about a database stays. -/
theorem C53_monotone {es es' : List (Domain.Ev D)} (hdb : Fresh Sequence.metaPrefix db) (hd : NoDocs db)
    (hb : DomainBrief K (es ++ es')) (hc : ∀ e ∈ es', e ≠ .ddl .crash) {c : MetaCache}
    (h : (Domain.run J C es { ddl := { db := db } }).2.handle.cache = some c) :
    ∃ c', (Domain.run J C (es ++ es') { ddl := { db := db } }).2.handle.cache = some c' ∧ c.version ≤ c'.version ∧
      ∀ name d, c.db name = some d → ∃ d', c'.db name = some d' ∧ blankDB d' = blankDB d := by
  obtain ⟨S, R, hs, hm, hs', hm'⟩ := run_match_two J C hdb hd hb
  rw [drun_append]
  exact published_grows hm (steps_grow hs known_start).1 hs' hm' hc h

/-! ## C68: the check before a commit -/

/-- At most 100 databases were published since: the version was `m` when the transaction began and is `n` now. -/
def FewSince : Option Int → Option Int → Prop
  | none, none => True
  | some m, some n => n ≤ m + 100
  | _, _ => False

theorem recent_few (a b : Option Nat) :
    recent a b = true ↔ FewSince (a.map Int.ofNat) (b.map Int.ofNat) := by
  cases a <;> cases b <;> simp [recent, FewSince]
  omega

/-- The transaction begun now is the last one. -/
theorem session_begun (J : Json) (C : Codec D) (w : Domain.World) (u : Bool) (env : Env) :
    (w.step J C (.begin u env)).2.session w.sessions.length = some { txn := Dml.DTxn.new w.handle u env w.ddl.db } := by
  show ((w.sessions ++ [_])[w.sessions.length]?).join = _
  simp

/-- What the check says of a transaction begun in `S`. -/
theorem check_exact {S R : Site D} {B : Nat} {es' : List (Domain.Ev D)} {as : List (Domain.Answer D)} {env : Env} {s : Session}
    {w₁ w : Domain.World} (hm : Match J C K B S w₁) (hk : Known S) (hs' : S.Walks C.norm (.begin true env :: es') as R)
    (hm' : Match J C K B R w) (hc : ∀ e ∈ es', e ≠ .ddl .crash) (hs : w.session w₁.sessions.length = some s) (hph : s.phase = .ready) :
    (FewSince (publishedVersion w₁) (publishedVersion w) → (w.step J C (.commit w₁.sessions.length)).1 = .none ∧
      (w.step J C (.commit w₁.sessions.length)).2.session w₁.sessions.length = some { s with phase := .checked }) ∧
    (¬ FewSince (publishedVersion w₁) (publishedVersion w) →
      (w.step J C (.commit w₁.sessions.length)).1 = .committed (.err Dml.errDDLConflict)) := by
  have hlen : S.visits.length = w₁.sessions.length := hm.len
  -- the transaction
  have hv : ∃ v, R.visit w₁.sessions.length = some v ∧ v.schema = S.schema ∧ v.update = true := by
    cases hs' with
    | cons h1 h2 =>
      cases h1
      obtain ⟨-, -, hg⟩ := steps_grow h2 ⟨hk.schema, hk.loaded, (hk.step (norm := C.norm) (e := .begin true env) .begin).visits⟩
      refine (hg hc).2 w₁.sessions.length { schema := S.schema, update := true, docs := S.docs } ?_
      rw [visit_append, if_pos hlen.symm]
  obtain ⟨v, hv, h1, h2⟩ := hv
  have hvm := hm'.visits _ v s hv hs
  rw [hm.published, hm'.published]
  have hst : ∀ k, (w.step J C (.commit k)) = match w.session k with
    | some s => if s.phase = .ready ∨ s.phase = .over then w.commit k s else (.none, w)
    | none => (.none, w) := fun k => rfl
  have hu : s.txn.update = true := by rw [hvm.update, h2]
  have hchk := hm'.check hv hs
  rw [h1] at hchk
  rw [hst, hs]
  dsimp only
  rw [if_pos (.inl hph)]
  unfold Domain.World.commit
  rw [if_neg (by rw [hu]; nofun), hchk]
  refine ⟨fun hf => ?_, fun hf => ?_⟩
  · rw [(recent_few _ _).mpr hf]
    dsimp only
    rw [if_neg (by rw [hph]; nofun)]
    exact ⟨rfl, by rw [World.session_put hs, if_pos rfl]⟩
  · have : recent S.schema R.schema = false := by
      cases hr : recent S.schema R.schema with
      | false => rfl
      | true => exact absurd ((recent_few _ _).mp hr) hf
    rw [this]

/-- C68: a transaction that is ready to commit passes the check exactly if at most 100 databases were published since it
began (and the schema was not published for the first time since); otherwise it fails with ErrDDLConflict. -/
theorem C68_exact {es es' : List (Domain.Ev D)} {env : Env} {s : Session} (hdb : Fresh Sequence.metaPrefix db) (hd : NoDocs db)
    (hb : DomainBrief K (es ++ (.begin true env :: es'))) (hc : ∀ e ∈ es', e ≠ .ddl .crash)
    {w₁ w : Domain.World} (hw₁ : w₁ = (Domain.run J C es { ddl := { db := db } }).2)
    (hw : w = (Domain.run J C (es ++ (.begin true env :: es')) { ddl := { db := db } }).2)
    (hs : w.session w₁.sessions.length = some s) (hph : s.phase = .ready) :
    (FewSince (publishedVersion w₁) (publishedVersion w) → (w.step J C (.commit w₁.sessions.length)).1 = .none ∧
      (w.step J C (.commit w₁.sessions.length)).2.session w₁.sessions.length = some { s with phase := .checked }) ∧
    (¬ FewSince (publishedVersion w₁) (publishedVersion w) →
      (w.step J C (.commit w₁.sessions.length)).1 = .committed (.err Dml.errDDLConflict)) := by
  obtain ⟨S, R, hs1, hm, hs', hm'⟩ := run_match_two J C hdb hd hb
  rw [drun_append] at hw
  dsimp only at hw
  rw [← hw₁] at hm hs' hm' hw
  rw [← hw] at hm'
  exact check_exact hm (steps_grow hs1 known_start).1 hs' hm' hc hs hph

/-- C68: Commit panics only if the transaction was discarded or committed before. -/
theorem C68_no_panic {es : List (Domain.Ev D)} {e : Domain.Ev D} (hdb : Fresh Sequence.metaPrefix db) (hd : NoDocs db)
    (hb : DomainBrief K (es ++ [e]))
    (h : ((Domain.run J C es { ddl := { db := db } }).2.step J C e).1 = .committed .panic) :
    ∃ k, e = .commit k ∧ ∃ e' ∈ es, e' = .discard k ∨ ∃ fail, e' = .finish k fail := by
  obtain ⟨S, R, hs, hm, hs', hm'⟩ := run_match_two J C hdb hd hb
  have hs' : S.Walks C.norm [e] [((Domain.run J C es { ddl := { db := db } }).2.step J C e).1] R := hs'
  rw [h] at hs'
  cases hs' with
  | cons h1 _ =>
    obtain ⟨k, v, rfl, hv, hp⟩ := commit_panics h1
    rcases over_why hs hv hp with ⟨u, hu, -⟩ | ⟨e', h1, h2⟩
    · have : ((([] : List (Option (Visit D)))[k]?).join) = some u := hu
      simp at this
    · exact ⟨k, rfl, e', h1, h2⟩

/-- C68: the lock of the schema is never left taken: whenever a reload has something to publish, it can. -/
theorem C68_lock_free {es : List (Domain.Ev D)} (hdb : Fresh Sequence.metaPrefix db) (hd : NoDocs db) (hb : DomainBrief K es) :
    (Domain.run J C es { ddl := { db := db } }).2.handle.readers = 0 ∧
    ∀ c, (Domain.run J C es { ddl := { db := db } }).2.loaded = some c →
      ((Domain.run J C es { ddl := { db := db } }).2.step J C .publish).1 = .published ∧
      ((Domain.run J C es { ddl := { db := db } }).2.step J C .publish).2.handle.cache = some c := by
  obtain ⟨S, -, hm⟩ := run_match J C hdb hd hb
  refine ⟨hm.readers, fun c hc => ?_⟩
  generalize (Domain.run J C es { ddl := { db := db } }).2 = w at hm hc
  have : w.step J C .publish = match w.loaded with
    | none => (.none, w)
    | some c => match w.handle.update c with
      | none => (.none, w)
      | some h => (.published, { w with handle := h, loaded := none }) := rfl
  rw [this, hc]
  have hu : w.handle.update c = some { cache := some c } := by
    unfold Handle.update
    rw [hm.readers, if_pos rfl]
  dsimp only
  rw [hu]
  exact ⟨rfl, rfl⟩

/-! ## C70: the ids of documents -/

/-- C70: no id that InsertOne gave for a collection is given again, unless the Commit of the transaction failed.  (If
Commit is called again after it succeeded, ids can be given back that are in use.) -/
theorem C70_unique {es : List (Domain.Ev D)} (hdb : Fresh Sequence.metaPrefix db) (hd : NoDocs db) (hb : DomainBrief K es)
    (hr : NoRecommit es) {as : List (Domain.Answer D)} (ha : as = (Domain.run J C es { ddl := { db := db } }).1) (name coll : Bytes) :
    (((insertions es as).filter (fun i => decide (i.db = name ∧ i.coll = coll ∧ i.txn ∉ failedIn es as))).map (·.did)).Nodup := by
  obtain ⟨S, hs, -⟩ := run_match J C hdb hd hb
  replace hs := hs.walks
  rw [← ha] at hs
  obtain ⟨G, h⟩ := Keeping.steps hs keeping_start hr
  exact h.unique name coll

/-- C70: a transaction whose Commit failed never commits. -/
theorem C70_failed {es : List (Domain.Ev D)} (hdb : Fresh Sequence.metaPrefix db) (hd : NoDocs db) (hb : DomainBrief K es)
    (hr : NoRecommit es) {as : List (Domain.Answer D)} (ha : as = (Domain.run J C es { ddl := { db := db } }).1) :
    ∀ k ∈ committedIn es as, k ∉ failedIn es as := by
  obtain ⟨S, hs, -⟩ := run_match J C hdb hd hb
  replace hs := hs.walks
  rw [← ha] at hs
  obtain ⟨G, h⟩ := Keeping.steps hs keeping_start hr
  exact h.disjoint

/-- C70: so the ids of all documents inserted by committed transactions are different. -/
theorem C70_committed {es : List (Domain.Ev D)} (hdb : Fresh Sequence.metaPrefix db) (hd : NoDocs db) (hb : DomainBrief K es)
    (hr : NoRecommit es) {as : List (Domain.Answer D)} (ha : as = (Domain.run J C es { ddl := { db := db } }).1) (name coll : Bytes) :
    (((insertions es as).filter (fun i => decide (i.db = name ∧ i.coll = coll ∧ i.txn ∈ committedIn es as))).map (·.did)).Nodup := by
  refine List.Nodup.sublist (List.Sublist.map _ ?_) (C70_unique hdb hd hb hr ha name coll)
  have e : (insertions es as).filter (fun i => decide (i.db = name ∧ i.coll = coll ∧ i.txn ∈ committedIn es as)) =
      ((insertions es as).filter (fun i => decide (i.db = name ∧ i.coll = coll ∧ i.txn ∉ failedIn es as))).filter
        (fun i => decide (i.txn ∈ committedIn es as)) := by
    rw [List.filter_filter]
    refine List.filter_congr fun i _ => ?_
    by_cases z : i.txn ∈ committedIn es as
    · have := C70_failed hdb hd hb hr ha _ z
      simp [z, this]
    · simp [z]
  rw [e]
  exact List.filter_sublist

/-! ## C71: transactions do not disturb each other -/

/-- The event is about this transaction. -/
def Addresses (k : Nat) : Domain.Ev D → Prop
  | .snapshot j | .insert j _ _ _ _ _ | .op j _ _ _ _ | .discard j | .commit j | .finish j _ => j = k
  | _ => False

theorem session_put_ne {w : Domain.World} {j k : Nat} (h : j ≠ k) (s : Session) : (w.put j s).session k = w.session k := by
  unfold Domain.World.put Domain.World.session
  rw [List.getElem?_set, if_neg h]

theorem step_isolated (J : Json) (C : Codec D) {w : Domain.World} {e : Domain.Ev D} {k : Nat} {s : Session} (hs : w.session k = some s)
    (hc : e ≠ .ddl .crash) (he : ¬ Addresses k e) : (w.step J C e).2.session k = some s := by
  cases e with
  | ddl e =>
    rcases step_ddl_world J C w (e := e) (fun x => hc (by rw [x])) with h | h <;> rw [h] <;> exact hs
  | reload env =>
    show (w.reload J env : Domain.Answer D × Domain.World).2.session k = some s
    unfold Domain.World.reload
    split
    · exact hs
    · split <;> exact hs
  | publish =>
    simp only [Domain.World.step]
    split
    · exact hs
    · split <;> exact hs
  | begin u env =>
    show ((w.sessions ++ [_])[k]?).join = some s
    rw [join_append, if_neg]
    · exact hs
    · rintro rfl
      unfold Domain.World.session at hs
      rw [List.getElem?_eq_none (Nat.le_refl _)] at hs
      cases hs
  | snapshot j =>
    simp only [Domain.World.step]
    split
    · split
      · rw [session_put_ne he]; exact hs
      · exact hs
    · exact hs
  | insert j d c doc mark ci =>
    simp only [Domain.World.step]
    split
    · split
      · split
        · exact hs
        · exact hs
        · rw [session_put_ne he]; exact hs
      · exact hs
    · exact hs
  | op j d c o mark =>
    simp only [Domain.World.step]
    split
    · split
      · rw [session_put_ne he]; exact hs
      · exact hs
    · exact hs
  | discard j =>
    simp only [Domain.World.step]
    split
    · split
      · rw [session_put_ne he]; exact hs
      · exact hs
    · exact hs
  | commit j =>
    simp only [Domain.World.step]
    split
    · split
      · unfold Domain.World.commit
        split
        · exact hs
        · split
          · exact hs
          · rw [session_put_ne he]; exact hs
          · rw [session_put_ne he]; exact hs
          · split
            · exact hs
            · rw [session_put_ne he]; exact hs
      · exact hs
    · exact hs
  | finish j f =>
    simp only [Domain.World.step]
    split
    · split
      · unfold Domain.World.finish
        split <;> (rw [session_put_ne he]; exact hs)
      · exact hs
    · exact hs

/-- C71: whatever else happens, an open transaction stays as it is. -/
theorem C71_isolated (J : Json) (C : Codec D) {w : Domain.World} {es : List (Domain.Ev D)} {k : Nat} {s : Session} (hs : w.session k = some s)
    (he : ∀ e ∈ es, e ≠ .ddl .crash ∧ ¬ Addresses k e) : (Domain.run J C es w).2.session k = some s := by
  induction es generalizing w with
  | nil => exact hs
  | cons e es ih =>
    exact ih (step_isolated J C hs (he e List.mem_cons_self).1 (he e List.mem_cons_self).2)
      (fun e h => he e (List.mem_cons_of_mem _ h))

/-- C71: so a read in a transaction gives what it would have given at any time since the last operation in it, however many
other transactions have committed, schemas were published and collections created in between. -/
theorem C71_repeatable (J : Json) (C : Codec D) {w : Domain.World} {es : List (Domain.Ev D)} {k : Nat} {s : Session} (hs : w.session k = some s)
    (he : ∀ e ∈ es, e ≠ .ddl .crash ∧ ¬ Addresses k e) (name coll : Bytes) (o : Op D) (mark : Bool) :
    ((Domain.run J C es w).2.step J C (.op k name coll o mark)).1 = (w.step J C (.op k name coll o mark)).1 := by
  have h := C71_isolated J C hs he
  simp only [Domain.World.step, h, hs]
  split <;> rfl

theorem atDoc_key (cid did : Int64) : AtDoc (documentKey cid did) := ⟨cid, _, rfl⟩

/-- C71: the stored documents change only when the Commit of a transaction succeeds. -/
theorem C71_only_commit (J : Json) (C : Codec D) (w : Domain.World) (e : Domain.Ev D)
    (he : ∀ k f, e = .finish k f → (w.step J C e).1 ≠ .committed (.ok ())) (cid did : Int64) :
    (w.step J C e).2.ddl.db.get (documentKey cid did) = w.ddl.db.get (documentKey cid did) := by
  have hk := docKey_not_meta (atDoc_key cid did)
  generalize documentKey cid did = key at hk ⊢
  cases e with
  | ddl e =>
    by_cases hc : e = .crash
    · subst hc; exact ddl_frame J w.ddl .crash hk
    · rcases step_ddl_world J C w hc with h | h <;> rw [h]
      exact ddl_frame J w.ddl _ hk
  | reload env =>
    show (w.reload J env : Domain.Answer D × Domain.World).2.ddl.db.get key = _
    unfold Domain.World.reload
    split
    · rfl
    · split <;> rfl
  | publish =>
    simp only [Domain.World.step]
    split
    · rfl
    · split <;> rfl
  | begin u env => rfl
  | snapshot j =>
    simp only [Domain.World.step]
    split
    · split <;> rfl
    · rfl
  | insert j d c doc mark ci =>
    simp only [Domain.World.step]
    split
    · split
      · split
        · rfl
        · rfl
        · rename_i s _ _ _ data _
          show (Dml.insertFunc d c data mark ⟨ci.env, w.ddl.db, ci.fail⟩ s.txn w.ddl.seqs w.ddl.db).2.2.2.get key = _
          unfold Dml.insertFunc
          split
          · rfl
          · rename_i x _
            dsimp only
            generalize (if mark = true then s.txn.referredCollections [x.id] else s.txn) = t
            split
            · rfl
            · rename_i q _
              have hn := nextId_frame q ci.env ci.fail w.ddl.db hk
              split
              · rename_i h; rw [h] at hn; exact hn
              · rename_i h; rw [h] at hn; exact hn
              · rename_i h; rw [h] at hn
                split <;> exact hn
      · rfl
    · rfl
  | op j d c o mark =>
    simp only [Domain.World.step]
    split
    · split <;> rfl
    · rfl
  | discard j =>
    simp only [Domain.World.step]
    split
    · split <;> rfl
    · rfl
  | commit j =>
    simp only [Domain.World.step]
    split
    · split
      · unfold Domain.World.commit
        split
        · rfl
        · split
          · rfl
          · rfl
          · rfl
          · split <;> rfl
      · rfl
    · rfl
  | finish j f =>
    have he := he j f rfl
    simp only [Domain.World.step] at he ⊢
    split
    · rename_i s h
      rw [h] at he
      dsimp only at he
      split
      · rename_i hp
        rw [if_pos hp] at he
        unfold Domain.World.finish at he ⊢
        by_cases hw : s.txn.kv.writes = []
        · have hcm : s.txn.kv.commit f w.ddl.db = (.ok (), w.ddl.db) := by unfold Txn.commit; rw [if_pos hw]
          rw [hcm] at he
          exact absurd rfl he
        · cases f with
          | none =>
            have hcm : s.txn.kv.commit none w.ddl.db = (.ok (), applyWrites w.ddl.db s.txn.kv.writes) := by unfold Txn.commit; rw [if_neg hw]
            rw [hcm] at he
            exact absurd rfl he
          | some err =>
            have hcm : s.txn.kv.commit (some err) w.ddl.db = (.err err, w.ddl.db) := by unfold Txn.commit; rw [if_neg hw]
            rw [hcm]
            rfl
      · rfl
    · rfl

/-- C71: when a Commit succeeds, every document the transaction wrote becomes what it is in the transaction, and all others
stay. -/
theorem C71_commit {es : List (Domain.Ev D)} (hdb : Fresh Sequence.metaPrefix db) (hd : NoDocs db) (hb : DomainBrief K es)
    {w : Domain.World} (hw : w = (Domain.run J C es { ddl := { db := db } }).2) {k : Nat} {s : Session} (hs : w.session k = some s)
    {f : Option Err} (ha : (w.step J C (.finish k f)).1 = .committed (.ok ())) (cid did : Int64) :
    (w.step J C (.finish k f)).2.ddl.db.get (documentKey cid did) =
      if documentKey cid did ∈ s.txn.kv.writes.map Prod.fst then s.txn.kv.view.get (documentKey cid did)
      else w.ddl.db.get (documentKey cid did) := by
  obtain ⟨S, -, hm⟩ := run_match J C hdb hd hb
  rw [← hw] at hm
  obtain ⟨v, hv⟩ := hm.session hs
  obtain ⟨snap, hview⟩ := (hm.visits k v s hv hs).over
  simp only [Domain.World.step, hs] at ha ⊢
  split at ha
  · rename_i hp
    rw [if_pos hp]
    unfold Domain.World.finish at ha ⊢
    by_cases hwr : s.txn.kv.writes = []
    · have hcm : s.txn.kv.commit f w.ddl.db = (.ok (), w.ddl.db) := by unfold Txn.commit; rw [if_pos hwr]
      rw [hcm, hwr]
      rfl
    · cases f with
      | none =>
        have hcm : s.txn.kv.commit none w.ddl.db = (.ok (), applyWrites w.ddl.db s.txn.kv.writes) := by unfold Txn.commit; rw [if_neg hwr]
        rw [hcm]
        show (applyWrites w.ddl.db s.txn.kv.writes).get _ = _
        rw [hview, get_applyWrites, get_applyWrites]
        cases hl : lastWrite (documentKey cid did) s.txn.kv.writes with
        | none => rw [if_neg (lastWrite_none_iff.mp hl)]; rfl
        | some r =>
          have : documentKey cid did ∈ s.txn.kv.writes.map Prod.fst := by
            refine Classical.byContradiction fun h => ?_
            rw [lastWrite_none_iff.mpr h] at hl
            cases hl
          rw [if_pos this]
          rfl
      | some err =>
        have hcm : s.txn.kv.commit (some err) w.ddl.db = (.err err, w.ddl.db) := by unfold Txn.commit; rw [if_neg hwr]
        rw [hcm] at ha
        cases ha
  · cases ha

/-! ## C69: from CreateSchema to a document -/

/-- The round trip of C69, where a database is known. -/
theorem roundtrip_core {R Z : Site D} {B n : Nat} {i : CreateSchemaInput} {c₁ : Ddl.Circ} {e₂ e₃ : Env}
    {k : Nat} {coll : Bytes} {doc d : D} {mark mark' : Bool} {w : Domain.World} (hm' : Match J C K B R w)
    (hknow : requested n i ∈ R.proc.state.dbs.take (R.schema.getD 0))
    (hcoll : coll ∈ i.collections) (hdoc : C.norm doc = .ok d) (hc : c₁.fail = none) (hup : w.ddl.up = true) (hk : k = w.sessions.length)
    {as : List (Domain.Answer D)} {a : Domain.Answer D} {did₀ : Int64} (hlen : as.length = 7)
    (hz : R.Walks C.norm ([.begin true e₂, .snapshot k, .insert k i.db coll doc mark c₁,
      .commit k, .finish k none, .begin false e₃, .snapshot (k + 1)] ++ [.op (k + 1) i.db coll (.getOne did₀) mark']) (as ++ [a]) Z) :
    newDB w.handle i.db = .ok () ∧ collection w.handle i.db coll = .ok () ∧
    ∃ did, as = [.none, .none, .inserted (.ok did), .none, .committed (.ok ()), .none, .none] ∧
      (did = did₀ → a = .out (.ok (.doc d))) := by
  have hmem : requested n i ∈ R.proc.state.dbs := List.mem_of_mem_take hknow
  obtain ⟨m, hsch⟩ : ∃ m, R.schema = some m := by
    cases hx : R.schema with
    | none => rw [hx] at hknow; cases hknow
    | some m => exact ⟨m, rfl⟩
  rw [hsch] at hknow
  obtain ⟨ci, hci⟩ : ∃ ci, (requested n i).collections.get coll = some ci := by
    have := (isSome_numbered (n + 2) (distinct i.collections) coll).mpr ((mem_distinct _ _).mpr hcoll)
    exact Option.isSome_iff_exists.mp this
  have hcin : collectionIn R.proc.state.dbs R.schema i.db coll = some ci.id := by
    rw [hsch]
    exact collectionIn_known (d := requested n i) hm'.serves.sane.names hknow hci
  have hrun : R.proc.running = true := by
    rw [← hm'.serves.up]; exact hup
  have hhas : R.proc.has ci.id = true :=
    hm'.serves.all hrun ((requested n i).id, ci.id) (mem_collections.mpr ⟨_, hmem, (coll, ci), (OMap.get_eq_some_iff _ _ _).mp hci, rfl⟩)
  have hshow := hm'.schemaIs
  have hcoll : ((MetaCache.collectionInfo w.handle.cache i.db coll).map (·.id)) = some ci.id := by rw [hshow.collection]; exact hcin
  have h1 : newDB w.handle i.db = .ok () := by
    unfold newDB
    rw [if_pos]
    rw [hsch] at hshow
    cases hca : w.handle.cache with
    | none => rw [hca] at hshow; exact hshow.elim
    | some x =>
      rw [hca] at hshow
      obtain ⟨v₀, hpic⟩ := hshow
      exact (hpic.found i.db).mpr ⟨requested n i, hknow, rfl⟩
  have h2 : collection w.handle i.db coll = .ok () := by
    unfold collection
    rw [if_pos]
    unfold MetaCache.checkCollectionExists
    cases hx : MetaCache.collectionInfo w.handle.cache i.db coll with
    | none => rw [hx] at hcoll; cases hcoll
    | some x => first | rfl | (simp [hx])
  refine ⟨h1, h2, ?_⟩
  obtain ⟨Q, hq, hy⟩ := steps_append hz hlen
  obtain ⟨did, rfl, v, hv, hph, hu, hx, hg⟩ := steps_roundtrip (hk.trans hm'.len.symm) hcin hhas hdoc hc hq
  refine ⟨did, rfl, ?_⟩
  rintro rfl
  obtain ⟨a', as', Q', ha, hst, -⟩ := steps_cons hy
  rw [(List.cons.inj ha).1]
  cases hst with
  | opNot hno => exact absurd hph (hno _ hv)
  | op hv' _ =>
    rw [hv] at hv'; cases hv'
    unfold Site.operate
    simp only [docStorable, hx, Op.at, DocOp.touches, or_true, if_true, DocOp.step, DocOp.cid, DocOp.sem, hg]

theorem roundtrip_known {es₀ : List (Domain.Ev D)} {i : CreateSchemaInput} {c₁ : Ddl.Circ} {e₂ e₃ : Env}
    {k : Nat} {coll : Bytes} {doc d : D} {mark mark' : Bool} (hdb : Fresh Sequence.metaPrefix db) (hd : NoDocs db)
    (hb : ∀ did, DomainBrief K (es₀ ++ ([.begin true e₂, .snapshot k, .insert k i.db coll doc mark c₁,
      .commit k, .finish k none, .begin false e₃, .snapshot (k + 1)] ++ [.op (k + 1) i.db coll (.getOne did) mark'])))
    (hcoll : coll ∈ i.collections) (hdoc : C.norm doc = .ok d) (hc : c₁.fail = none)
    {w w' : Domain.World} (hw : w = (Domain.run J C es₀ { ddl := { db := db } }).2)
    (hup : w.ddl.up = true) (hk : k = w.sessions.length)
    (hknown : ∀ R, Site.Walks C.norm {} es₀ (Domain.run J C es₀ { ddl := { db := db } }).1 R → Match J C K (2 ^ 62) R w →
      ∃ n, requested n i ∈ R.proc.state.dbs.take (R.schema.getD 0))
    {as : List (Domain.Answer D)}
    (hw' : (as, w') = Domain.run J C [.begin true e₂, .snapshot k, .insert k i.db coll doc mark c₁,
      .commit k, .finish k none, .begin false e₃, .snapshot (k + 1)] w) :
    newDB w.handle i.db = .ok () ∧ collection w.handle i.db coll = .ok () ∧
    ∃ did, as = [.none, .none, .inserted (.ok did), .none, .committed (.ok ()), .none, .none] ∧
      (w'.step J C (.op (k + 1) i.db coll (.getOne did) mark')).1 = .out (.ok (.doc d)) := by
  have key : ∀ did₀, newDB w.handle i.db = .ok () ∧ collection w.handle i.db coll = .ok () ∧
      ∃ did, as = [.none, .none, .inserted (.ok did), .none, .committed (.ok ()), .none, .none] ∧
        (did = did₀ → (w'.step J C (.op (k + 1) i.db coll (.getOne did₀) mark')).1 = .out (.ok (.doc d))) := by
    intro did₀
    obtain ⟨R, Z, hs, hm', hz, -⟩ := run_match_two J C hdb hd (hb did₀)
    rw [← hw] at hm' hz
    obtain ⟨n, hknow⟩ := hknown R hs hm'
    rw [drun_append] at hz
    have hlen := drun_length J C [.begin true e₂, .snapshot k, .insert k i.db coll doc mark c₁,
      .commit k, .finish k none, .begin false e₃, .snapshot (k + 1)] w
    rw [← hw'] at hz hlen
    exact roundtrip_core hm' hknow hcoll hdoc hc hup hk hlen hz
  obtain ⟨h1, h2, did, h3, -⟩ := key 0
  refine ⟨h1, h2, did, h3, ?_⟩
  obtain ⟨-, -, did', h3', h4⟩ := key did
  rw [h3] at h3'
  have e : did = did' := by
    simp only [List.cons.injEq, Answer.inserted.injEq, Res.ok.injEq] at h3'
    exact h3'.2.2.1
  subst e
  exact h4 rfl

/-- C69: once CreateSchema has succeeded (the request was accepted, and the job was found in the history), the worker
runs and the schema is reloaded, `DB` and `Collection` find what was asked for, a document can be inserted in a new
transaction, Commit succeeds, and the next transaction reads the document under the id InsertOne gave. -/
theorem C69_end_to_end {es : List (Domain.Ev D)} {o : Order} {i : CreateSchemaInput} {c c' c₁ : Ddl.Circ} {j j' : Job} {e₁ e₂ e₃ : Env}
    {k : Nat} {coll : Bytes} {doc d : D} {mark mark' : Bool} (hdb : Fresh Sequence.metaPrefix db) (hd : NoDocs db)
    (hb : ∀ did, DomainBrief K ((es ++ [.publish, .reload e₁, .publish]) ++ ([.begin true e₂, .snapshot k, .insert k i.db coll doc mark c₁,
      .commit k, .finish k none, .begin false e₃, .snapshot (k + 1)] ++ [.op (k + 1) i.db coll (.getOne did) mark'])))
    (hacc : (.ddl (.createSchema o i c), .ddl (.job (.ok j))) ∈ es.zip (Domain.run J C es { ddl := { db := db } }).1)
    (hfin : (.ddl (.getJob j.id c'), .ddl (.found (.ok (some j')))) ∈ es.zip (Domain.run J C es { ddl := { db := db } }).1)
    (hcoll : coll ∈ i.collections) (hdoc : C.norm doc = .ok d) (hc : c₁.fail = none)
    {w w' : Domain.World} (hw : w = (Domain.run J C (es ++ [.publish, .reload e₁, .publish]) { ddl := { db := db } }).2)
    (hup : w.ddl.up = true) (hk : k = w.sessions.length)
    {as : List (Domain.Answer D)}
    (hw' : (as, w') = Domain.run J C [.begin true e₂, .snapshot k, .insert k i.db coll doc mark c₁,
      .commit k, .finish k none, .begin false e₃, .snapshot (k + 1)] w) :
    newDB w.handle i.db = .ok () ∧ collection w.handle i.db coll = .ok () ∧
    ∃ did, as = [.none, .none, .inserted (.ok did), .none, .committed (.ok ()), .none, .none] ∧
      (w'.step J C (.op (k + 1) i.db coll (.getOne did) mark')).1 = .out (.ok (.doc d)) := by
  refine roundtrip_known hdb hd hb hcoll hdoc hc hw hup hk (fun R hs hm' => ?_) hw'
  rw [drun_append J C es] at hs
  dsimp only at hs
  obtain ⟨S, hs, hs'⟩ := steps_append hs (drun_length J C es _)
  obtain ⟨-, hp, -, -, -, -, he⟩ := steps_refresh hs'
  obtain ⟨n, ht⟩ := accepted_tracked hs hacc
  obtain ⟨d', hf⟩ := found_finished hs hfin
  have hmem := (tracked_finished hm'.serves.sane ((steps_keep_jobs hs').1 _ _ ht) ((steps_keep_jobs hs').2 _ hf)).2
  exact ⟨n, mem_take_all (by rw [he, hp]) hmem⟩

/-- C69: where package domain makes the reloads happen (`Duty.follows`: before the worker starts, and when the worker tells
of a change, before its next turn), no reload needs to be waited for: once the caller has found the job, and while the
worker runs, everything C69_end_to_end says holds at once. -/
theorem C69_at_once {es : List (Domain.Ev D)} {o : Order} {i : CreateSchemaInput} {c c' c₁ : Ddl.Circ} {j j' : Job} {e₂ e₃ : Env}
    {k : Nat} {coll : Bytes} {doc d : D} {mark mark' : Bool} (hdb : Fresh Sequence.metaPrefix db) (hd : NoDocs db)
    (hb : ∀ did, DomainBrief K (es ++ ([.begin true e₂, .snapshot k, .insert k i.db coll doc mark c₁,
      .commit k, .finish k none, .begin false e₃, .snapshot (k + 1)] ++ [.op (k + 1) i.db coll (.getOne did) mark'])))
    (hduty : Duty.follows .due (es.zip (Domain.run J C es { ddl := { db := db } }).1) = true)
    (hacc : (.ddl (.createSchema o i c), .ddl (.job (.ok j))) ∈ es.zip (Domain.run J C es { ddl := { db := db } }).1)
    (hfin : (.ddl (.getJob j.id c'), .ddl (.found (.ok (some j')))) ∈ es.zip (Domain.run J C es { ddl := { db := db } }).1)
    (hcoll : coll ∈ i.collections) (hdoc : C.norm doc = .ok d) (hc : c₁.fail = none)
    {w w' : Domain.World} (hw : w = (Domain.run J C es { ddl := { db := db } }).2)
    (hup : w.ddl.up = true) (hk : k = w.sessions.length)
    {as : List (Domain.Answer D)}
    (hw' : (as, w') = Domain.run J C [.begin true e₂, .snapshot k, .insert k i.db coll doc mark c₁,
      .commit k, .finish k none, .begin false e₃, .snapshot (k + 1)] w) :
    newDB w.handle i.db = .ok () ∧ collection w.handle i.db coll = .ok () ∧
    ∃ did, as = [.none, .none, .inserted (.ok did), .none, .committed (.ok ()), .none, .none] ∧
      (w'.step J C (.op (k + 1) i.db coll (.getOne did) mark')).1 = .out (.ok (.doc d)) := by
  refine roundtrip_known hdb hd hb hcoll hdoc hc hw hup hk (fun R hs hm' => ?_) hw'
  obtain ⟨n, ht⟩ := accepted_tracked hs hacc
  obtain ⟨d', hf⟩ := found_finished hs hfin
  obtain ⟨s, hdone⟩ := Dutiful.steps hs dutiful_start hduty
  exact ⟨n, hdone.shown (by rw [← hm'.serves.up]; exact hup) _ (tracked_finished hm'.serves.sane ht hf).1⟩

/-- C55: what a Domain whose Init has not succeeded says to CreateSchema or AddIndex is not a job, and nothing is asked of the
database. -/
theorem C55_no_ddl (J : Json) (C : Codec D) (w : Domain.World) (hup : w.ddl.up = false) (e : Ddl.Ev)
    (he : (∃ o i c, e = .createSchema o i c) ∨ ∃ i c, e = .addIndex i c) :
    (w.step J C (.ddl e)).2 = w ∧ ∃ r, (w.step J C (.ddl e)).1 = .ddl (.job r) ∧ ∀ j, r ≠ .ok j := by
  rcases he with ⟨o, i, c, rfl⟩ | ⟨i, c, rfl⟩
  · by_cases hn : needsDDL (.createSchema o i c) = true
    · have hw : w.step J C (.ddl (.createSchema o i c)) = (.ddl (.job .panic), w) := if_pos ⟨hup, hn⟩
      rw [hw]
      exact ⟨rfl, .panic, rfl, fun j h => by cases h⟩
    · rw [step_ddl J C w (e := .createSchema o i c) (fun h => by cases h) (fun x => hn x.2)]
      cases hv : i.validate o with
      | ok u => exact absurd (by simp only [needsDDL, hv]) hn
      | err e =>
        have hp : Ddl.createSchema o i = .done (.err e) := by unfold Ddl.createSchema; rw [hv]
        have : w.ddl.step J (.createSchema o i c) = (.job (.err e), w.ddl) := by
          simp only [Ddl.World.step, hp]; rfl
        rw [this]
        exact ⟨rfl, .err e, rfl, fun j h => by cases h⟩
      | panic =>
        have hp : Ddl.createSchema o i = .done .panic := by unfold Ddl.createSchema; rw [hv]
        have : w.ddl.step J (.createSchema o i c) = (.job .panic, w.ddl) := by
          simp only [Ddl.World.step, hp]; rfl
        rw [this]
        exact ⟨rfl, .panic, rfl, fun j h => by cases h⟩
  · have hw : w.step J C (.ddl (.addIndex i c)) = (.ddl (.job .panic), w) := if_pos ⟨hup, rfl⟩
    rw [hw]
    exact ⟨rfl, .panic, rfl, fun j h => by cases h⟩

end Mondis.Props
