import Verif.Lemmas.HallHung
import Verif.Props.DdlExamples
/-!
# C83: two databases in one process

The sequences of document ids are in one variable of the process, by the id of the collection only, and every database numbers
its collections from 2 on.  As long as no id is that of a collection of two databases, each is as if it had a process of its own;
as soon as one is, the worker of the second hangs, or the second cannot be opened.
-/
namespace Mondis.Props
open Mondis Schema Meta Spec Ddl Hall

section
variable {J : Json} {K : Nat} {dbs : Nat → DB} {es : List (Nat × Ev)}

/-- Databases without a common collection id do not notice each other: every call answers, and every store holds, what it
would if each database had a process of its own. -/
theorem C83_apart (h : Strangers J K dbs es) (i : Nat) :
    told i es (Hall.run J es (opened dbs)).1 = (Ddl.run J (only i es) { db := dbs i }).1 ∧
    ((Hall.run J es (opened dbs)).2.dbs i).db = (Ddl.run J (only i es) { db := dbs i }).2.db ∧
    ((Hall.run J es (opened dbs)).2.dbs i).up = (Ddl.run J (only i es) { db := dbs i }).2.up := by
  obtain ⟨h1, h2⟩ := run_apart h
  refine ⟨h2 i, ?_, ?_⟩
  · rw [h1.same i]; rfl
  · rw [h1.same i]; rfl

/-- If the worker of database `i` creates a collection whose id is that of a collection of the open database `j`, it never takes
another turn until the process dies, whatever happens at either: none of its turns does anything. -/
theorem C83_worker_hangs (h : Strangers J K dbs es) {i j : Nat} (hij : i ≠ j) {o₁ o₂ o₃ : Order} {c : Ddl.Circ} {env : Env} {x : Int64}
    {es' : List (Nat × Ev)} (hb : Brief K (only i es ++ .work o₁ o₂ o₃ c env :: es'.map Prod.snd)) (hes : ∀ e ∈ es', e.2 ≠ .crash)
    (hj : Lists J (alone J dbs es j).db x) (hup : ((Hall.run J es (opened dbs)).2.dbs j).up = true)
    (hi : Lists J (alone J dbs (es ++ [(i, .work o₁ o₂ o₃ c env)]) i).db x)
    (p₁ p₂ p₃ : Order) (c' : Ddl.Circ) (env' : Env) :
    ((Hall.run J (es ++ (i, .work o₁ o₂ o₃ c env) :: es') (opened dbs)).2.step J i (.work p₁ p₂ p₃ c' env')).1 = .none ∧
    ∀ k, (((Hall.run J (es ++ (i, .work o₁ o₂ o₃ c env) :: es') (opened dbs)).2.step J i (.work p₁ p₂ p₃ c' env')).2.dbs k).db =
      ((Hall.run J (es ++ (i, .work o₁ o₂ o₃ c env) :: es') (opened dbs)).2.dbs k).db := by
  have hi' : Lists J ((alone J dbs es i).step J (.work o₁ o₂ o₃ c env)).2.db x := by
    unfold alone at hi ⊢
    rw [only_append, only_self, Ddl.run_append] at hi
    exact hi
  obtain ⟨hst, -⟩ := never_returns h hb hes hj hup hij hi'
  generalize (Hall.run J (es ++ (i, .work o₁ o₂ o₃ c env) :: es') (opened dbs)).2 = H at hst ⊢
  rw [step_on (fun _ _ => Ev.noConfusion) Ev.noConfusion]
  have e1 : (H.at i).step J (.work p₁ p₂ p₃ c' env') = (.none, H.at i) := by
    simp only [World.step]
    rw [if_pos (.inl hst)]
  rw [e1]
  refine ⟨rfl, fun k => ?_⟩
  by_cases hk : k = i
  · subst hk; rw [back_self]; rfl
  · rw [back_other hk]

/-- And no request that was not answered when it hung — or was made later — is ever answered: whoever looks for the job sees
none, until the process dies. -/
theorem C83_never_returns (h : Strangers J K dbs es) {i j : Nat} (hij : i ≠ j) {o₁ o₂ o₃ : Order} {c : Ddl.Circ} {env : Env} {x : Int64}
    {es' : List (Nat × Ev)} (hb : Brief K (only i es ++ .work o₁ o₂ o₃ c env :: es'.map Prod.snd)) (hes : ∀ e ∈ es', e.2 ≠ .crash)
    (hj : Lists J (alone J dbs es j).db x) (hup : ((Hall.run J es (opened dbs)).2.dbs j).up = true)
    (hi : Lists J (alone J dbs (es ++ [(i, .work o₁ o₂ o₃ c env)]) i).db x)
    {id : Int64} {c₀ c₁ : Ddl.Circ} (hc₀ : Roomy c₀.env) (hc₁ : Roomy c₁.env)
    (hopen : ((Hall.run J es (opened dbs)).2.step J i (.getJob id c₀)).1 = .found (.ok none)) :
    ∃ r, ((Hall.run J (es ++ (i, .work o₁ o₂ o₃ c env) :: es') (opened dbs)).2.step J i (.getJob id c₁)).1 = .found r ∧
      checkOnce r = none := by
  have hi' : Lists J ((alone J dbs es i).step J (.work o₁ o₂ o₃ c env)).2.db x := by
    unfold alone at hi ⊢
    rw [only_append, only_self, Ddl.run_append] at hi
    exact hi
  obtain ⟨r, h1, h2⟩ := (never_returns h hb hes hj hup hij hi').2 id c₀ c₁ hc₀ hc₁ hopen
  refine ⟨r, h1, ?_⟩
  rcases h2 with rfl | ⟨e, -, rfl⟩ <;> rfl

/-- Whoever draws an id for a collection id is given it from the same sequence: the answer and what becomes of the process do not
depend on which database it is drawn for. -/
theorem C83_draws_shared (H : Hall) (i j : Nat) (x : Int64) (c : Ddl.Circ) : H.step J i (.draw x c) = H.step J j (.draw x c) := rfl

/-- Init lists the databases of its store first. -/
theorem inited_ok {w : World} {o : DBInfo → Order} {env : Env} {fail : Int64 → Option Err}
    (h : (w.step J (.init o env fail)).1 = .inited (.ok ())) {l : List DBInfo}
    (hl : ((⟨true, env, none, Client.one .listDatabases⟩ : MetaTxn (List DBInfo)).run J w.db).1 = .ok l) {x : Int64} (hx : x ∈ idsListed l) :
    w.seqs x = none ∧ ((w.step J (.init o env fail)).2.seqs x).isSome := by
  obtain ⟨d, hd, y, hy, rfl⟩ := mem_idsListed.mp hx
  have hm : (d.id, y.2.id) ∈ l.flatMap (fun d => ((o d).visit d.collections.ents).map (fun e => (d.id, e.2.id))) :=
    List.mem_flatMap.mpr ⟨d, hd, List.mem_map.mpr ⟨y, ((o d).perm _).mem_iff.mpr hy, rfl⟩⟩
  simp only [World.step] at h ⊢
  cases hr : (⟨true, env, none, Client.one .listDatabases⟩ : MetaTxn (List DBInfo)).run J w.db with
  | mk r db =>
    rw [hr] at hl h
    simp only at hl
    subst hl
    simp only at h ⊢
    have key := initSequences_made (env := env) (fail := fail)
      (l.flatMap (fun d => ((o d).visit d.collections.ents).map (fun e => (d.id, e.2.id)))) (w := { w with db := db })
    cases hs : initSequences env fail (l.flatMap (fun d => ((o d).visit d.collections.ents).map (fun e => (d.id, e.2.id)))) { w with db := db } with
    | mk r' w' =>
      rw [hs] at h key
      cases r' with
      | ok u => cases u; exact key rfl _ hm
      | err e => cases h
      | panic => cases h

/-- A store with a collection whose id is that of a collection of a store opened before, by the same process, cannot be opened:
Init reports an error or panics, and no worker is started for it.  Nothing is assumed of the stores, and `i` and `j` may be the
same. -/
theorem C83_second_init (H : Hall) {i j : Nat} {o o' : DBInfo → Order} {env env' : Env} {fail fail' : Int64 → Option Err} {l l' : List DBInfo}
    {x : Int64} (hi : (H.step J i (.init o env fail)).1 = .inited (.ok ()))
    (hl : ((⟨true, env, none, Client.one .listDatabases⟩ : MetaTxn (List DBInfo)).run J (H.dbs i).db).1 = .ok l) (hx : x ∈ idsListed l)
    (hes : ∀ e ∈ es, e.2 ≠ .crash)
    (hl' : ((⟨true, env', none, Client.one .listDatabases⟩ : MetaTxn (List DBInfo)).run J
      ((Hall.run J es (H.step J i (.init o env fail)).2).2.dbs j).db).1 = .ok l') (hx' : x ∈ idsListed l') :
    ((Hall.run J es (H.step J i (.init o env fail)).2).2.step J j (.init o' env' fail')).1 ≠ .inited (.ok ()) ∧
    (((Hall.run J es (H.step J i (.init o env fail)).2).2.step J j (.init o' env' fail')).2.dbs j).up =
      ((Hall.run J es (H.step J i (.init o env fail)).2).2.dbs j).up := by
  rw [step_on (fun _ _ => Ev.noConfusion) Ev.noConfusion] at hi
  have h1 := (inited_ok (w := H.at i) hi hl hx).2
  have h2 : ((H.step J i (.init o env fail)).2.table x).isSome := by
    rw [step_on (fun _ _ => Ev.noConfusion) Ev.noConfusion]
    show ((H.back i _).table x).isSome
    rw [back_table_isSome]
    exact h1
  have h3 := run_stays (J := J) es hes h2
  generalize (Hall.run J es (H.step J i (.init o env fail)).2).2 = G at h3 hl' ⊢
  rw [step_on (fun _ _ => Ev.noConfusion) Ev.noConfusion]
  have hne : ((G.at j).step J (.init o' env' fail')).1 ≠ .inited (.ok ()) := by
    intro h
    have := (inited_ok (w := G.at j) h hl' hx').1
    rw [← Option.not_isSome_iff_eq_none, at_isSome] at this
    exact this h3
  refine ⟨hne, ?_⟩
  show ((G.back j ((G.at j).step J (.init o' env' fail')).2).dbs j).up = _
  rw [back_self]
  simp only [World.step] at hne ⊢
  have e1 : (G.at j).db = (G.dbs j).db := rfl
  rw [e1] at hne ⊢
  cases hr : (⟨true, env', none, Client.one .listDatabases⟩ : MetaTxn (List DBInfo)).run J (G.dbs j).db with
  | mk r db =>
    rw [hr] at hne
    cases r with
    | ok l =>
      simp only at hne ⊢
      have key := (initSequences_same (env := env') (fail := fail')
        (l.flatMap (fun d => ((o' d).visit d.collections.ents).map (fun e => (d.id, e.2.id)))) { G.at j with db := db }).1
      cases hs : initSequences env' fail' (l.flatMap (fun d => ((o' d).visit d.collections.ents).map (fun e => (d.id, e.2.id)))) { G.at j with db := db } with
      | mk r' w' =>
        rw [hs] at hne key
        cases r' with
        | ok u => cases u; exact absurd rfl hne
        | err e => exact key
        | panic => exact key
    | err e => rfl
    | panic => rfl

/-! ### Two empty stores -/

/-- A well-formed request for a database with at least one collection and no index. -/
def Asked (i : CreateSchemaInput) : Prop := ValidInput i ∧ ¬ WithIndex i ∧ i.collections ≠ []

theorem two_numbered {i : CreateSchemaInput} (h : i.collections ≠ []) : ∃ e ∈ (requested 0 i).collections.ents, e.2.id = 2 := by
  have hne : 0 < (distinct i.collections).length := by
    obtain ⟨x, hx⟩ := List.exists_mem_of_ne_nil _ h
    exact List.length_pos_of_mem ((mem_distinct _ x).mpr hx)
  have hm : (2 : Int64) ∈ ((numbered 2 (distinct i.collections)).ents.map (fun e => e.2.id)) := by
    rw [(ids_numbered 2 (distinct_nodup _)).mem_iff]
    exact List.mem_map.mpr ⟨0, List.mem_range.mpr hne, rfl⟩
  obtain ⟨e, he, h2⟩ := List.mem_map.mp hm
  exact ⟨e, he, h2⟩

theorem opened_state {o : DBInfo → Order} {env : Env} {fail : Int64 → Option Err} {a : Ddl.Answer} {P Q : Proc} (hP : P.state = {})
    (h : P.Step (.init o env fail) a Q) : Q.state = {} ∧ Q.running = true := by
  have hno : ∀ p, p ∉ P.state.collections := by rw [hP]; exact fun p => List.not_mem_nil
  cases h with
  | init => exact ⟨hP, rfl⟩
  | initAgain h => obtain ⟨p, hp, -⟩ := h; exact absurd hp (hno p)
  | initRefused h => obtain ⟨p, hp, -⟩ := h; exact absurd hp (hno p)

theorem asked_state {o : Order} {i : CreateSchemaInput} {c : Ddl.Circ} {a : Ddl.Answer} {P Q : Proc} (hP : P.state = {})
    (hi : Asked i) (hc : c.fail = none) (h : P.Step (.createSchema o i c) a Q) :
    Q.state = DState.enqueued {} i ∧ Q.running = P.running := by
  obtain ⟨h1, h2, h3⟩ := hi
  cases h with
  | create h =>
    rw [hP] at h
    cases h with
    | invalid e hn => exact absurd h1 hn
    | full _ hl => exact absurd hl (by decide)
    | taken _ _ hh => obtain ⟨d, hd, -⟩ := hh; exact absurd hd List.not_mem_nil
    | crashes _ _ _ hw => exact absurd hw h2
    | ok => exact ⟨rfl, rfl⟩
  | createRefused h => rw [hc] at h; cases h

theorem served_state {o₁ o₂ o₃ : Order} {i : CreateSchemaInput} {c : Ddl.Circ} {env : Env} {a : Ddl.Answer} {P Q : Proc}
    (hP : P.state = DState.enqueued {} i) (hr : P.running = true) (hi : Asked i) (hc : c.fail = none) (h : P.Step (.work o₁ o₂ o₃ c env) a Q) :
    Q.running = true ∧ ∃ p ∈ Q.state.collections, p.2 = 2 := by
  cases h with
  | work =>
    obtain ⟨e, he, h2⟩ := two_numbered hi.2.2
    have hw : P.state.work.dbs = [requested 0 i] := by
      rw [hP]
      rw [work_create (A := DState.enqueued {} i) (j := DState.createJobID 0 i) (d := requested 0 i) (q := []) rfl
        (fun hh => by obtain ⟨d, hd, -⟩ := hh; exact absurd hd List.not_mem_nil)]
      rfl
    refine ⟨hr, ((requested 0 i).id, e.2.id), ?_, h2⟩
    unfold DState.collections
    show _ ∈ P.state.work.dbs.flatMap _
    rw [hw]
    exact List.mem_flatMap.mpr ⟨_, List.mem_singleton.mpr rfl, List.mem_map.mpr ⟨e, he, rfl⟩⟩
  | workRefused _ h => rw [hc] at h; cases h
  | workNot h => rw [hr] at h; cases h

theorem brief_sub {a b : List Ev} (h : Brief K b) (hm : ∀ e ∈ a, e ∈ b) (hl : a.length ≤ b.length) : Brief K a := by
  obtain ⟨h1, h2⟩ := h
  refine ⟨fun e he => h1 e (hm e he), Nat.lt_of_le_of_lt ?_ h2⟩
  exact Nat.mul_le_mul hl (Nat.mul_le_mul_right _ (Nat.mul_le_mul_left _ (by omega)))

theorem room_left {m : Nat} (h : m ≤ K + 2) (hK : 2 * (4 * (K + 300)) < 2 ^ 62) : 2 ^ 62 + (4 * K + 1020 + 2 * (m + 3)) < 2 ^ 63 := by
  have e : (2 : Nat) ^ 63 = 2 ^ 62 + 2 ^ 62 := by decide
  rw [e]
  generalize (2 : Nat) ^ 62 = N at hK ⊢
  omega

theorem told_third {a b : CreateSchemaInput}
    {n₀ n₁ : DBInfo → Order} {env₀ env₁ env₂ : Env} {fail₀ fail₁ : Int64 → Option Err} {o₀ o₁ p₁ p₂ p₃ : Order} {c₀ c₁ c₂ : Ddl.Circ}
    (hes : es = [(0, .init n₀ env₀ fail₀), (1, .init n₁ env₁ fail₁), (0, .createSchema o₀ a c₀), (1, .createSchema o₁ b c₁),
      (0, .work p₁ p₂ p₃ c₂ env₂)]) {as : List Ddl.Answer} (h : as.length = 5) : (told 1 es as)[1]? = as[3]? := by
  subst hes
  rcases as with _ | ⟨x0, _ | ⟨x1, _ | ⟨x2, _ | ⟨x3, as⟩⟩⟩⟩
  · cases h
  · cases h
  · cases h
  · cases h
  · cases as with
    | nil => cases h
    | cons x4 as => cases as <;> rfl

/-- Two empty stores are opened by one process, and each is asked for a database with at least one collection — any of them,
by any names.  The caller whose database is made second is given a job, and waits for it forever, whatever happens next, until
the process dies. -/
theorem C83_first_schemas (hdb : ∀ i, Fresh Sequence.metaPrefix (dbs i)) {a b : CreateSchemaInput} (ha : Asked a) (hb : Asked b)
    {n₀ n₁ : DBInfo → Order} {env₀ env₁ env₂ env₃ : Env} {fail₀ fail₁ : Int64 → Option Err} {o₀ o₁ p₁ p₂ p₃ q₁ q₂ q₃ : Order} {c₀ c₁ c₂ c₃ : Ddl.Circ}
    (hes : es = [(0, .init n₀ env₀ fail₀), (1, .init n₁ env₁ fail₁), (0, .createSchema o₀ a c₀), (1, .createSchema o₁ b c₁),
      (0, .work p₁ p₂ p₃ c₂ env₂)]) (hc₀ : c₀.fail = none) (hc₁ : c₁.fail = none) (hc₂ : c₂.fail = none) (hc₃ : c₃.fail = none)
    {es' : List (Nat × Ev)} (hes' : ∀ e ∈ es', e.2 ≠ .crash) (hK : Brief K ((es ++ (1, .work q₁ q₂ q₃ c₃ env₃) :: es').map Prod.snd)) :
    ∃ j, (Hall.run J es (opened dbs)).1[3]? = some (.job (.ok j)) ∧ ∀ c : Ddl.Circ, Roomy c.env →
      ∃ r, ((Hall.run J (es ++ (1, .work q₁ q₂ q₃ c₃ env₃) :: es') (opened dbs)).2.step J 1 (.getJob j.id c)).1 = .found r ∧
        checkOnce r = none := by
  have k0 : only 0 es = [.init n₀ env₀ fail₀, .createSchema o₀ a c₀, .work p₁ p₂ p₃ c₂ env₂] := by rw [hes]; rfl
  have k1 : only 1 es = [.init n₁ env₁ fail₁, .createSchema o₁ b c₁] := by rw [hes]; rfl
  have k2 : ∀ k, k ≠ 0 → k ≠ 1 → only k es = [] := by
    intro k h0 h1
    rw [hes]
    simp [only, concerns, Ne.symm h0, Ne.symm h1]
  have hlen : es.length = 5 := by rw [hes]; rfl
  have hmap : (es ++ (1, .work q₁ q₂ q₃ c₃ env₃) :: es').map Prod.snd = es.map Prod.snd ++ .work q₁ q₂ q₃ c₃ env₃ :: es'.map Prod.snd := by
    rw [List.map_append]; rfl
  rw [hmap] at hK
  have hbrief : ∀ k, Brief K (only k es ++ .work q₁ q₂ q₃ c₃ env₃ :: es'.map Prod.snd) := by
    intro k
    refine brief_sub hK ?_ ?_
    · intro e he
      rcases List.mem_append.mp he with he | he
      · obtain ⟨x, hx, rfl⟩ := List.mem_map.mp he
        exact List.mem_append_left _ (List.mem_map.mpr ⟨x, (List.mem_filter.mp hx).1, rfl⟩)
      · exact List.mem_append_right _ he
    · rw [List.length_append, List.length_append, only, List.length_map, List.length_map]
      exact Nat.add_le_add_right (List.length_filter_le _ _) _
  -- database 0
  have s0 : ∃ P : Proc, Serves J K (2 ^ 62) P (alone J dbs es 0) ∧ P.running = true ∧ ∃ p ∈ P.state.collections, p.2 = 2 := by
    obtain ⟨P, h1, h2⟩ := run_serves J (hdb 0) (brief_left (hbrief 0))
    rw [k0] at h1
    cases h1 with
    | cons _ _ h3 h1 =>
      obtain ⟨g1, g2⟩ := opened_state rfl h3
      cases h1 with
      | cons _ _ h4 h1 =>
        obtain ⟨g3, g4⟩ := asked_state g1 ha hc₀ h4
        cases h1 with
        | cons _ _ h5 h1 =>
          have g5 := served_state g3 (g4.trans g2) ha hc₂ h5
          cases h1 with
          | nil => exact ⟨P, h2, g5⟩
  -- database 1
  have s1 : ∃ (P : Proc) (j : Job), Serves J K (2 ^ 62) P (alone J dbs es 1) ∧ P.state = DState.enqueued {} b ∧ P.running = true ∧
      (Ddl.run J (only 1 es) { db := dbs 1 }).1[1]? = some (.job (.ok j)) ∧ j.id = DState.createJobID 0 b := by
    obtain ⟨P, h1, h2⟩ := run_serves J (hdb 1) (brief_left (hbrief 1))
    rw [k1] at h1 ⊢
    generalize (Ddl.run J [.init n₁ env₁ fail₁, .createSchema o₁ b c₁] { db := dbs 1 }).1 = as at h1 ⊢
    cases h1 with
    | cons _ _ h3 h1 =>
      obtain ⟨g1, g2⟩ := opened_state rfl h3
      cases h1 with
      | cons _ _ h4 h1 =>
        obtain ⟨g3, g4⟩ := asked_state g1 hb hc₁ h4
        cases h1 with
        | nil =>
          cases h4 with
          | create h =>
            rw [g1] at h
            cases h with
            | invalid e hn => exact absurd hb.1 hn
            | full _ hl => exact absurd hl (by decide)
            | taken _ _ hh => obtain ⟨d, hd, -⟩ := hh; exact absurd hd List.not_mem_nil
            | crashes _ _ _ hw => exact absurd hw hb.2.1
            | ok j _ _ _ _ hid =>
              refine ⟨_, j, h2, g3, g4.trans g2, ?_, hid⟩
              show some (Ddl.Answer.job (Proc.heard _ (.ok j))) = _
              unfold Proc.heard
              simp only [g2, if_true]
          | createRefused h => rw [hc₁] at h; cases h
  obtain ⟨P₀, a1, a3, a2⟩ := s0
  obtain ⟨P₁, j, b1, b2, b3, b4, b5⟩ := s1
  have hnot1 : ∀ x, ¬ Lists J (alone J dbs es 1).db x := by
    intro x hx
    obtain ⟨p, hp, -⟩ := (lists_iff b1 x).mp hx
    rw [b2] at hp
    exact List.not_mem_nil hp
  have hnot : ∀ k x, Lists J (alone J dbs es k).db x → k = 0 := by
    intro k x hx
    by_cases h0 : k = 0
    · exact h0
    · by_cases h1 : k = 1
      · subst h1; exact absurd hx (hnot1 x)
      · exfalso
        have hs : Serves J K (2 ^ 62) {} (alone J dbs es k) := by
          unfold alone
          rw [k2 k h0 h1]
          exact (Serves.start J K (hdb k)).mono (by omega)
        obtain ⟨p, hp, -⟩ := (lists_iff hs x).mp hx
        exact List.not_mem_nil hp
  have hstr : Strangers J K dbs es := by
    refine ⟨hdb, fun i => brief_left (hbrief i), ?_, ?_⟩
    · intro i j c hi hj
      rw [hnot i c hi, hnot j c hj]
    · intro i c r hm
      rw [hes] at hm
      simp at hm
  obtain ⟨happ, htold⟩ := run_apart hstr
  have hl0 : Lists J (alone J dbs es 0).db 2 := (lists_iff a1 2).mpr a2
  have hup : ((Hall.run J es (opened dbs)).2.dbs 0).up = true := by
    rw [happ.same 0]
    show (alone J dbs es 0).up = true
    exact a1.up.trans a3
  have hb1 : Brief K (only 1 es ++ [.work q₁ q₂ q₃ c₃ env₃]) := by
    have e : only 1 es ++ .work q₁ q₂ q₃ c₃ env₃ :: es'.map Prod.snd = (only 1 es ++ [.work q₁ q₂ q₃ c₃ env₃]) ++ es'.map Prod.snd := by
      rw [List.append_assoc]; rfl
    have := hbrief 1
    rw [e] at this
    exact brief_left this
  have hl1 : Lists J (alone J dbs (es ++ [(1, .work q₁ q₂ q₃ c₃ env₃)]) 1).db 2 := by
    have e : alone J dbs (es ++ [(1, .work q₁ q₂ q₃ c₃ env₃)]) 1 = (Ddl.run J (only 1 es ++ [.work q₁ q₂ q₃ c₃ env₃]) { db := dbs 1 }).2 := by
      unfold alone; rw [only_append, only_self]
    rw [e]
    obtain ⟨P, h1, h2⟩ := run_serves J (hdb 1) hb1
    refine (lists_iff h2 2).mpr ?_
    rw [k1] at h1
    cases h1 with
    | cons _ _ h3 h1 =>
      obtain ⟨g1, g2⟩ := opened_state rfl h3
      cases h1 with
      | cons _ _ h4 h1 =>
        obtain ⟨g3, g4⟩ := asked_state g1 hb hc₁ h4
        cases h1 with
        | cons _ _ h5 h1 =>
          have g5 := served_state g3 (g4.trans g2) hb hc₃ h5
          cases h1 with
          | nil => exact g5.2
  refine ⟨j, ?_, ?_⟩
  · have ht := htold 1
    rw [← ht, told_third hes (by rw [Hall.run_length, hlen])] at b4
    exact b4
  · intro c hc
    refine C83_never_returns hstr (i := 1) (j := 0) (by decide) (hbrief 1) hes' hl0 hup hl1 (c₀ := quiet) roomy hc ?_
    rw [step_getJob_at happ 1]
    have hfin : P₁.state.finishedJob j.id = none := by rw [b2]; rfl
    have hlast : P₁.state.lastID ≤ K + 2 := by
      rw [b2]
      have := (hK.1 (.createSchema o₁ b c₁) (List.mem_append_left _ (List.mem_map.mpr ⟨(1, .createSchema o₁ b c₁), by rw [hes]; simp, rfl⟩))).2.1
      show 0 + (2 + b.collections.length + b.indices.ents.length) ≤ K + 2
      omega
    have hKs : 2 * (4 * (K + 300)) < 2 ^ 62 := by
      refine Nat.lt_of_le_of_lt ?_ hK.2
      have : 2 ≤ (es.map Prod.snd ++ .work q₁ q₂ q₃ c₃ env₃ :: es'.map Prod.snd).length := by
        rw [List.length_append, List.length_cons, List.length_map, hlen]; omega
      generalize (es.map Prod.snd ++ .work q₁ q₂ q₃ c₃ env₃ :: es'.map Prod.snd).length = n at this
      exact Nat.mul_le_mul this (Nat.mul_le_mul_right _ (by omega))
    have hroom : 2 ^ 62 + Ddl.cost K P₁.state < 2 ^ 63 := by
      exact room_left hlast hKs
    rcases getJob_answer b1 (id := j.id) (c := quiet) roomy hroom (by omega) with h | ⟨e, he, -⟩
    · rw [h, hfin]
    · cases he

end
end Mondis.Props
