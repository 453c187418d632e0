import Verif.Lemmas.StructHash
import Verif.Lemmas.StructList
/-!
# Every operation of package structure follows its specification
-/
namespace Mondis.Structure
open Mondis.Memcomparable Mondis.Prog Mondis.Spec

/-- The result of a program, renamed. -/
def mapOut {α : Type} (f : α → Out) (p : Prog α) : Prog Out := p >>= fun a => pure (f a)

/-- The operation as a program: which function of package structure it calls. -/
def exec (pfx : Bytes) : SOp → Prog Out
  | .set k v => mapOut (fun _ => .unit) (strSet pfx k v)
  | .get k => mapOut .bytes (strGet pfx k)
  | .clear k => mapOut (fun _ => .unit) (strClear pfx k)
  | .getInt k => mapOut (fun i => .int i.toInt) (strGetInt64 pfx k)
  | .setInt k v => mapOut (fun _ => .unit) (strSetInt64 pfx k v)
  | .inc k s => mapOut (fun i => .int i.toInt) (strInc pfx k s)
  | .hset k f v => mapOut (fun _ => .unit) (hset pfx k f v)
  | .hget k f => mapOut .bytes (hget pfx k f)
  | .hinc k f s => mapOut (fun i => .int i.toInt) (hinc pfx k f s)
  | .hgetInt k f => mapOut (fun i => .int i.toInt) (hgetInt64 pfx k f)
  | .hsetInt k f v => mapOut (fun _ => .unit) (hsetInt64 pfx k f v)
  | .hlen k => mapOut (fun i => .int i.toInt) (hlen pfx k)
  | .hdel k fs => mapOut (fun _ => .unit) (hdel pfx k fs)
  | .hkeys k => mapOut .list (hkeys pfx k)
  | .hgetN k n => mapOut .pairs (hgetN pfx k n)
  | .hgetAll k => mapOut .pairs (hgetAll pfx k)
  | .hgetNDesc k n => mapOut .pairs (hgetNDesc pfx k n)
  | .hclear k => mapOut (fun _ => .unit) (hclear pfx k)
  | .lpush k vs => mapOut (fun _ => .unit) (lpush pfx k vs)
  | .rpush k vs => mapOut (fun _ => .unit) (rpush pfx k vs)
  | .lpop k => mapOut .bytes (lpop pfx k)
  | .rpop k => mapOut .bytes (rpop pfx k)
  | .llen k => mapOut (fun i => .int i.toInt) (llen pfx k)
  | .lgetAll k => mapOut .list (lgetAll pfx k)
  | .lindex k i => mapOut .bytes (lindex pfx k i)
  | .lset k i v => mapOut (fun _ => .unit) (lset pfx k i v)
  | .lclear k => mapOut (fun _ => .unit) (lclear pfx k)

/-- How many new elements or fields an operation can bring. -/
def cost : SOp → Nat
  | .lpush _ vs | .rpush _ vs => vs.length
  | .hset _ _ _ | .hsetInt _ _ _ | .hinc _ _ _ => 1
  | _ => 0

/-- The stored keys an operation may write in state `A`. -/
def MayWrite (pfx : Bytes) (A : SState) : SOp → Bytes → Prop
  | .set k _ | .clear k | .setInt k _ | .inc k _ => SKey pfx k
  | .hset k f _ | .hsetInt k f _ | .hinc k f _ => HW pfx k (· = f)
  | .hdel k fs => HW pfx k (· ∈ fs)
  | .hclear k => HW pfx k (fun f => (A k).hash.get f ≠ none)
  | .lpush k _ | .rpush k _ | .lpop k | .rpop k | .lset k _ _ | .lclear k => LKey pfx k
  | _ => fun _ => False

/-- The one operation the code gets wrong (see `C32`): storing an empty value in an absent field. -/
def Lossless (A : SState) : SOp → Prop
  | .hset k f v => v ≠ [] ∨ (A k).hash.get f ≠ none
  | _ => True

theorem wp_mapOut {α : Type} {env : Env} {p : Prog α} {f : α → Out} {m : DB} {W : Bytes → Prop}
    {Q : Res α → DB → Prop} {Q' : Res Out → DB → Prop}
    (h : p.wp env m (Post env W Q))
    (hQ : ∀ r m', Q r m' → Q' (r.map' f) m') :
    (mapOut f p).wp env m (Post env W Q') := by
  unfold mapOut
  rw [wp_bind]
  refine wp_mono h ?_
  intro r m' hr
  rcases hr with ⟨k, e, h1, h2, rfl⟩ | hr
  · exact .inl ⟨k, e, h1, h2, rfl⟩
  · have := hQ r m' hr
    cases r with
    | ok a => exact .inr this
    | err e => exact .inr this
    | panic => exact .inr this

theorem wp_mapOut' {α : Type} {env : Env} {p : Prog α} {f : α → Out} {m : DB} {W : Bytes → Prop}
    {Q : Res α → DB → Prop} {Q' : Res Out → DB → Prop}
    (h : p.wp env m Q) (hQ : ∀ r m', Q r m' → Q' (r.map' f) m') :
    (mapOut f p).wp env m (Post env W Q') :=
  wp_mapOut (wp_mono h (fun _ _ h => .inr h)) hQ

theorem HashEff.rep {pfx : Bytes} {B B' : Int} {A : SState} {m m' : DB} (h : Rep pfx B A m)
    (hB : B ≤ B') {key : Bytes} {o : OMap Bytes} (he : HashEff pfx key m o m')
    (hb : (o.ents.length : Int) ≤ B') :
    Rep pfx B' (A.upd key { A key with hash := o }) m' :=
  h.upd_hash hB he.2.1 (he.2.2 h.clean) he.1 hb

theorem ListEff.rep {pfx : Bytes} {B B' : Int} {A : SState} {m m' : DB} (h : Rep pfx B A m)
    (hB : B ≤ B') {key : Bytes} {l : List Bytes} (he : ListEff pfx B' key m l m')
    (hb : (l.length : Int) ≤ B') : Rep pfx B' (A.upd key { A key with list := l }) m' :=
  h.upd_list hB he.2.1 (he.2.2 h.clean) he.1 hb

theorem human_int (b : Bytes) : Numeric.decodeFromHuman (nilIfEmpty b) = intOf b := by
  unfold nilIfEmpty intOf
  by_cases h : b = [] <;> simp [h, Numeric.decodeFromHuman]

theorem intOf_no_panic (b : Bytes) : intOf b ≠ .panic := by
  unfold intOf; split
  · simp
  · exact parseInt_no_panic b

theorem omap_length_set (h : OMap Bytes) (f v : Bytes) :
    (h.set f v).ents.length ≤ h.ents.length + 1 := by
  have := OMap.length_set h f v
  split at this <;> omega

theorem step_eq {A : SState} {op : SOp} {r : Res Out} {o : Obj} (h : op.sem (A op.key) = (r, o)) :
    op.step A = (r, A.upd op.key o) := by
  simp [SOp.step, h]

/-- **Refinement**, one operation: whatever goes wrong with writes, otherwise the answer and the new
contents are those of the specification. -/
theorem step_refines {env : Env} {pfx : Bytes} {B : Int} {A : SState} {m : DB} (op : SOp)
    (hr : Rep pfx B A m) (hB : B + cost op < 2 ^ 63) (hok : Lossless A op) :
    (exec pfx op).wp env m (Post env (MayWrite pfx A op) (fun r m' =>
      r = (op.step A).1 ∧ Rep pfx (B + cost op) (op.step A).2 m')) := by
  have hB0 : B < 2 ^ 63 := by omega
  have hBle : B ≤ B + cost op := by omega
  cases op with
  | set k v =>
    exact wp_mapOut (Q := fun r m' => r = .ok () ∧ Rep pfx B (A.upd k { A k with str := some v }) m')
      (wp_set_last (show MayWrite pfx A (.set k v) _ from rfl) ⟨rfl, hr.set_string k v⟩)
      (by rintro r m' ⟨rfl, h⟩; exact ⟨rfl, h.mono hBle⟩)
  | get k =>
    apply wp_mapOut' (Q := fun r m' => m' = m ∧ r = match (A k).str with
      | some v => .ok v
      | none => .err .keyNotFound)
    · unfold strGet
      have hs := hr.str k
      unfold StrRep at hs
      rw [← hs]
      cases hg : m.get (stringDataKey pfx k) with
      | none => exact wp_getK_bind_none (stringKey_ne _ _) hg ⟨rfl, rfl⟩
      | some v => exact wp_getK_bind (stringKey_ne _ _) hg ⟨rfl, rfl⟩
    · rintro r m' ⟨rfl, rfl⟩
      simp only [SOp.step, SOp.key, SOp.sem]
      cases h : (A k).str <;> simp only [upd_self, Res.map'] <;> exact ⟨by trivial, hr.mono hBle⟩
  | clear k =>
    exact wp_mapOut (Q := fun r m' => r = .ok () ∧ Rep pfx B (A.upd k { A k with str := none }) m')
      (wp_del_last rfl ⟨rfl, hr.del_string k⟩)
      (by rintro r m' ⟨rfl, h⟩; exact ⟨rfl, h.mono hBle⟩)
  | getInt k =>
    apply wp_mapOut' (Q := fun r m' => m' = m ∧ r = match (A k).str with
      | some v => intOf v
      | none => .err .keyNotFound)
    · unfold strGetInt64 KV.getInt64
      have hs := hr.str k
      unfold StrRep at hs
      rw [← hs]
      cases hg : m.get (stringDataKey pfx k) with
      | none => exact wp_getK_bind_none (stringKey_ne _ _) hg ⟨rfl, rfl⟩
      | some v =>
        apply wp_getK_bind (stringKey_ne _ _) hg
        rw [wp_ofRes]
        exact ⟨rfl, human_int _⟩
    · rintro r m' ⟨rfl, rfl⟩
      simp only [SOp.step, SOp.key, SOp.sem]
      cases h : (A k).str <;> simp only [upd_self, Res.map'] <;> exact ⟨by trivial, hr.mono hBle⟩
  | setInt k v =>
    exact wp_mapOut
      (Q := fun r m' => r = .ok () ∧ Rep pfx B (A.upd k { A k with str := some (textOf v) }) m')
      (wp_set_last rfl ⟨rfl, hr.set_string k _⟩)
      (by rintro r m' ⟨rfl, h⟩; exact ⟨rfl, h.mono hBle⟩)
  | inc k st =>
    apply wp_mapOut (Q := fun r m' => match (A k).str with
      | none => r = .ok st ∧ Rep pfx B (A.upd k { A k with str := some (textOf st) }) m'
      | some v => match intOf v with
        | .ok n => r = .ok (n + st) ∧ Rep pfx B (A.upd k { A k with str := some (textOf (n + st)) }) m'
        | .err e => r = .err e ∧ m' = m
        | .panic => False)
    · show (strInc pfx k st).wp env m (Post env (SKey pfx k) _)
      unfold strInc KV.incInt64
      apply wp_getOpt_bind (stringKey_ne _ _)
      have hs := hr.str k
      unfold StrRep at hs
      rw [← hs]
      cases hg : m.get (stringDataKey pfx k) with
      | none =>
        apply wp_set_bind (show SKey pfx k _ from rfl)
        exact .inr ⟨rfl, hr.set_string k _⟩
      | some v =>
        simp only [Option.map_some]
        rw [wp_ofRes_bind, human_int]
        have hnp := intOf_no_panic v.value
        cases hi : intOf v.value with
        | panic => exact absurd hi hnp
        | err e => exact .inr ⟨rfl, rfl⟩
        | ok n =>
          simp only
          apply wp_set_bind (show SKey pfx k _ from rfl)
          exact .inr ⟨rfl, hr.set_string k _⟩
    · intro r m'
      simp only [SOp.step, SOp.key, SOp.sem]
      cases (A k).str with
      | none => rintro ⟨rfl, h⟩; exact ⟨rfl, h.mono hBle⟩
      | some v =>
        simp only
        cases intOf v with
        | panic => exact False.elim
        | err e => rintro ⟨rfl, rfl⟩; simp only [upd_self]; exact ⟨rfl, hr.mono hBle⟩
        | ok n => rintro ⟨rfl, h⟩; exact ⟨rfl, h.mono hBle⟩
  | hset k f v =>
    apply wp_mapOut (updateHash_ok (hr.hash k) rfl hok)
    rintro r m' ⟨rfl, h⟩
    refine ⟨rfl, h.rep hr hBle ?_⟩
    have := omap_length_set (A k).hash f v
    have := hr.hbound k
    simp only [cost]; omega
  | hget k f =>
    apply wp_mapOut' (hget_spec (hr.hash k))
    rintro r m' ⟨rfl, rfl⟩
    simp only [SOp.step, SOp.key, SOp.sem]
    cases h : (A k).hash.get f <;> simp only [upd_self, Res.map'] <;> exact ⟨by trivial, hr.mono hBle⟩
  | hinc k f st =>
    apply wp_mapOut (hinc_spec (hr.hash k))
    intro r m'
    simp only [SOp.step, SOp.key, SOp.sem]
    cases fieldInt (A k).hash f with
    | panic => exact False.elim
    | err e => rintro ⟨rfl, rfl⟩; simp only [upd_self]; exact ⟨rfl, hr.mono hBle⟩
    | ok n =>
      rintro ⟨rfl, h⟩
      refine ⟨rfl, h.rep hr hBle ?_⟩
      have := omap_length_set (A k).hash f (textOf (n + st))
      have := hr.hbound k
      simp only [cost]; omega
  | hgetInt k f =>
    apply wp_mapOut' (Q := fun r m' => m' = m ∧ r = match (A k).hash.get f with
      | some v => intOf v
      | none => .err .keyNotFound)
    · unfold hgetInt64
      rw [wp_bind]
      refine wp_mono (hget_spec (hr.hash k)) ?_
      rintro r m' ⟨rfl, rfl⟩
      cases (A k).hash.get f with
      | none => exact ⟨rfl, rfl⟩
      | some v => exact ⟨rfl, human_int _⟩
    · rintro r m' ⟨rfl, rfl⟩
      simp only [SOp.step, SOp.key, SOp.sem]
      cases h : (A k).hash.get f <;> simp only [upd_self, Res.map'] <;> exact ⟨by trivial, hr.mono hBle⟩
  | hsetInt k f v =>
    show (mapOut (fun _ => Out.unit) (updateHash pfx k f
      (fun _ => .ok (Numeric.formatInt v, ())))).wp env m _
    apply wp_mapOut (updateHash_ok (hr.hash k) rfl (.inl (format_ne_nil v)))
    rintro r m' ⟨rfl, h⟩
    refine ⟨rfl, h.rep hr hBle ?_⟩
    have := omap_length_set (A k).hash f (Numeric.formatInt v)
    have := hr.hbound k
    simp only [cost]; omega
  | hlen k =>
    apply wp_mapOut' (hlen_spec (hr.hash k))
    rintro r m' ⟨rfl, rfl⟩
    simp only [SOp.step, SOp.key, SOp.sem, upd_self]
    have := hr.hbound k
    refine ⟨?_, hr.mono hBle⟩
    simp only [Res.map']
    rw [Int64.toInt_ofNat_of_lt (by omega)]
  | hdel k fs =>
    have hb := hr.hbound k
    apply wp_mapOut (hdel_spec fs (hr.hash k) (by omega))
    rintro r m' ⟨rfl, h⟩
    refine ⟨rfl, h.rep hr hBle ?_⟩
    have := foldl_del_length fs (A k).hash
    omega
  | hkeys k =>
    apply wp_mapOut' (Q := fun r m' => m' = m ∧ r = .ok ((A k).hash.ents.map Prod.fst))
    · unfold hkeys
      rw [wp_bind]
      refine wp_mono (iterateHash_spec (hr.hash k) hr.clean none (by simp)) ?_
      rintro r m' ⟨rfl, rfl⟩
      exact ⟨rfl, rfl⟩
    · rintro r m' ⟨rfl, rfl⟩
      simp only [SOp.step, SOp.key, SOp.sem, upd_self]
      exact ⟨rfl, hr.mono hBle⟩
  | hgetN k n =>
    apply wp_mapOut' (Q := fun r m' => m' = m ∧ r = .ok ((A k).hash.ents.take n.toNat))
    · unfold hgetN
      by_cases hn : n ≤ 0
      · rw [if_pos hn]
        have : n.toNat = 0 := by omega
        rw [this]; exact ⟨rfl, rfl⟩
      · rw [if_neg hn]
        exact iterateHash_spec (hr.hash k) hr.clean (some n.toNat) (by simp; omega)
    · rintro r m' ⟨rfl, rfl⟩
      simp only [SOp.step, SOp.key, SOp.sem, upd_self]
      exact ⟨rfl, hr.mono hBle⟩
  | hgetAll k =>
    apply wp_mapOut' (iterateHash_spec (hr.hash k) hr.clean none (by simp))
    rintro r m' ⟨rfl, rfl⟩
    simp only [SOp.step, SOp.key, SOp.sem, upd_self]
    exact ⟨rfl, hr.mono hBle⟩
  | hgetNDesc k n =>
    apply wp_mapOut' (Q := fun r m' => m' = m ∧ r = .ok ((A k).hash.ents.reverse.take n.toNat))
    · unfold hgetNDesc
      by_cases hn : n ≤ 0
      · rw [if_pos hn]
        have : n.toNat = 0 := by omega
        rw [this]; exact ⟨rfl, rfl⟩
      · rw [if_neg hn]
        obtain ⟨j, hj⟩ : ∃ j, n.toNat = j + 1 := ⟨n.toNat - 1, by omega⟩
        rw [hj]
        exact iterateReverseHash_spec (hr.hash k) hr.clean j
    · rintro r m' ⟨rfl, rfl⟩
      simp only [SOp.step, SOp.key, SOp.sem, upd_self]
      exact ⟨rfl, hr.mono hBle⟩
  | hclear k =>
    apply wp_mapOut (hclear_spec (hr.hash k) hr.clean)
    rintro r m' ⟨rfl, h, -⟩
    refine ⟨rfl, h.rep hr hBle ?_⟩
    have := hr.hbound k
    simp only [OMap.empty, List.length_nil]; omega
  | lpush k vs =>
    apply wp_mapOut (listPush_spec true vs (hr.list k) hB)
    rintro r m' ⟨rfl, h⟩
    refine ⟨rfl, h.rep hr hBle ?_⟩
    have := hr.lbound k
    simp only [if_true, List.length_append, List.length_reverse, cost]; omega
  | rpush k vs =>
    apply wp_mapOut (listPush_spec false vs (hr.list k) hB)
    rintro r m' ⟨rfl, h⟩
    refine ⟨rfl, h.rep hr hBle ?_⟩
    have := hr.lbound k
    simp only [Bool.false_eq_true, if_false, List.length_append, cost]; omega
  | lpop k =>
    apply wp_mapOut (lpop_spec (hr.list k) hB0)
    intro r m'
    simp only [SOp.step, SOp.key, SOp.sem]
    cases h : (A k).list with
    | nil => rintro ⟨rfl, rfl⟩; simp only [upd_self]; exact ⟨rfl, hr.mono hBle⟩
    | cons x l =>
      rintro ⟨rfl, h'⟩
      refine ⟨rfl, (h'.rep hr (Int.le_refl _) ?_).mono hBle⟩
      have := hr.lbound k
      rw [h, List.length_cons] at this; omega
  | rpop k =>
    apply wp_mapOut (rpop_spec (hr.list k) hB0)
    intro r m'
    simp only [SOp.step, SOp.key, SOp.sem]
    cases h : (A k).list.getLast? with
    | none => rintro ⟨rfl, rfl⟩; simp only [upd_self]; exact ⟨rfl, hr.mono hBle⟩
    | some x =>
      rintro ⟨rfl, h'⟩
      refine ⟨rfl, (h'.rep hr (Int.le_refl _) ?_).mono hBle⟩
      have := hr.lbound k
      rw [List.length_dropLast]; omega
  | llen k =>
    apply wp_mapOut' (llen_spec (hr.list k))
    rintro r m' ⟨rfl, rfl⟩
    simp only [SOp.step, SOp.key, SOp.sem, upd_self]
    refine ⟨?_, hr.mono hBle⟩
    simp only [Res.map']
    have := hr.lbound k
    rw [Int64.toInt_ofNat_of_lt (by omega)]
  | lgetAll k =>
    apply wp_mapOut' (lgetAll_spec (hr.list k) (hr.lbound k) hB0)
    rintro r m' ⟨rfl, rfl⟩
    simp only [SOp.step, SOp.key, SOp.sem, upd_self]
    exact ⟨rfl, hr.mono hBle⟩
  | lindex k i =>
    apply wp_mapOut' (lindex_spec i (hr.list k) hB0)
    rintro r m' ⟨rfl, rfl⟩
    by_cases h : (A k).list = []
    · rw [step_eq (A := A) (op := .lindex k i) (show SOp.sem (A k) (.lindex k i) = (.err .keyNotFound, A k) by
        simp [SOp.sem, h]), if_pos h]
      exact ⟨rfl, by rw [show (SOp.lindex k i).key = k from rfl, upd_self]; exact hr.mono hBle⟩
    · by_cases h2 : 0 ≤ position (A k).list i ∧ position (A k).list i < (A k).list.length
      · rw [step_eq (A := A) (op := .lindex k i) (show SOp.sem (A k) (.lindex k i) =
          (.ok (.bytes ((A k).list[(position (A k).list i).toNat]?.getD [])), A k) by
          simp only [SOp.sem, if_neg h, if_pos h2]), if_neg h, if_pos h2]
        exact ⟨rfl, by rw [show (SOp.lindex k i).key = k from rfl, upd_self]; exact hr.mono hBle⟩
      · rw [step_eq (A := A) (op := .lindex k i) (show SOp.sem (A k) (.lindex k i) = (.ok (.bytes []), A k) by
          simp only [SOp.sem, if_neg h, if_neg h2]), if_neg h, if_neg h2]
        exact ⟨rfl, by rw [show (SOp.lindex k i).key = k from rfl, upd_self]; exact hr.mono hBle⟩
  | lset k i v =>
    apply wp_mapOut (lset_spec i v (hr.list k) hB0)
    intro r m'
    by_cases h2 : 0 ≤ position (A k).list i ∧ position (A k).list i < (A k).list.length
    · rw [if_pos h2, step_eq (A := A) (op := .lset k i v) (show SOp.sem (A k) (.lset k i v) = (.ok .unit,
        { A k with list := (A k).list.set (position (A k).list i).toNat v }) by
        simp only [SOp.sem, if_pos h2])]
      rintro ⟨rfl, h'⟩
      refine ⟨rfl, (h'.rep hr (Int.le_refl _) ?_).mono hBle⟩
      have := hr.lbound k
      rw [List.length_set]; omega
    · rw [if_neg h2, step_eq (A := A) (op := .lset k i v) (show SOp.sem (A k) (.lset k i v) = (.err .keyNotFound, A k) by
        simp only [SOp.sem, if_neg h2])]
      rintro ⟨rfl, rfl⟩
      exact ⟨rfl, by rw [show (SOp.lset k i v).key = k from rfl, upd_self]; exact hr.mono hBle⟩
  | lclear k =>
    apply wp_mapOut (lclear_spec (hr.list k) hB0)
    rintro r m' ⟨rfl, h, -⟩
    refine ⟨rfl, (h.rep hr (Int.le_refl _) ?_).mono hBle⟩
    have := hr.lbound k
    simp only [List.length_nil]; omega

end Mondis.Structure
