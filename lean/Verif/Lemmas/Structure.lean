import Verif.Lemmas.Prog
import Verif.Lemmas.Scan
import Verif.Lemmas.EncBytes
import Verif.Lemmas.BigEndian
import Verif.Lemmas.Numeric
import Verif.Model.Structure
import Verif.Spec.Structure
/-!
# The structures refine their specification
-/
namespace Mondis.Structure
open Mondis.Memcomparable Mondis.Prog Mondis.Spec

/-- Common shape of all keys of package structure. -/
def skey (pfx key : Bytes) (flag : UInt8) (tail : Bytes) : Bytes :=
  pfx ++ (encodeGroups key ++ flag :: tail)

theorem skey_inj {pfx key key' : Bytes} {flag flag' : UInt8} {t t' : Bytes} :
    skey pfx key flag t = skey pfx key' flag' t' ↔ key = key' ∧ flag = flag' ∧ t = t' := by
  constructor
  · intro h
    obtain ⟨h1, h2⟩ := encodeGroups_inj_append (List.append_cancel_left h)
    simp at h2
    exact ⟨h1, h2⟩
  · rintro ⟨rfl, rfl, rfl⟩; rfl

theorem stringDataKey_eq (pfx key : Bytes) : stringDataKey pfx key = skey pfx key 115 [] := by
  simp [stringDataKey, encodeUint8, encodeBytes, skey, StringData]
theorem hashMetaKey_eq (pfx key : Bytes) : hashMetaKey pfx key = skey pfx key 72 [] := by
  simp [hashMetaKey, encodeUint8, encodeBytes, skey, HashMeta]
theorem hashDataKeyPrefix_eq (pfx key : Bytes) : hashDataKeyPrefix pfx key = skey pfx key 104 [] := by
  simp [hashDataKeyPrefix, encodeUint8, encodeBytes, skey, HashData]
theorem hashDataKey_eq (pfx key f : Bytes) :
    hashDataKey pfx key f = skey pfx key 104 (encodeGroups f) := by
  simp [hashDataKey, encodeUint8, encodeBytes, skey, HashData]
theorem listMetaKey_eq (pfx key : Bytes) : listMetaKey pfx key = skey pfx key 76 [] := by
  simp [listMetaKey, encodeUint8, encodeBytes, skey, ListMeta]
theorem listDataKey_eq (pfx key : Bytes) (i : Int64) :
    listDataKey pfx key i = skey pfx key 108 (putUint64 (encodeInt64ToUint64 i)) := by
  simp [listDataKey, encodeUint8, encodeBytes, encodeInt64, encodeUint64, skey, ListData]

theorem encodeGroups_inj {f f' : Bytes} : encodeGroups f = encodeGroups f' ↔ f = f' := by
  constructor
  · intro h
    exact (encodeGroups_inj_append (x := []) (y := []) (by simpa using h)).1
  · rintro rfl; rfl

theorem idx_inj {i j : Int64} :
    putUint64 (encodeInt64ToUint64 i) = putUint64 (encodeInt64ToUint64 j) ↔ i = j := by
  constructor
  · intro h
    have := congrArg decodeUint64ToInt64 (putUint64_inj h)
    rwa [decodeUint64ToInt64_encode, decodeUint64ToInt64_encode] at this
  · rintro rfl; rfl

theorem skey_ne_nil (pfx key : Bytes) (flag : UInt8) (t : Bytes) : skey pfx key flag t ≠ [] := by
  simp [skey]

/-- The five kinds of keys. -/
def Kind (pfx key k : Bytes) : Prop :=
  k = stringDataKey pfx key ∨ k = hashMetaKey pfx key ∨ (∃ f, k = hashDataKey pfx key f) ∨
  k = listMetaKey pfx key ∨ ∃ i, k = listDataKey pfx key i

/-- The string under `key` is `o`. -/
def StrRep (pfx key : Bytes) (o : Option Bytes) (m : DB) : Prop :=
  (m.get (stringDataKey pfx key)).map Val.value = o

/-- The hash under `key` is `h`. -/
structure HashRep (pfx key : Bytes) (h : OMap Bytes) (m : DB) : Prop where
  data : ∀ f, (m.get (hashDataKey pfx key f)).map Val.value = h.get f
  count : (m.get (hashMetaKey pfx key)).map Val.value =
    if h.ents.length = 0 then none else some (hashMetaValue (Int64.ofNat h.ents.length))

/-- List elements are stored from index `L` on. -/
def ListElems (pfx key : Bytes) (L : Int) (l : List Bytes) (m : DB) : Prop :=
  ∀ i : Int64, (m.get (listDataKey pfx key i)).map Val.value =
      if L ≤ i.toInt then l[(i.toInt - L).toNat]? else none

/-- The list under `key` is `l`; `B` bounds its indices. -/
def ListRep (pfx : Bytes) (B : Int) (key : Bytes) (l : List Bytes) (m : DB) : Prop :=
  ∃ L R : Int64, -B ≤ L.toInt ∧ R.toInt ≤ B ∧ R.toInt - L.toInt = l.length ∧
    (l = [] → L = 0 ∧ R = 0) ∧
    (m.get (listMetaKey pfx key)).map Val.value =
      (if l = [] then none else some (ListMetaData.value ⟨L, R⟩)) ∧
    ListElems pfx key L.toInt l m

/-- Nothing but structure keys is stored among a user key's keys. -/
def Clean (pfx : Bytes) (m : DB) : Prop :=
  ∀ key k v, m.get k = some v → IsPrefixOf (pfx ++ encodeGroups key) k → Kind pfx key k

/-- `m` (live contents) holds, under `pfx`, exactly the abstract state `A`; `B` bounds list indices
and hash sizes. -/
structure Rep (pfx : Bytes) (B : Int) (A : SState) (m : DB) : Prop where
  str : ∀ key, StrRep pfx key (A key).str m
  hash : ∀ key, HashRep pfx key (A key).hash m
  hbound : ∀ key, ((A key).hash.ents.length : Int) ≤ B
  list : ∀ key, ListRep pfx B key (A key).list m
  lbound : ∀ key, ((A key).list.length : Int) ≤ B
  clean : Clean pfx m

theorem rep_init (pfx : Bytes) : Rep pfx 0 SState.init OMap.empty where
  str := by intro key; simp [SState.init, StrRep]
  hash := by intro key; exact ⟨by intro f; simp [SState.init], rfl⟩
  hbound := by intro key; simp [SState.init, OMap.empty]
  list := by
    intro key
    refine ⟨0, 0, by simp, by simp, by simp [SState.init], by simp, by simp [SState.init], ?_⟩
    intro i; simp [SState.init]
  lbound := by intro key; simp [SState.init]
  clean := by intro key k v h; simp at h

theorem ListRep.mono {pfx : Bytes} {B B' : Int} {key : Bytes} {l : List Bytes} {m : DB}
    (h : ListRep pfx B key l m) (hB : B ≤ B') : ListRep pfx B' key l m := by
  obtain ⟨L, R, h1, h2, h3⟩ := h
  exact ⟨L, R, by omega, by omega, h3⟩

theorem Rep.mono {pfx : Bytes} {B B' : Int} {A : SState} {m : DB} (h : Rep pfx B A m) (hB : B ≤ B') :
    Rep pfx B' A m where
  str := h.str
  hash := h.hash
  hbound := fun key => by have := h.hbound key; omega
  list := fun key => (h.list key).mono hB
  lbound := fun key => by have := h.lbound key; omega
  clean := h.clean

/-- Outcome of an operation: a failing write to one of the keys in `W`, or `Q`. -/
def Post {α : Type} (env : Env) (W : Bytes → Prop) (Q : Res α → DB → Prop) : Res α → DB → Prop :=
  fun r m => (∃ k e, W k ∧ env.WriteErr k e ∧ r = .err e) ∨ Q r m

theorem wp_set_bind {β : Type} {env : Env} {W : Bytes → Prop} {Q : Res β → DB → Prop} {k v : Bytes}
    {f : Unit → Prog β} {m : DB} (hW : W k)
    (h : (f ()).wp env (m.set k ⟨v, 0, 0⟩) (Post env W Q)) :
    (setK k v >>= f).wp env m (Post env W Q) := by
  rw [wp_bind, wp_setK]
  exact ⟨fun e he => .inl ⟨k, e, hW, he, rfl⟩, fun _ _ => h⟩

theorem wp_set_last {env : Env} {W : Bytes → Prop} {Q : Res Unit → DB → Prop} {k v : Bytes}
    {m : DB} (hW : W k) (h : Q (.ok ()) (m.set k ⟨v, 0, 0⟩)) :
    (setK k v).wp env m (Post env W Q) := by
  rw [wp_setK]
  exact ⟨fun e he => .inl ⟨k, e, hW, he, rfl⟩, fun _ _ => .inr h⟩

theorem wp_del_bind {β : Type} {env : Env} {W : Bytes → Prop} {Q : Res β → DB → Prop} {k : Bytes}
    {f : Unit → Prog β} {m : DB} (hW : W k)
    (h : (f ()).wp env (m.del k) (Post env W Q)) :
    (delK k >>= f).wp env m (Post env W Q) := by
  rw [wp_bind, wp_delK]
  exact ⟨fun e he => .inl ⟨k, e, hW, he, rfl⟩, fun _ _ => h⟩

theorem wp_del_last {env : Env} {W : Bytes → Prop} {Q : Res Unit → DB → Prop} {k : Bytes}
    {m : DB} (hW : W k) (h : Q (.ok ()) (m.del k)) :
    (delK k).wp env m (Post env W Q) := by
  rw [wp_delK]
  exact ⟨fun e he => .inl ⟨k, e, hW, he, rfl⟩, fun _ _ => .inr h⟩

theorem wp_getOpt_bind {β : Type} {env : Env} {Q : Res β → DB → Prop} {k : Bytes} (hk : k ≠ [])
    {f : Option Val → Prog β} {m : DB} (h : (f (m.get k)).wp env m Q) :
    (getOpt k >>= f).wp env m Q := by
  rw [wp_bind, wp_getOpt k hk]; exact h

theorem wp_getK_bind {β : Type} {env : Env} {Q : Res β → DB → Prop} {k : Bytes} (hk : k ≠ [])
    {f : Val → Prog β} {m : DB} {v : Val} (hv : m.get k = some v) (h : (f v).wp env m Q) :
    (getK k >>= f).wp env m Q := by
  rw [wp_bind, wp_getK]; simp only [readRes, if_neg hk, hv]; exact h

theorem wp_getK_bind_none {β : Type} {env : Env} {Q : Res β → DB → Prop} {k : Bytes} (hk : k ≠ [])
    {f : Val → Prog β} {m : DB} (hv : m.get k = none) (h : Q (.err .keyNotFound) m) :
    (getK k >>= f).wp env m Q := by
  rw [wp_bind, wp_getK]; simp only [readRes, if_neg hk, hv]; exact h

theorem wp_ofRes_bind {α β : Type} {env : Env} {Q : Res β → DB → Prop} {r : Res α}
    {f : α → Prog β} {m : DB} :
    (ofRes r >>= f).wp env m Q ↔ match r with
      | .ok a => (f a).wp env m Q
      | .err e => Q (.err e) m
      | .panic => Q .panic m := by
  rw [wp_bind, wp_ofRes]
  cases r <;> rfl

theorem stringKey_ne (pfx key : Bytes) : stringDataKey pfx key ≠ [] := by
  rw [stringDataKey_eq]; exact skey_ne_nil _ _ _ _
theorem hashMetaKey_ne (pfx key : Bytes) : hashMetaKey pfx key ≠ [] := by
  rw [hashMetaKey_eq]; exact skey_ne_nil _ _ _ _
theorem hashDataKey_ne (pfx key f : Bytes) : hashDataKey pfx key f ≠ [] := by
  rw [hashDataKey_eq]; exact skey_ne_nil _ _ _ _
theorem listMetaKey_ne (pfx key : Bytes) : listMetaKey pfx key ≠ [] := by
  rw [listMetaKey_eq]; exact skey_ne_nil _ _ _ _
theorem listDataKey_ne (pfx key : Bytes) (i : Int64) : listDataKey pfx key i ≠ [] := by
  rw [listDataKey_eq]; exact skey_ne_nil _ _ _ _

/-- A key of one user key does not start like another user key's keys. -/
theorem kind_of_prefix {pfx key key' : Bytes} {flag : UInt8} {t : Bytes}
    (h : IsPrefixOf (pfx ++ encodeGroups key) (skey pfx key' flag t)) : key = key' := by
  obtain ⟨s, hs⟩ := h
  rw [skey, List.append_assoc] at hs
  exact ((encodeGroups_inj_append (List.append_cancel_left hs)).1).symm

theorem Kind.eq {pfx key k : Bytes} (h : Kind pfx key k) : ∃ flag t, k = skey pfx key flag t := by
  rcases h with rfl | rfl | ⟨f, rfl⟩ | rfl | ⟨i, rfl⟩
  · exact ⟨_, _, stringDataKey_eq _ _⟩
  · exact ⟨_, _, hashMetaKey_eq _ _⟩
  · exact ⟨_, _, hashDataKey_eq _ _ _⟩
  · exact ⟨_, _, listMetaKey_eq _ _⟩
  · exact ⟨_, _, listDataKey_eq _ _ _⟩

theorem Clean.set {pfx key k : Bytes} {m : DB} {v : Val} (h : Clean pfx m) (hk : Kind pfx key k) :
    Clean pfx (m.set k v) := by
  intro key' k' v' hg hp
  rw [OMap.get_set] at hg
  split at hg
  · rename_i e; subst e
    obtain ⟨flag, t, rfl⟩ := hk.eq
    have := kind_of_prefix hp
    subst this; exact hk
  · exact h _ _ _ hg hp

theorem Clean.del {pfx k : Bytes} {m : DB} (h : Clean pfx m) : Clean pfx (m.del k) := by
  intro key' k' v' hg hp
  rw [OMap.get_del] at hg
  split at hg
  · cases hg
  · exact h _ _ _ hg hp

theorem kind_string (pfx key : Bytes) : Kind pfx key (stringDataKey pfx key) := .inl rfl
theorem kind_hmeta (pfx key : Bytes) : Kind pfx key (hashMetaKey pfx key) := .inr (.inl rfl)
theorem kind_hdata (pfx key f : Bytes) : Kind pfx key (hashDataKey pfx key f) :=
  .inr (.inr (.inl ⟨f, rfl⟩))
theorem kind_lmeta (pfx key : Bytes) : Kind pfx key (listMetaKey pfx key) :=
  .inr (.inr (.inr (.inl rfl)))
theorem kind_ldata (pfx key : Bytes) (i : Int64) : Kind pfx key (listDataKey pfx key i) :=
  .inr (.inr (.inr (.inr ⟨i, rfl⟩)))

theorem upd_same (A : SState) (k : Bytes) (o : Obj) : A.upd k o k = o := by simp [SState.upd]
theorem upd_other (A : SState) {k j : Bytes} (o : Obj) (h : j ≠ k) : A.upd k o j = A j := by
  simp [SState.upd, h]
theorem upd_self (A : SState) (k : Bytes) : A.upd k (A k) = A := by
  funext j; simp only [SState.upd]; split <;> simp_all

/-! ### strings -/

/-- The keys of the string, the hash, the list under `key`. -/
def SKey (pfx key k : Bytes) : Prop := k = stringDataKey pfx key
def HKey (pfx key k : Bytes) : Prop := k = hashMetaKey pfx key ∨ ∃ f, k = hashDataKey pfx key f
def LKey (pfx key k : Bytes) : Prop := k = listMetaKey pfx key ∨ ∃ i, k = listDataKey pfx key i

/-- Same contents except possibly at keys in `W`. -/
def SameBut (W : Bytes → Prop) (m m' : DB) : Prop := ∀ k, ¬ W k → m'.get k = m.get k

theorem SameBut.refl (W : Bytes → Prop) (m : DB) : SameBut W m m := fun _ _ => rfl
theorem SameBut.trans {W : Bytes → Prop} {a b c : DB} (h : SameBut W a b) (h' : SameBut W b c) :
    SameBut W a c := fun k hk => (h' k hk).trans (h k hk)
theorem SameBut.set {W : Bytes → Prop} {m : DB} {k : Bytes} {v : Val} (h : W k) :
    SameBut W m (m.set k v) := by
  intro j hj
  rw [OMap.get_set, if_neg]
  rintro rfl; exact hj h
theorem SameBut.del {W : Bytes → Prop} {m : DB} {k : Bytes} (h : W k) : SameBut W m (m.del k) := by
  intro j hj
  rw [OMap.get_del, if_neg]
  rintro rfl; exact hj h

theorem StrRep.congr {pfx key : Bytes} {o : Option Bytes} {m m' : DB} (h : StrRep pfx key o m)
    (he : m'.get (stringDataKey pfx key) = m.get (stringDataKey pfx key)) : StrRep pfx key o m' := by
  unfold StrRep at *; rw [he]; exact h

theorem HashRep.congr {pfx key : Bytes} {o : OMap Bytes} {m m' : DB} (h : HashRep pfx key o m)
    (he : ∀ k, HKey pfx key k → m'.get k = m.get k) : HashRep pfx key o m' where
  data := fun f => by rw [he _ (.inr ⟨f, rfl⟩)]; exact h.data f
  count := by rw [he _ (.inl rfl)]; exact h.count

theorem ListRep.congr {pfx key : Bytes} {B : Int} {l : List Bytes} {m m' : DB}
    (h : ListRep pfx B key l m) (he : ∀ k, LKey pfx key k → m'.get k = m.get k) :
    ListRep pfx B key l m' := by
  obtain ⟨L, R, h1, h2, h3, h4, h5, h6⟩ := h
  refine ⟨L, R, h1, h2, h3, h4, ?_, ?_⟩
  · rw [he _ (.inl rfl)]; exact h5
  · intro i; rw [he _ (.inr ⟨i, rfl⟩)]; exact h6 i

theorem skey_not_hkey {pfx key key' : Bytes} : ¬ HKey pfx key (stringDataKey pfx key') := by
  rintro (h | ⟨f, h⟩) <;> simp [stringDataKey_eq, hashMetaKey_eq, hashDataKey_eq, skey_inj] at h
theorem skey_not_lkey {pfx key key' : Bytes} : ¬ LKey pfx key (stringDataKey pfx key') := by
  rintro (h | ⟨f, h⟩) <;> simp [stringDataKey_eq, listMetaKey_eq, listDataKey_eq, skey_inj] at h
theorem hkey_not_skey {pfx key key' k : Bytes} (h : HKey pfx key' k) : ¬ SKey pfx key k := by
  rintro rfl; exact skey_not_hkey h
theorem lkey_not_skey {pfx key key' k : Bytes} (h : LKey pfx key' k) : ¬ SKey pfx key k := by
  rintro rfl; exact skey_not_lkey h
theorem hkey_not_lkey {pfx key key' k : Bytes} (h : HKey pfx key' k) : ¬ LKey pfx key k := by
  rcases h with rfl | ⟨f, rfl⟩ <;> rintro (h | ⟨f, h⟩) <;>
    simp [listMetaKey_eq, listDataKey_eq, hashMetaKey_eq, hashDataKey_eq, skey_inj] at h
theorem lkey_not_hkey {pfx key key' k : Bytes} (h : LKey pfx key' k) : ¬ HKey pfx key k :=
  fun h' => hkey_not_lkey h' h

theorem skey_other {pfx key key' : Bytes} (h : key' ≠ key) : ¬ SKey pfx key (stringDataKey pfx key') := by
  intro e; simp [SKey, stringDataKey_eq, skey_inj] at e; exact h e
theorem hkey_other {pfx key key' k : Bytes} (h : key' ≠ key) (hk : HKey pfx key' k) :
    ¬ HKey pfx key k := by
  rcases hk with rfl | ⟨f, rfl⟩ <;> rintro (e | ⟨f, e⟩) <;>
    simp [hashMetaKey_eq, hashDataKey_eq, skey_inj] at e
  · exact h e
  · exact h e.1
theorem lkey_other {pfx key key' k : Bytes} (h : key' ≠ key) (hk : LKey pfx key' k) :
    ¬ LKey pfx key k := by
  rcases hk with rfl | ⟨f, rfl⟩ <;> rintro (e | ⟨f, e⟩) <;>
    simp [listMetaKey_eq, listDataKey_eq, skey_inj] at e
  · exact h e
  · exact h e.1

theorem Rep.upd_str {pfx : Bytes} {B : Int} {A : SState} {m m' : DB} (h : Rep pfx B A m)
    {key : Bytes} {o : Option Bytes} (hs : SameBut (SKey pfx key) m m') (hc : Clean pfx m')
    (hn : StrRep pfx key o m') : Rep pfx B (A.upd key { A key with str := o }) m' where
  str := by
    intro key'
    by_cases hk : key' = key
    · subst hk; rw [upd_same]; exact hn
    · rw [upd_other _ _ hk]; exact (h.str key').congr (hs _ (skey_other hk))
  hash := by
    intro key'
    have e : (A.upd key { A key with str := o } key').hash = (A key').hash := by
      by_cases hk : key' = key
      · subst hk; rw [upd_same]
      · rw [upd_other _ _ hk]
    rw [e]; exact (h.hash key').congr (fun k hk => hs k (hkey_not_skey hk))
  hbound := by
    intro key'
    have e : (A.upd key { A key with str := o } key').hash = (A key').hash := by
      by_cases hk : key' = key
      · subst hk; rw [upd_same]
      · rw [upd_other _ _ hk]
    rw [e]; exact h.hbound key'
  list := by
    intro key'
    have e : (A.upd key { A key with str := o } key').list = (A key').list := by
      by_cases hk : key' = key
      · subst hk; rw [upd_same]
      · rw [upd_other _ _ hk]
    rw [e]; exact (h.list key').congr (fun k hk => hs k (lkey_not_skey hk))
  lbound := by
    intro key'
    have e : (A.upd key { A key with str := o } key').list = (A key').list := by
      by_cases hk : key' = key
      · subst hk; rw [upd_same]
      · rw [upd_other _ _ hk]
    rw [e]; exact h.lbound key'
  clean := hc

theorem Rep.upd_hash {pfx : Bytes} {B B' : Int} {A : SState} {m m' : DB} (h : Rep pfx B A m)
    (hB : B ≤ B') {key : Bytes} {o : OMap Bytes} (hs : SameBut (HKey pfx key) m m')
    (hc : Clean pfx m') (hn : HashRep pfx key o m') (hb : (o.ents.length : Int) ≤ B') :
    Rep pfx B' (A.upd key { A key with hash := o }) m' where
  str := by
    intro key'
    have e : (A.upd key { A key with hash := o } key').str = (A key').str := by
      by_cases hk : key' = key
      · subst hk; rw [upd_same]
      · rw [upd_other _ _ hk]
    rw [e]; exact (h.str key').congr (hs _ skey_not_hkey)
  hash := by
    intro key'
    by_cases hk : key' = key
    · subst hk; rw [upd_same]; exact hn
    · rw [upd_other _ _ hk]; exact (h.hash key').congr (fun k hk' => hs k (hkey_other hk hk'))
  hbound := by
    intro key'
    by_cases hk : key' = key
    · subst hk; rw [upd_same]; exact hb
    · rw [upd_other _ _ hk]; have := h.hbound key'; omega
  list := by
    intro key'
    have e : (A.upd key { A key with hash := o } key').list = (A key').list := by
      by_cases hk : key' = key
      · subst hk; rw [upd_same]
      · rw [upd_other _ _ hk]
    rw [e]; exact ((h.list key').congr (fun k hk => hs k (lkey_not_hkey hk))).mono hB
  lbound := by
    intro key'
    have e : (A.upd key { A key with hash := o } key').list = (A key').list := by
      by_cases hk : key' = key
      · subst hk; rw [upd_same]
      · rw [upd_other _ _ hk]
    rw [e]; have := h.lbound key'; omega
  clean := hc

theorem Rep.upd_list {pfx : Bytes} {B B' : Int} {A : SState} {m m' : DB} (h : Rep pfx B A m)
    (hB : B ≤ B') {key : Bytes} {l : List Bytes} (hs : SameBut (LKey pfx key) m m')
    (hc : Clean pfx m') (hn : ListRep pfx B' key l m') (hb : (l.length : Int) ≤ B') :
    Rep pfx B' (A.upd key { A key with list := l }) m' where
  str := by
    intro key'
    have e : (A.upd key { A key with list := l } key').str = (A key').str := by
      by_cases hk : key' = key
      · subst hk; rw [upd_same]
      · rw [upd_other _ _ hk]
    rw [e]; exact (h.str key').congr (hs _ skey_not_lkey)
  hash := by
    intro key'
    have e : (A.upd key { A key with list := l } key').hash = (A key').hash := by
      by_cases hk : key' = key
      · subst hk; rw [upd_same]
      · rw [upd_other _ _ hk]
    rw [e]; exact (h.hash key').congr (fun k hk => hs k (hkey_not_lkey hk))
  hbound := by
    intro key'
    have e : (A.upd key { A key with list := l } key').hash = (A key').hash := by
      by_cases hk : key' = key
      · subst hk; rw [upd_same]
      · rw [upd_other _ _ hk]
    rw [e]; have := h.hbound key'; omega
  list := by
    intro key'
    by_cases hk : key' = key
    · subst hk; rw [upd_same]; exact hn
    · rw [upd_other _ _ hk]
      exact ((h.list key').congr (fun k hk' => hs k (lkey_other hk hk'))).mono hB
  lbound := by
    intro key'
    by_cases hk : key' = key
    · subst hk; rw [upd_same]; exact hb
    · rw [upd_other _ _ hk]; have := h.lbound key'; omega
  clean := hc

theorem Rep.set_string {pfx : Bytes} {B : Int} {A : SState} {m : DB} (h : Rep pfx B A m)
    (key v : Bytes) :
    Rep pfx B (A.upd key { A key with str := some v }) (m.set (stringDataKey pfx key) ⟨v, 0, 0⟩) :=
  h.upd_str (SameBut.set rfl) (h.clean.set (kind_string pfx key)) (by simp [StrRep])

theorem Rep.del_string {pfx : Bytes} {B : Int} {A : SState} {m : DB} (h : Rep pfx B A m)
    (key : Bytes) :
    Rep pfx B (A.upd key { A key with str := none }) (m.del (stringDataKey pfx key)) :=
  h.upd_str (SameBut.del rfl) h.clean.del (by simp [StrRep])

end Mondis.Structure
