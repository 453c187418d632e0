import Verif.Lemmas.DomainRecord
/-!
# The document process: what was looked up is what the engine saw read
-/
namespace Mondis.Props
open Mondis Prog Spec Schema Doc Domain Ddl

variable {D : Type} {norm : D → Res D} {S S' : Site D} {e : Domain.Ev D} {a : Domain.Answer D}
variable {J : Json} {C : Codec D} {K : Nat} {R : Tape D} {w : Domain.World} {es : List (Domain.Ev D)} {as : List (Domain.Answer D)} {g g' : Ghost D}

theorem session_lt {k : Nat} {s : Session} (h : w.session k = some s) : k < w.sessions.length := by
  unfold Domain.World.session at h
  cases Nat.lt_or_ge k w.sessions.length with
  | inl h => exact h
  | inr h' => rw [List.getElem?_eq_none h'] at h; cases h

theorem session_put_self {k : Nat} {s s' : Session} (h : w.session k = some s) : (w.put k s').session k = some s' := by
  rw [World.session_put h, if_pos rfl]

theorem addCancel_kv {t t' : Dml.DTxn Dml.Seqs} {f : Dml.Seqs → Dml.Seqs} (h : t.addCancelFunc f = .ok t') : t'.kv = t.kv := by
  unfold Dml.DTxn.addCancelFunc at h
  split at h
  · cases h; rfl
  · cases h

/-- What a transaction has read it has read. -/
theorem reads_grow {w' : Domain.World} (hst : Stir J C w e a w') {k : Nat} {s s' : Session} (hs : w.session k = some s) (hp : s.phase ≠ .fresh)
    (hs' : w'.session k = some s') : ∀ x ∈ s.txn.kv.reads, x ∈ s'.txn.kv.reads := by
  intro x hx
  rcases hst with ⟨d, -, -, h⟩ | ⟨-, rfl⟩
  · have : w'.session k = w.session k := by unfold Domain.World.session; rw [h]
    rw [this, hs] at hs'
    cases hs'; exact hx
  by_cases hc : e = .ddl .crash
  · subst hc
    have hs' : ((w.sessions.map (fun _ => (none : Option Session)))[k]?).join = some s' := hs'
    rw [List.getElem?_map] at hs'
    cases hg : w.sessions[k]? with
    | none => rw [hg] at hs'; cases hs'
    | some o => rw [hg] at hs'; cases hs'
  by_cases ha : Addresses k e
  · have put : ∀ {u : Domain.World} {s₁ : Session}, u.session k = some s → (u.put k s₁).session k = some s' → x ∈ s₁.txn.kv.reads → x ∈ s'.txn.kv.reads := by
      intro u s₁ h1 h2 h3
      rw [session_put_self h1] at h2; cases h2; exact h3
    have same : ∀ {u : Domain.World}, u.session k = some s → u.session k = some s' → x ∈ s'.txn.kv.reads := by
      intro u h1 h2
      rw [h1] at h2; cases h2; exact hx
    cases e with
    | ddl => exact ha.elim
    | reload => exact ha.elim
    | publish => exact ha.elim
    | begin => exact ha.elim
    | snapshot j =>
      have ha : j = k := ha
      subst ha
      simp only [Domain.World.step, hs, if_neg hp] at hs'
      cases hs'; exact hx
    | insert j db coll doc mark c =>
      have ha : j = k := ha
      subst ha
      simp only [Domain.World.step, hs] at hs'
      split at hs'
      · split at hs'
        · exact same hs hs'
        · exact same hs hs'
        · refine put (u := { w with ddl := _ }) hs hs' ?_
          simp only
          unfold Dml.insertFunc
          split
          · exact hx
          · dsimp only
            have hkv : ∀ cid, (if mark = true then s.txn.referredCollections [cid] else s.txn).kv = s.txn.kv := by intro cid; split <;> rfl
            split
            · rw [hkv]; exact hx
            · split
              · show x ∈ (if mark = true then _ else s.txn).kv.reads; rw [hkv]; exact hx
              · show x ∈ (if mark = true then _ else s.txn).kv.reads; rw [hkv]; exact hx
              · split
                · rename_i h
                  rw [addCancel_kv h, hkv]
                  exact reads_subset _ _ _ hx
                · rw [hkv]
                  exact reads_subset _ _ _ hx
      · exact same hs hs'
    | op j db coll o mark =>
      have ha : j = k := ha
      subst ha
      simp only [Domain.World.step, hs] at hs'
      split at hs'
      · refine put hs hs' ?_
        simp only
        unfold runOp
        split
        · exact hx
        · exact hx
        · dsimp only
          have : x ∈ (Dml.withCollection db coll (fun cid => exec C (o.at cid)) s.txn).2.kv.reads := by
            unfold Dml.withCollection
            split
            · exact hx
            · exact reads_subset _ _ _ hx
          split <;> exact this
      · exact same hs hs'
    | discard j =>
      have ha : j = k := ha
      subst ha
      simp only [Domain.World.step, hs] at hs'
      split at hs'
      · exact put hs hs' hx
      · exact same hs hs'
    | commit j =>
      have ha : j = k := ha
      subst ha
      simp only [Domain.World.step, hs] at hs'
      split at hs'
      · unfold Domain.World.commit at hs'
        split at hs'
        · exact same hs hs'
        · split at hs'
          · exact same (u := { w with handle := _ }) hs hs'
          · exact put (u := { w with handle := _, ddl := _ }) hs hs' hx
          · exact put (u := { w with handle := _, ddl := _ }) hs hs' hx
          · split at hs'
            · exact same (u := { w with handle := _ }) hs hs'
            · exact put (u := { w with handle := _ }) hs hs' hx
      · exact same hs hs'
    | finish j f =>
      have ha : j = k := ha
      subst ha
      simp only [Domain.World.step, hs] at hs'
      split at hs'
      · unfold Domain.World.finish at hs'
        split at hs'
        · exact put (u := { w with ddl := _ }) hs hs' hx
        · exact put (u := { w with ddl := _ }) hs hs' hx
        · exact put (u := { w with ddl := _ }) hs hs' hx
      · exact same hs hs'
  · rw [step_isolated J C hs hc ha] at hs'
    cases hs'; exact hx

/-- The documents looked up are among the keys read. -/
theorem Course.reads (h : Course J C K R es as S w g) (k : Nat) : ∀ v s, S.visit k = some v → w.session k = some s → v.phase ≠ .fresh →
    ∀ p ∈ (g k).looked, documentKey p.1 p.2 ∈ s.txn.kv.reads := by
  induction h with
  | nil => intro v s hv; have hv : ((([] : List (Option (Visit D)))[k]?).join) = some v := hv; simp at hv
  | @snoc es as S w g e a S' w' g' hc hstir hrun hs hm hn ih =>
    intro v s' hv hs' hp
    have old : ∀ u, S.visit k = some u → u.phase ≠ .fresh → ∀ p ∈ (g k).looked, documentKey p.1 p.2 ∈ s'.txn.kv.reads := by
      intro u hu hf p hp
      cases hs : w.session k with
      | none => rw [(hc.matches.gone k).mpr hs] at hu; cases hu
      | some s =>
        have := ih u s hu hs hf p hp
        exact reads_grow hstir hs (by rw [(hc.matches.visits k u s hu hs).phase]; exact hf) hs' _ this
    cases hn with
    | quiet _ _ h => exact old v (by rwa [vis_same h] at hv) hp
    | crash _ _ _ h => rw [vis_crash h] at hv; cases hv
    | begin _ _ _ _ _ h =>
      rw [vis_begin h] at hv
      split at hv
      · cases hv; exact absurd rfl hp
      · exact old v hv hp
    | snapshot j u _ _ _ hu hf h =>
      rw [vis_put hu h] at hv
      split at hv
      · rename_i hj
        subst hj
        rw [Ghost.put_same]
        nofun
      · rename_i hne
        rw [Ghost.put_ne _ (Ne.symm hne)]
        exact old v hv hp
    | phase j u u' _ _ _ hu hf h1 h2 h3 h4 h5 h6 h7 h8 h =>
      rw [vis_put hu h] at hv
      split at hv
      · rename_i hj
        subst hj
        exact old u hu hf
      · exact old v hv hp
    | call j u u' q x more _ _ _ hu hf he h =>
      rw [vis_put hu h] at hv
      split at hv
      · rename_i hj
        subst hj
        have hold := old u hu (by rw [hf]; nofun)
        rw [Ghost.put_same]
        intro p hp
        rcases List.mem_append.mp hp with hp | hmore
        · exact hold p hp
        · clear hp
          cases he with
          | idle => cases hmore
          | refused => cases hmore
          | does y op _ h1 h2 hcid h4 h5 h6 h7 h8 h9 h10 h11 h12 h13 =>
            obtain ⟨i, hi, rfl⟩ := List.mem_map.mp hmore
            obtain ⟨hi, hnt⟩ := List.mem_filter.mp hi
            have hnt : (y, i) ∉ u.touched := by simpa using hnt
            rcases h13 with h13 | ⟨o, mark, rfl, rfl, hst⟩
            · rw [h13] at hi; cases hi
            · cases hss : w.session j with
              | none => rw [(hc.matches.gone j).mpr hss] at hu; cases hu
              | some s =>
                have hvm := hc.matches.visits j u s hu hss
                have hcoll := hvm.shows.collection q.db q.coll
                rw [h2] at hcoll
                cases hci : MetaCache.collectionInfo s.txn.start q.db q.coll with
                | none => rw [hci] at hcoll; cases hcoll
                | some ci =>
                  rw [hci] at hcoll
                  have hid : ci.id = y := by simpa using hcoll
                  have hl := reads_looks hvm.docs (o.at y) i (by rw [at_cid]; exact hi)
                  rw [at_cid] at hl
                  have hkeys := hvm.keys
                  have hl := hl.resolve_right (by
                    rw [hkeys]
                    intro hmem
                    obtain ⟨p, hp, he⟩ := List.mem_map.mp hmem
                    obtain ⟨e1, e2⟩ := documentKey_inj he
                    obtain ⟨p1, p2⟩ := p
                    simp only at e1 e2
                    subst e1 e2
                    exact hnt hp)
                  rw [hstir.plain (by nofun)] at hs'
                  simp only [Domain.World.step, hss, hvm.phase.trans hf, if_true] at hs'
                  rw [session_put_self hss] at hs'
                  cases hs'
                  simp only
                  unfold runOp
                  rw [marshal_norm, hst]
                  dsimp only
                  have : documentKey y i ∈ (Dml.withCollection q.db q.coll (fun cid => exec C (o.at cid)) s.txn).2.kv.reads := by
                    unfold Dml.withCollection
                    rw [hci]
                    dsimp only
                    rw [hid]
                    exact hl
                  split <;> exact this
      · rename_i hne
        rw [Ghost.put_ne _ (Ne.symm hne)]
        exact old v hv hp
    | finish j u f _ _ _ _ hu hf h =>
      rw [vis_put hu h] at hv
      split at hv
      · rename_i hj
        subst hj
        exact old u hu (by rw [hf]; nofun)
      · exact old v hv hp

end Mondis.Props
