/-
Helper lemmas: what the constructor establishes and every call preserves.
-/
import Verif.Plaschem.ChemDisable

namespace Verif.Plaschem
namespace Net

/-- the state invariant of a chemistry -/
structure Inv (net : Net) (st : State) : Prop where
  ok : NetOk net st
  elec : net.requiresCharge = true → ∀ s ∈ net.species, s.name = str!"e" → st.protSp s.id = true
  last : net.requiresCharge = true → ∀ s, net.positiveIons st = [s] → st.Protected s.id
  lastAll : net.requiresCharge = true → ∀ s ∈ net.species, PositiveIon s →
    (∀ t ∈ net.species, PositiveIon t → t = s) → st.protSp s.id = true

theorem NetOk.consistent {net : Net} {st : State} (h : NetOk net st) :
    st.enabledPart.Consistent net := by
  constructor
  · intro r hr he i ho
    obtain ⟨p, hp, rfl⟩ := ho
    exact (h.present r hr he p hp).2
  · intro s hs he
    obtain ⟨r, hr, her, hsr⟩ := h.used s hs he
    exact ⟨r, hr, her, s, hsr, rfl⟩

theorem netOk_of {net : Net} (hwf : WF net) {st : State}
    (he : net.requiresCharge = true → ∃ s ∈ net.species, st.enSp s.id = true ∧ s.name = str!"e")
    (hp : net.requiresCharge = true → net.positiveIons st ≠ [])
    (hc : st.enabledPart.Consistent net) : NetOk net st := by
  refine ⟨he, hp, ?_, ?_, ?_, ?_⟩
  · exact hwf.nameNodup.sublist (List.filter_sublist.map _)
  · exact hwf.spNodup.sublist (List.filter_sublist.map _)
  · intro r hr her p hpr
    exact ⟨hwf.closed r hr p hpr, hc.1 r hr her p.id ⟨p, hpr, rfl⟩⟩
  · intro s hs hes
    obtain ⟨r, hr, her, ho⟩ := hc.2 s hs hes
    obtain ⟨t, ht, hid, htr⟩ := hwf.occurs_mem hr ho
    exact ⟨r, hr, her, (hwf.eq_of_id ht hs hid) ▸ htr⟩

theorem find_name {net : Net} (hn : (net.species.map RP.name).Nodup) {s : RP} (hs : s ∈ net.species) :
    net.getRp (.name s.name) = .ok s := by
  unfold getRp
  simp only
  cases hf : net.species.find? (fun t => decide (t.name = s.name)) with
  | none =>
    have := List.find?_eq_none.1 hf s hs
    simp at this
  | some t =>
    have h1 := List.mem_of_find?_eq_some hf
    have h2 := List.find?_some hf
    have : t = s := List.inj_on_of_nodup_map hn h1 hs (by simpa using h2)
    rw [this]

theorem find_obj {net : Net} {s : RP} (hs : s ∈ net.species) : net.getRp (.obj s) = .ok s := by
  unfold getRp
  simp only
  cases hf : net.species.find? (fun t => decide (t = s)) with
  | none =>
    have := List.find?_eq_none.1 hf s hs
    simp at this
  | some t =>
    have h2 := List.find?_some hf
    have : t = s := by simpa using h2
    rw [this]

theorem find_id {net : Net} (hn : (net.species.map RP.id).Nodup) {s : RP} (hs : s ∈ net.species) :
    net.getRp (.id s.id) = .ok s := by
  unfold getRp
  simp only
  cases hf : net.species.find? (fun t => decide (t.id = s.id)) with
  | none =>
    have := List.find?_eq_none.1 hf s hs
    simp at this
  | some t =>
    have h1 := List.mem_of_find?_eq_some hf
    have h2 := List.find?_some hf
    have : t = s := List.inj_on_of_nodup_map hn h1 hs (by simpa using h2)
    rw [this]

theorem setProtected_spec {net : Net} {st : State} {args : List SpIdent} :
    let r := net.setProtected st args
    r.1.enSp = st.enSp ∧ r.1.enR = st.enR ∧ r.1.adhocSp = st.adhocSp ∧ r.1.adStick = st.adStick ∧
    r.1.adRet = st.adRet ∧ r.1.adArrhA = st.adArrhA ∧
    (∀ i, st.protSp i = true → r.1.protSp i = true) := by
  unfold setProtected
  split
  · simp
  · refine ⟨rfl, rfl, rfl, rfl, rfl, rfl, ?_⟩
    intro i hi; exact setMask_true.2 (.inr hi)

/-- everything the constructor guarantees -/
theorem init_spec {net : Net} {st : State} (h : net.init = .ok st) :
    WF net ∧ Inv net st ∧ st.enSp = (fun _ => true) ∧ st.enR = (fun _ => true) ∧
    st.adhocSp = (fun _ => false) ∧ st.adStick = [] ∧ st.adRet = [] ∧ st.adArrhA = [] ∧
    RetOk net State.fresh := by
  unfold init at h
  split at h
  · simp at h
  rename_i hnd
  rw [not_or, not_not, not_not] at hnd
  split at h
  · simp at h
  rename_i hac
  obtain ⟨hok, hret⟩ := assertConsistency_iff.1 hac
  have hwf : WF net := by
    refine ⟨hnd.1, hnd.2, ?_, ?_, ?_, ?_, ?_⟩
    · have := hok.names
      rw [getSpecies, List.filter_eq_self.2] at this
      · exact this
      · intro a _; simp [speciesMask, State.fresh]
    · intro r hr p hp; exact (hok.present r hr rfl p hp).1
    · intro s hs
      obtain ⟨r, hr, _, hsr⟩ := hok.used s hs rfl
      exact ⟨r, hr, s, hsr, rfl⟩
    · intro hq; obtain ⟨s, hs, _, hn⟩ := hok.electron hq; exact ⟨s, hs, hn⟩
    · intro hq
      have := hok.ion hq
      obtain ⟨s, hs⟩ := List.exists_mem_of_ne_nil _ this
      obtain ⟨h1, _, h3⟩ := mem_positiveIons.1 hs
      exact ⟨s, h1, h3⟩
  refine ⟨hwf, ?_⟩
  split at h
  · rename_i hq
    split at h
    · simp at h
    rename_i st1 hp1
    have sp1 := setProtected_spec (net := net) (st := State.fresh) (args := [.name str!"e"])
    rw [hp1] at sp1
    obtain ⟨a1, a2, a3, a4, a5, a6, a7⟩ := sp1
    simp only at a1 a2 a3 a4 a5 a6 a7
    have hel1 : ∀ s ∈ net.species, s.name = str!"e" → st1.protSp s.id = true := by
      intro s hs hn
      unfold setProtected at hp1
      simp only [resolveSpecies] at hp1
      rw [← hn, find_name hwf.nameNodup hs] at hp1
      simp only [Prod.mk.injEq, and_true] at hp1
      rw [← hp1]
      exact setMask_true.2 (.inl (by simp))
    have hpi : net.positiveIons st1 = net.positiveIons State.fresh := positiveIons_congr a1
    have key : ∀ st2 : State, st2.enSp = (fun _ => true) → st2.enR = (fun _ => true) →
        (∀ i, st1.protSp i = true → st2.protSp i = true) →
        (∀ s, net.positiveIons State.fresh = [s] → st2.protSp s.id = true) → Inv net st2 := by
      intro st2 h1 h2 h3 h4
      have hpi2 : net.positiveIons st2 = net.positiveIons State.fresh := positiveIons_congr h1
      refine ⟨?_, ?_, ?_, ?_⟩
      · apply netOk_of hwf
        · intro hq; obtain ⟨s, hs, hn⟩ := hwf.electron hq; exact ⟨s, hs, by simp [h1], hn⟩
        · intro hq; rw [hpi2]; exact hok.ion hq
        · have := hok.consistent
          unfold State.enabledPart at this ⊢
          rw [h1, h2]; exact this
      · intro _ s hs hn; exact h3 _ (hel1 s hs hn)
      · intro _ s hs; rw [hpi2] at hs; exact .inl (h4 s hs)
      · intro _ s hs hps huniq
        apply h4
        have hmem : ∀ t, t ∈ net.positiveIons State.fresh ↔ t = s := by
          intro t
          rw [mem_positiveIons]
          constructor
          · rintro ⟨h1, _, h3⟩; exact huniq t h1 h3
          · rintro rfl; exact ⟨hs, rfl, hps⟩
        have hnd : (net.positiveIons State.fresh).Nodup :=
          ((hwf.spNodup.of_map).sublist (List.filter_sublist.trans List.filter_sublist))
        match hl : net.positiveIons State.fresh with
        | [] => have := (hmem s).2 rfl; rw [hl] at this; cases this
        | [t] => have := (hmem t).1 (by rw [hl]; simp); rw [this]
        | t :: u :: l =>
          have h1 := (hmem t).1 (by rw [hl]; simp)
          have h2 := (hmem u).1 (by rw [hl]; simp)
          rw [hl, h1, h2] at hnd
          simp at hnd
    split at h
    · rename_i s hs
      rw [hpi] at hs
      split at h
      · simp at h
      rename_i st2 hp2
      simp at h; subst h
      have sp2 := setProtected_spec (net := net) (st := st1) (args := [.obj s])
      rw [hp2] at sp2
      obtain ⟨b1, b2, b3, b4, b5, b6, b7⟩ := sp2
      simp only at b1 b2 b3 b4 b5 b6 b7
      refine ⟨key st2 (by rw [b1, a1]; rfl) (by rw [b2, a2]; rfl) b7 ?_, by rw [b1, a1]; rfl,
        by rw [b2, a2]; rfl, by rw [b3, a3]; rfl, by rw [b4, a4]; rfl, by rw [b5, a5]; rfl,
        by rw [b6, a6]; rfl, hret⟩
      intro t ht
      rw [hs] at ht
      simp at ht; subst ht
      have hmem : s ∈ net.species := (mem_positiveIons.1 (by rw [hs]; simp : s ∈ net.positiveIons State.fresh)).1
      unfold setProtected at hp2
      simp only [resolveSpecies, find_obj hmem, Prod.mk.injEq, and_true] at hp2
      rw [← hp2]
      exact setMask_true.2 (.inl (by simp))
    · rename_i hns
      simp at h; subst h
      refine ⟨key st1 (by rw [a1]; rfl) (by rw [a2]; rfl) (fun _ h => h) ?_, by rw [a1]; rfl,
        by rw [a2]; rfl, by rw [a3]; rfl, by rw [a4]; rfl, by rw [a5]; rfl,
        by rw [a6]; rfl, hret⟩
      intro t ht
      exact absurd (hpi.trans ht) (hns t)
  · rename_i hq
    simp at h; subst h
    exact ⟨⟨hok, fun h => absurd h hq, fun h => absurd h hq, fun h => absurd h hq⟩, rfl, rfl, rfl, rfl,
      rfl, rfl, hret⟩

theorem resolveSpecies_error {net : Net} {xs : List SpIdent} {e : Err}
    (h : net.resolveSpecies xs = .error e) : e = .speciesNotPresent := by
  induction xs generalizing e with
  | nil => simp [resolveSpecies] at h
  | cons x xs ih =>
    unfold resolveSpecies at h
    split at h
    · rename_i e' he'
      simp at h; subst h
      unfold getRp at he'
      split at he' <;> split at he' <;> simp_all
    · split at h
      · rename_i e' he'
        simp at h; subst h; exact ih he'
      · simp at h

theorem resolveReactions_error {net : Net} {xs : List Nat} {e : Err}
    (h : net.resolveReactions xs = .error e) : e = .reactionNotPresent := by
  induction xs generalizing e with
  | nil => simp [resolveReactions] at h
  | cons x xs ih =>
    unfold resolveReactions at h
    split at h
    · rename_i e' he'
      simp at h; subst h
      unfold getReaction at he'
      split at he' <;> simp_all
    · split at h
      · rename_i e' he'
        simp at h; subst h; exact ih he'
      · simp at h

/-- everything known about a call of `disable` -/
theorem disable_cases {net : Net} {st : State} (hinv : Inv net st)
    (species : List SpIdent) (reactions : List Nat) :
    (∃ e, e ≠ .disable ∧ e ≠ .fuel ∧ e ≠ .consistency ∧ net.disable st species reactions = (st, some e) ∧
      (net.resolveSpecies species = .error e ∨ net.resolveReactions reactions = .error e)) ∨
    (∃ sids, net.resolveSpecies species = .ok sids ∧ net.resolveReactions reactions = .ok reactions ∧
      net.disable st species reactions = (st, some .disable) ∧
      ¬ ((∀ i ∈ sids, st.enSp i = false) ∧ (∀ i ∈ reactions, st.enR i = false)) ∧
      Blocked net st (fun i => i ∈ sids) (fun i => i ∈ reactions)) ∨
    (∃ sids st', net.resolveSpecies species = .ok sids ∧ net.resolveReactions reactions = .ok reactions ∧
      net.disableRec net.fuelBound st sids reactions = (st', none) ∧
      net.disable st species reactions =
        (st', match net.assertConsistency st' with | .error e => some e | .ok () => none)) := by
  unfold disable
  cases h1 : net.resolveSpecies species with
  | error e =>
    left
    have := resolveSpecies_error h1
    subst this
    exact ⟨.speciesNotPresent, by decide, by decide, by decide, rfl, .inl rfl⟩
  | ok sids =>
    cases h2 : net.resolveReactions reactions with
    | error e =>
      left
      have := resolveReactions_error h2
      subst this
      exact ⟨.reactionNotPresent, by decide, by decide, by decide, rfl, .inr rfl⟩
    | ok rids =>
      obtain ⟨rfl, hmR⟩ := resolveReactions_spec h2
      have hmS := resolveSpecies_mem h1
      simp only
      have hmeas : net.measure st < net.fuelBound := by
        have l1 := List.length_filter_le (fun s : RP => st.enSp s.id) net.species
        have l2 := List.length_filter_le (fun s : Reaction => st.enR s.id) net.reactions
        unfold measure fuelBound; omega
      cases h3 : net.disableRec net.fuelBound st sids rids with
      | mk st' oe =>
        cases oe with
        | none =>
          right; right
          refine ⟨sids, st', rfl, trivial, h3, ?_⟩
          simp only
          cases net.assertConsistency st' <;> rfl
        | some e =>
          obtain ⟨he, hb, q1, q2, q3⟩ := blocked_of_err hinv.ok.consistent (Mid.start net st sids rids)
            hmS hmR hmeas h3
          subst he
          right; left
          refine ⟨sids, rfl, trivial, ?_, ?_, hb⟩
          · simp only [Prod.mk.injEq, and_true]
            rw [q1, q2, q3]
          · intro hno
            unfold fuelBound at h3
            rw [disableRec_succ, if_pos hno] at h3
            simp at h3

theorem inv_of_cascade {net : Net} (hwf : WF net) {st st' : State} {sids rids : List Nat}
    (hinv : Inv net st) (c : Cascade net st st' sids rids) : Inv net st' := by
  rcases c.outcome with rfl | ⟨-, hcons, hpos, hlast⟩
  · exact hinv
  · refine ⟨?_, ?_, ?_, ?_⟩
    · apply netOk_of hwf _ hpos hcons
      intro hq
      obtain ⟨s, hs, he, hn⟩ := hinv.ok.electron hq
      exact ⟨s, hs, c.keeps _ ⟨s, hs, rfl⟩ (.inl (hinv.elec hq s hs hn)) he, hn⟩
    · intro hq s hs hn; rw [c.prot]; exact hinv.elec hq s hs hn
    · intro hq s hs; exact .inr (hlast hq s hs)
    · intro hq s hs h1 h2; rw [c.prot]; exact hinv.lastAll hq s hs h1 h2

theorem inv_congr {net : Net} {st st' : State} (h : Inv net st) (h1 : st'.enSp = st.enSp)
    (h2 : st'.enR = st.enR) (h3 : ∀ i, st.protSp i = true → st'.protSp i = true)
    (h4 : st'.adhocSp = st.adhocSp) : Inv net st' := by
  have hpi : net.positiveIons st' = net.positiveIons st := positiveIons_congr h1
  have hgs : net.getSpecies st' false true true = net.getSpecies st false true true := by
    unfold getSpecies speciesMask; simp [h1]
  refine ⟨⟨?_, ?_, ?_, ?_, ?_, ?_⟩, ?_, ?_, ?_⟩
  · rw [h1]; exact h.ok.electron
  · rw [hpi]; exact h.ok.ion
  · rw [hgs]; exact h.ok.names
  · rw [hgs]; exact h.ok.ids
  · rw [h1, h2]; exact h.ok.present
  · rw [h1, h2]; exact h.ok.used
  · intro hq s hs hn; exact h3 _ (h.elec hq s hs hn)
  · intro hq s hs
    rw [hpi] at hs
    rcases h.last hq s hs with h' | h'
    · exact .inl (h3 _ h')
    · right; rw [h4]; exact h'
  · intro hq s hs a b; exact h3 _ (h.lastAll hq s hs a b)

theorem inv_reset {net : Net} (hwf : WF net) {st : State} (h : Inv net st) : Inv net (reset st) := by
  refine ⟨?_, ?_, ?_, ?_⟩
  · apply netOk_of hwf
    · intro hq; obtain ⟨s, hs, hn⟩ := hwf.electron hq; exact ⟨s, hs, rfl, hn⟩
    · intro hq hc
      obtain ⟨s, hs, hn⟩ := hwf.ion hq
      have : s ∈ net.positiveIons (reset st) := mem_positiveIons.2 ⟨hs, rfl, hn⟩
      rw [hc] at this; cases this
    · constructor
      · intro r hr _ i _; rfl
      · intro s hs _
        obtain ⟨r, hr, ho⟩ := hwf.used s hs
        exact ⟨r, hr, rfl, ho⟩
  · exact h.elec
  · intro hq s hs
    left
    have hm : s ∈ net.positiveIons (reset st) := by rw [hs]; simp
    obtain ⟨h1, -, h3⟩ := mem_positiveIons.1 hm
    refine h.lastAll hq s h1 h3 ?_
    intro t ht htp
    have : t ∈ net.positiveIons (reset st) := mem_positiveIons.2 ⟨ht, rfl, htp⟩
    rw [hs] at this; simpa using this
  · exact h.lastAll

theorem inv_step {net : Net} (hwf : WF net) {st : State} (h : Inv net st) (o : Op) :
    Inv net (net.step st o).1 := by
  cases o with
  | disable sp rx =>
    simp only [step]
    rcases disable_cases h sp rx with ⟨e, -, -, -, he, -⟩ | ⟨sids, -, -, he, -⟩ | ⟨sids, st', -, -, hr, he⟩
    · rw [he]; exact h
    · rw [he]; exact h
    · rw [he]; exact inv_of_cascade hwf h (cascade_of_ok hwf hr)
  | reset => exact inv_reset hwf h
  | protect sp =>
    have := setProtected_spec (net := net) (st := st) (args := sp)
    exact inv_congr h this.1 this.2.1 this.2.2.2.2.2.2 this.2.2.1
  | adhocStick p v =>
    simp only [step, setAdhocStick]
    split
    · exact h
    · split <;> exact inv_congr h rfl rfl (fun _ h => h) rfl
  | adhocRet p v =>
    simp only [step, setAdhocRet]
    split
    · exact h
    · split
      · exact h
      · split <;> exact inv_congr h rfl rfl (fun _ h => h) rfl
  | resetAdhocSpecies a b => exact inv_congr h rfl rfl (fun _ h => h) rfl
  | adhocArrhA r v =>
    simp only [step, setAdhocArrhA]
    split
    · exact inv_congr h rfl rfl (fun _ h => h) rfl
    · exact h
  | resetAdhocReactions => exact inv_congr h rfl rfl (fun _ h => h) rfl

theorem reachable_inv {net : Net} {st : State} (h : Reachable net st) : WF net ∧ Inv net st := by
  induction h with
  | init h => exact ⟨(init_spec h).1, (init_spec h).2.1⟩
  | step o _ ih => exact ⟨ih.1, inv_step ih.1 ih.2 o⟩

end Net
end Verif.Plaschem
