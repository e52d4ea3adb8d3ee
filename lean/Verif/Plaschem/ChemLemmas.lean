/-
Helper lemmas about the chemistry model.
-/
import Verif.Plaschem.ChemSpec
import Mathlib.Data.List.Basic
import Mathlib.Data.List.Nodup
import Mathlib.Data.List.Perm.Subperm

namespace Verif.Plaschem

/-! ### orderedSet -/

theorem mem_orderedSet {α : Type} [DecidableEq α] (xs : List α) (a : α) :
    a ∈ orderedSet xs ↔ a ∈ xs := by
  induction xs with
  | nil => simp [orderedSet]
  | cons x xs ih =>
    simp only [orderedSet, List.mem_cons, List.mem_filter, ih, decide_eq_true_eq]
    by_cases h : a = x <;> simp [h]

theorem nodup_orderedSet {α : Type} [DecidableEq α] (xs : List α) : (orderedSet xs).Nodup := by
  induction xs with
  | nil => simp [orderedSet]
  | cons x xs ih =>
    simp only [orderedSet, List.nodup_cons]
    exact ⟨by simp, ih.filter _⟩

namespace Net

/-! ### masks -/

theorem mem_getSpecies {net : Net} {st : State} {s : RP} :
    s ∈ net.getSpecies st false true true ↔ s ∈ net.species ∧ st.enSp s.id = true := by
  simp [getSpecies, speciesMask]

theorem isPos_iff (s : RP) (h : s.isSpecial = false) : isPos s = true ↔ 0 < s.charge.getD 0 := by
  have : ¬ (s.name = str!"M") := by
    intro hn; simp [RP.isSpecial, hn] at h
  unfold isPos RP.getCharge
  cases hc : s.charge <;> simp [this]

theorem special_false_iff (s : RP) :
    s.isSpecial = false ↔ s.name ≠ str!"e" ∧ s.name ≠ str!"M" := by
  simp [RP.isSpecial]

theorem mem_positiveIons {net : Net} {st : State} {s : RP} :
    s ∈ net.positiveIons st ↔ s ∈ net.species ∧ st.enSp s.id = true ∧ PositiveIon s := by
  unfold positiveIons getSpecies speciesMask PositiveIon
  simp only [List.mem_filter, Bool.false_or, Bool.true_or, Bool.and_true, Bool.and_eq_true,
    Bool.not_eq_true']
  constructor
  · rintro ⟨⟨h1, h2, h3⟩, h4⟩
    exact ⟨h1, h2, ((special_false_iff s).1 h3).1, ((special_false_iff s).1 h3).2,
      (isPos_iff s h3).1 h4⟩
  · rintro ⟨h1, h2, h3, h4, h5⟩
    have := (special_false_iff s).2 ⟨h3, h4⟩
    exact ⟨⟨h1, h2, this⟩, (isPos_iff s this).2 h5⟩

theorem mem_protectedIds {net : Net} {st : State} {i : Nat} :
    i ∈ net.protectedIds st ↔ (∃ s ∈ net.species, s.id = i) ∧ st.Protected i := by
  unfold protectedIds State.Protected
  simp only [List.mem_map, List.mem_filter, Bool.or_eq_true]
  constructor
  · rintro ⟨s, ⟨h1, h2⟩, rfl⟩; exact ⟨⟨s, h1, rfl⟩, h2⟩
  · rintro ⟨⟨s, h1, rfl⟩, h2⟩; exact ⟨s, ⟨h1, h2⟩, rfl⟩

theorem network_pos {r : Reaction} {i : Nat} : 0 < network r i ↔ Occurs i r := by
  unfold network Occurs
  rw [Nat.add_pos_iff_pos_or_pos, List.count_pos_iff, List.count_pos_iff]
  simp only [List.mem_map, List.mem_append]
  constructor
  · rintro (⟨p, h, rfl⟩ | ⟨p, h, rfl⟩)
    · exact ⟨p, .inl h, rfl⟩
    · exact ⟨p, .inr h, rfl⟩
  · rintro ⟨p, h | h, rfl⟩
    · exact .inl ⟨p, h, rfl⟩
    · exact .inr ⟨p, h, rfl⟩

theorem mem_disconnectedSpecies {net : Net} {st : State} {i : Nat} :
    i ∈ net.disconnectedSpecies st ↔
      ∃ s ∈ net.species, s.id = i ∧ st.enSp i = true ∧
        ∀ r ∈ net.reactions, st.enR r.id = true → ¬ Occurs i r := by
  unfold disconnectedSpecies
  simp only [List.mem_map, List.mem_filter, decide_eq_true_eq, List.sum_eq_zero_iff_forall_eq_nat]
  constructor
  · rintro ⟨s, ⟨⟨h1, h2⟩, h3⟩, rfl⟩
    refine ⟨s, h1, rfl, h2, ?_⟩
    intro r hr he ho
    have h0 : network r s.id = 0 := h3 _ ⟨r, ⟨hr, he⟩, rfl⟩
    have := network_pos.2 ho
    omega
  · rintro ⟨s, h1, rfl, h2, h3⟩
    refine ⟨s, ⟨⟨h1, h2⟩, ?_⟩, rfl⟩
    rintro x ⟨r, ⟨hr, he⟩, rfl⟩
    have := h3 r hr he
    rw [← network_pos] at this
    omega

theorem mem_disconnectedReactions {net : Net} {st : State} {i : Nat} :
    i ∈ net.disconnectedReactions st ↔
      ∃ r ∈ net.reactions, r.id = i ∧ st.enR i = true ∧
        ∃ s ∈ net.species, st.enSp s.id = false ∧ Occurs s.id r := by
  unfold disconnectedReactions
  simp only [List.mem_map, List.mem_filter, decide_eq_true_eq, gt_iff_lt, Nat.pos_iff_ne_zero, ne_eq,
    List.sum_eq_zero_iff_forall_eq_nat, Bool.not_eq_true']
  constructor
  · rintro ⟨r, ⟨⟨h1, h2⟩, h3⟩, rfl⟩
    refine ⟨r, h1, rfl, h2, ?_⟩
    simp only [not_forall] at h3
    obtain ⟨x, ⟨s, ⟨hs, he⟩, rfl⟩, hx⟩ := h3
    exact ⟨s, hs, he, network_pos.1 (Nat.pos_of_ne_zero hx)⟩
  · rintro ⟨r, h1, rfl, h2, s, hs, he, ho⟩
    refine ⟨r, ⟨⟨h1, h2⟩, ?_⟩, rfl⟩
    intro hall
    have h0 : network r s.id = 0 := hall _ ⟨s, ⟨hs, he⟩, rfl⟩
    have := network_pos.2 ho
    omega

/-! ### resolving identifiers -/

theorem getRp_mem {net : Net} {x : SpIdent} {s : RP} (h : net.getRp x = .ok s) : s ∈ net.species := by
  unfold getRp at h
  split at h <;> split at h <;> simp_all <;> exact List.mem_of_find?_eq_some (by assumption)

theorem resolveSpecies_mem {net : Net} {xs : List SpIdent} {l : List Nat}
    (h : net.resolveSpecies xs = .ok l) : ∀ i ∈ l, ∃ s ∈ net.species, s.id = i := by
  induction xs generalizing l with
  | nil => simp [resolveSpecies] at h; subst h; simp
  | cons x xs ih =>
    unfold resolveSpecies at h
    split at h
    · simp at h
    · rename_i s hs
      split at h
      · simp at h
      · rename_i l' hl'
        simp at h; subst h
        intro i hi
        rcases List.mem_cons.1 hi with rfl | hi
        · exact ⟨s, getRp_mem hs, rfl⟩
        · exact ih hl' i hi

theorem getReaction_spec {net : Net} {i : Nat} {r : Reaction} (h : net.getReaction i = .ok r) :
    r ∈ net.reactions ∧ r.id = i := by
  unfold getReaction at h
  split at h
  · rename_i r' hr
    simp at h; subst h
    exact ⟨List.mem_of_find?_eq_some hr, by simpa using List.find?_some hr⟩
  · simp at h

theorem resolveReactions_spec {net : Net} {xs : List Nat} {l : List Nat}
    (h : net.resolveReactions xs = .ok l) : l = xs ∧ ∀ i ∈ xs, ∃ r ∈ net.reactions, r.id = i := by
  induction xs generalizing l with
  | nil => simp [resolveReactions] at h; subst h; simp
  | cons x xs ih =>
    unfold resolveReactions at h
    split at h
    · simp at h
    · rename_i s hs
      split at h
      · simp at h
      · rename_i l' hl'
        simp at h; subst h
        obtain ⟨h1, h2⟩ := ih hl'
        obtain ⟨h3, h4⟩ := getReaction_spec hs
        subst h1
        refine ⟨by rw [h4], ?_⟩
        intro i hi
        rcases List.mem_cons.1 hi with rfl | hi
        · exact ⟨s, h3, h4⟩
        · exact h2 i hi

/-! ### well-formed networks -/

/-- what the constructor guarantees about species and reactions -/
structure WF (net : Net) : Prop where
  spNodup : (net.species.map RP.id).Nodup
  rNodup : (net.reactions.map Reaction.id).Nodup
  nameNodup : (net.species.map RP.name).Nodup
  closed : ∀ r ∈ net.reactions, ∀ p ∈ r.rps, p ∈ net.species
  used : ∀ s ∈ net.species, ∃ r ∈ net.reactions, Occurs s.id r
  electron : net.requiresCharge = true → ∃ s ∈ net.species, s.name = str!"e"
  ion : net.requiresCharge = true → ∃ s ∈ net.species, PositiveIon s

theorem WF.eq_of_id {net : Net} (h : WF net) {s t : RP} (hs : s ∈ net.species) (ht : t ∈ net.species)
    (he : s.id = t.id) : s = t := List.inj_on_of_nodup_map h.spNodup hs ht he

theorem WF.eq_of_name {net : Net} (h : WF net) {s t : RP} (hs : s ∈ net.species)
    (ht : t ∈ net.species) (he : s.name = t.name) : s = t :=
  List.inj_on_of_nodup_map h.nameNodup hs ht he

theorem WF.occurs_mem {net : Net} (h : WF net) {r : Reaction} (hr : r ∈ net.reactions) {i : Nat}
    (ho : Occurs i r) : ∃ s ∈ net.species, s.id = i ∧ s ∈ r.rps := by
  obtain ⟨p, hp, rfl⟩ := ho
  exact ⟨p, h.closed r hr p hp, rfl, hp⟩

/-! ### assert_consistency -/

/-- the part of `assert_consistency` that concerns species and reactions -/
structure NetOk (net : Net) (st : State) : Prop where
  electron : net.requiresCharge = true → ∃ s ∈ net.species, st.enSp s.id = true ∧ s.name = str!"e"
  ion : net.requiresCharge = true → net.positiveIons st ≠ []
  names : ((net.getSpecies st false true true).map RP.name).Nodup
  ids : ((net.getSpecies st false true true).map RP.id).Nodup
  present : ∀ r ∈ net.reactions, st.enR r.id = true → ∀ p ∈ r.rps, p ∈ net.species ∧ st.enSp p.id = true
  used : ∀ s ∈ net.species, st.enSp s.id = true →
    ∃ r ∈ net.reactions, st.enR r.id = true ∧ s ∈ r.rps

/-- the part that concerns return species -/
def RetOk (net : Net) (st : State) : Prop :=
  ∃ d, net.getSpeciesRetCoefs st false true true = .ok d ∧
    ∀ n ∈ retNames d, n ∈ (net.getSpecies st false true true).map RP.name

theorem reactionSpeciesPresent_iff {net : Net} {st : State} :
    net.reactionSpeciesPresent st = true ↔
      ∀ r ∈ net.reactions, st.enR r.id = true → ∀ p ∈ r.rps, p ∈ net.species ∧ st.enSp p.id = true := by
  unfold reactionSpeciesPresent getReactions
  simp only [List.all_eq_true, List.mem_filter, Bool.false_or, List.any_eq_true, mem_getSpecies,
    decide_eq_true_eq, and_imp]
  constructor
  · intro h r hr he p hp
    obtain ⟨s, hs, rfl⟩ := h r hr he p hp
    exact hs
  · intro h r hr he p hp
    exact ⟨p, h r hr he p hp, rfl⟩

theorem mem_confirmed {net : Net} {st : State} {n : Str} :
    n ∈ net.confirmed st ↔ ∃ r ∈ net.reactions, st.enR r.id = true ∧ ∃ p ∈ r.rps, p.name = n := by
  unfold confirmed getReactions
  simp only [mem_orderedSet, List.mem_flatMap, List.mem_filter, Bool.false_or, List.mem_map, and_assoc]

theorem used_iff {net : Net} {st : State}
    (hn : ((net.getSpecies st false true true).map RP.name).Nodup)
    (hp : ∀ r ∈ net.reactions, st.enR r.id = true → ∀ p ∈ r.rps, p ∈ net.species ∧ st.enSp p.id = true) :
    (net.getSpecies st false true true).length = (net.confirmed st).length ↔
    ∀ s ∈ net.species, st.enSp s.id = true → ∃ r ∈ net.reactions, st.enR r.id = true ∧ s ∈ r.rps := by
  have hsub : net.confirmed st ⊆ (net.getSpecies st false true true).map RP.name := by
    intro n hn'
    obtain ⟨r, hr, he, p, hpr, rfl⟩ := mem_confirmed.1 hn'
    exact List.mem_map.2 ⟨p, mem_getSpecies.2 (hp r hr he p hpr), rfl⟩
  have hcn : (net.confirmed st).Nodup := nodup_orderedSet _
  have hsp : (net.confirmed st).Subperm ((net.getSpecies st false true true).map RP.name) :=
    hcn.subperm hsub
  constructor
  · intro hlen s hs he
    have hperm := hsp.perm_of_length_le (by simp [hlen])
    have : s.name ∈ net.confirmed st :=
      hperm.mem_iff.2 (List.mem_map.2 ⟨s, mem_getSpecies.2 ⟨hs, he⟩, rfl⟩)
    obtain ⟨r, hr, her, p, hpr, hname⟩ := mem_confirmed.1 this
    have hps := mem_getSpecies.2 (hp r hr her p hpr)
    have : p = s := List.inj_on_of_nodup_map hn hps (mem_getSpecies.2 ⟨hs, he⟩) hname
    exact ⟨r, hr, her, this ▸ hpr⟩
  · intro h
    apply le_antisymm _ (by simpa using hsp.length_le)
    have : ((net.getSpecies st false true true).map RP.name).Subperm (net.confirmed st) := by
      apply hn.subperm
      intro n hn'
      obtain ⟨s, hs, rfl⟩ := List.mem_map.1 hn'
      obtain ⟨hs1, hs2⟩ := mem_getSpecies.1 hs
      obtain ⟨r, hr, her, hsr⟩ := h s hs1 hs2
      exact mem_confirmed.2 ⟨r, hr, her, s, hsr, rfl⟩
    simpa using this.length_le

theorem assertConsistency_iff {net : Net} {st : State} :
    net.assertConsistency st = .ok () ↔ NetOk net st ∧ RetOk net st := by
  unfold assertConsistency
  simp only
  have helec : (str!"e" ∈ (net.getSpecies st false true true).map RP.name) ↔
      ∃ s ∈ net.species, st.enSp s.id = true ∧ s.name = str!"e" := by
    simp only [List.mem_map, mem_getSpecies, and_assoc]
  by_cases h1 : net.requiresCharge = true ∧ ¬ (str!"e" ∈ (net.getSpecies st false true true).map RP.name)
  · rw [if_pos h1]
    refine ⟨fun h => (by cases h), fun hn => absurd (helec.2 (hn.1.electron h1.1)) h1.2⟩
  rw [if_neg h1]
  by_cases h2 : net.requiresCharge = true ∧ net.positiveIons st = []
  · rw [if_pos h2]
    exact ⟨fun h => (by cases h), fun hn => absurd h2.2 (hn.1.ion h2.1)⟩
  rw [if_neg h2]
  by_cases h3 : ((net.getSpecies st false true true).map RP.name).Nodup
  swap
  · rw [if_pos h3]
    exact ⟨fun h => (by cases h), fun hn => absurd hn.1.names h3⟩
  rw [if_neg (not_not.2 h3)]
  by_cases h4 : ((net.getSpecies st false true true).map RP.id).Nodup
  swap
  · rw [if_pos h4]
    exact ⟨fun h => (by cases h), fun hn => absurd hn.1.ids h4⟩
  rw [if_neg (not_not.2 h4)]
  by_cases h5 : net.reactionSpeciesPresent st = true
  swap
  · rw [if_pos h5]
    exact ⟨fun h => (by cases h), fun hn => absurd (reactionSpeciesPresent_iff.2 hn.1.present) h5⟩
  rw [if_neg (not_not.2 h5)]
  have h5' := reactionSpeciesPresent_iff.1 h5
  by_cases h6 : (net.getSpecies st false true true).length = (net.confirmed st).length
  swap
  · rw [if_pos h6]
    exact ⟨fun h => (by cases h), fun hn => absurd ((used_iff h3 h5').2 hn.1.used) h6⟩
  rw [if_neg (not_not.2 h6)]
  · have h6' := (used_iff h3 h5').1 h6
    have hno : NetOk net st := ⟨fun hq => by
        rw [← helec]; by_contra hc; exact h1 ⟨hq, hc⟩,
      fun hq hc => h2 ⟨hq, hc⟩, h3, h4, h5', h6'⟩
    simp only [hno, true_and]
    unfold RetOk
    split
    · rename_i e he; simp [he]
    · rename_i d hd
      simp only [hd, Except.ok.injEq, exists_eq_left']
      by_cases hr : ((retNames d).all fun n => decide (n ∈ List.map RP.name (net.getSpecies st false true true))) = true
      · rw [if_pos hr]
        simp only [List.all_eq_true, decide_eq_true_eq] at hr
        simp only [true_iff]
        exact hr
      · rw [if_neg hr]
        simp only [List.all_eq_true, decide_eq_true_eq] at hr
        simp only [reduceCtorEq, false_iff]
        exact hr

end Net
end Verif.Plaschem
