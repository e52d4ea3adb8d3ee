import Verif.Plaschem.ClassifyProps
/-! What the classes of collisions of heavy species mean (C51), and that the class of a reaction does not depend
on the order of its reactants and products. -/

namespace Verif.Plaschem.Classify
open Verif.Plaschem

variable {F : Str → Option (Dict Str Nat)} {r : Reaction}

/-! ### what the classes mean: collisions of heavy species -/

/-- two heavy species meet -/
def Meet (r : Reaction) (A B : RP) : Prop :=
  r.reactants = [A, B] ∧ A.name ≠ str!"e" ∧ B.name ≠ str!"e"

theorem meet_nE {A B : RP} (h : Meet r A B) : nE r.reactants = 0 := by
  rw [h.1, nE_cons_ne h.2.1, nE_cons_ne h.2.2]; rfl

theorem meet_of (h2 : r.reactants.length = 2) (h0 : nE r.reactants = 0) :
    ∃ A B, Meet r A B := by
  obtain ⟨A, B, hr⟩ := List.length_eq_two.1 h2
  have hne : ∀ s ∈ r.reactants, s.name ≠ str!"e" := by
    intro s hs he
    have := (nE_pos_iff r.reactants).2 ⟨s, hs, he⟩
    omega
  exact ⟨A, B, hr, hne A (by rw [hr]; simp), hne B (by rw [hr]; simp)⟩

theorem heavy_pair_iff (hv : Valid F r) {t : Typ} {c : Cat}
    (ht : t ∉ [Typ.electron, .three, .decay, .unclassified]) :
    classify r = .ok (t, c) ↔
      ∃ A B, Meet r A B ∧ classifyHeavy r (nE r.products) = .ok (t, c) := by
  rw [classify_eq hv]
  constructor
  · intro h
    split at h
    · have := (under_ok h).1
      simp only at this
      subst this; exact absurd (by decide) ht
    split at h
    · cases h; exact absurd (by decide) ht
    split at h
    · split at h <;> (cases h; exact absurd (by decide) ht)
    split at h
    · rename_i h0 _ _ h2
      obtain ⟨A, B, hm⟩ := meet_of h2 (by omega)
      exact ⟨A, B, hm, h⟩
    · cases h; exact absurd (by decide) ht
  · rintro ⟨A, B, hm, h⟩
    have h0 := meet_nE hm
    have h2 : r.reactants.length = 2 := by rw [hm.1]; rfl
    rw [if_neg (by omega), if_neg (by omega), if_neg (by omega), if_pos h2, h]

theorem all_pair {A B : RP} (h : Meet r A B) (p : RP → Bool) :
    r.reactants.all p = (p A && p B) := by rw [h.1]; simp

/-- **C51.** Reactions of three heavy species form a class of their own, whatever comes out. -/
theorem three_body_iff (hv : Valid F r) (c : Cat) :
    classify r = .ok (.three, c) ↔
      c = .noCat ∧ r.reactants.length = 3 ∧ ∀ s ∈ r.reactants, s.name ≠ str!"e" := by
  rw [classify_eq hv]
  constructor
  · intro h
    split at h
    · cases (under_ok h).1
    split at h
    · cases h
      rename_i h0 h3
      refine ⟨rfl, h3, fun s hs he => h0 ((nE_pos_iff _).2 ⟨s, hs, he⟩)⟩
    split at h
    · split at h <;> cases h
    split at h
    · unfold classifyHeavy at h
      repeat' split at h
      all_goals first | cases h | cases (under_ok h).1
    · cases h
  · rintro ⟨rfl, h3, hne⟩
    rw [if_neg, if_pos h3]
    intro h0
    obtain ⟨s, hs, he⟩ := (nE_pos_iff _).1 h0
    exact hne s hs he

/-- **C51.** Radiative decays: one heavy species turns into another one. -/
theorem decay_iff (hv : Valid F r) (c : Cat) :
    classify r = .ok (.decay, c) ↔
      c = .noCat ∧ r.products.length = 1 ∧ ∃ A, r.reactants = [A] ∧ A.name ≠ str!"e" := by
  rw [classify_eq hv]
  constructor
  · intro h
    split at h
    · cases (under_ok h).1
    split at h
    · cases h
    split at h
    · split at h
      · rename_i h0 _ h1 hp
        cases h
        obtain ⟨A, hA⟩ := List.length_eq_one_iff.1 h1
        refine ⟨rfl, hp, A, hA, fun he => h0 ((nE_pos_iff _).2 ⟨A, by rw [hA]; simp, he⟩)⟩
      · cases h
    split at h
    · unfold classifyHeavy at h
      repeat' split at h
      all_goals first | cases h | cases (under_ok h).1
    · cases h
  · rintro ⟨rfl, hp, A, hA, hne⟩
    have h1 : r.reactants.length = 1 := by rw [hA]; rfl
    rw [if_neg (by rw [hA, nE_cons_ne hne]; simp [nE]), if_neg (by omega), if_pos h1, if_pos hp]

/-- **C51.** Collisions of neutrals are those of two heavy species without charge (M counts as one). -/
theorem neutral_iff (hv : Valid F r) {c : Cat} :
    classify r = .ok (.neutral, c) ↔
      ∃ A B, Meet r A B ∧ A.chargeOf = 0 ∧ B.chargeOf = 0 ∧
        classifyNeutral r (nE r.products) = .ok c := by
  rw [heavy_pair_iff hv (by decide)]
  constructor
  · rintro ⟨A, B, hm, h⟩
    unfold classifyHeavy at h
    simp only [all_pair hm] at h
    split at h
    · rename_i hz
      simp only [Bool.and_eq_true, decide_eq_true_eq] at hz
      exact ⟨A, B, hm, hz.1, hz.2, (under_ok h).2⟩
    · repeat' split at h
      all_goals first | cases (under_ok h).1 | cases h
  · rintro ⟨A, B, hm, h0, h1, h⟩
    refine ⟨A, B, hm, ?_⟩
    unfold classifyHeavy
    simp only [all_pair hm]
    rw [if_pos (by simp [charge0_eq, h0, h1]), h]
    rfl

/-- **C51.** Mutual neutralization: two ions of opposite sign turn into two neutrals. -/
theorem neutralization_iff (hv : Valid F r) :
    classify r = .ok (.ionIon, .neutralization) ↔
      ∃ A B, Meet r A B ∧ A.chargeOf * B.chargeOf < 0 ∧ r.products.length = 2 ∧
        ∀ s ∈ r.products, s.chargeOf = 0 := by
  rw [heavy_pair_iff hv (by decide)]
  constructor
  · rintro ⟨A, B, hm, h⟩
    have hl : r.reactants.length = 2 := by rw [hm.1]; rfl
    unfold classifyHeavy at h
    simp only [all_pair hm, hl] at h
    repeat' split at h
    all_goals first | cases (under_ok h).1 | (cases h; done) | skip
    rename_i h1 h2 h3 h4 h5 h6
    simp only [Bool.and_eq_true, decide_eq_true_eq, not_and, not_le] at h1 h2 h3 h4
    simp only [charge0_eq] at h1 h2 h3 h4
    refine ⟨A, B, hm, ?_, h6.symm, fun s hs => of_decide_eq_true (List.all_eq_true.1 h5 s hs)⟩
    rw [Int.mul_neg_iff]
    omega
  · rintro ⟨A, B, hm, hc, h2, hp⟩
    refine ⟨A, B, hm, ?_⟩
    have hl : r.reactants.length = 2 := by rw [hm.1]; rfl
    rw [Int.mul_neg_iff] at hc
    unfold classifyHeavy
    simp only [all_pair hm, hl]
    rw [if_neg (by simp; simp only [charge0_eq]; omega), if_neg (by simp; simp only [charge0_eq]; omega), if_neg (by simp; simp only [charge0_eq]; omega),
      if_pos (by simp; simp only [charge0_eq]; omega), if_pos (show (r.products.all fun s => decide (charge0 s = 0)) = true from
        List.all_eq_true.2 fun s hs => decide_eq_true (hp s hs)), if_pos h2.symm]

/-- **C51.** Dissociative neutralization: two ions of opposite sign turn into three or more neutrals. -/
theorem dissociative_neutralization_iff (hv : Valid F r) :
    classify r = .ok (.ionIon, .dissNeutralization) ↔
      ∃ A B, Meet r A B ∧ A.chargeOf * B.chargeOf < 0 ∧ 3 ≤ r.products.length ∧
        ∀ s ∈ r.products, s.chargeOf = 0 := by
  rw [heavy_pair_iff hv (by decide)]
  constructor
  · rintro ⟨A, B, hm, h⟩
    have hl : r.reactants.length = 2 := by rw [hm.1]; rfl
    unfold classifyHeavy at h
    simp only [all_pair hm, hl] at h
    repeat' split at h
    all_goals first | cases (under_ok h).1 | (cases h; done) | skip
    rename_i h1 h2 h3 h4 h5 h6 h7
    simp only [Bool.and_eq_true, decide_eq_true_eq, not_and, not_le] at h1 h2 h3 h4
    simp only [charge0_eq] at h1 h2 h3 h4
    refine ⟨A, B, hm, ?_, h7, fun s hs => of_decide_eq_true (List.all_eq_true.1 h5 s hs)⟩
    rw [Int.mul_neg_iff]
    omega
  · rintro ⟨A, B, hm, hc, h2, hp⟩
    refine ⟨A, B, hm, ?_⟩
    have hl : r.reactants.length = 2 := by rw [hm.1]; rfl
    rw [Int.mul_neg_iff] at hc
    unfold classifyHeavy
    simp only [all_pair hm, hl]
    rw [if_neg (by simp; simp only [charge0_eq]; omega), if_neg (by simp; simp only [charge0_eq]; omega), if_neg (by simp; simp only [charge0_eq]; omega),
      if_pos (by simp; simp only [charge0_eq]; omega), if_pos (show (r.products.all fun s => decide (charge0 s = 0)) = true from
        List.all_eq_true.2 fun s hs => decide_eq_true (hp s hs)), if_neg (by omega),
      if_pos (by omega)]

/-! #### two neutrals -/

/-- two heavy species without charge meet; M counts as one -/
def NeutralsMeet (r : Reaction) : Prop :=
  ∃ A B, Meet r A B ∧ A.chargeOf = 0 ∧ B.chargeOf = 0

/-- number of species in an excited state -/
def nX (l : List RP) : Nat := l.countP (fun s => s.getState ≠ none)

/-- the species of both sides are the same up to their states -/
def SameGround (r : Reaction) : Prop :=
  ∀ x, (∃ s ∈ r.reactants, s.getStateless = .ok x) ↔ ∃ s ∈ r.products, s.getStateless = .ok x

theorem stateful_eq (l : List RP) : stateful l = nX l := by
  unfold stateful nX
  rw [List.countP_eq_length_filter]
  congr 1
  apply List.filter_congr
  intro s _
  cases h : s.getState <;> simp [isStateless, h]

theorem collect_mem {α β : Type} {f : α → Except Err β} : ∀ {l : List α} {bs : List β},
    collect f l = .ok bs → ∀ b, b ∈ bs ↔ ∃ a ∈ l, f a = .ok b
  | [], bs, h, b => by cases h; simp
  | a :: l, bs, h, b => by
    unfold collect at h
    cases ha : f a with
    | error e => rw [ha] at h; cases h
    | ok b' =>
      rw [ha] at h
      simp only at h
      cases hl : collect f l with
      | error e => rw [hl] at h; cases h
      | ok bs' =>
        rw [hl] at h
        cases h
        have := collect_mem hl b
        simp only [List.mem_cons, this, exists_eq_or_imp, ha, Except.ok.injEq]
        exact or_congr_left ⟨Eq.symm, Eq.symm⟩

theorem sameSet_iff (xs ys : List Str) : sameSet xs ys = true ↔ ∀ x, x ∈ xs ↔ x ∈ ys := by
  simp only [sameSet, Bool.and_eq_true, List.all_eq_true, decide_eq_true_eq]
  exact ⟨fun h x => ⟨h.1 x, h.2 x⟩, fun h => ⟨fun x => (h x).1, fun x => (h x).2⟩⟩

open Classical in
/-- `classifyNeutral` in terms of the numbers of electrons, species and excited species. -/
theorem neutral_eq (hv : Valid F r) (h2 : r.reactants.length = 2) :
    classifyNeutral r (nE r.products) = .ok (
      if r.getElastic = true then .scattering
      else if r.products.length = 1 then .association
      else if 1 ≤ nE r.products then
        if (heavy r.products).length = 2 then
          if 0 < nX r.reactants ∧ nX r.products = 0 then .penning
          else if nX r.reactants = 0 ∧ nX r.products = 0 then .ionization
          else .unNeutral
        else if 3 ≤ (heavy r.products).length then .dissIonization
        else .assocIonization
      else if 3 ≤ r.products.length then
        if (∃ s ∈ r.reactants, s.name ∈ r.products.map RP.name) ∧ ∀ s ∈ r.products, s.chargeOf = 0 then
          if nX r.reactants = nX r.products then .dissociation
          else if nX r.reactants < nX r.products then .dissExcitation
          else .dissQuenching
        else .unNeutral
      else if nX r.reactants < nX r.products then .excitation
      else if nX r.products < nX r.reactants then .quenching
      else if 0 < nX r.reactants then (if SameGround r then .transfer else .unNeutral)
      else .interchange) := by
  have hm := hv.short.2.2
  have hs := nE_add_heavy r.products
  unfold classifyNeutral
  simp only [stateful_eq, h2]
  by_cases hel : r.getElastic = true
  · rw [if_pos hel, if_pos hel]
  rw [if_neg hel, if_neg hel]
  by_cases h1 : r.products.length = 1
  · rw [if_pos (by omega), if_pos h1]
  rw [if_neg (by omega), if_neg h1]
  by_cases hn : 1 ≤ nE r.products
  · rw [if_pos (by omega), if_pos hn]
    by_cases hh : (heavy r.products).length = 2
    · rw [if_pos (by omega), if_pos hh]
      by_cases a : 0 < nX r.reactants ∧ nX r.products = 0
      · rw [if_pos a, if_pos a]
      rw [if_neg a, if_neg a]
      by_cases b : nX r.reactants = 0 ∧ nX r.products = 0
      · rw [if_pos (by omega), if_pos b]
      · rw [if_neg (by omega), if_neg b]
    rw [if_neg (by omega), if_neg hh]
    by_cases h3 : 3 ≤ (heavy r.products).length
    · rw [if_pos (by omega), if_pos h3]
    · rw [if_neg (by omega), if_neg h3]
  rw [if_neg (by omega), if_neg hn]
  by_cases h3 : 3 ≤ r.products.length
  · rw [if_pos (by omega), if_pos h3]
    by_cases ha : ∃ s ∈ r.reactants, s.name ∈ r.products.map RP.name
    · rw [if_pos (by simpa using ha)]
      by_cases hc : ∀ s ∈ r.products, s.chargeOf = 0
      · rw [if_pos (show (r.products.all fun s => decide (charge0 s = 0)) = true from
          List.all_eq_true.2 fun s hs => decide_eq_true (hc s hs)), if_pos (And.intro ha hc)]
        by_cases h1 : nX r.reactants = nX r.products
        · rw [if_pos h1, if_pos h1]
        rw [if_neg h1, if_neg h1]
        by_cases h2 : nX r.reactants < nX r.products
        · rw [if_pos h2, if_pos h2]
        · rw [if_neg h2, if_neg h2]
      · rw [if_neg, if_neg (fun h => hc h.2)]
        intro h
        exact hc fun s hs => of_decide_eq_true (List.all_eq_true.1 h s hs)
    · rw [if_neg (by simpa using ha), if_neg (fun h => ha h.1)]
  rw [if_neg (by omega), if_neg h3, if_pos (by omega)]
  by_cases hlt : nX r.reactants < nX r.products
  · rw [if_pos hlt, if_pos hlt]
  rw [if_neg hlt, if_neg hlt]
  by_cases hgt : nX r.products < nX r.reactants
  · rw [if_pos hgt, if_pos hgt]
  rw [if_neg hgt, if_neg hgt]
  obtain ⟨xs, hxs⟩ := collect_ok (f := RP.getStateless) (l := r.reactants)
    (fun s hs => stateless_ok (hv.parses s (by simp [Reaction.rps, hs])))
  obtain ⟨ys, hys⟩ := collect_ok (f := RP.getStateless) (l := r.products)
    (fun s hs => stateless_ok (hv.parses s (by simp [Reaction.rps, hs])))
  rw [hxs, hys]
  by_cases h0 : 0 < nX r.reactants
  · rw [if_pos h0, if_pos h0]
    have hiff : sameSet xs ys = true ↔ SameGround r := by
      simp only [sameSet_iff, collect_mem hxs, collect_mem hys, SameGround]
    by_cases hg : SameGround r
    · simp only [if_pos hg, if_pos (hiff.2 hg)]
    · simp only [if_neg hg, if_neg (fun h => hg (hiff.1 h))]
  · rw [if_neg h0, if_neg h0]

theorem neutral_class_iff (hv : Valid F r) {c : Cat} :
    classify r = .ok (.neutral, c) ↔
      NeutralsMeet r ∧ classifyNeutral r (nE r.products) = .ok c := by
  rw [neutral_iff hv]
  constructor
  · rintro ⟨A, B, hm, h0, h1, h⟩; exact ⟨⟨A, B, hm, h0, h1⟩, h⟩
  · rintro ⟨⟨A, B, hm, h0, h1⟩, h⟩; exact ⟨A, B, hm, h0, h1, h⟩

theorem NeutralsMeet.length (h : NeutralsMeet r) : r.reactants.length = 2 := by
  obtain ⟨A, B, hm, -⟩ := h
  rw [hm.1]; rfl

/-- **C51.** Scattering of neutrals: elastic. -/
theorem scattering_iff (hv : Valid F r) :
    classify r = .ok (.neutral, .scattering) ↔
      NeutralsMeet r ∧ r.getElastic = true := by
  rw [neutral_class_iff hv]
  refine and_congr_right fun hN => ?_
  rw [neutral_eq hv hN.length]
  have hm := hv.short.2.2
  have hs := nE_add_heavy r.products
  constructor
  · intro h
    repeat' split at h
    all_goals first | (cases h; done) | skip
    all_goals simp_all
    try omega
  · intro h
    simp_all

/-- **C51.** Association: one product. -/
theorem association_iff (hv : Valid F r) :
    classify r = .ok (.neutral, .association) ↔
      NeutralsMeet r ∧ r.getElastic = false ∧ r.products.length = 1 := by
  rw [neutral_class_iff hv]
  refine and_congr_right fun hN => ?_
  rw [neutral_eq hv hN.length]
  have hm := hv.short.2.2
  have hs := nE_add_heavy r.products
  constructor
  · intro h
    repeat' split at h
    all_goals first | (cases h; done) | skip
    all_goals simp_all
    try omega
  · intro h
    simp_all

/-- **C51.** Penning ionization: electrons are released, two heavy products, and the excitation is used up. -/
theorem penning_iff (hv : Valid F r) :
    classify r = .ok (.neutral, .penning) ↔
      NeutralsMeet r ∧ r.getElastic = false ∧ 1 ≤ nE r.products ∧ (heavy r.products).length = 2 ∧
        0 < nX r.reactants ∧ nX r.products = 0 := by
  rw [neutral_class_iff hv]
  refine and_congr_right fun hN => ?_
  rw [neutral_eq hv hN.length]
  have hm := hv.short.2.2
  have hs := nE_add_heavy r.products
  constructor
  · intro h
    repeat' split at h
    all_goals first | (cases h; done) | skip
    all_goals simp_all
    try omega
  · intro h
    simp_all
    try (repeat' split)
    all_goals first | rfl | omega

/-- **C51.** Ionization by collisions of ground states. -/
theorem neutral_ionization_iff (hv : Valid F r) :
    classify r = .ok (.neutral, .ionization) ↔
      NeutralsMeet r ∧ r.getElastic = false ∧ 1 ≤ nE r.products ∧ (heavy r.products).length = 2 ∧
        nX r.reactants = 0 ∧ nX r.products = 0 := by
  rw [neutral_class_iff hv]
  refine and_congr_right fun hN => ?_
  rw [neutral_eq hv hN.length]
  have hm := hv.short.2.2
  have hs := nE_add_heavy r.products
  constructor
  · intro h
    repeat' split at h
    all_goals first | (cases h; done) | skip
    all_goals simp_all
    try omega
  · intro h
    simp_all
    try (repeat' split)
    all_goals first | rfl | omega

/-- **C51.** Dissociative ionization by collisions of neutrals. -/
theorem neutral_dissociative_ionization_iff (hv : Valid F r) :
    classify r = .ok (.neutral, .dissIonization) ↔
      NeutralsMeet r ∧ r.getElastic = false ∧ 1 ≤ nE r.products ∧ 3 ≤ (heavy r.products).length := by
  rw [neutral_class_iff hv]
  refine and_congr_right fun hN => ?_
  rw [neutral_eq hv hN.length]
  have hm := hv.short.2.2
  have hs := nE_add_heavy r.products
  constructor
  · intro h
    repeat' split at h
    all_goals first | (cases h; done) | skip
    all_goals simp_all
    try omega
  · intro h
    simp_all
    try (repeat' split)
    all_goals first | rfl | omega

/-- **C51.** Dissociation by collisions of neutrals: one of them survives. -/
theorem neutral_dissociation_iff (hv : Valid F r) :
    classify r = .ok (.neutral, .dissociation) ↔
      NeutralsMeet r ∧ r.getElastic = false ∧ nE r.products = 0 ∧ 3 ≤ r.products.length ∧
        (∃ s ∈ r.reactants, s.name ∈ r.products.map RP.name) ∧ (∀ s ∈ r.products, s.chargeOf = 0) ∧
        nX r.reactants = nX r.products := by
  rw [neutral_class_iff hv]
  refine and_congr_right fun hN => ?_
  rw [neutral_eq hv hN.length]
  have hm := hv.short.2.2
  have hs := nE_add_heavy r.products
  constructor
  · intro h
    repeat' split at h
    all_goals first | (cases h; done) | skip
    all_goals simp_all
    try omega
  · intro h
    simp_all
    try (repeat' split)
    all_goals first | rfl | omega

/-- **C51.** Dissociation that excites. -/
theorem neutral_dissociative_excitation_iff (hv : Valid F r) :
    classify r = .ok (.neutral, .dissExcitation) ↔
      NeutralsMeet r ∧ r.getElastic = false ∧ nE r.products = 0 ∧ 3 ≤ r.products.length ∧
        (∃ s ∈ r.reactants, s.name ∈ r.products.map RP.name) ∧ (∀ s ∈ r.products, s.chargeOf = 0) ∧
        nX r.reactants < nX r.products := by
  rw [neutral_class_iff hv]
  refine and_congr_right fun hN => ?_
  rw [neutral_eq hv hN.length]
  have hm := hv.short.2.2
  have hs := nE_add_heavy r.products
  constructor
  · intro h
    repeat' split at h
    all_goals first | (cases h; done) | skip
    all_goals simp_all
    try omega
  · intro h
    simp_all
    try (repeat' split)
    all_goals first | rfl | omega

/-- **C51.** Dissociation that uses up excitation. -/
theorem dissociative_quenching_iff (hv : Valid F r) :
    classify r = .ok (.neutral, .dissQuenching) ↔
      NeutralsMeet r ∧ r.getElastic = false ∧ nE r.products = 0 ∧ 3 ≤ r.products.length ∧
        (∃ s ∈ r.reactants, s.name ∈ r.products.map RP.name) ∧ (∀ s ∈ r.products, s.chargeOf = 0) ∧
        nX r.products < nX r.reactants := by
  rw [neutral_class_iff hv]
  refine and_congr_right fun hN => ?_
  rw [neutral_eq hv hN.length]
  have hm := hv.short.2.2
  have hs := nE_add_heavy r.products
  constructor
  · intro h
    repeat' split at h
    all_goals first | (cases h; done) | skip
    all_goals simp_all
    try omega
  · intro h
    simp_all
    try (repeat' split)
    all_goals first | rfl | omega

/-- **C51.** Excitation by collisions of neutrals. -/
theorem neutral_excitation_iff (hv : Valid F r) :
    classify r = .ok (.neutral, .excitation) ↔
      NeutralsMeet r ∧ r.getElastic = false ∧ nE r.products = 0 ∧ r.products.length = 2 ∧
        nX r.reactants < nX r.products := by
  rw [neutral_class_iff hv]
  refine and_congr_right fun hN => ?_
  rw [neutral_eq hv hN.length]
  have hm := hv.short.2.2
  have hs := nE_add_heavy r.products
  constructor
  · intro h
    repeat' split at h
    all_goals first | (cases h; done) | skip
    all_goals simp_all
    try omega
  · intro h
    simp_all

/-- **C51.** Quenching. -/
theorem quenching_iff (hv : Valid F r) :
    classify r = .ok (.neutral, .quenching) ↔
      NeutralsMeet r ∧ r.getElastic = false ∧ nE r.products = 0 ∧ r.products.length = 2 ∧
        nX r.products < nX r.reactants := by
  rw [neutral_class_iff hv]
  refine and_congr_right fun hN => ?_
  rw [neutral_eq hv hN.length]
  have hm := hv.short.2.2
  have hs := nE_add_heavy r.products
  constructor
  · intro h
    repeat' split at h
    all_goals first | (cases h; done) | skip
    all_goals simp_all
    try omega
  · intro h
    simp_all
    try (repeat' split)
    all_goals first | rfl | omega

/-- **C51.** Transfer of excitation between the same species. -/
theorem transfer_iff (hv : Valid F r) :
    classify r = .ok (.neutral, .transfer) ↔
      NeutralsMeet r ∧ r.getElastic = false ∧ nE r.products = 0 ∧ r.products.length = 2 ∧
        nX r.reactants = nX r.products ∧ 0 < nX r.reactants ∧ SameGround r := by
  rw [neutral_class_iff hv]
  refine and_congr_right fun hN => ?_
  rw [neutral_eq hv hN.length]
  have hm := hv.short.2.2
  have hs := nE_add_heavy r.products
  constructor
  · intro h
    repeat' split at h
    all_goals first | (cases h; done) | skip
    all_goals simp_all
    try omega
  · intro h
    simp_all
    try (repeat' split)
    all_goals first | rfl | omega

/-- **C51.** Interchange: any two products in their ground states. -/
theorem interchange_iff (hv : Valid F r) :
    classify r = .ok (.neutral, .interchange) ↔
      NeutralsMeet r ∧ r.getElastic = false ∧ nE r.products = 0 ∧ r.products.length = 2 ∧
        nX r.reactants = 0 ∧ nX r.products = 0 := by
  rw [neutral_class_iff hv]
  refine and_congr_right fun hN => ?_
  rw [neutral_eq hv hN.length]
  have hm := hv.short.2.2
  have hs := nE_add_heavy r.products
  constructor
  · intro h
    repeat' split at h
    all_goals first | (cases h; done) | skip
    all_goals simp_all
    try omega
  · intro h
    simp_all

/-- **C51.** Associative ionization: electrons and one ion come out. -/
theorem associative_ionization_iff (hv : Valid F r) :
    classify r = .ok (.neutral, .assocIonization) ↔
      NeutralsMeet r ∧ r.getElastic = false ∧ 1 ≤ nE r.products ∧ ∃ C, heavy r.products = [C] ∧
        C.chargeOf = nE r.products := by
  rw [neutral_class_iff hv]
  refine and_congr_right fun hN => ?_
  rw [neutral_eq hv hN.length]
  have hm := hv.short.2.2
  have hs := nE_add_heavy r.products
  have hb : ((heavy r.products).map RP.chargeOf).sum = nE r.products := by
    have := charge_balance hv
    obtain ⟨A, B, hM, h0, h1⟩ := hN
    rw [meet_nE hM, hM.1, heavy_cons_ne hM.2.1, heavy_cons_ne hM.2.2] at this
    have h0' : heavy ([] : List RP) = [] := rfl
    simp only [h0', List.map_cons, List.map_nil, List.sum_cons, List.sum_nil, h0, h1] at this
    omega
  constructor
  · intro h
    repeat' split at h
    all_goals first | (cases h; done) | skip
    have hel : ¬ r.getElastic = true := by assumption
    have hn : 1 ≤ nE r.products := by assumption
    have h1 : (heavy r.products).length = 1 := by
      have : (heavy r.products).length ≠ 0 := by
        intro h0
        rw [List.length_eq_zero_iff.1 h0] at hb
        simp at hb; omega
      omega
    obtain ⟨C, hC⟩ := List.length_eq_one_iff.1 h1
    exact ⟨by simpa using hel, hn, C, hC, by rw [hC] at hb; simpa using hb⟩
  · rintro ⟨hel, hn, C, hC, -⟩
    have h1 : (heavy r.products).length = 1 := by rw [hC]; rfl
    rw [if_neg (by simp [hel]), if_neg (by omega), if_pos hn, if_neg (by omega), if_neg (by omega)]

/-! #### an ion and a neutral -/

/-- `A` and `B` meet, in this or the other order -/
def MeetUnordered (r : Reaction) (A B : RP) : Prop := Meet r A B ∨ Meet r B A

theorem positive_iff (hv : Valid F r) {c : Cat} :
    classify r = .ok (.positive, c) ↔
      ∃ A B, Meet r A B ∧ 0 ≤ A.chargeOf ∧ 0 ≤ B.chargeOf ∧ ¬ (A.chargeOf = 0 ∧ B.chargeOf = 0) ∧
        classifyPositive r = .ok c := by
  rw [heavy_pair_iff hv (by decide)]
  constructor
  · rintro ⟨A, B, hm, h⟩
    unfold classifyHeavy at h
    simp only [all_pair hm] at h
    repeat' split at h
    all_goals first | cases (under_ok h).1 | cases h
    rename_i h1 h2
    simp only [Bool.and_eq_true, decide_eq_true_eq] at h1 h2
    exact ⟨A, B, hm, h2.1, h2.2, h1, (under_ok h).2⟩
  · rintro ⟨A, B, hm, h0, h1, h2, h⟩
    refine ⟨A, B, hm, ?_⟩
    unfold classifyHeavy
    simp only [all_pair hm]
    rw [if_neg (by simp; simp only [charge0_eq]; omega), if_pos (by simp; exact ⟨h0, h1⟩), h]
    rfl

theorem negative_iff (hv : Valid F r) {c : Cat} :
    classify r = .ok (.negative, c) ↔
      ∃ A B, Meet r A B ∧ A.chargeOf ≤ 0 ∧ B.chargeOf ≤ 0 ∧ ¬ (A.chargeOf = 0 ∧ B.chargeOf = 0) ∧
        classifyNegative r (nE r.products) = .ok c := by
  rw [heavy_pair_iff hv (by decide)]
  constructor
  · rintro ⟨A, B, hm, h⟩
    unfold classifyHeavy at h
    simp only [all_pair hm] at h
    repeat' split at h
    all_goals first | cases (under_ok h).1 | cases h
    rename_i h1 h2 h3
    simp only [Bool.and_eq_true, decide_eq_true_eq] at h1 h3
    exact ⟨A, B, hm, h3.1, h3.2, h1, (under_ok h).2⟩
  · rintro ⟨A, B, hm, h0, h1, h2, h⟩
    refine ⟨A, B, hm, ?_⟩
    unfold classifyHeavy
    simp only [all_pair hm]
    rw [if_neg (by simp; simp only [charge0_eq]; omega), if_neg (by simp; simp only [charge0_eq]; omega),
      if_pos (by simp; exact ⟨h0, h1⟩), h]
    rfl

/-- with one ion and one neutral on a side of two, `firstWith` finds each of them -/
theorem firstWith_pair {p q : Int → Bool} {l : List RP} {A B : RP} (hl : l = [A, B] ∨ l = [B, A])
    (hA : p A.chargeOf = true) (hB : p B.chargeOf = false) (hA' : q A.chargeOf = false)
    (hB' : q B.chargeOf = true) : firstWith p l = .ok A ∧ firstWith q l = .ok B := by
  rcases hl with rfl | rfl <;> simp [firstWith, charge0_eq, hA, hB, hA', hB']

theorem pair_of_firstWith {p q : Int → Bool} {l : List RP} {A B : RP} (h2 : l.length = 2)
    (hA : firstWith p l = .ok A) (hB : firstWith q l = .ok B) (hpq : ∀ c, p c = true → q c = true → False) :
    l = [A, B] ∨ l = [B, A] := by
  obtain ⟨x, y, rfl⟩ := List.length_eq_two.1 h2
  obtain ⟨hA, pA⟩ := firstWith_ok hA
  obtain ⟨hB, qB⟩ := firstWith_ok hB
  simp only [List.mem_cons, List.not_mem_nil, or_false] at hA hB
  rcases hA with rfl | rfl <;> rcases hB with rfl | rfl
  · exact (hpq _ pA qB).elim
  · exact .inl rfl
  · exact .inr rfl
  · exact (hpq _ pA qB).elim

/-- `A`, charged, and `B`, neutral, turn into `C`, charged, and `D`, neutral: `sign` is 1 or -1 -/
def TwoToTwo (sign : Int) (r : Reaction) (A B C D : RP) : Prop :=
  MeetUnordered r A B ∧ (r.products = [C, D] ∨ r.products = [D, C]) ∧
    0 < sign * A.chargeOf ∧ B.chargeOf = 0 ∧ 0 < sign * C.chargeOf ∧ D.chargeOf = 0

theorem meet_unordered {A B : RP} (hl : r.reactants = [A, B] ∨ r.reactants = [B, A])
    (h0 : nE r.reactants = 0) : MeetUnordered r A B := by
  have hne : ∀ s ∈ r.reactants, s.name ≠ str!"e" := by
    intro s hs he
    have := (nE_pos_iff r.reactants).2 ⟨s, hs, he⟩
    omega
  rcases hl with h | h
  · exact .inl ⟨h, hne A (by rw [h]; simp), hne B (by rw [h]; simp)⟩
  · exact .inr ⟨h, hne B (by rw [h]; simp), hne A (by rw [h]; simp)⟩

theorem positive_four (hv : Valid F r) {c : Cat} (hc : c ∈ [Cat.charge, .resonant]) :
    classify r = .ok (.positive, c) ↔
      ∃ A B C D, TwoToTwo 1 r A B C D ∧ transferCategory '+' .unPositive A B C D = c := by
  rw [positive_iff hv]
  constructor
  · rintro ⟨A, B, hm, h0, h1, h2, h⟩
    have hl : r.reactants.length = 2 := by rw [hm.1]; rfl
    unfold classifyPositive at h
    split at h
    · cases h
    rename_i I hI
    split at h
    · cases h
    rename_i N hN
    split at h
    · rename_i hp
      rw [hl] at hp
      split at h
      · cases h
      rename_i P hP
      split at h
      · cases h
      rename_i Q hQ
      cases h
      refine ⟨I, N, P, Q, ⟨meet_unordered (pair_of_firstWith hl hI hN (by simp; omega)) (meet_nE hm),
        pair_of_firstWith hp hP hQ (by simp; omega), ?_, ?_, ?_, ?_⟩, rfl⟩
      · simpa using (firstWith_ok hI).2
      · simpa using (firstWith_ok hN).2
      · simpa using (firstWith_ok hP).2
      · simpa using (firstWith_ok hQ).2
    · repeat' split at h
      all_goals (cases h; exact absurd hc (by decide))
  · rintro ⟨A, B, C, D, ⟨hm, hp, hA, hB, hC, hD⟩, rfl⟩
    rw [one_mul] at hA hC
    have hr : r.reactants = [A, B] ∨ r.reactants = [B, A] := hm.imp (·.1) (·.1)
    have f1 := firstWith_pair (p := fun c => decide (0 < c)) (q := fun c => decide (c = 0)) hr
      (by simpa using hA) (by simp [hB]) (by simp; omega) (by simpa using hB)
    have f2 := firstWith_pair (p := fun c => decide (0 < c)) (q := fun c => decide (c = 0)) hp
      (by simpa using hC) (by simp [hD]) (by simp; omega) (by simpa using hD)
    have hl : r.products.length = r.reactants.length := by
      rcases hr with h | h <;> rcases hp with h' | h' <;> rw [h, h'] <;> rfl
    have hcl : classifyPositive r = .ok (transferCategory '+' .unPositive A B C D) := by
      unfold classifyPositive
      rw [f1.1, f1.2]
      simp only
      rw [if_pos hl, f2.1, f2.2]
    rcases hm with hm | hm
    · exact ⟨A, B, hm, by omega, by omega, by omega, hcl⟩
    · exact ⟨B, A, hm, by omega, by omega, by omega, hcl⟩

theorem negative_four (hv : Valid F r) {c : Cat} (hc : c ∈ [Cat.charge, .resonant]) :
    classify r = .ok (.negative, c) ↔
      nE r.products = 0 ∧
      ∃ A B C D, TwoToTwo (-1) r A B C D ∧ transferCategory '-' .unNegative A B C D = c := by
  rw [negative_iff hv]
  constructor
  · rintro ⟨A, B, hm, h0, h1, h2, h⟩
    have hl : r.reactants.length = 2 := by rw [hm.1]; rfl
    unfold classifyNegative at h
    split at h
    · cases h
    rename_i I hI
    split at h
    · cases h
    rename_i N hN
    split at h
    · repeat' split at h
      all_goals (cases h; exact absurd hc (by decide))
    rename_i hn
    split at h
    · rename_i hp
      rw [hl] at hp
      split at h
      · cases h
      rename_i P hP
      split at h
      · cases h
      rename_i Q hQ
      cases h
      refine ⟨by omega, I, N, P, Q, ⟨meet_unordered (pair_of_firstWith hl hI hN (by simp; omega)) (meet_nE hm),
        pair_of_firstWith hp hP hQ (by simp; omega), ?_, ?_, ?_, ?_⟩, rfl⟩
      · simpa using (firstWith_ok hI).2
      · simpa using (firstWith_ok hN).2
      · simpa using (firstWith_ok hP).2
      · simpa using (firstWith_ok hQ).2
    · cases h; exact absurd hc (by decide)
  · rintro ⟨hn, A, B, C, D, ⟨hm, hp, hA, hB, hC, hD⟩, rfl⟩
    have hr : r.reactants = [A, B] ∨ r.reactants = [B, A] := hm.imp (·.1) (·.1)
    have f1 := firstWith_pair (p := fun c => decide (c < 0)) (q := fun c => decide (c = 0)) hr
      (by simp; omega) (by simp [hB]) (by simp; omega) (by simpa using hB)
    have f2 := firstWith_pair (p := fun c => decide (c < 0)) (q := fun c => decide (c = 0)) hp
      (by simp; omega) (by simp [hD]) (by simp; omega) (by simpa using hD)
    have hl : r.products.length = r.reactants.length := by
      rcases hr with h | h <;> rcases hp with h' | h' <;> rw [h, h'] <;> rfl
    have hcl : classifyNegative r (nE r.products) = .ok (transferCategory '-' .unNegative A B C D) := by
      unfold classifyNegative
      rw [f1.1, f1.2]
      simp only
      rw [if_neg (by omega), if_pos hl, f2.1, f2.2]
    rcases hm with hm | hm
    · exact ⟨A, B, hm, by omega, by omega, by omega, hcl⟩
    · exact ⟨B, A, hm, by omega, by omega, by omega, hcl⟩

theorem transfer_charge_iff (ch : Char) {un : Cat} (hu : un ≠ .charge) (A B C D : RP) :
    transferCategory ch un A B C D = .charge ↔
      stripChar ch A.name = D.name ∧ stripChar ch C.name = B.name ∧
        ¬ (A.name = C.name ∧ B.name = D.name) := by
  unfold transferCategory
  constructor
  · intro h
    repeat' split at h
    · cases h
    · rename_i h1 h2; exact ⟨h1.1, h1.2.symm, fun h => h2 ⟨h.2, h.1⟩⟩
    · exact absurd h hu
  · rintro ⟨h1, h2, h3⟩
    rw [if_pos ⟨h1, h2.symm⟩, if_neg (fun h => h3 ⟨h.2, h.1⟩)]

theorem transfer_resonant_iff (ch : Char) {un : Cat} (hu : un ≠ .resonant) (A B C D : RP) :
    transferCategory ch un A B C D = .resonant ↔
      stripChar ch A.name = B.name ∧ A.name = C.name ∧ B.name = D.name := by
  unfold transferCategory
  constructor
  · intro h
    repeat' split at h
    · rename_i h1 h2; exact ⟨by rw [h1.1, h2.1], h2.2, h2.1⟩
    · cases h
    · exact absurd h hu
  · rintro ⟨h1, h2, h3⟩
    rw [if_pos ⟨by rw [h1, h3], by rw [← h2, h1]⟩, if_pos ⟨h3, h2⟩]

/-- **C51.** Charge transfer with a positive ion: `A+ + B > A + B+` for `A` other than `B`. -/
theorem positive_charge_transfer_iff (hv : Valid F r) :
    classify r = .ok (.positive, .charge) ↔
      ∃ A B C D, TwoToTwo 1 r A B C D ∧ stripChar '+' A.name = D.name ∧
        stripChar '+' C.name = B.name ∧ ¬ (A.name = C.name ∧ B.name = D.name) := by
  rw [positive_four hv (by decide)]
  simp only [transfer_charge_iff '+' (show Cat.unPositive ≠ .charge by decide)]

/-- **C51.** Resonant charge transfer with a positive ion: `A+ + A > A+ + A`. -/
theorem positive_resonant_iff (hv : Valid F r) :
    classify r = .ok (.positive, .resonant) ↔
      ∃ A B C D, TwoToTwo 1 r A B C D ∧ stripChar '+' A.name = B.name ∧ A.name = C.name ∧
        B.name = D.name := by
  rw [positive_four hv (by decide)]
  simp only [transfer_resonant_iff '+' (show Cat.unPositive ≠ .resonant by decide)]

/-- **C51.** Charge transfer with a negative ion. -/
theorem negative_charge_transfer_iff (hv : Valid F r) :
    classify r = .ok (.negative, .charge) ↔
      nE r.products = 0 ∧ ∃ A B C D, TwoToTwo (-1) r A B C D ∧ stripChar '-' A.name = D.name ∧
        stripChar '-' C.name = B.name ∧ ¬ (A.name = C.name ∧ B.name = D.name) := by
  rw [negative_four hv (by decide)]
  simp only [transfer_charge_iff '-' (show Cat.unNegative ≠ .charge by decide)]

/-- **C51.** Resonant charge transfer with a negative ion. -/
theorem negative_resonant_iff (hv : Valid F r) :
    classify r = .ok (.negative, .resonant) ↔
      nE r.products = 0 ∧ ∃ A B C D, TwoToTwo (-1) r A B C D ∧ stripChar '-' A.name = B.name ∧
        A.name = C.name ∧ B.name = D.name := by
  rw [negative_four hv (by decide)]
  simp only [transfer_resonant_iff '-' (show Cat.unNegative ≠ .resonant by decide)]

/-- **C51.** Dissociative charge transfer: `A+ + B > B+ + ...`, three or more products. -/
theorem dissociative_charge_transfer_iff (hv : Valid F r) :
    classify r = .ok (.positive, .dissCharge) ↔
      ∃ A B, MeetUnordered r A B ∧ 0 < A.chargeOf ∧ B.chargeOf = 0 ∧ 3 ≤ r.products.length ∧
        B.name ++ str!"+" ∈ r.products.map RP.name := by
  rw [positive_iff hv]
  constructor
  · rintro ⟨A, B, hm, h0, h1, h2, h⟩
    have hl : r.reactants.length = 2 := by rw [hm.1]; rfl
    unfold classifyPositive at h
    split at h
    · cases h
    rename_i I hI
    split at h
    · cases h
    rename_i N hN
    split at h
    · repeat' split at h
      · cases h
      · cases h
      · unfold transferCategory at h
        repeat' split at h
        all_goals cases h
    · split at h
      · rename_i h3
        split at h
        · rename_i hmem
          refine ⟨I, N, meet_unordered (pair_of_firstWith hl hI hN (by simp; omega)) (meet_nE hm), ?_, ?_,
            by omega, hmem⟩
          · simpa using (firstWith_ok hI).2
          · simpa using (firstWith_ok hN).2
        · cases h
      · cases h
  · rintro ⟨A, B, hm, hA, hB, h3, hmem⟩
    have hr : r.reactants = [A, B] ∨ r.reactants = [B, A] := hm.imp (·.1) (·.1)
    have f1 := firstWith_pair (p := fun c => decide (0 < c)) (q := fun c => decide (c = 0)) hr
      (by simpa using hA) (by simp [hB]) (by simp; omega) (by simpa using hB)
    have hl : r.reactants.length = 2 := by
      rcases hr with h | h <;> rw [h] <;> rfl
    have hcl : classifyPositive r = .ok .dissCharge := by
      unfold classifyPositive
      rw [f1.1, f1.2]
      simp only
      rw [if_neg (by omega), if_pos (by omega), if_pos hmem]
    rcases hm with hm | hm
    · exact ⟨A, B, hm, by omega, by omega, by omega, hcl⟩
    · exact ⟨B, A, hm, by omega, by omega, by omega, hcl⟩

theorem negative_detach_iff (hv : Valid F r) {c : Cat} (hc : c ∈ [Cat.detachment, .assocDetachment]) :
    classify r = .ok (.negative, c) ↔
      ∃ A B, MeetUnordered r A B ∧ A.chargeOf < 0 ∧ B.chargeOf = 0 ∧ 1 ≤ nE r.products ∧
        (heavy r.products).length ≤ 2 ∧
        (c = .detachment ↔ (heavy r.products).length = 2) := by
  have hs := nE_add_heavy r.products
  rw [negative_iff hv]
  constructor
  · rintro ⟨A, B, hm, h0, h1, h2, h⟩
    have hl : r.reactants.length = 2 := by rw [hm.1]; rfl
    unfold classifyNegative at h
    split at h
    · cases h
    rename_i I hI
    split at h
    · cases h
    rename_i N hN
    have hM := meet_unordered (pair_of_firstWith hl hI hN (by simp; omega)) (meet_nE hm)
    have hI' : I.chargeOf < 0 := by simpa using (firstWith_ok hI).2
    have hN' : N.chargeOf = 0 := by simpa using (firstWith_ok hN).2
    refine ⟨I, N, hM, hI', hN', ?_⟩
    rw [hl] at h
    split at h
    · split at h
      · cases h
        exact ⟨by omega, by omega, by simp; omega⟩
      split at h
      · cases h
        exact ⟨by omega, by omega, by constructor <;> intro h <;> first | cases h | omega⟩
      · cases h; exact absurd hc (by decide)
    · repeat' split at h
      · cases h
      · cases h
      · unfold transferCategory at h
        repeat' split at h
        all_goals (cases h; exact absurd hc (by decide))
      · cases h; exact absurd hc (by decide)
  · rintro ⟨A, B, hm, hA, hB, hn, h2, hiff⟩
    have hr : r.reactants = [A, B] ∨ r.reactants = [B, A] := hm.imp (·.1) (·.1)
    have f1 := firstWith_pair (p := fun c => decide (c < 0)) (q := fun c => decide (c = 0)) hr
      (by simp; omega) (by simp [hB]) (by simp; omega) (by simpa using hB)
    have hl : r.reactants.length = 2 := by
      rcases hr with h | h <;> rw [h] <;> rfl
    have hcl : classifyNegative r (nE r.products) = .ok c := by
      unfold classifyNegative
      rw [f1.1, f1.2]
      simp only
      rw [if_pos (by omega), hl]
      by_cases hh : (heavy r.products).length = 2
      · rw [if_pos (by omega), hiff.2 hh]
      · rw [if_neg (by omega), if_pos (by omega)]
        simp only [List.mem_cons, List.not_mem_nil, or_false] at hc
        rcases hc with rfl | rfl
        · exact absurd (hiff.1 rfl) hh
        · rfl
    rcases hm with hm | hm
    · exact ⟨A, B, hm, by omega, by omega, by omega, hcl⟩
    · exact ⟨B, A, hm, by omega, by omega, by omega, hcl⟩

/-- **C51.** Detachment in collisions of a negative ion with a neutral: electrons and two heavy products. -/
theorem negative_detachment_iff (hv : Valid F r) :
    classify r = .ok (.negative, .detachment) ↔
      ∃ A B, MeetUnordered r A B ∧ A.chargeOf < 0 ∧ B.chargeOf = 0 ∧ 1 ≤ nE r.products ∧
        (heavy r.products).length = 2 := by
  rw [negative_detach_iff hv (by decide)]
  constructor
  · rintro ⟨A, B, a, b, c, d, e, f⟩; exact ⟨A, B, a, b, c, d, f.1 rfl⟩
  · rintro ⟨A, B, a, b, c, d, e⟩; exact ⟨A, B, a, b, c, d, by omega, by simpa using e⟩

/-- **C51.** Associative detachment: electrons and at most one heavy product. -/
theorem associative_detachment_iff (hv : Valid F r) :
    classify r = .ok (.negative, .assocDetachment) ↔
      ∃ A B, MeetUnordered r A B ∧ A.chargeOf < 0 ∧ B.chargeOf = 0 ∧ 1 ≤ nE r.products ∧
        (heavy r.products).length ≤ 1 := by
  rw [negative_detach_iff hv (by decide)]
  constructor
  · rintro ⟨A, B, a, b, c, d, e, f⟩
    refine ⟨A, B, a, b, c, d, ?_⟩
    have : (heavy r.products).length ≠ 2 := fun h => by cases f.2 h
    omega
  · rintro ⟨A, B, a, b, c, d, e⟩
    refine ⟨A, B, a, b, c, d, by omega, ?_⟩
    constructor
    · intro h; cases h
    · intro h; omega

end Verif.Plaschem.Classify
