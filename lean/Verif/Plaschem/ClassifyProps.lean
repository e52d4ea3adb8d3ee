/-
C51: what the classification of a reaction means, in terms of the charges, the number of electrons and
the names on both sides.
-/
import Verif.Plaschem.ClassifyLemmas

namespace Verif.Plaschem.Classify
open Verif.Plaschem

variable {F : Str → Option (Dict Str Nat)} {r : Reaction}

theorem under_ok {t : Typ} {x : Except Err Cat} {k : Class} (h : under t x = .ok k) :
    k.1 = t ∧ x = .ok k.2 := by
  cases x with
  | error e => cases h
  | ok c => cases h; exact ⟨rfl, rfl⟩

private theorem three_cats {c : Cat} (h : classifyThreeBody r = .ok c) :
    c ∈ [Cat.threeAttachment, .threeRecombination, .unElectron] := by
  unfold classifyThreeBody at h
  repeat' split at h
  all_goals (cases h; try decide)

theorem two_cats {n : Int} {A : RP} {c : Cat} (h : classifyTwoBody r n A = .ok c) :
    c ∈ [Cat.elastic, .excitation, .dissExcitation, .deexcitation, .ionization, .dissIonization,
      .attachment, .dissAttachment, .detachment, .recombination, .dissRecombination, .dissociation,
      .otherLoss, .unElectron] := by
  unfold classifyTwoBody at h
  simp only at h
  repeat' split at h
  all_goals (cases h; try decide)

private theorem electron_cats {n : Int} {c : Cat} (h : classifyElectron r n = .ok c) :
    c ∈ [Cat.elastic, .excitation, .dissExcitation, .deexcitation, .ionization, .dissIonization,
      .attachment, .dissAttachment, .threeAttachment, .detachment, .recombination,
      .dissRecombination, .threeRecombination, .dissociation, .otherLoss, .unElectron] := by
  unfold classifyElectron at h
  split at h
  · cases h
  split at h
  · cases h; decide
  split at h
  · cases h; decide
  split at h
  · have := three_cats h
    revert this; cases c <;> decide
  · have := two_cats h
    revert this; cases c <;> decide

private theorem neutral_cats {n : Int} {c : Cat} (h : classifyNeutral r n = .ok c) :
    c ∈ [Cat.scattering, .association, .dissociation, .excitation, .dissExcitation, .quenching,
      .dissQuenching, .transfer, .ionization, .dissIonization, .assocIonization, .penning,
      .interchange, .stripping, .unNeutral] := by
  unfold classifyNeutral at h
  simp only at h
  repeat' split at h
  all_goals (cases h; try decide)

private theorem positive_cats {c : Cat} (h : classifyPositive r = .ok c) :
    c ∈ [Cat.resonant, .charge, .dissCharge, .unPositive] := by
  unfold classifyPositive transferCategory at h
  repeat' split at h
  all_goals (cases h; try decide)

private theorem negative_cats {n : Int} {c : Cat} (h : classifyNegative r n = .ok c) :
    c ∈ [Cat.resonant, .charge, .detachment, .assocDetachment, .unNegative] := by
  unfold classifyNegative transferCategory at h
  repeat' split at h
  all_goals (cases h; try decide)

/-- **C51.** Whatever is returned is a category listed under its type in the scheme. -/
theorem classify_in_scheme {t : Typ} {c : Cat} (h : classify r = .ok (t, c)) :
    ∃ cs, (t, cs) ∈ scheme ∧ c ∈ cs := by
  unfold classify at h
  split at h
  · cases h
  split at h
  · obtain ⟨h1, h2⟩ := under_ok h
    cases h1
    exact ⟨_, by decide, electron_cats h2⟩
  split at h
  · cases h; exact ⟨[.noCat], by decide, List.mem_cons_self⟩
  split at h
  · split at h
    · cases h; exact ⟨[.noCat], by decide, List.mem_cons_self⟩
    · cases h; exact ⟨[.noCat], by decide, List.mem_cons_self⟩
  split at h
  · unfold classifyHeavy at h
    split at h
    · obtain ⟨h1, h2⟩ := under_ok h
      cases h1
      exact ⟨_, by decide, neutral_cats h2⟩
    split at h
    · obtain ⟨h1, h2⟩ := under_ok h
      cases h1
      exact ⟨_, by decide, positive_cats h2⟩
    split at h
    · obtain ⟨h1, h2⟩ := under_ok h
      cases h1
      exact ⟨_, by decide, negative_cats h2⟩
    split at h
    · split at h
      · split at h
        · cases h; exact ⟨[.neutralization, .dissNeutralization, .unIonIon], by decide, by decide⟩
        split at h
        · cases h; exact ⟨[.neutralization, .dissNeutralization, .unIonIon], by decide, by decide⟩
        · cases h; exact ⟨[.neutralization, .dissNeutralization, .unIonIon], by decide, by decide⟩
      · cases h; exact ⟨[.noCat], by decide, List.mem_cons_self⟩
    · cases h; exact ⟨[.noCat], by decide, List.mem_cons_self⟩
  · cases h; exact ⟨[.noCat], by decide, List.mem_cons_self⟩

/-! ### when the classification raises -/

theorem twoBody_ok (hF : ChemParser F) (hv : Valid F r) {A : RP} (hA : heavy r.reactants = [A])
    (h1 : nE r.reactants = 1) :
    ∃ c, classifyTwoBody r ((nE r.products : Int) - 1) A = .ok c := by
  have hcmp : nE r.products ≠ 1 → ∀ p, ∃ b, cmpCharge p A = .ok b := by
    intro hne p
    have hM : A.name ≠ str!"M" := fun hM => hne ((nE_of_M hF hv hA hM).trans h1)
    exact ⟨p A.chargeOf, by simp only [cmpCharge, getCharge_of_ne hM]⟩
  have hl : (heavy r.reactants).length = 1 := by rw [hA]; rfl
  unfold classifyTwoBody
  simp only [hl]
  split
  · rename_i hn
    obtain ⟨b, hb⟩ := hcmp (by omega) (· < 0)
    split
    · split
      · exact ⟨_, rfl⟩
      · rw [hb]; exact ⟨_, rfl⟩
    · split <;> exact ⟨_, rfl⟩
  split
  · split
    · exact ⟨_, rfl⟩
    split
    · rename_i hk
      cases hp : heavy r.products with
      | nil => rw [hp] at hk; cases hk
      | cons B l =>
        simp only
        split
        · exact ⟨_, rfl⟩
        split
        · exact ⟨_, rfl⟩
        split
        · exact ⟨_, rfl⟩
        · exact ⟨_, rfl⟩
    · split <;> exact ⟨_, rfl⟩
  · rename_i hn hn'
    obtain ⟨b, hb⟩ := hcmp (by omega) (0 < ·)
    split
    · split
      · exact ⟨_, rfl⟩
      · rw [hb]; exact ⟨_, rfl⟩
    split
    · split
      · exact ⟨_, rfl⟩
      · rw [hb]; exact ⟨_, rfl⟩
    · exact ⟨_, rfl⟩

theorem threeBody_ok (hv : Valid F r) : ∃ c, classifyThreeBody r = .ok c := by
  obtain ⟨gs, hgs⟩ := collect_ok (f := ground) (l := heavy r.reactants)
    (fun s hs => ground_ok (hv.parses s (by simp [Reaction.rps, (mem_heavy.1 hs).1])))
  obtain ⟨hs, hhs⟩ := collect_ok (f := ground) (l := heavy r.products)
    (fun s hs => ground_ok (hv.parses s (by simp [Reaction.rps, (mem_heavy.1 hs).1])))
  unfold classifyThreeBody
  rw [hgs, hhs]
  simp only
  repeat' split
  all_goals exact ⟨_, rfl⟩

theorem neutral_ok (hv : Valid F r) (n : Int) : ∃ c, classifyNeutral r n = .ok c := by
  obtain ⟨gs, hgs⟩ := collect_ok (f := RP.getStateless) (l := r.reactants)
    (fun s hs => stateless_ok (hv.parses s (by simp [Reaction.rps, hs])))
  obtain ⟨hs, hhs⟩ := collect_ok (f := RP.getStateless) (l := r.products)
    (fun s hs => stateless_ok (hv.parses s (by simp [Reaction.rps, hs])))
  unfold classifyNeutral
  rw [hgs, hhs]
  simp only
  repeat' split
  all_goals exact ⟨_, rfl⟩

/-- electron processes fail only when there is nothing but electrons -/
theorem electron_ok_iff (hF : ChemParser F) (hv : Valid F r) (hE : 0 < nE r.reactants) :
    (∃ c, classifyElectron r ((nE r.products : Int) - nE r.reactants) = .ok c) ↔
      nE r.reactants ≠ r.reactants.length := by
  have hsum := nE_add_heavy r.reactants
  unfold classifyElectron
  cases hh : heavy r.reactants with
  | nil =>
    rw [hh] at hsum
    simp only [List.length_nil] at hsum
    simp; omega
  | cons A l =>
    rw [hh, List.length_cons] at hsum
    refine ⟨fun _ => by omega, fun _ => ?_⟩
    simp only
    split
    · exact ⟨_, rfl⟩
    split
    · exact ⟨_, rfl⟩
    split
    · exact threeBody_ok hv
    · have h1 : nE r.reactants = 1 := by omega
      have hl : l = [] := List.length_eq_zero_iff.1 (by omega)
      rw [hl] at hh
      rw [h1]
      exact twoBody_ok hF hv hh h1

private theorem exists_pos {l : List RP} (h : 0 < (l.map RP.chargeOf).sum) :
    ∃ s ∈ l, 0 < s.chargeOf := by
  induction l with
  | nil => simp at h
  | cons s l ih =>
    by_cases hs : 0 < s.chargeOf
    · exact ⟨s, List.mem_cons_self, hs⟩
    · rw [List.map_cons, List.sum_cons] at h
      obtain ⟨t, ht, hp⟩ := ih (by omega)
      exact ⟨t, List.mem_cons_of_mem _ ht, hp⟩

private theorem exists_neg {l : List RP} (h : (l.map RP.chargeOf).sum < 0) :
    ∃ s ∈ l, s.chargeOf < 0 := by
  induction l with
  | nil => simp at h
  | cons s l ih =>
    by_cases hs : s.chargeOf < 0
    · exact ⟨s, List.mem_cons_self, hs⟩
    · rw [List.map_cons, List.sum_cons] at h
      obtain ⟨t, ht, hp⟩ := ih (by omega)
      exact ⟨t, List.mem_cons_of_mem _ ht, hp⟩

/-- An ion and a neutral react to two charged products. For an anion, electrons among the products
are a detachment and handled separately. -/
def BothProductsCharged (r : Reaction) (A B : RP) : Prop :=
  (A.chargeOf = 0 ↔ B.chargeOf ≠ 0) ∧ r.products.length = 2 ∧ (∀ s ∈ r.products, s.chargeOf ≠ 0) ∧
    (A.chargeOf + B.chargeOf < 0 → nE r.products = 0)

theorem under_ok_iff (t : Typ) (x : Except Err Cat) :
    (∃ c, under t x = .ok c) ↔ ∃ c, x = .ok c := by
  cases x with
  | ok c => exact ⟨fun _ => ⟨c, rfl⟩, fun _ => ⟨(t, c), rfl⟩⟩
  | error e => exact ⟨fun ⟨c, h⟩ => (by cases h), fun ⟨c, h⟩ => (by cases h)⟩

private theorem positive_ok_iff (hv : Valid F r) {A B : RP} (hr : r.reactants = [A, B])
    (h0 : 0 ≤ A.chargeOf) (h1 : 0 ≤ B.chargeOf) (h2 : ¬ (A.chargeOf = 0 ∧ B.chargeOf = 0)) :
    (∃ c, classifyPositive r = .ok c) ↔
      ¬ (0 < A.chargeOf * B.chargeOf ∨ BothProductsCharged r A B) := by
  have hsum := hv.balanced.1
  rw [hr] at hsum
  simp only [List.map_cons, List.map_nil, List.sum_cons, List.sum_nil, add_zero] at hsum
  obtain ⟨ion, hion⟩ := firstWith_exists (p := fun c => decide (0 < c)) (l := r.reactants) (by
    rw [hr]
    by_cases hA : A.chargeOf = 0
    · exact ⟨B, by simp, by simp; omega⟩
    · exact ⟨A, by simp, by simp; omega⟩)
  obtain ⟨pion, hpion⟩ := firstWith_exists (p := fun c => decide (0 < c)) (l := r.products) (by
    obtain ⟨s, hs, hp⟩ := exists_pos (l := r.products) (by omega)
    exact ⟨s, hs, by simpa using hp⟩)
  have hl : r.reactants.length = 2 := by rw [hr]; rfl
  unfold classifyPositive
  rw [hion]
  simp only
  by_cases hboth : A.chargeOf = 0 ∨ B.chargeOf = 0
  · obtain ⟨neu, hneu⟩ := firstWith_exists (p := fun c => decide (c = 0)) (l := r.reactants) (by
      rw [hr]
      rcases hboth with h | h
      · exact ⟨A, by simp, by simpa using h⟩
      · exact ⟨B, by simp, by simpa using h⟩)
    have hprod : ¬ 0 < A.chargeOf * B.chargeOf := by
      rcases hboth with h | h <;> rw [h] <;> simp
    have hexact : A.chargeOf = 0 ↔ B.chargeOf ≠ 0 := by
      constructor
      · intro a b; exact h2 ⟨a, b⟩
      · intro b; exact hboth.resolve_right b
    rw [hneu]
    simp only [hl]
    by_cases hp2 : r.products.length = 2
    · rw [if_pos hp2, hpion]
      simp only
      by_cases hpn : ∃ s ∈ r.products, s.chargeOf = 0
      · obtain ⟨pn, hpn'⟩ := firstWith_exists (p := fun c => decide (c = 0)) (l := r.products) (by
          obtain ⟨s, hs, hz⟩ := hpn
          exact ⟨s, hs, by simpa using hz⟩)
        rw [hpn']
        refine ⟨fun _ => ?_, fun _ => ⟨_, rfl⟩⟩
        rintro (h | h)
        · exact hprod h
        · obtain ⟨s, hs, hz⟩ := hpn
          exact h.2.2.1 s hs hz
      · rw [firstWith_error (by
          intro s hs
          simp only [decide_eq_false_iff_not]
          exact fun hz => hpn ⟨s, hs, hz⟩)]
        refine ⟨fun ⟨c, h⟩ => (by cases h), fun h => absurd (Or.inr ⟨hexact, hp2, ?_, ?_⟩) h⟩
        · exact fun s hs hz => hpn ⟨s, hs, hz⟩
        · intro hneg; omega
    · rw [if_neg hp2]
      refine ⟨fun _ => ?_, fun _ => ?_⟩
      · rintro (h | h)
        · exact hprod h
        · exact hp2 h.2.1
      · split
        · exact ⟨_, rfl⟩
        · exact ⟨_, rfl⟩
  · have hz : ∀ s ∈ r.reactants, s.chargeOf ≠ 0 := by
      rw [hr]
      intro s hs
      simp only [List.mem_cons, List.not_mem_nil, or_false] at hs
      rcases hs with rfl | rfl
      · exact fun h => hboth (.inl h)
      · exact fun h => hboth (.inr h)
    rw [firstWith_error (by
      intro s hs
      simp only [decide_eq_false_iff_not]
      exact hz s hs)]
    refine ⟨fun ⟨c, h⟩ => (by cases h), fun h => absurd (Or.inl ?_) h⟩
    have hA : 0 < A.chargeOf := by
      have : A.chargeOf ≠ 0 := fun h => hboth (.inl h)
      omega
    have hB : 0 < B.chargeOf := by
      have : B.chargeOf ≠ 0 := fun h => hboth (.inr h)
      omega
    exact Int.mul_pos hA hB

private theorem negative_ok_iff (hv : Valid F r) {A B : RP} (hr : r.reactants = [A, B])
    (h0 : A.chargeOf ≤ 0) (h1 : B.chargeOf ≤ 0) (h2 : ¬ (A.chargeOf = 0 ∧ B.chargeOf = 0)) :
    (∃ c, classifyNegative r (nE r.products) = .ok c) ↔
      ¬ (0 < A.chargeOf * B.chargeOf ∨ BothProductsCharged r A B) := by
  have hsum := hv.balanced.1
  rw [hr] at hsum
  simp only [List.map_cons, List.map_nil, List.sum_cons, List.sum_nil, add_zero] at hsum
  obtain ⟨ion, hion⟩ := firstWith_exists (p := fun c => decide (c < 0)) (l := r.reactants) (by
    rw [hr]
    by_cases hA : A.chargeOf = 0
    · exact ⟨B, by simp, by simp; omega⟩
    · exact ⟨A, by simp, by simp; omega⟩)
  obtain ⟨pion, hpion⟩ := firstWith_exists (p := fun c => decide (c < 0)) (l := r.products) (by
    obtain ⟨s, hs, hp⟩ := exists_neg (l := r.products) (by omega)
    exact ⟨s, hs, by simpa using hp⟩)
  have hl : r.reactants.length = 2 := by rw [hr]; rfl
  have hneg : A.chargeOf + B.chargeOf < 0 := by omega
  unfold classifyNegative
  rw [hion]
  simp only
  by_cases hboth : A.chargeOf = 0 ∨ B.chargeOf = 0
  · obtain ⟨neu, hneu⟩ := firstWith_exists (p := fun c => decide (c = 0)) (l := r.reactants) (by
      rw [hr]
      rcases hboth with h | h
      · exact ⟨A, by simp, by simpa using h⟩
      · exact ⟨B, by simp, by simpa using h⟩)
    have hprod : ¬ 0 < A.chargeOf * B.chargeOf := by
      rcases hboth with h | h <;> rw [h] <;> simp
    have hexact : A.chargeOf = 0 ↔ B.chargeOf ≠ 0 := by
      constructor
      · intro a b; exact h2 ⟨a, b⟩
      · intro b; exact hboth.resolve_right b
    rw [hneu]
    simp only [hl]
    by_cases hn : (0 : Int) < nE r.products
    · rw [if_pos hn]
      refine ⟨fun _ => ?_, fun _ => ?_⟩
      · rintro (h | h)
        · exact hprod h
        · have := h.2.2.2 hneg; omega
      · repeat' split
        all_goals exact ⟨_, rfl⟩
    rw [if_neg hn]
    by_cases hp2 : r.products.length = 2
    · rw [if_pos hp2, hpion]
      simp only
      by_cases hpn : ∃ s ∈ r.products, s.chargeOf = 0
      · obtain ⟨pn, hpn'⟩ := firstWith_exists (p := fun c => decide (c = 0)) (l := r.products) (by
          obtain ⟨s, hs, hz⟩ := hpn
          exact ⟨s, hs, by simpa using hz⟩)
        rw [hpn']
        refine ⟨fun _ => ?_, fun _ => ⟨_, rfl⟩⟩
        rintro (h | h)
        · exact hprod h
        · obtain ⟨s, hs, hz⟩ := hpn
          exact h.2.2.1 s hs hz
      · rw [firstWith_error (by
          intro s hs
          simp only [decide_eq_false_iff_not]
          exact fun hz => hpn ⟨s, hs, hz⟩)]
        refine ⟨fun ⟨c, h⟩ => (by cases h), fun h => absurd (Or.inr ⟨hexact, hp2, ?_, ?_⟩) h⟩
        · exact fun s hs hz => hpn ⟨s, hs, hz⟩
        · intro _; omega
    · rw [if_neg hp2]
      refine ⟨fun _ => ?_, fun _ => ⟨_, rfl⟩⟩
      rintro (h | h)
      · exact hprod h
      · exact hp2 h.2.1
  · have hz : ∀ s ∈ r.reactants, s.chargeOf ≠ 0 := by
      rw [hr]
      intro s hs
      simp only [List.mem_cons, List.not_mem_nil, or_false] at hs
      rcases hs with rfl | rfl
      · exact fun h => hboth (.inl h)
      · exact fun h => hboth (.inr h)
    rw [firstWith_error (by
      intro s hs
      simp only [decide_eq_false_iff_not]
      exact hz s hs)]
    refine ⟨fun ⟨c, h⟩ => (by cases h), fun h => absurd (Or.inl ?_) h⟩
    have hA : A.chargeOf < 0 := by
      have : A.chargeOf ≠ 0 := fun h => hboth (.inl h)
      omega
    have hB : B.chargeOf < 0 := by
      have : B.chargeOf ≠ 0 := fun h => hboth (.inr h)
      omega
    exact Int.mul_pos_of_neg_of_neg hA hB

/-- **C51.** The classification raises for exactly these reactions of a chemistry: collisions of
electrons with electrons only, collisions of two ions of the same sign, and collisions of an ion
with a neutral that leave two charged products. Every other reaction gets a class. -/
theorem classify_fails_iff (hF : ChemParser F) (hv : Valid F r) :
    (∃ k, classify r = .ok k) ↔
      ¬ (nE r.reactants = r.reactants.length ∨
         ∃ A B, r.reactants = [A, B] ∧ nE r.reactants = 0 ∧
           (0 < A.chargeOf * B.chargeOf ∨ BothProductsCharged r A B)) := by
  rw [classify_eq hv]
  have hpos := hv.short.1
  by_cases hE : 0 < nE r.reactants
  · rw [if_pos hE, under_ok_iff, electron_ok_iff hF hv hE]
    refine ⟨fun h hc => hc.elim h ?_, fun h hc => h (.inl hc)⟩
    rintro ⟨A, B, -, h0, -⟩; omega
  have hE0 : nE r.reactants = 0 := by omega
  have hne : nE r.reactants ≠ r.reactants.length := by omega
  rw [if_neg hE]
  have hother : r.reactants.length ≠ 2 → ¬ (nE r.reactants = r.reactants.length ∨
         ∃ A B, r.reactants = [A, B] ∧ nE r.reactants = 0 ∧
           (0 < A.chargeOf * B.chargeOf ∨ BothProductsCharged r A B)) := by
    rintro h2 (h | ⟨A, B, hr, -⟩)
    · exact hne h
    · exact h2 (by rw [hr]; rfl)
  by_cases h3 : r.reactants.length = 3
  · rw [if_pos h3]
    exact ⟨fun _ => hother (by omega), fun _ => ⟨_, rfl⟩⟩
  rw [if_neg h3]
  by_cases h1 : r.reactants.length = 1
  · rw [if_pos h1]
    refine ⟨fun _ => hother (by omega), fun _ => ?_⟩
    split <;> exact ⟨_, rfl⟩
  rw [if_neg h1]
  by_cases h2 : r.reactants.length = 2
  · rw [if_pos h2]
    obtain ⟨A, B, hr⟩ := List.length_eq_two.1 h2
    have hrhs : (nE r.reactants = r.reactants.length ∨
         ∃ A B, r.reactants = [A, B] ∧ nE r.reactants = 0 ∧
           (0 < A.chargeOf * B.chargeOf ∨ BothProductsCharged r A B)) ↔
        (0 < A.chargeOf * B.chargeOf ∨ BothProductsCharged r A B) := by
      constructor
      · rintro (h | ⟨A', B', hr', -, h⟩)
        · exact absurd h hne
        · rw [hr] at hr'; cases hr'; exact h
      · intro h; exact .inr ⟨A, B, hr, hE0, h⟩
    rw [hrhs]
    unfold classifyHeavy
    have hall : ∀ p : Int → Bool, (r.reactants.all (fun s => p (charge0 s)) = true) ↔
        (p A.chargeOf = true ∧ p B.chargeOf = true) := by
      intro p; rw [hr]; simp [charge0_eq]
    have hz : (r.reactants.all (fun s => decide (charge0 s = 0)) = true) ↔
        (A.chargeOf = 0 ∧ B.chargeOf = 0) := by simpa using hall (fun c => decide (c = 0))
    have hp : (r.reactants.all (fun s => decide (0 ≤ charge0 s)) = true) ↔
        (0 ≤ A.chargeOf ∧ 0 ≤ B.chargeOf) := by simpa using hall (fun c => decide (0 ≤ c))
    have hm : (r.reactants.all (fun s => decide (charge0 s ≤ 0)) = true) ↔
        (A.chargeOf ≤ 0 ∧ B.chargeOf ≤ 0) := by simpa using hall (fun c => decide (c ≤ 0))
    by_cases hz' : A.chargeOf = 0 ∧ B.chargeOf = 0
    · rw [if_pos (hz.2 hz'), under_ok_iff]
      refine ⟨fun _ => ?_, fun _ => neutral_ok hv _⟩
      rintro (h | h)
      · rw [hz'.1] at h; simp at h
      · exact h.1.1 hz'.1 hz'.2
    rw [if_neg (fun h => hz' (hz.1 h))]
    by_cases hp' : 0 ≤ A.chargeOf ∧ 0 ≤ B.chargeOf
    · rw [if_pos (hp.2 hp'), under_ok_iff, positive_ok_iff hv hr hp'.1 hp'.2 hz']
    rw [if_neg (fun h => hp' (hp.1 h))]
    by_cases hm' : A.chargeOf ≤ 0 ∧ B.chargeOf ≤ 0
    · rw [if_pos (hm.2 hm'), under_ok_iff, negative_ok_iff hv hr hm'.1 hm'.2 hz']
    rw [if_neg (fun h => hm' (hm.1 h))]
    have hopp : (A.chargeOf < 0 ∧ 0 < B.chargeOf) ∨ (0 < A.chargeOf ∧ B.chargeOf < 0) := by omega
    refine ⟨fun _ => ?_, fun _ => ?_⟩
    · rintro (h | h)
      · rcases hopp with ⟨a, b⟩ | ⟨a, b⟩
        · have := Int.mul_neg_of_neg_of_pos a b; omega
        · have := Int.mul_neg_of_pos_of_neg a b; omega
      · have := h.1; omega
    · repeat' split
      all_goals exact ⟨_, rfl⟩
  · have := hv.short.2.1
    exfalso; omega

/-! ### meaning of the categories of electron collisions -/

/-- The reactants are one electron and the heavy species `A`. -/
def ElectronMeets (r : Reaction) (A : RP) : Prop :=
  nE r.reactants = 1 ∧ heavy r.reactants = [A]

/-- `A` is a neutral species (M is not: its charge is undefined). -/
def Neutral (A : RP) : Prop := A.name ≠ str!"M" ∧ A.chargeOf = 0

private theorem getCharge_zero_iff (A : RP) : A.getCharge = some 0 ↔ Neutral A := by
  by_cases h : A.name = str!"M"
  · have : A.getCharge = none := (getCharge_none_iff A).2 h
    rw [this]; simp [Neutral, h]
  · rw [getCharge_of_ne h]; simp [Neutral, h]

private theorem type_electron (hv : Valid F r) {c : Cat} (h : classify r = .ok (.electron, c)) :
    0 < nE r.reactants ∧ classifyElectron r ((nE r.products : Int) - nE r.reactants) = .ok c := by
  rw [classify_eq hv] at h
  by_cases hE : 0 < nE r.reactants
  · rw [if_pos hE] at h
    exact ⟨hE, (under_ok h).2⟩
  · exfalso
    rw [if_neg hE] at h
    split at h
    · cases h
    split at h
    · split at h <;> cases h
    split at h
    · unfold classifyHeavy at h
      split at h
      · cases (under_ok h).1
      split at h
      · cases (under_ok h).1
      split at h
      · cases (under_ok h).1
      repeat' split at h
      all_goals cases h
    · cases h

/-- a category of collisions with one partner comes from `classifyTwoBody` -/
private theorem two_iff (hv : Valid F r) {c : Cat}
    (hc : c ∉ [Cat.threeAttachment, .threeRecombination, .unElectron]) :
    classify r = .ok (.electron, c) ↔
      ∃ A, ElectronMeets r A ∧ classifyTwoBody r ((nE r.products : Int) - 1) A = .ok c := by
  have hsum := nE_add_heavy r.reactants
  constructor
  · intro h
    obtain ⟨hE, h⟩ := type_electron hv h
    unfold classifyElectron at h
    split at h
    · cases h
    · rename_i A l hA
      rw [hA, List.length_cons] at hsum
      split at h
      · cases h; exact absurd (by decide) hc
      split at h
      · cases h; exact absurd (by decide) hc
      split at h
      · exact absurd (three_cats h) hc
      · have h1 : nE r.reactants = 1 := by omega
        have hl : l = [] := List.length_eq_zero_iff.1 (by omega)
        rw [h1] at h
        exact ⟨A, ⟨h1, by rw [hA, hl]⟩, h⟩
  · rintro ⟨A, ⟨h1, hA⟩, h⟩
    rw [hA] at hsum
    simp only [List.length_cons, List.length_nil] at hsum
    rw [classify_eq hv, if_pos (by omega)]
    unfold classifyElectron
    rw [hA, h1]
    simp only
    rw [if_neg (by omega), if_neg (by omega), if_neg (by omega)]
    simp only [Nat.cast_one, h, under]

private theorem balance_two (hv : Valid F r) {A : RP} (h : ElectronMeets r A) :
    A.chargeOf - 1 = ((heavy r.products).map RP.chargeOf).sum - nE r.products := by
  have := charge_balance hv
  rw [h.1, h.2] at this
  simpa using this

private theorem not_M (hF : ChemParser F) (hv : Valid F r) {A : RP} (h : ElectronMeets r A)
    (hn : nE r.products ≠ 1) : A.name ≠ str!"M" :=
  fun hM => hn ((nE_of_M hF hv h.2 hM).trans h.1)

/-- **C51.** Electron impact ionization: `e + A > e + e (+ e ...) + B` with `A` neutral; `B` is a
positive ion then. -/
theorem ionization_iff (hv : Valid F r) :
    classify r = .ok (.electron, .ionization) ↔
      ∃ A B, ElectronMeets r A ∧ Neutral A ∧ 2 ≤ nE r.products ∧ heavy r.products = [B] ∧
        B.chargeOf = nE r.products - 1 := by
  rw [two_iff hv (by decide)]
  constructor
  · rintro ⟨A, hA, h⟩
    have hb := balance_two hv hA
    unfold classifyTwoBody at h
    simp only [hA.2] at h
    repeat' split at h
    all_goals first | (cases h; done) | skip
    rename_i hn hk hz
    have hk : [A].length = (heavy r.products).length := by assumption
    obtain ⟨B, hB⟩ := List.length_eq_one_iff.1 hk.symm
    have hz := (getCharge_zero_iff A).1 hz
    rw [hB, hz.2] at hb
    refine ⟨A, B, hA, hz, by omega, hB, ?_⟩
    simp at hb; omega
  · rintro ⟨A, B, hA, hz, h2, hB, -⟩
    refine ⟨A, hA, ?_⟩
    unfold classifyTwoBody
    simp only [hA.2, hB, List.length_cons, List.length_nil]
    rw [if_pos (by omega), if_pos trivial, if_pos ((getCharge_zero_iff A).2 hz)]

theorem cmp_ok {p : Int → Bool} {A : RP} (hM : A.name ≠ str!"M") :
    cmpCharge p A = .ok (p A.chargeOf) := by
  simp only [cmpCharge, getCharge_of_ne hM]

private theorem not_neutral_of {A : RP} (h : A.chargeOf ≠ 0) : ¬ (A.getCharge = some 0) :=
  fun hz => h ((getCharge_zero_iff A).1 hz).2

private theorem ne_M_of {A : RP} (h : A.chargeOf ≠ 0) : A.name ≠ str!"M" :=
  fun hM => h (chargeOf_M hM)

/-- **C51.** Electron impact detachment: `e + A > e + e (+ e ...) + B` with `A` a negative ion. -/
theorem detachment_iff (hF : ChemParser F) (hv : Valid F r) :
    classify r = .ok (.electron, .detachment) ↔
      ∃ A B, ElectronMeets r A ∧ A.chargeOf < 0 ∧ 2 ≤ nE r.products ∧ heavy r.products = [B] ∧
        B.chargeOf = A.chargeOf + (nE r.products - 1) := by
  rw [two_iff hv (by decide)]
  constructor
  · rintro ⟨A, hA, h⟩
    have hb := balance_two hv hA
    unfold classifyTwoBody at h
    simp only [hA.2] at h
    repeat' split at h
    all_goals first | (cases h; done) | skip
    rename_i hn hk hz hc hb'
    have hM := not_M hF hv hA (by omega)
    rw [cmp_ok hM] at hc
    simp only [Except.ok.injEq] at hc
    simp only [← hc, decide_eq_true_eq] at hb'
    have hk : [A].length = (heavy r.products).length := by assumption
    obtain ⟨B, hB⟩ := List.length_eq_one_iff.1 hk.symm
    rw [hB] at hb
    refine ⟨A, B, hA, hb', by omega, hB, ?_⟩
    simp at hb; omega
  · rintro ⟨A, B, hA, hz, h2, hB, -⟩
    refine ⟨A, hA, ?_⟩
    unfold classifyTwoBody
    simp only [hA.2, hB, List.length_cons, List.length_nil]
    rw [if_pos (by omega), if_pos trivial, if_neg (not_neutral_of (by omega)),
      cmp_ok (ne_M_of (by omega))]
    simp [hz]

/-- **C51.** Dissociative ionization: `e + A > e + e (+ e ...) + B + C (+ ...)`, `A` neutral. -/
theorem dissociative_ionization_iff (hv : Valid F r) :
    classify r = .ok (.electron, .dissIonization) ↔
      ∃ A, ElectronMeets r A ∧ Neutral A ∧ 2 ≤ nE r.products ∧ 2 ≤ (heavy r.products).length ∧
        ((heavy r.products).map RP.chargeOf).sum = nE r.products - 1 := by
  rw [two_iff hv (by decide)]
  constructor
  · rintro ⟨A, hA, h⟩
    have hb := balance_two hv hA
    unfold classifyTwoBody at h
    simp only [hA.2] at h
    repeat' split at h
    all_goals first | (cases h; done) | skip
    rename_i hn hk hk' hz
    have hz := (getCharge_zero_iff A).1 hz
    rw [hz.2] at hb
    have hk' : [A].length < (heavy r.products).length := by assumption
    simp only [List.length_cons, List.length_nil] at hk'
    exact ⟨A, hA, hz, by omega, by omega, by omega⟩
  · rintro ⟨A, hA, hz, h2, hB, -⟩
    refine ⟨A, hA, ?_⟩
    unfold classifyTwoBody
    simp only [hA.2, List.length_cons, List.length_nil]
    rw [if_pos (by omega), if_neg (by omega), if_pos (by omega), if_pos ((getCharge_zero_iff A).2 hz)]

/-- **C51.** Attachment: `e + A > B` with `A` neutral; `B` has charge -1. -/
theorem attachment_iff (hv : Valid F r) :
    classify r = .ok (.electron, .attachment) ↔
      ∃ A B, ElectronMeets r A ∧ Neutral A ∧ nE r.products = 0 ∧ heavy r.products = [B] ∧
        B.chargeOf = -1 := by
  rw [two_iff hv (by decide)]
  constructor
  · rintro ⟨A, hA, h⟩
    have hb := balance_two hv hA
    unfold classifyTwoBody at h
    simp only [hA.2] at h
    repeat' split at h
    all_goals first | (cases h; done) | skip
    rename_i hn hn' hk hz
    have hz := (getCharge_zero_iff A).1 hz
    have hk : [A].length = (heavy r.products).length := by assumption
    obtain ⟨B, hB⟩ := List.length_eq_one_iff.1 hk.symm
    rw [hB, hz.2] at hb
    refine ⟨A, B, hA, hz, by omega, hB, ?_⟩
    simp at hb; omega
  · rintro ⟨A, B, hA, hz, h2, hB, -⟩
    refine ⟨A, hA, ?_⟩
    unfold classifyTwoBody
    simp only [hA.2, hB, List.length_cons, List.length_nil]
    rw [if_neg (by omega), if_neg (by omega), if_pos trivial, if_pos ((getCharge_zero_iff A).2 hz)]

/-- **C51.** Recombination: `e + A > B` with `A` a positive ion; `B` carries one charge less. -/
theorem recombination_iff (hF : ChemParser F) (hv : Valid F r) :
    classify r = .ok (.electron, .recombination) ↔
      ∃ A B, ElectronMeets r A ∧ 0 < A.chargeOf ∧ nE r.products = 0 ∧ heavy r.products = [B] ∧
        B.chargeOf = A.chargeOf - 1 := by
  rw [two_iff hv (by decide)]
  constructor
  · rintro ⟨A, hA, h⟩
    have hb := balance_two hv hA
    unfold classifyTwoBody at h
    simp only [hA.2] at h
    repeat' split at h
    all_goals first | (cases h; done) | skip
    rename_i hn hn' hk hz b hc hb'
    have hM := not_M hF hv hA (by omega)
    rw [cmp_ok hM] at hc
    simp only [Except.ok.injEq] at hc
    simp only [← hc, decide_eq_true_eq] at hb'
    have hk : [A].length = (heavy r.products).length := by assumption
    obtain ⟨B, hB⟩ := List.length_eq_one_iff.1 hk.symm
    rw [hB] at hb
    refine ⟨A, B, hA, hb', by omega, hB, ?_⟩
    simp at hb; omega
  · rintro ⟨A, B, hA, hz, h2, hB, -⟩
    refine ⟨A, hA, ?_⟩
    unfold classifyTwoBody
    simp only [hA.2, hB, List.length_cons, List.length_nil]
    rw [if_neg (by omega), if_neg (by omega), if_pos trivial, if_neg (not_neutral_of (by omega)),
      cmp_ok (ne_M_of (by omega))]
    simp [hz]

/-- **C51.** Dissociative attachment: `e + A > B + C (+ ...)`, `A` neutral; the products carry -1. -/
theorem dissociative_attachment_iff (hv : Valid F r) :
    classify r = .ok (.electron, .dissAttachment) ↔
      ∃ A, ElectronMeets r A ∧ Neutral A ∧ nE r.products = 0 ∧ 2 ≤ (heavy r.products).length ∧
        ((heavy r.products).map RP.chargeOf).sum = -1 := by
  rw [two_iff hv (by decide)]
  constructor
  · rintro ⟨A, hA, h⟩
    have hb := balance_two hv hA
    unfold classifyTwoBody at h
    simp only [hA.2] at h
    repeat' split at h
    all_goals first | (cases h; done) | skip
    rename_i hn hn' hk hk' hz
    have hz := (getCharge_zero_iff A).1 hz
    rw [hz.2] at hb
    have hk' : [A].length < (heavy r.products).length := by assumption
    simp only [List.length_cons, List.length_nil] at hk'
    exact ⟨A, hA, hz, by omega, by omega, by omega⟩
  · rintro ⟨A, hA, hz, h2, hB, -⟩
    refine ⟨A, hA, ?_⟩
    unfold classifyTwoBody
    simp only [hA.2, List.length_cons, List.length_nil]
    rw [if_neg (by omega), if_neg (by omega), if_neg (by omega), if_pos (by omega),
      if_pos ((getCharge_zero_iff A).2 hz)]

/-- **C51.** Dissociative recombination: `e + A > B + C (+ ...)`, `A` a positive ion. -/
theorem dissociative_recombination_iff (hF : ChemParser F) (hv : Valid F r) :
    classify r = .ok (.electron, .dissRecombination) ↔
      ∃ A, ElectronMeets r A ∧ 0 < A.chargeOf ∧ nE r.products = 0 ∧
        2 ≤ (heavy r.products).length ∧
        ((heavy r.products).map RP.chargeOf).sum = A.chargeOf - 1 := by
  rw [two_iff hv (by decide)]
  constructor
  · rintro ⟨A, hA, h⟩
    have hb := balance_two hv hA
    unfold classifyTwoBody at h
    simp only [hA.2] at h
    repeat' split at h
    all_goals first | (cases h; done) | skip
    rename_i hn hn' hk hk' hz b hc hb'
    have hM := not_M hF hv hA (by omega)
    rw [cmp_ok hM] at hc
    simp only [Except.ok.injEq] at hc
    simp only [← hc, decide_eq_true_eq] at hb'
    have hk' : [A].length < (heavy r.products).length := by assumption
    simp only [List.length_cons, List.length_nil] at hk'
    exact ⟨A, hA, hb', by omega, by omega, by omega⟩
  · rintro ⟨A, hA, hz, h2, hB, -⟩
    refine ⟨A, hA, ?_⟩
    unfold classifyTwoBody
    simp only [hA.2, List.length_cons, List.length_nil]
    rw [if_neg (by omega), if_neg (by omega), if_neg (by omega), if_pos (by omega),
      if_neg (not_neutral_of (by omega)), cmp_ok (ne_M_of (by omega))]
    simp [hz]

/-- **C51.** Elastic collisions of electrons: one heavy partner, one electron on both sides, and the
reaction is declared elastic or has the same species on both sides. -/
theorem elastic_iff (hv : Valid F r) :
    classify r = .ok (.electron, .elastic) ↔
      (∃ A, ElectronMeets r A) ∧ nE r.products = 1 ∧ r.getElastic = true := by
  rw [two_iff hv (by decide)]
  constructor
  · rintro ⟨A, hA, h⟩
    unfold classifyTwoBody at h
    simp only [hA.2] at h
    repeat' split at h
    all_goals first | (cases h; done) | skip
    rename_i hn hn' hel
    exact ⟨⟨A, hA⟩, by omega, hel⟩
  · rintro ⟨⟨A, hA⟩, h1, hel⟩
    refine ⟨A, hA, ?_⟩
    unfold classifyTwoBody
    simp only [hA.2]
    rw [if_neg (by omega), if_pos (by omega), if_pos hel]

private theorem same_shape {A : RP} {c : Cat}
    (hc : c ∈ [Cat.excitation, .deexcitation, .otherLoss]) (hA : ElectronMeets r A)
    (h : classifyTwoBody r ((nE r.products : Int) - 1) A = .ok c) :
    ∃ B, nE r.products = 1 ∧ heavy r.products = [B] ∧ r.getElastic = false := by
  unfold classifyTwoBody at h
  simp only [hA.2] at h
  repeat' split at h
  all_goals first | (cases h; done) | (cases h; exact absurd hc (by decide)) | skip
  all_goals
    have hk : [A].length = (heavy r.products).length := by assumption
    have hel : ¬ r.getElastic = true := by assumption
    obtain ⟨B, hB⟩ := List.length_eq_one_iff.1 hk.symm
    exact ⟨B, by omega, hB, by simpa using hel⟩

private theorem same_eq {A B : RP} (hA : ElectronMeets r A) (h1 : nE r.products = 1)
    (hB : heavy r.products = [B]) (hel : r.getElastic = false) :
    classifyTwoBody r ((nE r.products : Int) - 1) A =
      .ok (if A.getState = none then
            if B.getState = none then (if A = B then .otherLoss else .unElectron) else .excitation
          else if B.getState = none then .deexcitation
          else if 0 < r.getElEnLoss then .excitation else .deexcitation) := by
  unfold classifyTwoBody
  simp only [hA.2, hB]
  rw [if_neg (by omega), if_pos (by omega), if_neg (by simp [hel]), if_pos (by simp)]
  by_cases a : A.getState = none <;> by_cases b : B.getState = none <;>
    by_cases c : 0 < r.getElEnLoss <;> simp [isStateless, a, b, c]

/-- **C51.** Excitation: `e + A > e + B`, not elastic, where only `B` has a state, or both have and
the electron loses energy. -/
theorem excitation_iff (hv : Valid F r) :
    classify r = .ok (.electron, .excitation) ↔
      ∃ A B, ElectronMeets r A ∧ nE r.products = 1 ∧ heavy r.products = [B] ∧ r.getElastic = false ∧
        ((A.getState = none ∧ B.getState ≠ none) ∨
         (A.getState ≠ none ∧ B.getState ≠ none ∧ 0 < r.getElEnLoss)) := by
  rw [two_iff hv (by decide)]
  constructor
  · rintro ⟨A, hA, h⟩
    obtain ⟨B, h1, hB, hel⟩ := same_shape (by decide) hA h
    refine ⟨A, B, hA, h1, hB, hel, ?_⟩
    rw [same_eq hA h1 hB hel] at h
    repeat' split at h
    all_goals simp_all
  · rintro ⟨A, B, hA, h1, hB, hel, h⟩
    refine ⟨A, hA, ?_⟩
    rw [same_eq hA h1 hB hel]
    rcases h with ⟨a, b⟩ | ⟨a, b, c⟩
    · simp [a, b]
    · simp [a, b, c]

/-- **C51.** Deexcitation: `e + A > e + B`, not elastic, where only `A` has a state, or both have and
the electron does not lose energy. -/
theorem deexcitation_iff (hv : Valid F r) :
    classify r = .ok (.electron, .deexcitation) ↔
      ∃ A B, ElectronMeets r A ∧ nE r.products = 1 ∧ heavy r.products = [B] ∧ r.getElastic = false ∧
        ((A.getState ≠ none ∧ B.getState = none) ∨
         (A.getState ≠ none ∧ B.getState ≠ none ∧ r.getElEnLoss ≤ 0)) := by
  rw [two_iff hv (by decide)]
  constructor
  · rintro ⟨A, hA, h⟩
    obtain ⟨B, h1, hB, hel⟩ := same_shape (by decide) hA h
    refine ⟨A, B, hA, h1, hB, hel, ?_⟩
    rw [same_eq hA h1 hB hel] at h
    repeat' split at h
    all_goals simp_all
  · rintro ⟨A, B, hA, h1, hB, hel, h⟩
    refine ⟨A, hA, ?_⟩
    rw [same_eq hA h1 hB hel]
    rcases h with ⟨a, b⟩ | ⟨a, b, c⟩
    · simp [a, b]
    · simp [a, b, not_lt.2 c]

/-- **C51.** Other energy losses: `e + A > e + A` for a species without state, declared inelastic. -/
theorem other_loss_iff (hv : Valid F r) :
    classify r = .ok (.electron, .otherLoss) ↔
      ∃ A, ElectronMeets r A ∧ nE r.products = 1 ∧ heavy r.products = [A] ∧ r.getElastic = false ∧
        A.getState = none := by
  rw [two_iff hv (by decide)]
  constructor
  · rintro ⟨A, hA, h⟩
    obtain ⟨B, h1, hB, hel⟩ := same_shape (by decide) hA h
    rw [same_eq hA h1 hB hel] at h
    repeat' split at h
    all_goals first | (cases h; done) | skip
    rename_i a b c
    exact ⟨A, hA, h1, by rw [hB, c], hel, a⟩
  · rintro ⟨A, hA, h1, hB, hel, a⟩
    refine ⟨A, hA, ?_⟩
    rw [same_eq hA h1 hB hel]
    simp [a]

/-- **C51.** Dissociation by electrons: `e + A > e + B + C (+ ...)`, not elastic, and no product is in
an excited state. -/
theorem dissociation_iff (hv : Valid F r) :
    classify r = .ok (.electron, .dissociation) ↔
      ∃ A, ElectronMeets r A ∧ nE r.products = 1 ∧ 2 ≤ (heavy r.products).length ∧
        r.getElastic = false ∧ ∀ B ∈ heavy r.products, B.getState = none := by
  rw [two_iff hv (by decide)]
  constructor
  · rintro ⟨A, hA, h⟩
    unfold classifyTwoBody at h
    simp only [hA.2] at h
    repeat' split at h
    all_goals first | (cases h; done) | skip
    have hk : [A].length < (heavy r.products).length := by assumption
    have hel : ¬ r.getElastic = true := by assumption
    have hs : ¬ ((heavy r.products).any fun s => !isStateless s) = true := by assumption
    refine ⟨A, hA, by omega, hk, by simpa using hel, ?_⟩
    simpa [isStateless] using hs
  · rintro ⟨A, hA, h1, h2, hel, hs⟩
    refine ⟨A, hA, ?_⟩
    unfold classifyTwoBody
    simp only [hA.2, List.length_cons, List.length_nil]
    rw [if_neg (by omega), if_pos (by omega), if_neg (by simp [hel]), if_neg (by omega),
      if_pos (by omega), if_neg (by simpa [isStateless] using hs)]

/-- **C51.** Dissociative excitation: as dissociation, with a product in an excited state. -/
theorem dissociative_excitation_iff (hv : Valid F r) :
    classify r = .ok (.electron, .dissExcitation) ↔
      ∃ A, ElectronMeets r A ∧ nE r.products = 1 ∧ 2 ≤ (heavy r.products).length ∧
        r.getElastic = false ∧ ∃ B ∈ heavy r.products, B.getState ≠ none := by
  rw [two_iff hv (by decide)]
  constructor
  · rintro ⟨A, hA, h⟩
    unfold classifyTwoBody at h
    simp only [hA.2] at h
    repeat' split at h
    all_goals first | (cases h; done) | skip
    have hk : [A].length < (heavy r.products).length := by assumption
    have hel : ¬ r.getElastic = true := by assumption
    have hs : ((heavy r.products).any fun s => !isStateless s) = true := by assumption
    refine ⟨A, hA, by omega, hk, by simpa using hel, ?_⟩
    simpa [isStateless, Option.isSome_iff_ne_none] using hs
  · rintro ⟨A, hA, h1, h2, hel, hs⟩
    refine ⟨A, hA, ?_⟩
    unfold classifyTwoBody
    simp only [hA.2, List.length_cons, List.length_nil]
    rw [if_neg (by omega), if_pos (by omega), if_neg (by simp [hel]), if_neg (by omega),
      if_pos (by omega), if_pos (by simpa [isStateless, Option.isSome_iff_ne_none] using hs)]

end Verif.Plaschem.Classify
