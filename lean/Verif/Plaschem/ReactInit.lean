/-
Property C10, exactly: which arguments the constructor of a reaction accepts (plaschem/reactions.py:107-173), and property
C14 for the text of a reaction (plaschem/reactions.py:175-178).
-/
import Verif.Plaschem.KeyProps

namespace Verif.Plaschem

/-! ### Specification -/

/-- What the arguments of a reaction have to satisfy. -/
structure ReactionArgs.Sound (F : Str → Option (Dict Str Nat)) (a : ReactionArgs) : Prop where
  id : 0 < a.id
  reactants : a.reactants.length = 1 ∨ a.reactants.length = 2 ∨ a.reactants.length = 3
  products : a.products ≠ []
  /-- there is a way to get a rate coefficient -/
  rate : a.arrhA ≠ none ∨ a.specialNumber ≠ none
  known : a.unknown = []
  /-- units are passed for the parameters that are passed, and for no others -/
  units : (a.unitA ≠ none ↔ a.arrhA ≠ none) ∧ (a.unitC ≠ none ↔ a.arrhC ≠ none)
  /-- the factor is not negative and has a unit that suits the number of reactants -/
  factor : ∀ v, a.arrhA = some (some v) → 0 ≤ v ∧
    (a.reactants.length = 1 → a.unitA = some str!"s-1") ∧
    (a.reactants.length = 2 → a.unitA = some str!"cm3.s-1" ∨ a.unitA = some str!"m3.s-1") ∧
    (a.reactants.length = 3 → a.unitA = some str!"cm6.s-1" ∨ a.unitA = some str!"m6.s-1")
  /-- activation energies are in eV for reactions with electrons and in K for all others -/
  energy : ∀ v, a.arrhC = some (some v) →
    ((∃ s ∈ a.reactants, s.name = str!"e") → a.unitC = some str!"eV") ∧
    ((∀ s ∈ a.reactants, s.name ≠ str!"e") → a.unitC = some str!"K")
  readable : ∀ s ∈ a.reactants ++ a.products, s.Parses F
  balanced : Balanced F a.reactants a.products

/-- the reaction keeps what was passed; an explicit `None` counts as not passed -/
structure Reaction.Keeps (a : ReactionArgs) (r : Reaction) : Prop where
  id : (r.id : Int) = a.id
  reactants : r.reactants = a.reactants
  products : r.products = a.products
  arrhA : r.arrhA = a.arrhA.join ∧ r.arrhAUnit = a.unitA
  arrhB : r.arrhB = a.arrhB.join
  arrhC : r.arrhC = a.arrhC.join ∧ r.arrhCUnit = a.unitC
  elastic : r.elastic = a.elastic.join
  loss : r.elEnLoss = a.elEnLoss.join
  special : r.specialNumber = a.specialNumber.join

/-! ### proofs -/

private theorem checkA_iff {n : Nat} (hn : n = 1 ∨ n = 2 ∨ n = 3) (v : ℚ) (u : Option Str) :
    Reaction.checkArrhA n v u = .ok () ↔ 0 ≤ v ∧ (n = 1 → u = some str!"s-1") ∧
      (n = 2 → u = some str!"cm3.s-1" ∨ u = some str!"m3.s-1") ∧
      (n = 3 → u = some str!"cm6.s-1" ∨ u = some str!"m6.s-1") := by
  cases u with
  | none => rcases hn with rfl | rfl | rfl <;> simp [Reaction.checkArrhA]
  | some u =>
    unfold Reaction.checkArrhA
    simp only [Option.some.injEq]
    by_cases hu : u ∈ Reaction.allowedUnitsA
    · rw [if_neg (not_not_intro hu)]
      simp only [Reaction.allowedUnitsA, List.mem_cons, List.not_mem_nil, or_false] at hu
      by_cases hv : v < 0
      · have : ¬ 0 ≤ v := not_le.2 hv
        simp only [hv, if_true, this, false_and, iff_false]
        repeat' split
        all_goals simp
      · have : 0 ≤ v := not_lt.1 hv
        simp only [hv, if_false, this, true_and]
        rcases hn with rfl | rfl | rfl <;> rcases hu with rfl | rfl | rfl | rfl | rfl <;>
          simp (config := { decide := true })
    · rw [if_pos hu]
      simp only [reduceCtorEq, false_iff]
      rintro ⟨-, h1, h2, h3⟩
      apply hu
      simp only [Reaction.allowedUnitsA, List.mem_cons, List.not_mem_nil, or_false]
      rcases hn with h | h | h
      · exact .inl (h1 h)
      · rcases h2 h with h | h
        · exact .inr (.inl h)
        · exact .inr (.inr (.inl h))
      · rcases h3 h with h | h
        · exact .inr (.inr (.inr (.inl h)))
        · exact .inr (.inr (.inr (.inr h)))

private theorem checkC_iff (b : Bool) (u : Option Str) : Reaction.checkArrhC b u = .ok () ↔
    (b = true → u = some str!"eV") ∧ (b = false → u = some str!"K") := by
  cases u with
  | none => cases b <;> simp [Reaction.checkArrhC]
  | some u =>
    unfold Reaction.checkArrhC
    simp only [Option.some.injEq]
    by_cases hu : u ∈ Reaction.allowedUnitsC
    · rw [if_neg (not_not_intro hu)]
      simp only [Reaction.allowedUnitsC, List.mem_cons, List.not_mem_nil, or_false] at hu
      cases b <;> rcases hu with rfl | rfl <;> simp (config := { decide := true })
    · rw [if_pos hu]
      simp only [Reaction.allowedUnitsC, List.mem_cons, List.not_mem_nil, or_false, not_or] at hu
      cases b <;> simp [hu.1, hu.2]

/-- **C10.** The constructor of a reaction accepts exactly the sound arguments, and the reaction keeps what was passed. -/
theorem reaction_init_iff {F : Str → Option (Dict Str Nat)} (hF : GoodParser F) (a : ReactionArgs) :
    (∃ r, Reaction.init F a = .ok r) ↔ a.Sound F := by
  constructor
  · rintro ⟨r, h⟩
    unfold Reaction.init at h
    by_cases c0 : a.id ≤ 0
    · rw [if_pos c0] at h; cases h
    rw [if_neg c0] at h
    by_cases c1 : a.reactants.length < 1 ∨ a.products.length < 1
    · rw [if_pos c1] at h; cases h
    rw [if_neg c1] at h
    by_cases c2 : a.reactants.length > 3
    · rw [if_pos c2] at h; cases h
    rw [if_neg c2] at h
    by_cases c3 : a.specialNumber = none ∧ a.arrhA = none
    · rw [if_pos c3] at h; cases h
    rw [if_neg c3] at h
    by_cases c4 : a.unknown ≠ []
    · rw [if_pos c4] at h; cases h
    rw [if_neg c4] at h
    by_cases c5 : (a.unitA.isSome ∧ a.arrhA = none) ∨ (a.unitC.isSome ∧ a.arrhC = none)
    · rw [if_pos c5] at h; cases h
    rw [if_neg c5] at h
    by_cases c6 : (a.arrhA.isSome ∧ a.unitA = none) ∨ (a.arrhC.isSome ∧ a.unitC = none)
    · rw [if_pos c6] at h; cases h
    rw [if_neg c6] at h
    simp only at h
    have hlen : a.reactants.length = 1 ∨ a.reactants.length = 2 ∨ a.reactants.length = 3 := by omega
    split at h
    · cases h
    rename_i hA
    split at h
    · cases h
    rename_i hC
    split at h
    · cases h
    rename_i hac
    have hac' := (reaction_check_iff hF _).1 hac
    refine ⟨by omega, hlen, ?_, ?_, by simpa using c4, ⟨?_, ?_⟩, ?_, ?_, hac'.1, hac'.2⟩
    · intro e; simp [e] at c1
    · rw [not_and_or] at c3; exact c3.symm
    · cases e : a.unitA <;> cases e' : a.arrhA <;> simp_all
    · cases e : a.unitC <;> cases e' : a.arrhC <;> simp_all
    · intro v hv
      simp only [hv, Option.join_some] at hA
      exact (checkA_iff hlen v _).1 hA
    · intro v hv
      simp only [hv, Option.join_some] at hC
      have := (checkC_iff _ _).1 hC
      constructor
      · rintro ⟨s, hs, e⟩
        exact this.1 (by simp only [Reaction.isElectronProcess, List.any_eq_true, decide_eq_true_eq]; exact ⟨s, hs, e⟩)
      · intro he
        exact this.2 (by simp only [Reaction.isElectronProcess, List.any_eq_false, decide_eq_true_eq]; exact he)
  · intro h
    have hlen := h.reactants
    have hp : ¬ a.products.length < 1 := by
      have := List.length_pos_iff.2 h.products
      omega
    unfold Reaction.init
    rw [if_neg (by have := h.id; omega), if_neg (by omega), if_neg (by omega),
      if_neg (by rintro ⟨h1, h2⟩; exact h.rate.elim (fun g => g h2) (fun g => g h1)),
      if_neg (not_not_intro h.known), if_neg, if_neg]
    · simp only
      split
      · rename_i e he
        exfalso
        rcases ea : a.arrhA with _ | _ | v <;> simp only [ea, Option.join_none, Option.join_some] at he
        · cases he
        · cases he
        · rw [(checkA_iff hlen v _).2 (h.factor v ea)] at he
          cases he
      · split
        · rename_i e he
          exfalso
          rcases ec : a.arrhC with _ | _ | v <;> simp only [ec, Option.join_none, Option.join_some] at he
          · cases he
          · cases he
          · obtain ⟨h1, h2⟩ := h.energy v ec
            rw [(checkC_iff _ _).2 ⟨?_, ?_⟩] at he
            · cases he
            · intro hb
              simp only [Reaction.isElectronProcess, List.any_eq_true, decide_eq_true_eq] at hb
              exact h1 hb
            · intro hb
              simp only [Reaction.isElectronProcess, List.any_eq_false, decide_eq_true_eq] at hb
              exact h2 hb
        · rw [(reaction_check_iff hF _).2 ⟨h.readable, h.balanced⟩]
          exact ⟨_, rfl⟩
    · rintro (⟨h1, h2⟩ | ⟨h1, h2⟩)
      · exact h.units.1.2 (by rw [← Option.isSome_iff_ne_none]; exact h1) h2
      · exact h.units.2.2 (by rw [← Option.isSome_iff_ne_none]; exact h1) h2
    · rintro (⟨h1, h2⟩ | ⟨h1, h2⟩)
      · exact h.units.1.1 (by rw [← Option.isSome_iff_ne_none]; exact h1) h2
      · exact h.units.2.1 (by rw [← Option.isSome_iff_ne_none]; exact h1) h2

/-- **C10.** A reaction keeps what was passed. -/
theorem reaction_init_keeps {F : Str → Option (Dict Str Nat)} {a : ReactionArgs} {r : Reaction}
    (h : Reaction.init F a = .ok r) : r.Keeps a := by
  unfold Reaction.init at h
  by_cases c0 : a.id ≤ 0
  · rw [if_pos c0] at h; cases h
  rw [if_neg c0] at h
  iterate 6
    split at h
    · cases h
  simp only at h
  split at h
  · cases h
  split at h
  · cases h
  split at h
  · cases h
  cases h
  exact ⟨by simp only; omega, rfl, rfl, ⟨rfl, rfl⟩, rfl, ⟨rfl, rfl⟩, rfl, rfl, rfl⟩

/-- **C14.** The key of the text of a reaction consists of the sorted names of its reactants and of its products. -/
theorem uniqueKey_toStr {r : Reaction} (hl : r.reactants ≠ []) (hr : r.products ≠ [])
    (hb : ∀ s ∈ r.reactants ++ r.products, NoBlank s.name ∧ '>' ∉ s.name) :
    uniqueKey r.toStr = .ok (sortStrs (r.reactants.map RP.name), sortStrs (r.products.map RP.name)) :=
  uniqueKey_of_sides (by simpa using hl) (by simpa using hr) (by
    intro n hn
    rw [← List.map_append] at hn
    obtain ⟨s, hs, rfl⟩ := List.mem_map.1 hn
    exact hb s hs)

/-- **C14.** Two reactions have equal keys exactly if they have the same reactants and the same products up to order, by
name. -/
theorem uniqueKey_toStr_iff {r r' : Reaction} (hl : r.reactants ≠ []) (hr : r.products ≠ []) (hl' : r'.reactants ≠ [])
    (hr' : r'.products ≠ [])
    (hb : ∀ s ∈ (r.reactants ++ r.products) ++ (r'.reactants ++ r'.products), NoBlank s.name ∧ '>' ∉ s.name) :
    uniqueKey r.toStr = uniqueKey r'.toStr ↔ (r.reactants.map RP.name).Perm (r'.reactants.map RP.name) ∧
      (r.products.map RP.name).Perm (r'.products.map RP.name) := by
  rw [uniqueKey_toStr hl hr fun s hs => hb s (List.mem_append_left _ hs),
    uniqueKey_toStr hl' hr' fun s hs => hb s (List.mem_append_right _ hs)]
  simp only [Except.ok.injEq, Prod.mk.injEq, sortStrs_eq_iff]

/-- **C14.** Reading the text of a reaction from left to right gives the names of its reactants and those of its products,
in their order. -/
theorem toStr_read {r : Reaction} (hl : r.reactants ≠ []) (hr : r.products ≠ [])
    (hb : ∀ s ∈ r.reactants ++ r.products, NoBlank s.name ∧ '>' ∉ s.name) :
    ∃ lhs rhs, r.toStr = lhs ++ str!" > " ++ rhs ∧ splitStr str!" + " lhs = r.reactants.map RP.name ∧
      splitStr str!" + " rhs = r.products.map RP.name := by
  refine ⟨_, _, rfl, split_join (sep' := str!"+ ") rfl _ (by simpa using hl) ?_,
    split_join (sep' := str!"+ ") rfl _ (by simpa using hr) ?_⟩
  · intro n hn
    obtain ⟨s, hs, rfl⟩ := List.mem_map.1 hn
    exact (hb s (List.mem_append_left _ hs)).1
  · intro n hn
    obtain ⟨s, hs, rfl⟩ := List.mem_map.1 hn
    exact (hb s (List.mem_append_right _ hs)).1

/-- dissociation of oxygen by electrons -/
example : DemoR.args.Sound DemoR.F := (reaction_init_iff DemoR.goodF _).1 ⟨_, DemoR.init_ok⟩

/-- an activation energy in K is refused, because electrons are involved -/
example : ¬ ∃ r, Reaction.init DemoR.F { DemoR.args with arrhC := some (some 5), unitC := some str!"K" } = .ok r := by
  rw [reaction_init_iff DemoR.goodF]
  intro h
  exact absurd ((h.energy 5 rfl).1 ⟨DemoR.e, by decide, rfl⟩) (by decide)

example : ∃ lhs rhs, DemoR.r.toStr = lhs ++ str!" > " ++ rhs ∧
    splitStr str!" + " lhs = DemoR.r.reactants.map RP.name ∧ splitStr str!" + " rhs = DemoR.r.products.map RP.name :=
  toStr_read (by decide) (by decide) (by unfold NoBlank; decide)

end Verif.Plaschem
