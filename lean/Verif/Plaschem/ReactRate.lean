/-
Property C13: rate coefficients (plaschem/reactions.py:377-397).
-/
import Verif.Plaschem.ReactProps2
import Mathlib.Analysis.SpecialFunctions.Pow.Real

namespace Verif.Plaschem

/-- plaschem/reactions.py:377-397 `get_rate_coefficient`, with real numbers instead of floats. -/
noncomputable def Reaction.rateCoefficient (r : Reaction) (temp : ℝ) (si : Bool) : Except Err ℝ :=
  match r.getArrhA si with
  | .error e => .error e
  | .ok none => .error .reactionValue
  | .ok (some a) =>
    let b : ℝ := ((r.getArrhB.getD 0 : ℚ) : ℝ)
    let c : ℝ := ((r.getArrhC.getD 0 : ℚ) : ℝ)
    if r.isElectronProcess then .ok ((a : ℝ) * temp ^ b * Real.exp (-c / temp))
    else .ok ((a : ℝ) * (temp / 300) ^ b * Real.exp (-c / temp))

/-- The units of a rate coefficient for a given number of reactants, with their value in SI. -/
inductive RateUnit : Nat → Str → ℚ → Prop
  | one : RateUnit 1 str!"s-1" 1
  | two : RateUnit 2 str!"m3.s-1" 1
  | twoCm : RateUnit 2 str!"cm3.s-1" (1 / 10 ^ 6)
  | three : RateUnit 3 str!"m6.s-1" 1
  | threeCm : RateUnit 3 str!"cm6.s-1" (1 / 10 ^ 12)

theorem checkArrhA_of_init {F : Str → Option (Dict Str Nat)} {a : ReactionArgs} {r : Reaction}
    (h : Reaction.init F a = .ok r) {v : ℚ} (hv : r.arrhA = some v) :
    1 ≤ r.reactants.length ∧ Reaction.checkArrhA r.reactants.length v r.arrhAUnit = .ok () := by
  unfold Reaction.init at h
  split at h
  · cases h
  split at h
  · cases h
  rename_i h1
  split at h
  · cases h
  split at h
  · cases h
  split at h
  · cases h
  split at h
  · cases h
  split at h
  · cases h
  simp only at h
  split at h
  · cases h
  rename_i hchk
  split at h
  · cases h
  split at h
  · cases h
  cases h
  simp only at hv hchk ⊢
  rw [hv] at hchk
  rw [not_or, not_lt] at h1
  exact ⟨h1.1, hchk⟩

/-- **C13.** The unit of an accepted pre-exponential factor fits the number of reactants and has a
conversion factor; the value is non-negative. -/
theorem accepted_rate_unit {F : Str → Option (Dict Str Nat)} {a : ReactionArgs} {r : Reaction}
    (h : Reaction.init F a = .ok r) {v : ℚ} (hv : r.arrhA = some v) :
    0 ≤ v ∧ ∃ u f, r.arrhAUnit = some u ∧ RateUnit r.reactants.length u f ∧
      Reaction.siFactors.get? u = some f := by
  obtain ⟨hlen, hc⟩ := checkArrhA_of_init h hv
  unfold Reaction.checkArrhA at hc
  split at hc
  · cases hc
  rename_i u hu
  rw [hu]
  split at hc
  · cases hc
  rename_i hmem
  split at hc
  · cases hc
  rename_i h1
  split at hc
  · cases hc
  rename_i h2
  split at hc
  · cases hc
  rename_i h3
  split at hc
  · cases hc
  rename_i h4
  split at hc
  · cases hc
  rename_i h5
  refine ⟨not_lt.1 h5, u, ?_⟩
  generalize r.reactants.length = n at *
  have hn : n = 1 ∨ n = 2 ∨ n = 3 := by omega
  simp only [not_not, Reaction.allowedUnitsA, List.mem_cons, List.not_mem_nil, or_false] at hmem
  rcases hn with rfl | rfl | rfl
  · have : u = str!"s-1" := by simpa using h1
    subst this
    exact ⟨1, rfl, .one, by rfl⟩
  · have h2' : Reaction.endsWith u str!"3.s-1" = true := by simpa using h2
    rcases hmem with rfl | rfl | rfl | rfl | rfl
    · exact absurd h2' (by decide)
    · exact ⟨_, rfl, .twoCm, by rw [show ((1 : ℚ) / 10 ^ 6) = 1 / 1000000 by norm_num]; rfl⟩
    · exact ⟨_, rfl, .two, by rfl⟩
    · exact absurd h2' (by decide)
    · exact absurd h2' (by decide)
  · have h3' : Reaction.endsWith u str!"6.s-1" = true := by simpa using h3
    rcases hmem with rfl | rfl | rfl | rfl | rfl
    · exact absurd h3' (by decide)
    · exact absurd h3' (by decide)
    · exact absurd h3' (by decide)
    · exact ⟨_, rfl, .threeCm, by
        rw [show ((1 : ℚ) / 10 ^ 12) = 1 / 1000000000000 by norm_num]; rfl⟩
    · exact ⟨_, rfl, .three, by rfl⟩

/-- **C13.** For every accepted reaction with Arrhenius data and every positive temperature both rate
coefficients exist and are non-negative, they vanish only together with the pre-exponential factor, and
the SI value is the nominal value times the conversion factor of the unit. -/
theorem rate_coefficient_sound {F : Str → Option (Dict Str Nat)} {a : ReactionArgs} {r : Reaction}
    (h : Reaction.init F a = .ok r) {v : ℚ} (hv : r.arrhA = some v) {T : ℝ} (hT : 0 < T) :
    ∃ k kSI u f, r.rateCoefficient T false = .ok k ∧ r.rateCoefficient T true = .ok kSI ∧
      r.arrhAUnit = some u ∧ RateUnit r.reactants.length u f ∧ kSI = k * (f : ℝ) ∧
      0 ≤ k ∧ 0 ≤ kSI ∧ (k = 0 ↔ v = 0) ∧ (kSI = 0 ↔ v = 0) := by
  obtain ⟨hv0, u, f, hu, hru, hf⟩ := accepted_rate_unit h hv
  have hpos : ∀ n u f, RateUnit n u f → (0 : ℚ) < f := by
    intro n u f h; cases h <;> norm_num
  have hf0 : (0 : ℚ) < f := hpos _ _ _ hru
  have hfR : (0 : ℝ) < (f : ℝ) := by exact_mod_cast hf0
  have hvR : (0 : ℝ) ≤ (v : ℝ) := by exact_mod_cast hv0
  have a1 : r.getArrhA false = .ok (some v) := by simp [Reaction.getArrhA, hv]
  have a2 : r.getArrhA true = .ok (some (v * f)) := by
    simp [Reaction.getArrhA, Reaction.getUnitA, hv, hu, hf]
  set b : ℝ := ((r.getArrhB.getD 0 : ℚ) : ℝ) with hb
  set c : ℝ := ((r.getArrhC.getD 0 : ℚ) : ℝ) with hc
  have core : ∀ g : ℝ, 0 < g → ∃ k kSI : ℝ, (v : ℝ) * g * Real.exp (-c / T) = k ∧
      ((v * f : ℚ) : ℝ) * g * Real.exp (-c / T) = kSI ∧ kSI = k * (f : ℝ) ∧ 0 ≤ k ∧ 0 ≤ kSI ∧
      (k = 0 ↔ v = 0) ∧ (kSI = 0 ↔ v = 0) := by
    intro g hg
    have he := Real.exp_pos (-c / T)
    refine ⟨_, _, rfl, rfl, by push_cast; ring, by positivity, by push_cast; positivity, ?_, ?_⟩
    · simp [hg.ne', he.ne']
    · simp [hg.ne', he.ne', hf0.ne']
  by_cases hel : r.isElectronProcess = true
  · obtain ⟨k, kSI, h1, h2, h3⟩ := core (T ^ b) (Real.rpow_pos_of_pos hT b)
    refine ⟨k, kSI, u, f, ?_, ?_, hu, hru, h3⟩
    · simp only [Reaction.rateCoefficient, a1, hel, if_true]; rw [← h1]
    · simp only [Reaction.rateCoefficient, a2, hel, if_true]; rw [← h2]
  · obtain ⟨k, kSI, h1, h2, h3⟩ := core ((T / 300) ^ b) (Real.rpow_pos_of_pos (by positivity) b)
    refine ⟨k, kSI, u, f, ?_, ?_, hu, hru, h3⟩
    · simp only [Reaction.rateCoefficient, a1, hel]; rw [← h1]; rfl
    · simp only [Reaction.rateCoefficient, a2, hel]; rw [← h2]; rfl

/-- **C13.** The nominal value: with `A`, `B`, `C` the Arrhenius parameters (`B` and `C` are 0 if missing) it is `A T ^ B exp (-C / T)` for
a reaction with an electron among the reactants and `A (T / 300) ^ B exp (-C / T)` for the others. Without `A` there is none. -/
theorem rate_coefficient_formula (r : Reaction) (T : ℝ) :
    (∀ v, r.arrhA = some v → ((∃ s ∈ r.reactants, s.name = str!"e") →
        r.rateCoefficient T false = .ok (v * T ^ ((r.arrhB.getD 0 : ℚ) : ℝ) * Real.exp (-((r.arrhC.getD 0 : ℚ) : ℝ) / T))) ∧
      ((∀ s ∈ r.reactants, s.name ≠ str!"e") →
        r.rateCoefficient T false = .ok (v * (T / 300) ^ ((r.arrhB.getD 0 : ℚ) : ℝ) * Real.exp (-((r.arrhC.getD 0 : ℚ) : ℝ) / T)))) ∧
    (r.arrhA = none → r.rateCoefficient T false = .error .reactionValue) := by
  refine ⟨fun v hv => ?_, fun hv => by simp [Reaction.rateCoefficient, Reaction.getArrhA, hv]⟩
  have hb : r.getArrhB.getD 0 = r.arrhB.getD 0 := by
    unfold Reaction.getArrhB
    cases r.arrhB <;> simp [hv]
  have hc : r.getArrhC.getD 0 = r.arrhC.getD 0 := by
    unfold Reaction.getArrhC
    cases r.arrhC <;> simp [hv]
  have ha : r.getArrhA false = .ok (some v) := by simp [Reaction.getArrhA, hv]
  constructor
  · intro he
    have he : r.isElectronProcess = true := by simpa [Reaction.isElectronProcess] using he
    simp only [Reaction.rateCoefficient, ha, he, hb, hc, if_true]
  · intro he
    have he : r.isElectronProcess = false := by simpa [Reaction.isElectronProcess] using he
    simp only [Reaction.rateCoefficient, ha, he, hb, hc, Bool.false_eq_true, if_false]

/-- **C13.** With a non-negative temperature exponent and activation energy the rate coefficient does not
decrease with temperature. -/
theorem rate_coefficient_monotone {r : Reaction} {v : ℚ} (hv : r.arrhA = some v) (hv0 : 0 ≤ v)
    (hb : 0 ≤ r.arrhB.getD 0) (hc : 0 ≤ r.arrhC.getD 0) {T T' k k' : ℝ} (hT : 0 < T) (hle : T ≤ T')
    (h1 : r.rateCoefficient T false = .ok k) (h2 : r.rateCoefficient T' false = .ok k') : k ≤ k' := by
  have a1 : r.getArrhA false = .ok (some v) := by simp [Reaction.getArrhA, hv]
  have hvR : (0 : ℝ) ≤ (v : ℝ) := by exact_mod_cast hv0
  have eb : r.getArrhB.getD 0 = r.arrhB.getD 0 := by
    unfold Reaction.getArrhB
    cases r.arrhB <;> simp [hv]
  have ec : r.getArrhC.getD 0 = r.arrhC.getD 0 := by
    unfold Reaction.getArrhC
    cases r.arrhC <;> simp [hv]
  rw [← eb] at hb
  rw [← ec] at hc
  have hbR : (0 : ℝ) ≤ ((r.getArrhB.getD 0 : ℚ) : ℝ) := by exact_mod_cast hb
  have hcR : (0 : ℝ) ≤ ((r.getArrhC.getD 0 : ℚ) : ℝ) := by exact_mod_cast hc
  set b : ℝ := ((r.getArrhB.getD 0 : ℚ) : ℝ) with hb'
  set c : ℝ := ((r.getArrhC.getD 0 : ℚ) : ℝ) with hc'
  have hT' : 0 < T' := lt_of_lt_of_le hT hle
  have hexp : Real.exp (-c / T) ≤ Real.exp (-c / T') := by
    apply Real.exp_le_exp.2
    rw [neg_div, neg_div, neg_le_neg_iff]
    exact div_le_div_of_nonneg_left hcR hT hle
  have core : ∀ g g' : ℝ, 0 ≤ g → g ≤ g' →
      (v : ℝ) * g * Real.exp (-c / T) ≤ (v : ℝ) * g' * Real.exp (-c / T') := by
    intro g g' hg hgg
    have : (v : ℝ) * g ≤ v * g' := mul_le_mul_of_nonneg_left hgg hvR
    exact mul_le_mul this hexp (Real.exp_pos _).le (le_trans (by positivity) this)
  by_cases hel : r.isElectronProcess = true
  · simp only [Reaction.rateCoefficient, a1, hel, if_true, Except.ok.injEq] at h1 h2
    rw [← h1, ← h2]
    exact core _ _ (Real.rpow_nonneg hT.le _) (Real.rpow_le_rpow hT.le hle hbR)
  · simp only [Reaction.rateCoefficient, a1, hel, if_false, Bool.false_eq_true, Except.ok.injEq] at h1 h2
    rw [← h1, ← h2]
    exact core _ _ (Real.rpow_nonneg (by positivity) _)
      (Real.rpow_le_rpow (by positivity) (by gcongr) hbR)

/-- the hypotheses are met by the demo reaction -/
example : ∃ k kSI u f, DemoR.r.rateCoefficient 2 false = .ok k ∧
    DemoR.r.rateCoefficient 2 true = .ok kSI ∧ DemoR.r.arrhAUnit = some u ∧
    RateUnit DemoR.r.reactants.length u f ∧ kSI = k * ((f : ℚ) : ℝ) ∧
      0 ≤ k ∧ 0 ≤ kSI ∧ (k = 0 ↔ (3 : ℚ) = 0) ∧ (kSI = 0 ↔ (3 : ℚ) = 0) :=
  rate_coefficient_sound DemoR.init_ok rfl (by norm_num)

end Verif.Plaschem
