/-
C94: kinetic and transport coefficients: the Arrhenius law, mass action, Debye length, cross sections, diffusivities and wall
fluxes, stated as laws of the quantities the methods of `Equations` return (C57 shows that they return these quantities).
-/
import Verif.Pygmol.EqnsReg

namespace Verif.Pygmol
open Finset
namespace Data
variable {ns nr : ℕ} (D : Data ns nr)

/-! ### rate coefficients -/

/-- **C94.** Electron processes have the Arrhenius law in the electron temperature (eV), all others in the gas temperature, in
units of 300 K for the power and in K for the exponential. -/
theorem arrhenius (hp : D.Physical) (y : Y ns) {j : Fin nr} (hA : 0 < D.arrhA j) :
    Real.log (D.pK y j) = Real.log (D.arrhA j) +
      if 0 < D.eLhs j then D.arrhB j * Real.log (D.pTe y) - D.arrhC j / D.pTe y
      else D.arrhB j * (Real.log D.tempG - Real.log 300) - D.arrhC j / D.tempG := by
  have hT := te_pos (y := y) hp
  have hg := hp.tempG
  unfold pK
  by_cases h : D.elc j
  · rw [if_pos h, if_pos (show 0 < D.eLhs j from h)]
    unfold fRateElectron
    rw [Real.log_mul (by positivity) (Real.exp_pos _).ne', Real.log_mul hA.ne' (by positivity), Real.log_exp,
      Real.log_rpow hT]
    ring
  · rw [if_neg h, if_neg (show ¬ 0 < D.eLhs j from h)]
    unfold fRateHeavy
    rw [Real.log_mul (by positivity) (Real.exp_pos _).ne', Real.log_mul hA.ne' (by positivity), Real.log_exp,
      Real.log_rpow (by positivity), Real.log_div hg.ne' (by norm_num)]
    ring

/-- **C94.** With B, C ≥ 0 the rate coefficient of an electron process grows with the electron temperature. -/
theorem rate_electron_mono {j : Fin nr} (hA : 0 ≤ D.arrhA j) (hB : 0 ≤ D.arrhB j) (hC : 0 ≤ D.arrhC j) {S T : ℝ}
    (hS : 0 < S) (h : S ≤ T) : D.fRateElectron S j ≤ D.fRateElectron T j := by
  unfold fRateElectron
  refine mul_le_mul (mul_le_mul_of_nonneg_left (Real.rpow_le_rpow hS.le h hB) hA) (Real.exp_le_exp.2 ?_) (Real.exp_pos _).le
    (mul_nonneg hA (Real.rpow_nonneg (hS.le.trans h) _))
  rw [neg_div, neg_div, neg_le_neg_iff]
  exact div_le_div_of_nonneg_left hC hS h

/-- **C94.** With B, C ≥ 0 the rate coefficient of a heavy-particle process grows with the gas temperature. -/
theorem rate_heavy_mono {j : Fin nr} (hA : 0 ≤ D.arrhA j) (hB : 0 ≤ D.arrhB j) (hC : 0 ≤ D.arrhC j) {S T : ℝ}
    (hS : 0 < S) (h : S ≤ T) (y : Y ns) (he : ¬ 0 < D.eLhs j) :
    ({ D with tempG := S } : Data ns nr).pK y j ≤ ({ D with tempG := T } : Data ns nr).pK y j := by
  unfold pK
  rw [if_neg (show ¬ ({ D with tempG := S } : Data ns nr).elc j from he),
    if_neg (show ¬ ({ D with tempG := T } : Data ns nr).elc j from he)]
  show D.arrhA j * (S / 300) ^ D.arrhB j * Real.exp (-D.arrhC j / S) ≤ D.arrhA j * (T / 300) ^ D.arrhB j * Real.exp (-D.arrhC j / T)
  have hT := hS.trans_le h
  refine mul_le_mul (mul_le_mul_of_nonneg_left (Real.rpow_le_rpow (by positivity) (by linarith) hB) hA)
    (Real.exp_le_exp.2 ?_) (Real.exp_pos _).le (mul_nonneg hA (Real.rpow_nonneg (by positivity) _))
  rw [neg_div, neg_div, neg_le_neg_iff]
  exact div_le_div_of_nonneg_left hC hS h

/-! ### scaling of the whole state -/

/-- all densities and the energy density times `c` -/
def scale (c : ℝ) (y : Y ns) : Y ns := ⟨fun i => c * y.n i, c * y.rho⟩

theorem tot_scale (c : ℝ) (y : Y ns) : pTot (scale c y) = c * pTot y := by
  unfold pTot fTotalDensity scale
  rw [mul_sum]

theorem ne_scale (c : ℝ) (y : Y ns) : D.pNe (scale c y) = c * D.pNe y := by
  unfold pNe fElectronDensity scale
  rw [mul_sum]
  exact sum_congr rfl fun i _ => by ring

theorem te_scale {c : ℝ} (hc : c ≠ 0) (y : Y ns) : D.pTe (scale c y) = D.pTe y := by
  unfold pTe fElectronTemp
  rw [ne_scale, show (scale c y).rho = c * y.rho from rfl, mul_div_mul_left _ _ hc]

theorem k_scale {c : ℝ} (hc : c ≠ 0) (y : Y ns) (j : Fin nr) : D.pK (scale c y) j = D.pK y j := by
  unfold pK
  rw [te_scale D hc]

theorem prod_zpow_sum {c : ℝ} (hc : c ≠ 0) (s : Finset (Fin ns)) (f : Fin ns → ℤ) : ∏ i ∈ s, c ^ f i = c ^ ∑ i ∈ s, f i := by
  induction s using Finset.cons_induction with
  | empty => simp
  | cons a s h ih => rw [prod_cons, sum_cons, ih, zpow_add₀ hc]

/-- **C94.** Mass action: the rate of a reaction scales with the power of its order. -/
theorem mass_action {c : ℝ} (hc : c ≠ 0) (y : Y ns) (j : Fin nr) :
    D.pRates (scale c y) j = c ^ (D.eLhs j + ∑ i, D.lhs j i + D.mLhs j) * D.pRates y j := by
  unfold pRates fRates
  rw [k_scale D hc, ne_scale, tot_scale, zpow_add₀ hc, zpow_add₀ hc, mul_zpow, mul_zpow,
    show (∏ i, (scale c y).n i ^ D.lhs j i) = c ^ (∑ i, D.lhs j i) * ∏ i, y.n i ^ D.lhs j i by
      rw [← prod_zpow_sum hc, ← prod_mul_distrib]
      exact prod_congr rfl fun i _ => by rw [← mul_zpow]; rfl]
  ring

/-- **C94.** The square of the Debye length is `eps0 * Te / (e * ne)` (Te in eV). -/
theorem debye_sq (hp : D.Physical) {y : Y ns} (hne : 0 < D.pNe y) :
    0 < D.pDebye y ∧ D.pDebye y ^ 2 * (D.C.e * D.pNe y) = D.C.eps0 * D.pTe y := by
  have hT := te_pos (y := y) hp
  have he := D.C.e_pos
  have h0 := D.C.eps0_pos
  unfold pDebye fDebye
  refine ⟨Real.sqrt_pos.2 (by positivity), ?_⟩
  rw [Real.sq_sqrt (by positivity)]
  field_simp

/-! ### cross sections -/

/-- **C94.** Cross sections: none with itself, the same in both directions if one of the partners is neutral. -/
theorem sigma_laws (y : Y ns) (i k : Fin ns) :
    D.pSigma y i i = 0 ∧
    ((D.charge i = 0 ∨ D.charge k = 0) → D.pSigma y i k = D.pSigma y k i ∧
      (i ≠ k → D.pSigma y i k = (D.ljSigma i + D.ljSigma k) ^ 2)) := by
  unfold pSigma
  refine ⟨if_pos rfl, fun h => ?_⟩
  have hc : ¬ (¬ D.neu i ∧ ¬ D.neu k) := fun ⟨h1, h2⟩ => h.elim h1 h2
  have hc' : ¬ (¬ D.neu k ∧ ¬ D.neu i) := fun ⟨h1, h2⟩ => h.elim h2 h1
  rw [if_neg hc, if_neg hc']
  refine ⟨?_, fun hik => by rw [if_neg hik]; rfl⟩
  by_cases hik : i = k
  · rw [if_pos hik, if_pos hik.symm]
  · rw [if_neg hik, if_neg (Ne.symm hik)]
    unfold fSigmaHard
    ring

/-- **C94.** Two ions: the cross section is `π b² log (2 λ / b)` with the Debye length `λ` and the distance `b` of closest
approach, at which the potential energy is that of the reduced mass with the mean speed of the *first* ion. -/
theorem sigma_ions (hp : D.Physical) {y : Y ns} {i k : Fin ns} (hik : i ≠ k) (hi : D.charge i ≠ 0) (hk : D.charge k ≠ 0) :
    ∃ b, 0 < b ∧ D.pSigma y i k = Real.pi * b ^ 2 * Real.log (2 * D.pDebye y / b) ∧
      D.C.e ^ 2 * |(D.charge i : ℝ) * D.charge k| / (4 * Real.pi * D.C.eps0 * b) =
        1 / 2 * (1 / (1 / D.mass i + 1 / D.mass k)) * D.pV y i ^ 2 := by
  have hb := b0_pos (y := y) hp (D := D) (i := i) (k := k) hi hk
  refine ⟨D.fB0 (D.pV y) i k, hb, ?_, ?_⟩
  · unfold pSigma
    rw [if_neg hik, if_pos ⟨hi, hk⟩]
    rfl
  · have he := D.C.e_pos; have h0 := D.C.eps0_pos; have hmi := hp.mass i; have hmk := hp.mass k
    have hv := v_pos (y := y) hp i
    have hq : 0 < |(D.charge i : ℝ) * (D.charge k : ℝ)| := by
      rw [abs_pos]; exact mul_ne_zero (Int.cast_ne_zero.2 hi) (Int.cast_ne_zero.2 hk)
    have hpi := Real.pi_pos
    unfold fB0 reducedMass
    field_simp
    ring

/-- **Finding.** The distance of closest approach of ion `i` to ion `k` and that of `k` to `i`, as the cross sections use them,
are in the ratio of the masses: the cross sections are not those of a pair of particles. -/
theorem closest_approach_ratio (hp : D.Physical) (y : Y ns) {i k : Fin ns} (hi : D.charge i ≠ 0) (hk : D.charge k ≠ 0) :
    D.fB0 (D.pV y) i k * D.mass k = D.fB0 (D.pV y) k i * D.mass i := by
  have he := D.C.e_pos; have h0 := D.C.eps0_pos; have hmi := hp.mass i; have hmk := hp.mass k; have hkB := D.C.kB_pos
  have hpi := Real.pi_pos
  have hti := ti_pos (y := y) hp
  have hsq : ∀ l, ¬ D.neu l → D.pV y l ^ 2 = 8 * D.C.kB * D.pTi y / (Real.pi * D.mass l) := by
    intro l hl
    have := hp.mass l
    unfold pV fSpeed
    rw [if_neg hl, Real.sq_sqrt (by positivity)]
  unfold fB0 reducedMass
  rw [hsq i hi, hsq k hk, mul_comm (D.charge k : ℝ) (D.charge i : ℝ), add_comm (D.mass k) (D.mass i)]
  field_simp

/-! ### speeds and diffusion -/

/-- **C94.** Mean speeds: equipartition at the gas temperature (neutrals) or the ion temperature (ions). -/
theorem mean_speed_sq (hp : D.Physical) (y : Y ns) (i : Fin ns) :
    0 < D.pV y i ∧ Real.pi * D.mass i * D.pV y i ^ 2 =
      8 * D.C.kB * if D.charge i = 0 then D.tempG else D.pTi y := by
  have hm := hp.mass i; have hg := hp.tempG; have hk := D.C.kB_pos; have hpi := Real.pi_pos
  have hti := ti_pos (y := y) hp
  refine ⟨v_pos hp i, ?_⟩
  unfold pV fSpeed
  by_cases h : D.neu i
  · rw [if_pos h, if_pos (show D.charge i = 0 from h), Real.sq_sqrt (by positivity)]
    field_simp
  · rw [if_neg h, if_neg (show ¬ D.charge i = 0 from h), Real.sq_sqrt (by positivity)]
    field_simp

/-- **C94.** Free diffusion obeys the Einstein relation: the diffusivity of a species times its mass and its collision frequency (the
mean speed times the sum of densities times cross sections) is `kB` times its temperature. Neutrals diffuse freely, negative ions
do not reach the wall. -/
theorem free_einstein (hp : D.Physical) {y : Y ns} {i : Fin ns} (hs : ∑ k, y.n k * D.pSigma y i k ≠ 0) :
    D.pFree y i * (D.mass i * (D.pV y i * ∑ k, y.n k * D.pSigma y i k)) =
      D.C.kB * (if D.charge i = 0 then D.tempG else D.pTi y) ∧
    (D.charge i = 0 → D.pDiff y i = D.pFree y i) ∧ (D.charge i < 0 → D.pDiff y i = 0) ∧
    (0 < D.charge i → D.pDiff y i = D.pAmb y) := by
  refine ⟨?_, fun h => ?_, fun h => ?_, fun h => ?_⟩
  · have h := (mean_speed_sq (D := D) hp y i).2
    have e : D.pFree y i = Real.pi / 8 * (1 / ∑ k, y.n k * D.pSigma y i k) * D.pV y i := rfl
    rw [e]
    have : Real.pi / 8 * (1 / ∑ k, y.n k * D.pSigma y i k) * D.pV y i * (D.mass i * (D.pV y i * ∑ k, y.n k * D.pSigma y i k)) =
        1 / 8 * (Real.pi * D.mass i * D.pV y i ^ 2) := by
      field_simp
    rw [this, h]
    ring
  · unfold pDiff fDiff
    rw [if_neg (show ¬ D.pos i from (by omega : ¬ 0 < D.charge i)), if_neg (show ¬ D.neg i from (by omega : ¬ D.charge i < 0))]
  · unfold pDiff fDiff
    rw [if_neg (show ¬ D.pos i from (by omega : ¬ 0 < D.charge i)), if_pos (show D.neg i from h)]
    rfl
  · unfold pDiff fDiff
    rw [if_pos (show D.pos i from h)]

/-- **C94.** The ambipolar diffusivity lies between twice the mean free diffusivity of the positive ions and `1 + γ` times it
(`γ` the ratio of electron to ion temperature, at least 1); without negative ions it is `1 + γ` times it. -/
theorem ambipolar_bounds {y : Y ns} (hn : ∀ i, 0 ≤ y.n i) (hne : 0 < D.pNe y) {m g : ℝ}
    (hm : m = (∑ i ∈ univ.filter fun i => 0 < D.charge i, D.pFree y i) / (univ.filter fun i => 0 < D.charge i).card) (h0 : 0 ≤ m)
    (hg : g = D.pTe y * D.C.e / (D.C.kB * D.pTi y)) (h1 : 1 ≤ g) :
    2 * m ≤ D.pAmb y ∧ D.pAmb y ≤ (1 + g) * m ∧
      ((∀ i, D.charge i < 0 → y.n i = 0) → D.pAmb y = (1 + g) * m) := by
  set a := (∑ i ∈ univ.filter D.neg, y.n i) / D.pNe y with ha
  have ha0 : 0 ≤ a := div_nonneg (sum_nonneg fun i _ => hn i) hne.le
  have hamb : D.pAmb y = m * (1 + g * (1 + 2 * a)) / (1 + a * g) := by
    unfold pAmb fAmbPos
    rw [hm, hg, ha, div_div (D.pTe y * D.C.e)]
    rfl
  have hd : 0 < 1 + a * g := by positivity
  rw [hamb]
  refine ⟨?_, ?_, ?_⟩
  · rw [le_div_iff₀ hd]
    nlinarith [mul_nonneg h0 (sub_nonneg.2 h1)]
  · rw [div_le_iff₀ hd]
    nlinarith [mul_nonneg h0 (mul_nonneg ha0 (mul_nonneg (by linarith : (0 : ℝ) ≤ g) (sub_nonneg.2 h1)))]
  · intro hz
    have : a = 0 := by
      rw [ha, sum_eq_zero, zero_div]
      intro i hi
      exact hz i (mem_filter.1 hi).2
    rw [this]
    ring

/-- **C94.** Wall losses: a species is lost at no more than its thermal flux onto the wall times the sticking coefficient, and
at no more than diffusion to the wall allows; nothing is lost if it does not stick. -/
theorem wall_flux_bounds (hp : D.Physical) (hth : D.thermalFlux = true) {y : Y ns} {i : Fin ns} (hn : 0 ≤ y.n i)
    (hd : 0 < D.pDiff y i) :
    -D.pWall y i ≤ D.stick i * (y.n i * D.pV y i / 4) ∧ -D.pWall y i ≤ D.pDiff y i * y.n i / D.diffL ∧
      (D.stick i = 0 → D.pWall y i = 0) := by
  have hs := hp.stick i; have hv := v_pos (y := y) hp i; have hl := diffL_pos hp
  have he : -D.pWall y i = D.pDiff y i * y.n i * D.stick i / (D.stick i * D.diffL + 4 * D.pDiff y i / D.pV y i) := by
    unfold pWall fWall
    rw [if_pos hth]
    ring
  have hden : 0 < D.stick i * D.diffL + 4 * D.pDiff y i / D.pV y i := by positivity
  refine ⟨?_, ?_, ?_⟩
  · rw [he, div_le_iff₀ hden]
    have h1 : D.stick i * (y.n i * D.pV y i / 4) * (D.stick i * D.diffL + 4 * D.pDiff y i / D.pV y i) =
        D.stick i * (y.n i * D.pV y i / 4) * (D.stick i * D.diffL) + D.pDiff y i * y.n i * D.stick i := by
      field_simp
    rw [h1]
    have : 0 ≤ D.stick i * (y.n i * D.pV y i / 4) * (D.stick i * D.diffL) := by positivity
    linarith
  · rw [he, div_le_div_iff₀ hden hl]
    have : 0 ≤ D.pDiff y i * y.n i * (4 * D.pDiff y i / D.pV y i) := by positivity
    nlinarith
  · intro h
    have : -D.pWall y i = 0 := by rw [he, h]; ring
    linarith

/-- **C94.** A species that sticks better is lost faster. -/
theorem wall_flux_mono (hp : D.Physical) {D' : Data ns nr} {s : Fin ns → ℝ} (hD : D' = { D with stick := s }) {y : Y ns}
    {i : Fin ns} (hs : D.stick i ≤ s i) (hn : 0 ≤ y.n i) (hd : 0 < D.pDiff y i) : -D.pWall y i ≤ -D'.pWall y i := by
  have h0 := hp.stick i; have hv := v_pos (y := y) hp i; have hl := diffL_pos hp
  have hvol := volume_pos hp; have har := area_pos hp
  subst hD
  have e1 : ({ D with stick := s } : Data ns nr).pDiff y = D.pDiff y := rfl
  have e2 : ({ D with stick := s } : Data ns nr).pV y = D.pV y := rfl
  unfold pWall fWall
  rw [e1, e2]
  show -(if D.thermalFlux = true then _ else _) ≤ -(if D.thermalFlux = true then
    -D.pDiff y i * y.n i * s i / (s i * D.diffL + 4 * D.pDiff y i / D.pV y i) else
    -D.pDiff y i * y.n i * s i / D.diffL ^ 2 * D.volume / D.area)
  split_ifs
  · have hq : 0 < 4 * D.pDiff y i / D.pV y i := by positivity
    have e : ∀ x q : ℝ, -(-D.pDiff y i * y.n i * x / q) = D.pDiff y i * y.n i * x / q := fun x q => by ring
    rw [e, e, div_le_div_iff₀ (by positivity) (by have := h0.trans hs; positivity)]
    have : 0 ≤ D.pDiff y i * y.n i * (4 * D.pDiff y i / D.pV y i) * (s i - D.stick i) :=
      mul_nonneg (by positivity) (sub_nonneg.2 hs)
    nlinarith
  · have h1 : D.pDiff y i * y.n i * D.stick i ≤ D.pDiff y i * y.n i * s i := mul_le_mul_of_nonneg_left hs (by positivity)
    have h2 : D.pDiff y i * y.n i * D.stick i / D.diffL ^ 2 * D.volume / D.area ≤
        D.pDiff y i * y.n i * s i / D.diffL ^ 2 * D.volume / D.area := by gcongr
    have e : ∀ x : ℝ, -(-D.pDiff y i * y.n i * x / D.diffL ^ 2 * D.volume / D.area) =
        D.pDiff y i * y.n i * x / D.diffL ^ 2 * D.volume / D.area := fun x => by ring
    rw [e, e]
    exact h2

end Data

/-! ### concrete cases -/
namespace Demo

theorem start_pNe : argon.pNe start = 2 := start_ne

/-- rate coefficients and Debye length -/
example : 0 < argon.arrhA 0 ∧ 0 ≤ argon.arrhB 0 ∧ 0 ≤ argon.arrhC 0 ∧ 0 < argon.pNe start ∧ start.n 0 ≠ 0 := by
  rw [start_pNe]
  refine ⟨?_, ?_, ?_, ?_, ?_⟩ <;> norm_num [argon, start]

/-- two ions of different masses -/
noncomputable def mixture : Data 3 3 := { argon with charge := ![0, 1, 1], mass := ![40, 40, 20] }

theorem mixture_physical : mixture.Physical :=
  { tempG := physical.tempG, r := physical.r, z := physical.z, p0 := physical.p0, stick := physical.stick, feed := physical.feed,
    ret := physical.ret, arrhA := physical.arrhA, lhs := physical.lhs, net := physical.net
    mass := fun i => by fin_cases i <;> norm_num [mixture] }

/-- The light ion sees the heavy one at half the distance at which the heavy one sees the light one. -/
example : mixture.fB0 (mixture.pV start) 1 2 = 2 * mixture.fB0 (mixture.pV start) 2 1 := by
  have h := mixture.closest_approach_ratio mixture_physical start (i := 1) (k := 2) (show (1 : ℤ) ≠ 0 by decide)
    (show (1 : ℤ) ≠ 0 by decide)
  have h1 : mixture.mass 1 = 40 := by norm_num [mixture]
  have h2 : mixture.mass 2 = 20 := rfl
  rw [h1, h2] at h
  linarith

theorem start_collisions : ∑ k, start.n k * argon.pSigma start 0 k = 72 := by
  rw [Fin.sum_univ_three]
  have e0 : argon.pSigma start 0 0 = 0 := (argon.sigma_laws start 0 0).1
  have e1 : argon.pSigma start 0 1 = 36 := by
    rw [((argon.sigma_laws start 0 1).2 (.inl (by norm_num [argon]))).2 (by decide)]
    norm_num [argon]
  rw [e0, e1, show start.n 0 = 5 from rfl, show start.n 1 = 2 from rfl, show start.n 2 = 0 from rfl]
  norm_num

/-- the Einstein relation for argon atoms -/
example : argon.pDiff start 0 * (argon.mass 0 * (argon.pV start 0 * 72)) = argon.C.kB * argon.tempG := by
  obtain ⟨h1, h2, -⟩ := argon.free_einstein physical (i := 0) (y := start) (by rw [start_collisions]; norm_num)
  rw [start_collisions] at h1
  rw [h2 rfl, h1, if_pos (show argon.charge 0 = 0 from rfl)]

theorem start_diff_pos : 0 < argon.pDiff start 0 := by
  have h0 : ¬ argon.pos 0 := by norm_num [Data.pos, argon]
  have h1 : ¬ argon.neg 0 := by norm_num [Data.neg, argon]
  unfold Data.pDiff Data.fDiff
  rw [if_neg h0, if_neg h1]
  have hv := Data.v_pos (y := start) physical 0
  have hs := start_collisions
  have hpi := Real.pi_pos
  unfold Data.pFree Data.fFree Data.pMfp Data.fMfp
  rw [hs]
  positivity

/-- the bounds on wall fluxes apply to argon -/
example : -argon.pWall start 0 ≤ argon.pDiff start 0 * start.n 0 / argon.diffL :=
  (argon.wall_flux_bounds physical rfl (start_nonneg 0) start_diff_pos).2.1

/-- the bounds on the ambipolar diffusivity apply: there are no negative ions -/
example : ∃ m, 0 ≤ m ∧ argon.pAmb start =
    (1 + argon.pTe start * argon.C.e / (argon.C.kB * argon.pTi start)) * m := by
  have hw : argon.WeakCoupling start := fun i k h1 h2 h3 => (no_ion_pair start i k h1 h2 h3).le
  have hte : 300 ≤ argon.pTe start := by
    unfold Data.pTe Data.fElectronTemp
    refine le_trans ?_ (le_max_right _ _)
    norm_num [argon, consts]
  have hti := Data.ti_pos (y := start) physical
  have hti' : argon.pTi start ≤ 300 := by
    unfold Data.pTi Data.fIonTemp
    have hp : argon.pP start = 2100 := by
      simp [Data.pP, Data.fPressure, Data.pTot, Data.fTotalDensity, start, argon, consts, Fin.sum_univ_three]
      norm_num
    rw [hp, if_pos (by norm_num [Data.mtorr])]
    norm_num [argon, consts, Data.mtorr]
  refine ⟨_, ?_, ((argon.ambipolar_bounds start_nonneg (by rw [start_pNe]; norm_num) rfl ?_ rfl ?_).2.2 ?_)⟩
  · exact div_nonneg (Finset.sum_nonneg fun i _ => Data.free_nonneg physical start_nonneg hw i) (Nat.cast_nonneg _)
  · exact div_nonneg (Finset.sum_nonneg fun i _ => Data.free_nonneg physical start_nonneg hw i) (Nat.cast_nonneg _)
  · have e1 : argon.C.e = 1 := rfl
    have e2 : argon.C.kB = 1 := rfl
    rw [e1, e2, mul_one, one_mul, one_le_div hti]
    linarith
  · intro i hi
    exfalso
    revert hi
    fin_cases i <;> norm_num [argon]

end Demo
end Verif.Pygmol
