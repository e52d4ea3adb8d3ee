/-
Properties C27-C31 and C59, C60 of the right-hand side, and the positivity of exact solutions.
-/
import Verif.Pygmol.EqnsPure
import Mathlib.Analysis.Calculus.Deriv.Basic
import Mathlib.Topology.Order.IntermediateValue
import Mathlib.Algebra.BigOperators.Field
import Mathlib.Tactic.Positivity
import Mathlib.Tactic.Linarith
import Mathlib.Tactic.FieldSimp
import Mathlib.Tactic.NormNum

namespace Verif.Pygmol
open Finset
namespace Data
variable {ns nr : ℕ} (D : Data ns nr)

/-! ### hypotheses -/

/-- What the constructors of species, reactions and model parameters guarantee about the data, together
with the sign of the stoichiometric coefficients. -/
structure Physical : Prop where
  tempG : 0 < D.tempG
  r : 0 < D.r
  z : 0 < D.z
  p0 : 0 < D.p0
  mass : ∀ i, 0 < D.mass i
  stick : ∀ i, 0 ≤ D.stick i
  feed : ∀ i, 0 ≤ D.feed i
  ret : ∀ i k, 0 ≤ D.ret i k
  arrhA : ∀ j, 0 ≤ D.arrhA j
  lhs : ∀ j i, 0 ≤ D.lhs j i
  /-- the net coefficient is a non-negative one minus the left-hand one -/
  net : ∀ j i, -D.lhs j i ≤ D.net j i

/-- Coulomb collisions are weak: no pair of ions comes as close as twice the Debye length. Otherwise the
logarithm in the cross section is negative. -/
def WeakCoupling (y : Y ns) : Prop :=
  ∀ i k, i ≠ k → ¬ D.neu i → ¬ D.neu k → D.fB0 (D.pV y) i k ≤ 2 * D.pDebye y

/-- None of the denominators that depend on the state vanishes, so that numpy computes numbers. -/
structure Regular (y : Y ns) : Prop where
  nE : D.pNe y ≠ 0
  neutrals : ∑ i ∈ univ.filter D.neu, y.n i ≠ 0
  mfp : ∀ i, ∑ k, y.n k * D.pSigma y i k ≠ 0
  posIon : ∃ i, D.pos i
  wall : D.thermalFlux = true → ∀ i, D.stick i * D.diffL + 4 * D.pDiff y i / D.pV y i ≠ 0

/-! ### C30 minimum-density correction -/

/-- **C30.** -/
theorem min_n_correction (y : Y ns) (i : Fin ns) :
    (1 ≤ y.n i → getMinNCorrection y none i = 0) ∧ (y.n i < 1 → 0 < getMinNCorrection y none i) ∧
    (y.n i ≤ 0 → 1e10 ≤ getMinNCorrection y none i) := by
  refine ⟨fun h => ?_, fun h => ?_, fun h => ?_⟩
  · exact if_neg (not_lt.2 h)
  · have : getMinNCorrection y none i = (1 - y.n i) / 1e-10 := if_pos h
    rw [this]
    have : 0 < 1 - y.n i := by linarith
    positivity
  · have : getMinNCorrection y none i = (1 - y.n i) / 1e-10 := if_pos (show y.n i < 1 by linarith)
    rw [this, le_div_iff₀ (by norm_num)]
    norm_num; linarith

/-- **C30**, electron energy. -/
theorem min_rho_correction (y : Y ns) :
    (1 ≤ y.rho → getMinRhoCorrection y none = 0) ∧ (y.rho < 1 → 0 < getMinRhoCorrection y none) := by
  refine ⟨fun h => ?_, fun h => ?_⟩
  · exact if_neg (not_lt.2 h)
  · have : getMinRhoCorrection y none = (1 - y.rho) / 1e-10 := if_pos h
    rw [this]
    have : 0 < 1 - y.rho := by linarith
    positivity

/-! ### C31 electron density, temperatures -/

/-- **C31.** The plasma is neutral: the charge of the heavy species balances the electrons. -/
theorem quasi_neutral (y : Y ns) :
    (∑ i, (D.charge i : ℝ) * y.n i) + (-1) * D.getElectronDensity y none = 0 := by
  have : D.getElectronDensity y none = ∑ i, y.n i * (D.charge i : ℝ) := rfl
  rw [this, neg_one_mul, add_neg_eq_zero]
  exact sum_congr rfl fun i _ => mul_comm _ _

/-- **C31.** The electron temperature is never below the gas temperature (in eV); if it is above, the energy
density is `3/2 n_e T_e`. -/
theorem electron_temperature (y : Y ns) :
    let te := D.getElectronTemperature y none none
    let tg := D.C.kB * D.tempG / D.C.e
    tg ≤ te ∧ (tg < te → D.getElectronDensity y none ≠ 0 →
      y.rho = 3 / 2 * D.getElectronDensity y none * te) ∧
      (y.rho / D.getElectronDensity y none * 2 / 3 ≤ tg → te = tg) := by
  intro te tg
  have htg : tg = D.tempG * D.C.kB / D.C.e := by rw [mul_comm D.tempG]
  have hte : te = max (y.rho / D.getElectronDensity y none * 2 / 3) tg := by rw [htg]; rfl
  refine ⟨hte ▸ le_max_right _ _, fun h hne => ?_, fun h => hte.trans (max_eq_right h)⟩
  have : te = y.rho / D.getElectronDensity y none * 2 / 3 := by
    rcases max_choice (y.rho / D.getElectronDensity y none * 2 / 3) tg with hm | hm
    · rw [hte, hm]
    · rw [hte, hm] at h; exact absurd h (lt_irrefl _)
  rw [this]; field_simp

/-- **C31.** The ion temperature lies between the gas temperature and 0.5 eV (if the gas is colder than
that), falls with pressure and has no jump at 1 mtorr. -/
theorem ion_temperature (hcold : D.tempG ≤ 0.5 * D.C.e / D.C.kB) :
    (∀ p, 0 ≤ p → D.tempG ≤ D.fIonTemp p ∧ D.fIonTemp p ≤ 0.5 * D.C.e / D.C.kB) ∧
    (∀ p q, p ≤ q → D.fIonTemp q ≤ D.fIonTemp p) ∧
    (0.5 * D.C.e / D.C.kB - D.tempG) / (mtorr / mtorr) + D.tempG = D.fIonTemp mtorr := by
  have hm : (0 : ℝ) < mtorr := by unfold mtorr; norm_num
  have hle : ∀ p, D.fIonTemp p ≤ 0.5 * D.C.e / D.C.kB := by
    intro p
    unfold fIonTemp
    by_cases h : p > mtorr
    · rw [if_pos h]
      have h1 : 1 ≤ p / mtorr := by rw [le_div_iff₀ hm]; linarith
      have := div_le_self (sub_nonneg.2 hcold) h1
      linarith
    · rw [if_neg h]
  refine ⟨fun p hp => ⟨?_, hle p⟩, fun p q hpq => ?_, ?_⟩
  · unfold fIonTemp
    by_cases h : p > mtorr
    · rw [if_pos h]
      have : 0 ≤ (0.5 * D.C.e / D.C.kB - D.tempG) / (p / mtorr) :=
        div_nonneg (sub_nonneg.2 hcold) (div_nonneg hp hm.le)
      linarith
    · rw [if_neg h]; exact hcold
  · by_cases h : p > mtorr
    · have h' : q > mtorr := lt_of_lt_of_le h hpq
      unfold fIonTemp
      rw [if_pos h, if_pos h']
      have h0 : 0 < p / mtorr := div_pos (hm.trans h) hm
      have h1 : p / mtorr ≤ q / mtorr := div_le_div_of_nonneg_right hpq hm.le
      have := div_le_div_of_nonneg_left (sub_nonneg.2 hcold) h0 h1
      linarith
    · have : D.fIonTemp p = 0.5 * D.C.e / D.C.kB := if_neg h
      rw [this]; exact hle q
  · rw [div_self hm.ne']
    have : D.fIonTemp mtorr = 0.5 * D.C.e / D.C.kB := if_neg (lt_irrefl _)
    rw [this]; ring

/-! ### C27 flow -/

theorem sum_filter_neu (f : Fin ns → ℝ) : (∑ i, if D.neu i then f i else 0) = ∑ i ∈ univ.filter D.neu, f i :=
  (sum_filter _ _).symm

/-- **C27.** The feed is balanced by the outflow: the total flow is the pressure regulation, which acts on
the neutral species and vanishes at the set pressure. -/
theorem flow_total (y : Y ns) (hn : ∑ i ∈ univ.filter D.neu, y.n i ≠ 0) :
    ∑ i, D.getFlowSourceRates y none none i =
      -((∑ i ∈ univ.filter D.neu, y.n i) / 1e-3 * (D.getTotalPressure y none - D.p0) / D.p0) := by
  have hf : ∀ i, D.getFlowSourceRates y none none i =
      (if D.neu i then -(y.n i * (1 / 1e-3) * (D.pP y - D.p0) / D.p0) else 0)
      + D.feed i * 4.485e17 / D.volume
      - (if D.neu i then (∑ k, D.feed k * 4.485e17 / D.volume) * y.n i / (∑ k ∈ univ.filter D.neu, y.n k)
         else 0) := fun _ => rfl
  have hp : D.getTotalPressure y none = D.pP y := rfl
  rw [hp]
  simp only [hf, sum_sub_distrib, sum_add_distrib]
  rw [D.sum_filter_neu, D.sum_filter_neu]
  have h2 : ∑ i ∈ univ.filter D.neu, (∑ k, D.feed k * 4.485e17 / D.volume) * y.n i /
      (∑ k ∈ univ.filter D.neu, y.n k) = ∑ k, D.feed k * 4.485e17 / D.volume := by
    rw [← sum_div, ← mul_sum, mul_div_assoc, div_self hn, mul_one]
  rw [h2, add_sub_cancel_right, sum_neg_distrib, ← sum_div, ← sum_mul, ← sum_mul]
  ring

/-- **C27.** At the set pressure there is no net flow, above it particles leave, below it they enter. -/
theorem flow_sign (hp0 : 0 < D.p0) (y : Y ns) (hn : 0 < ∑ i ∈ univ.filter D.neu, y.n i) :
    (D.getTotalPressure y none = D.p0 → ∑ i, D.getFlowSourceRates y none none i = 0) ∧
    (D.p0 < D.getTotalPressure y none → ∑ i, D.getFlowSourceRates y none none i < 0) ∧
    (D.getTotalPressure y none < D.p0 → 0 < ∑ i, D.getFlowSourceRates y none none i) := by
  rw [D.flow_total y hn.ne']
  refine ⟨fun h => by rw [h]; simp, fun h => ?_, fun h => ?_⟩
  · have : 0 < D.getTotalPressure y none - D.p0 := by linarith
    rw [neg_lt_zero]; positivity
  · have : 0 < D.p0 - D.getTotalPressure y none := by linarith
    have h2 : 0 < (∑ i ∈ univ.filter D.neu, y.n i) / 1e-3 * (D.p0 - D.getTotalPressure y none) / D.p0 := by
      positivity
    have h3 : (∑ i ∈ univ.filter D.neu, y.n i) / 1e-3 * (D.p0 - D.getTotalPressure y none) / D.p0 =
        -((∑ i ∈ univ.filter D.neu, y.n i) / 1e-3 * (D.getTotalPressure y none - D.p0) / D.p0) := by ring
    rw [← h3]; exact h2

/-- **C27.** One rate for all: neutral species without feed are pumped in proportion to their density, with
a common factor that is not negative at or above the set pressure; ions without feed do not flow. -/
theorem flow_unfed (hph : D.Physical) (y : Y ns) (hn : 0 < ∑ i ∈ univ.filter D.neu, y.n i) :
    ∃ κ : ℝ, (D.p0 ≤ D.getTotalPressure y none → 0 ≤ κ) ∧
      ∀ i, D.feed i = 0 → D.getFlowSourceRates y none none i = if D.charge i = 0 then -κ * y.n i else 0 := by
  have hV : 0 < D.volume := by
    have := hph.r; have := hph.z; unfold volume; positivity
  refine ⟨(1 / 1e-3) * (D.pP y - D.p0) / D.p0 +
    (∑ k, D.feed k * 4.485e17 / D.volume) / (∑ k ∈ univ.filter D.neu, y.n k), fun h => ?_, fun i hi => ?_⟩
  · have h1 : 0 ≤ D.pP y - D.p0 := sub_nonneg.2 h
    have h2 : 0 ≤ ∑ k, D.feed k * 4.485e17 / D.volume := sum_nonneg fun k _ => by
      have := hph.feed k; positivity
    have := hph.p0
    positivity
  · have hf : D.getFlowSourceRates y none none i =
      (if D.neu i then -(y.n i * (1 / 1e-3) * (D.pP y - D.p0) / D.p0) else 0)
      + D.feed i * 4.485e17 / D.volume
      - (if D.neu i then (∑ k, D.feed k * 4.485e17 / D.volume) * y.n i / (∑ k ∈ univ.filter D.neu, y.n k)
         else 0) := rfl
    rw [hf, hi]
    by_cases hc : D.charge i = 0
    · rw [if_pos (show D.neu i from hc), if_pos (show D.neu i from hc), if_pos hc]; ring
    · rw [if_neg (show ¬ D.neu i from hc), if_neg (show ¬ D.neu i from hc), if_neg hc]; ring

/-! ### signs of the physical quantities -/

section signs
variable {D} (hph : D.Physical) {y : Y ns} (hn : ∀ i, 0 ≤ y.n i) (hne : 0 < D.pNe y)
include hph

theorem volume_pos : 0 < D.volume := by
  have := hph.r; have := hph.z; unfold volume; positivity
theorem area_pos : 0 < D.area := by
  have := hph.r; have := hph.z; unfold area; positivity
theorem diffL_pos : 0 < D.diffL := by
  have := hph.r; have := hph.z; unfold diffL; positivity

theorem te_pos : 0 < D.pTe y := by
  have := hph.tempG; have := D.C.kB_pos; have := D.C.e_pos
  refine lt_of_lt_of_le ?_ (le_max_right _ _)
  positivity

theorem ti_pos : 0 < D.pTi y := by
  have hT := hph.tempG; have hk := D.C.kB_pos; have he := D.C.e_pos
  have hm : (0 : ℝ) < mtorr := by unfold mtorr; norm_num
  have h5 : 0 < 0.5 * D.C.e / D.C.kB := by positivity
  unfold pTi fIonTemp
  by_cases h : D.pP y > mtorr
  · rw [if_pos h]
    have h1 : 1 < D.pP y / mtorr := by rw [lt_div_iff₀ hm]; linarith
    have h2 : (0.5 * D.C.e / D.C.kB - D.tempG) / (D.pP y / mtorr) + D.tempG =
        (0.5 * D.C.e / D.C.kB) / (D.pP y / mtorr) + D.tempG * (1 - 1 / (D.pP y / mtorr)) := by ring
    rw [h2]
    have h3 : 0 < 1 - 1 / (D.pP y / mtorr) := by
      rw [sub_pos, div_lt_one (by linarith)]; exact h1
    have h4 : 0 < D.pP y / mtorr := by linarith
    positivity
  · rw [if_neg h]; exact h5

theorem v_pos (i : Fin ns) : 0 < D.pV y i := by
  have := hph.tempG; have := D.C.kB_pos; have := hph.mass i; have := ti_pos (y := y) hph
  unfold pV fSpeed
  split_ifs <;> positivity

theorem b0_pos {i k : Fin ns} (hi : ¬ D.neu i) (hk : ¬ D.neu k) : 0 < D.fB0 (D.pV y) i k := by
  have := D.C.e_pos; have := D.C.eps0_pos; have := hph.mass i; have := hph.mass k
  have := v_pos (y := y) hph i
  have h1 : 0 < |(D.charge i : ℝ) * (D.charge k : ℝ)| := by
    rw [abs_pos]
    exact mul_ne_zero (Int.cast_ne_zero.2 hi) (Int.cast_ne_zero.2 hk)
  unfold fB0 reducedMass
  positivity

theorem sigma_nonneg (hw : D.WeakCoupling y) (i k : Fin ns) : 0 ≤ D.pSigma y i k := by
  unfold pSigma
  by_cases hik : i = k
  · rw [if_pos hik]
  rw [if_neg hik]
  by_cases hc : ¬ D.neu i ∧ ¬ D.neu k
  · rw [if_pos hc]
    have hb := b0_pos (y := y) hph hc.1 hc.2
    have := hw i k hik hc.1 hc.2
    have h1 : 0 ≤ Real.log (2 * D.pDebye y / D.fB0 (D.pV y) i k) :=
      Real.log_nonneg (by rw [le_div_iff₀ hb]; linarith)
    have := Real.pi_pos
    unfold fSigmaIon
    positivity
  · rw [if_neg hc]
    exact sq_nonneg _

include hn in
theorem free_nonneg (hw : D.WeakCoupling y) (i : Fin ns) : 0 ≤ D.pFree y i := by
  have h1 : 0 ≤ D.pMfp y i := by
    unfold pMfp fMfp
    exact div_nonneg zero_le_one (sum_nonneg fun k _ => mul_nonneg (hn k) (sigma_nonneg hph hw i k))
  have := v_pos (y := y) hph i
  have := Real.pi_pos
  unfold pFree fFree
  positivity

include hn hne in
theorem amb_nonneg (hw : D.WeakCoupling y) : 0 ≤ D.pAmb y := by
  have h1 := te_pos (y := y) hph; have h2 := ti_pos (y := y) hph
  have h3 := D.C.kB_pos; have h4 := D.C.e_pos
  have h5 : 0 ≤ (∑ i ∈ univ.filter D.neg, y.n i) / D.pNe y :=
    div_nonneg (sum_nonneg fun i _ => hn i) hne.le
  have h6 : 0 ≤ (∑ i ∈ univ.filter D.pos, D.pFree y i) / ((univ.filter D.pos).card : ℝ) :=
    div_nonneg (sum_nonneg fun i _ => free_nonneg hph hn hw i) (Nat.cast_nonneg _)
  have h7 : 0 < D.pTe y * D.C.e / D.C.kB / D.pTi y := by positivity
  unfold pAmb fAmbPos
  positivity

include hn hne in
theorem diff_nonneg (hw : D.WeakCoupling y) (i : Fin ns) : 0 ≤ D.pDiff y i := by
  unfold pDiff fDiff fAmbNeg
  split_ifs
  · exact amb_nonneg hph hn hne hw
  · exact le_refl _
  · exact free_nonneg hph hn hw i

include hn in
/-- wall fluxes point outwards if the diffusivities are not negative -/
theorem wall_nonpos (hd : ∀ i, 0 ≤ D.pDiff y i) (i : Fin ns) : D.pWall y i ≤ 0 := by
  have h1 := hd i; have h2 := hn i; have h3 := hph.stick i; have h4 := v_pos (y := y) hph i
  have h5 := diffL_pos hph; have h6 := volume_pos hph; have h7 := area_pos hph
  unfold pWall fWall
  split_ifs
  · have : 0 ≤ D.pDiff y i * y.n i * D.stick i / (D.stick i * D.diffL + 4 * D.pDiff y i / D.pV y i) := by
      positivity
    have h8 : -D.pDiff y i * y.n i * D.stick i / (D.stick i * D.diffL + 4 * D.pDiff y i / D.pV y i) =
      -(D.pDiff y i * y.n i * D.stick i / (D.stick i * D.diffL + 4 * D.pDiff y i / D.pV y i)) := by ring
    rw [h8]; linarith
  · have : 0 ≤ D.pDiff y i * y.n i * D.stick i / D.diffL ^ 2 * D.volume / D.area := by positivity
    have h8 : -D.pDiff y i * y.n i * D.stick i / D.diffL ^ 2 * D.volume / D.area =
      -(D.pDiff y i * y.n i * D.stick i / D.diffL ^ 2 * D.volume / D.area) := by ring
    rw [h8]; linarith

include hn in
theorem sinks_nonpos (hd : ∀ i, 0 ≤ D.pDiff y i) (i : Fin ns) : D.pSinks y i ≤ 0 := by
  have h6 := volume_pos hph; have h7 := area_pos hph
  exact div_nonpos_of_nonpos_of_nonneg (mul_nonpos_of_nonpos_of_nonneg (wall_nonpos hph hn hd i) h7.le) h6.le

theorem k_nonneg (j : Fin nr) : 0 ≤ D.pK y j := by
  have h1 := te_pos (y := y) hph; have h2 := hph.arrhA j; have h3 := hph.tempG
  unfold pK fRateElectron fRateHeavy
  split_ifs <;> positivity

include hn hne in
theorem rates_nonneg (j : Fin nr) : 0 ≤ D.pRates y j := by
  have h1 := k_nonneg (y := y) hph j
  have h2 : 0 ≤ ∏ i, y.n i ^ D.lhs j i := prod_nonneg fun i _ => zpow_nonneg (hn i) _
  have h3 : 0 ≤ pTot y := by
    unfold pTot fTotalDensity
    exact sum_nonneg fun i _ => hn i
  unfold pRates fRates
  exact mul_nonneg h1 (mul_nonneg (mul_nonneg (zpow_nonneg hne.le _) h2) (zpow_nonneg h3 _))

omit hph in
/-- a reaction does not run without its reactants -/
theorem rates_zero {i : Fin ns} (hi : y.n i = 0) {j : Fin nr} (hl : 0 < D.lhs j i) : D.pRates y j = 0 := by
  have : ∏ k, y.n k ^ D.lhs j k = 0 :=
    prod_eq_zero (mem_univ i) (by rw [hi, zero_zpow _ hl.ne'])
  unfold pRates fRates
  rw [this]; ring

end signs

/-! ### C28 wall -/

/-- **C28.** The surface only removes what sticks: every diffusion sink is non-positive, for non-negative
densities and weak Coulomb coupling. -/
theorem diffusion_sinks_nonpos (hph : D.Physical) {y : Y ns} (hn : ∀ i, 0 ≤ y.n i)
    (hne : 0 < D.getElectronDensity y none) (hw : D.WeakCoupling y) (junk : Cache ns nr)
    (calls : List (Call ns nr)) (i : Fin ns) :
    ((D.getDiffusionSinks y none).run (D.history junk calls)).1 i ≤ 0 := by
  rw [(D.gives_sinks y _ (D.valid_history junk calls)).1]
  exact sinks_nonpos hph hn (diff_nonneg hph hn hne hw) i

theorem sinks_zero_of_stick {y : Y ns} {i : Fin ns} (h : D.stick i = 0) : D.pSinks y i = 0 := by
  unfold pSinks fSinks pWall fWall
  rw [h]; simp

/-- **C28.** Weighted by any quantity `w` (the number of atoms of an element, the mass), sinks plus returned
sources vanish in total if what each sticking species returns carries as much of the quantity as the
species itself. -/
theorem wall_conserves (w : Fin ns → ℝ) (y : Y ns)
    (hret : ∀ k, D.stick k ≠ 0 → ∑ i, D.ret i k * w i = w k) (junk : Cache ns nr)
    (calls : List (Call ns nr)) :
    ∑ i, w i * ((D.getDiffusionSourceRates y none none).run (D.history junk calls)).1 i = 0 := by
  rw [(D.gives_src y _ (D.valid_history junk calls)).1]
  have h1 : ∀ i, w i * D.pSrc y i = w i * D.pSinks y i + ∑ k, -(D.pSinks y k * (D.ret i k * w i)) := by
    intro i
    have : D.pSrc y i = D.pSinks y i + ∑ k, -D.pSinks y k * D.ret i k := rfl
    rw [this, mul_add, mul_sum]
    congr 1
    exact sum_congr rfl fun k _ => by ring
  simp only [h1, sum_add_distrib]
  rw [sum_comm, ← sum_add_distrib]
  refine sum_eq_zero fun k _ => ?_
  rw [sum_neg_distrib, ← mul_sum]
  by_cases hk : D.stick k = 0
  · rw [D.sinks_zero_of_stick hk]; ring
  · rw [hret k hk]; ring

/-- **C28.** More generally the wall removes exactly the part of the quantity that is not returned. -/
theorem wall_balance (w : Fin ns → ℝ) (y : Y ns) (junk : Cache ns nr) (calls : List (Call ns nr)) :
    let c := D.history junk calls
    ∑ i, w i * ((D.getDiffusionSourceRates y none none).run c).1 i =
      ∑ k, (w k - ∑ i, D.ret i k * w i) * ((D.getDiffusionSinks y none).run c).1 k := by
  intro c
  rw [(D.gives_src y _ (D.valid_history junk calls)).1, (D.gives_sinks y _ (D.valid_history junk calls)).1]
  have h1 : ∀ i, w i * D.pSrc y i = w i * D.pSinks y i + ∑ k, -(D.pSinks y k * (D.ret i k * w i)) := by
    intro i
    have : D.pSrc y i = D.pSinks y i + ∑ k, -D.pSinks y k * D.ret i k := rfl
    rw [this, mul_add, mul_sum]
    congr 1
    exact sum_congr rfl fun k _ => by ring
  simp only [h1, sum_add_distrib]
  rw [sum_comm, ← sum_add_distrib]
  refine sum_congr rfl fun k _ => ?_
  rw [sum_neg_distrib, ← mul_sum]
  ring

/-- Finding: with the default diffusion model the wall flux of a negative ion that does not stick is 0/0 in
every state, since the ambipolar diffusivity of negative ions is 0. -/
theorem negative_ion_wall_undefined (hm : D.thermalFlux = true) {i : Fin ns} (hi : D.charge i < 0)
    (hs : D.stick i = 0) (y : Y ns) : ¬ D.Regular y := by
  intro h
  refine h.wall hm i ?_
  have : D.pDiff y i = 0 := by
    unfold pDiff fDiff fAmbNeg
    rw [if_neg (show ¬ D.pos i from not_lt.2 hi.le), if_pos (show D.neg i from hi)]
  rw [this, hs]; simp

/-! ### C29 positivity -/

theorem dn_at_zero (hph : D.Physical) {y : Y ns} (hn : ∀ i, 0 ≤ y.n i) (hne : 0 < D.pNe y)
    (hd : ∀ i, 0 ≤ D.pDiff y i) {i : Fin ns} (hi : y.n i = 0) : 1e10 ≤ D.pDn y i := by
  have hvol : 0 ≤ D.pVol y i := by
    unfold pVol fVol
    refine sum_nonneg fun j _ => ?_
    by_cases hl : 0 < D.lhs j i
    · rw [rates_zero hi hl]; simp
    · have h1 := hph.net j i
      have h2 : 0 ≤ D.net j i := by omega
      exact mul_nonneg (by exact_mod_cast h2) (rates_nonneg hph hn hne j)
  have hV := volume_pos hph
  have hflow : 0 ≤ D.pFlow y i := by
    have := hph.feed i
    have h0 : 0 ≤ D.feed i * 4.485e17 / D.volume := by positivity
    unfold pFlow fFlow
    rw [hi]
    simpa using h0
  have hsink : D.pSinks y i = 0 := by
    unfold pSinks fSinks pWall fWall
    rw [hi]; simp
  have hsrc : 0 ≤ D.pSrc y i := by
    have : D.pSrc y i = D.pSinks y i + ∑ k, -D.pSinks y k * D.ret i k := rfl
    rw [this, hsink, zero_add]
    exact sum_nonneg fun k _ => mul_nonneg (neg_nonneg.2 (sinks_nonpos hph hn hd k)) (hph.ret i k)
  have hmin : 1e10 ≤ fMinN y.n i := (min_n_correction y i).2.2 hi.le
  have : D.pDn y i = D.pVol y i + D.pFlow y i + D.pSrc y i + fMinN y.n i := rfl
  rw [this]; linarith

/-- **C29.** In a state with non-negative densities, a species that is absent is produced: its time
derivative is at least 1e10, and so positive. `Regular` says that numpy computes numbers; it is not used by
the proof, since division by 0 yields 0 in Lean. -/
theorem absent_species_grows (hph : D.Physical) {y : Y ns} (hn : ∀ i, 0 ≤ y.n i)
    (hne : 0 < D.getElectronDensity y none) (hw : D.WeakCoupling y) (_hreg : D.Regular y)
    (junk : Cache ns nr) (calls : List (Call ns nr)) (t : ℝ) {i : Fin ns} (hi : y.n i = 0) :
    1e10 ≤ ((D.objective t y).run (D.history junk calls)).1.n i := by
  rw [D.objective_history_independent]
  exact D.dn_at_zero hph hn hne (diff_nonneg hph hn hne hw) hi

/-- Functions that start positive and grow wherever they vanish (while the others are not negative) stay positive. -/
theorem stays_positive {ns : ℕ} (T : ℝ) (y g : ℝ → Fin ns → ℝ)
    (hsol : ∀ i, ∀ t ∈ Set.Icc 0 T, HasDerivWithinAt (fun s => y s i) (g t i) (Set.Icc 0 T) t)
    (h0 : ∀ i, 0 < y 0 i)
    (hgrow : ∀ t ∈ Set.Icc 0 T, (∀ i, 0 ≤ y t i) → ∀ i, y t i = 0 → 0 < g t i) :
    ∀ t ∈ Set.Icc 0 T, ∀ i, 0 < y t i := by
  by_contra hcon
  push Not at hcon
  obtain ⟨t1, ht1, i1, hi1⟩ := hcon
  have hcont : ∀ i, ContinuousOn (fun s => y s i) (Set.Icc 0 T) :=
    fun i t ht => (hsol i t ht).continuousWithinAt
  -- the set of times at which some density has vanished
  let S : Set ℝ := {t ∈ Set.Icc 0 T | ∃ i, y t i ≤ 0}
  have hS : S = ⋃ i, (Set.Icc 0 T ∩ (fun s => y s i) ⁻¹' Set.Iic 0) := by
    ext t
    simp only [S, Set.mem_ofPred_eq, Set.mem_iUnion, Set.mem_inter_iff, Set.mem_preimage, Set.mem_Iic]
    constructor
    · rintro ⟨h, i, hi⟩; exact ⟨i, h, hi⟩
    · rintro ⟨i, h, hi⟩; exact ⟨h, i, hi⟩
  have hclosed : IsClosed S := by
    rw [hS]
    exact isClosed_iUnion_of_finite fun i => (hcont i).preimage_isClosed_of_isClosed isClosed_Icc isClosed_Iic
  have hne : S.Nonempty := ⟨t1, ht1, i1, hi1⟩
  have hbdd : BddBelow S := ⟨0, fun t ht => ht.1.1⟩
  have hmem := hclosed.csInf_mem hne hbdd
  set t0 := sInf S with ht0
  obtain ⟨ht0I, i0, hi0⟩ := hmem
  have hbefore : ∀ t, 0 ≤ t → t < t0 → ∀ i, 0 < y t i := by
    intro t h1 h2 i
    by_contra hc
    exact absurd (csInf_le hbdd (show t ∈ S from ⟨⟨h1, h2.le.trans ht0I.2⟩, i, not_lt.1 hc⟩)) (not_le.2 h2)
  have ht0pos : 0 < t0 := by
    rcases ht0I.1.lt_or_eq with h | h
    · exact h
    · rw [← h] at hi0; exact absurd (h0 i0) (not_lt.2 hi0)
  -- all densities are non-negative at that time
  have hnn : ∀ i, 0 ≤ y t0 i := by
    intro i
    by_contra hc
    have hc : y t0 i < 0 := not_le.1 hc
    have hlim := (hcont i t0 ht0I).mono (Set.Ico_subset_Icc_self.trans
      (Set.Icc_subset_Icc_right ht0I.2) : Set.Ico 0 t0 ⊆ Set.Icc 0 T)
    have : (nhdsWithin t0 (Set.Ico 0 t0)).NeBot := by
      rw [← mem_closure_iff_nhdsWithin_neBot, closure_Ico ht0pos.ne]
      exact ⟨ht0pos.le, le_rfl⟩
    have : 0 ≤ y t0 i := ge_of_tendsto hlim (by
      filter_upwards [self_mem_nhdsWithin] with s hs
      exact (hbefore s hs.1 hs.2 i).le)
    linarith
  have hz : y t0 i0 = 0 := le_antisymm hi0 (hnn i0)
  have hpos : 0 < g t0 i0 := hgrow t0 ht0I hnn i0 hz
  -- but the density comes down to 0 from positive values
  have hder := (hsol i0 t0 ht0I).mono (Set.Ico_subset_Icc_self.trans
      (Set.Icc_subset_Icc_right ht0I.2) : Set.Ico 0 t0 ⊆ Set.Icc 0 T)
  rw [hasDerivWithinAt_iff_tendsto_slope] at hder
  have hsub : Set.Ico 0 t0 \ {t0} = Set.Ico 0 t0 := by
    ext s; simp only [Set.mem_sdiff, Set.mem_singleton_iff]
    exact ⟨fun h => h.1, fun h => ⟨h, h.2.ne⟩⟩
  rw [hsub] at hder
  have : (nhdsWithin t0 (Set.Ico 0 t0)).NeBot := by
    rw [← mem_closure_iff_nhdsWithin_neBot, closure_Ico ht0pos.ne]
    exact ⟨ht0pos.le, le_rfl⟩
  have hle : g t0 i0 ≤ 0 := le_of_tendsto hder (by
    filter_upwards [self_mem_nhdsWithin] with s hs
    rw [slope_def_field, hz]
    have h1 := hbefore s hs.1 hs.2 i0
    exact div_nonpos_of_nonneg_of_nonpos (by linarith) (by linarith [hs.2]))
  linarith

/-- **C29.** Exact solutions stay positive: if the densities are positive at the start and the solution does
not leave the states in which the equations are defined, they are positive at all later times. -/
theorem densities_stay_positive (hph : D.Physical) (T : ℝ) (y : ℝ → Y ns)
    (hsol : ∀ i, ∀ t ∈ Set.Icc 0 T,
      HasDerivWithinAt (fun s => (y s).n i) ((D.rhs t (y t)).n i) (Set.Icc 0 T) t)
    (h0 : ∀ i, 0 < (y 0).n i)
    (hdom : ∀ t ∈ Set.Icc 0 T, 0 < D.getElectronDensity (y t) none ∧ D.WeakCoupling (y t) ∧ D.Regular (y t)) :
    ∀ t ∈ Set.Icc 0 T, ∀ i, 0 < (y t).n i := by
  refine stays_positive T (fun t => (y t).n) (fun t => (D.rhs t (y t)).n) hsol h0 fun t ht hnn i hz => ?_
  obtain ⟨hne0, hw0, -⟩ := hdom t ht
  have hpos : 1e10 ≤ (D.rhs t (y t)).n i :=
    D.dn_at_zero hph hnn hne0 (diff_nonneg hph hnn hne0 hw0) hz
  norm_num at hpos
  linarith

/-! ### C59 balances, C60 energy -/

/-- Weighted by any quantity, the volumetric sources are the weighted net coefficients times the rates. -/
theorem vol_weighted (w : Fin ns → ℝ) (rates : Fin nr → ℝ) :
    ∑ i, w i * D.fVol rates i = ∑ j, (∑ i, (D.net j i : ℝ) * w i) * rates j := by
  have : ∀ i, w i * D.fVol rates i = ∑ j, (D.net j i : ℝ) * w i * rates j := by
    intro i
    unfold fVol
    rw [mul_sum]
    exact sum_congr rfl fun j _ => by ring
  simp only [this]
  rw [sum_comm]
  exact sum_congr rfl fun j _ => (sum_mul _ _ _).symm

/-- **C60.** Elastic collisions never heat the electrons: they are at least as hot as the gas. -/
theorem elastic_loss_nonneg (hph : D.Physical) (y : Y ns) (junk : Cache ns nr) (calls : List (Call ns nr))
    {j : Fin nr} (hj : 0 < D.eLhs j) (hel : D.elastic j = true) :
    0 ≤ ((D.getElEnLosses y none).run (D.history junk calls)).1 j := by
  rw [(D.gives_losses y _ (D.valid_history junk calls)).1]
  have : D.pLoss y j = D.fElasticLoss (D.pTe y) j := if_pos ⟨hj, hel⟩
  rw [this]
  have h1 : D.tempG * D.C.kB / D.C.e ≤ D.pTe y := le_max_right _ _
  have h2 : 0 ≤ D.partnerMass j := by
    unfold partnerMass
    split_ifs
    · split
      · exact (hph.mass _).le
      · exact le_refl _
    · exact le_refl _
  have h3 := D.C.mE_pos
  have h4 : 0 ≤ D.pTe y - D.tempG * D.C.kB / D.C.e := sub_nonneg.2 h1
  unfold fElasticLoss
  positivity

end Data
end Verif.Pygmol
