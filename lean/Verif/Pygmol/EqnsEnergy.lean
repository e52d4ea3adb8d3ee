/-
Property C62: the electron energy budget.
-/
import Verif.Pygmol.EqnsReg

namespace Verif.Pygmol
open Finset
namespace Data
variable {ns nr : ℕ} (D : Data ns nr)

/-- the wall gives back neutral species only -/
def NeutralReturn : Prop := ∀ i k, D.charge i ≠ 0 → D.ret i k = 0

section
variable {D} {y : Y ns}

theorem src_ion (hr : D.NeutralReturn) {i : Fin ns} (hi : D.charge i ≠ 0) : D.pSrc y i = D.pSinks y i := by
  have : D.pSrc y i = D.pSinks y i + ∑ k, -D.pSinks y k * D.ret i k := rfl
  rw [this]
  simp [hr i _ hi]

theorem sinks_negative {i : Fin ns} (hi : D.charge i < 0) : D.pSinks y i = 0 := by
  have : D.pDiff y i = 0 := by
    unfold pDiff fDiff fAmbNeg
    rw [if_neg (show ¬ D.pos i from not_lt.2 hi.le), if_pos (show D.neg i from hi)]
  unfold pSinks fSinks pWall fWall
  rw [this]; simp

theorem charge_src_nonpos (hph : D.Physical) (hn : ∀ i, 0 ≤ y.n i) (hne : 0 < D.pNe y)
    (hw : D.WeakCoupling y) (hr : D.NeutralReturn) (i : Fin ns) : (D.charge i : ℝ) * D.pSrc y i ≤ 0 := by
  rcases lt_trichotomy (D.charge i) 0 with h | h | h
  · rw [src_ion hr h.ne, sinks_negative h]; simp
  · rw [h]; simp
  · rw [src_ion hr h.ne']
    exact mul_nonpos_of_nonneg_of_nonpos (by exact_mod_cast h.le)
      (sinks_nonpos hph hn (diff_nonneg hph hn hne hw) i)

end

/-- **C62.** Walls never heat the electrons: if the wall returns neutral species only and the positive ions
are (in the mean) at least 2π times as heavy as electrons, both wall terms of the energy equation, which are
subtracted, are non-negative. -/
theorem wall_energy_losses_nonneg (hph : D.Physical) {y : Y ns} (hn : ∀ i, 0 ≤ y.n i)
    (hne : 0 < D.getElectronDensity y none) (hw : D.WeakCoupling y) (hr : D.NeutralReturn)
    (hm : ∀ i, 0 < D.charge i → 2 * Real.pi * D.C.mE ≤ D.mass i) (hpos : ∃ i, 0 < D.charge i)
    (junk : Cache ns nr) (calls : List (Call ns nr)) :
    let c := D.history junk calls
    0 ≤ ((D.getDrhoElWalls y none none).run c).1 ∧ 0 ≤ ((D.getDrhoIonsWalls y none none none).run c).1 := by
  intro c
  have hv := D.valid_history junk calls
  rw [(D.gives_elWalls y _ hv).1, (D.gives_ionsWalls y _ hv).1]
  have hte := te_pos (y := y) hph
  have hsrc := charge_src_nonpos hph hn hne hw hr
  constructor
  · have h1 : ∑ i, (D.charge i : ℝ) * D.pSrc y i ≤ 0 := sum_nonpos fun i _ => hsrc i
    have : D.pElWalls y = 2 * D.pTe y * -(∑ i, (D.charge i : ℝ) * D.pSrc y i) := by
      unfold pElWalls fElWalls; ring
    rw [this]
    exact mul_nonneg (by positivity) (by linarith)
  · have h1 : ∑ i ∈ univ.filter D.pos, D.pSrc y i ≤ 0 := sum_nonpos fun i hi => by
      have hi' : 0 < D.charge i := (mem_filter.1 hi).2
      rw [src_ion hr hi'.ne']
      exact sinks_nonpos hph hn (diff_nonneg hph hn hne hw) i
    have h2 : ∑ i ∈ univ.filter D.pos, (D.charge i : ℝ) * D.pSrc y i ≤ 0 := sum_nonpos fun i _ => hsrc i
    have hsh : 0 ≤ D.sheathFactor := by
      refine Real.log_nonneg ?_
      rw [Real.one_le_sqrt]
      obtain ⟨i, hi⟩ := hpos
      have hmem : i ∈ univ.filter D.pos := mem_filter.2 ⟨mem_univ i, hi⟩
      have hcard : 0 < ((univ.filter D.pos).card : ℝ) := Nat.cast_pos.2 (card_pos.2 ⟨i, hmem⟩)
      have hpi := Real.pi_pos; have hmE := D.C.mE_pos
      rw [one_le_div (by positivity)]
      unfold meanIonMass
      rw [le_div_iff₀ hcard]
      calc 2 * Real.pi * D.C.mE * ((univ.filter D.pos).card : ℝ)
          = ∑ i ∈ univ.filter D.pos, 2 * Real.pi * D.C.mE := by rw [sum_const, nsmul_eq_mul]; ring
        _ ≤ _ := sum_le_sum fun i hi => hm i (mem_filter.1 hi).2
    have : D.pIonsWalls y = 0.5 * D.pTe y * -(∑ i ∈ univ.filter D.pos, D.pSrc y i) +
        D.pTe y * D.sheathFactor * -(∑ i ∈ univ.filter D.pos, (D.charge i : ℝ) * D.pSrc y i) := by
      unfold pIonsWalls fIonsWalls fSheath; ring
    rw [this]
    exact add_nonneg (mul_nonneg (by positivity) (by linarith)) (mul_nonneg (by positivity) (by linarith))

/-- **C62.** Only the external power and the volumetric loss of electrons add energy: if the inelastic energy
losses are non-negative, then above the floor the electron energy density grows at most by the power density
minus `3/2 T_e` per electron produced. -/
theorem energy_budget (hph : D.Physical) {y : Y ns} (hn : ∀ i, 0 ≤ y.n i)
    (hne : 0 < D.getElectronDensity y none) (hw : D.WeakCoupling y) (hr : D.NeutralReturn)
    (hm : ∀ i, 0 < D.charge i → 2 * Real.pi * D.C.mE ≤ D.mass i) (hpos : ∃ i, 0 < D.charge i)
    (hloss : ∀ j, 0 ≤ D.enLoss j) (hrho : 1 ≤ y.rho) (t : ℝ)
    (junk : Cache ns nr) (calls : List (Call ns nr)) :
    let c := D.history junk calls
    let rates := ((D.getReactionRates y none none none none).run c).1
    ((D.objective t y).run c).1.rho ≤ D.power t / D.volume / D.C.e
      - 3 / 2 * D.getElectronTemperature y none none * ∑ j, (D.eNet j : ℝ) * rates j := by
  intro c rates
  have hv := D.valid_history junk calls
  obtain ⟨h1, h2⟩ := D.wall_energy_losses_nonneg hph hn hne hw hr hm hpos junk calls
  rw [(D.gives_elWalls y _ hv).1] at h1
  rw [(D.gives_ionsWalls y _ hv).1] at h2
  have e1 : ((D.objective t y).run c).1 = D.rhs t y := D.objective_history_independent junk calls t y
  have e2 : rates = D.pRates y := (D.gives_rates y _ hv).1
  rw [e1, e2]
  have h3 : 0 ≤ D.pElInel y := by
    unfold pElInel fElInel
    refine sum_nonneg fun j hj => mul_nonneg ?_ (rates_nonneg hph hn hne j)
    by_cases hel : D.elastic j = true
    · have := D.elastic_loss_nonneg hph y junk calls (mem_filter.1 hj).2 hel
      rwa [(D.gives_losses y _ hv).1] at this
    · have : D.pLoss y j = D.enLoss j := if_neg fun h => hel h.2
      rw [this]; exact hloss j
  have h4 : fMinRho y.rho = 0 := if_neg (not_lt.2 hrho)
  have h5 : (D.rhs t y).rho = D.fExt (D.power t) - D.pElInel y - D.pGainLoss y - D.pElWalls y
    - D.pIonsWalls y + fMinRho y.rho := rfl
  have h6 : D.pGainLoss y = 3 / 2 * D.getElectronTemperature y none none *
    ∑ j, (D.eNet j : ℝ) * D.pRates y j := rfl
  have h7 : D.fExt (D.power t) = D.power t / D.volume / D.C.e := rfl
  rw [h5, h4, h6, h7]
  linarith

/-- Finding: the term for the creation and destruction of electrons has the opposite sign of what keeps the
temperature when an electron leaves: without power, walls and inelastic losses, reactions that consume
electrons never lower the energy density, and raise it by `3/2 T_e` per consumed electron. -/
theorem attachment_heats {y : Y ns} (hrho : 1 ≤ y.rho) (hstick : ∀ i, D.stick i = 0)
    (hloss : ∀ j, D.enLoss j = 0) (hel : ∀ j, D.elastic j = false) {t : ℝ} (hP : D.power t = 0)
    (junk : Cache ns nr) (calls : List (Call ns nr)) :
    let c := D.history junk calls
    let rates := ((D.getReactionRates y none none none none).run c).1
    ((D.objective t y).run c).1.rho =
      3 / 2 * D.getElectronTemperature y none none * ∑ j, ((-D.eNet j : ℤ) : ℝ) * rates j := by
  intro c rates
  have hv := D.valid_history junk calls
  have e1 : ((D.objective t y).run c).1 = D.rhs t y := D.objective_history_independent junk calls t y
  have e2 : rates = D.pRates y := (D.gives_rates y _ hv).1
  rw [e1, e2]
  have hs : ∀ i, D.pSinks y i = 0 := fun i => D.sinks_zero_of_stick (hstick i)
  have hsrc : ∀ i, D.pSrc y i = 0 := fun i => by
    have : D.pSrc y i = D.pSinks y i + ∑ k, -D.pSinks y k * D.ret i k := rfl
    rw [this]; simp [hs]
  have h1 : D.pElInel y = 0 := by
    unfold pElInel fElInel
    refine sum_eq_zero fun j _ => ?_
    have : D.pLoss y j = D.enLoss j := if_neg fun h => by rw [hel j] at h; cases h.2
    rw [this, hloss, zero_mul]
  have h2 : D.pElWalls y = 0 := by
    unfold pElWalls fElWalls; simp [hsrc]
  have h3 : D.pIonsWalls y = 0 := by
    unfold pIonsWalls fIonsWalls; simp [hsrc]
  have h4 : fMinRho y.rho = 0 := if_neg (not_lt.2 hrho)
  have h5 : (D.rhs t y).rho = D.power t / D.volume / D.C.e - D.pElInel y -
      3 / 2 * D.getElectronTemperature y none none * (∑ j, (D.eNet j : ℝ) * D.pRates y j) - D.pElWalls y
    - D.pIonsWalls y + fMinRho y.rho := rfl
  rw [h5, h1, h2, h3, h4, hP]
  simp only [Int.cast_neg, neg_mul, sum_neg_distrib]
  ring

end Data

namespace Demo

/-- the hypotheses of `energy_budget` are met by the argon model -/
example (junk : Data.Cache 3 3) (calls : List (Data.Call 3 3)) (t : ℝ) :
    ((argon.objective t start).run (argon.history junk calls)).1.rho ≤
      500 / argon.volume / 1 - 3 / 2 * argon.getElectronTemperature start none none *
      ∑ j, (argon.eNet j : ℝ) *
        ((argon.getReactionRates start none none none none).run (argon.history junk calls)).1 j := by
  refine argon.energy_budget physical start_nonneg (by rw [start_ne]; norm_num)
    (fun i k h1 h2 h3 => (no_ion_pair start i k h1 h2 h3).le) ?_ ?_ ⟨1, by norm_num [argon]⟩ ?_
    (by norm_num [start]) t junk calls
  · intro i k hi
    have : i ≠ 0 := by rintro rfl; exact hi rfl
    simp [argon, this]
  · intro i _
    have : Real.pi < 4 := Real.pi_lt_four
    simp only [argon, consts]
    linarith
  · intro j; fin_cases j <;> norm_num [argon]

/-- electron attachment to an otherwise quiet gas: `e + Ar → ` (nothing), a caricature of attachment -/
noncomputable def attach : Data 2 1 where
  C := consts
  charge := ![0, 1]
  mass := fun _ => 40
  ljSigma := fun _ => 3
  stick := fun _ => 0
  arrhA := fun _ => 1
  arrhB := fun _ => 0
  arrhC := fun _ => 0
  enLoss := fun _ => 0
  elastic := fun _ => false
  eNet := fun _ => -1
  eLhs := fun _ => 1
  mLhs := fun _ => 0
  ret := fun _ _ => 0
  net := fun _ => ![1, -1]
  lhs := fun _ => ![0, 1]
  feed := fun _ => 0
  tempG := 300
  r := 1
  z := 1
  p0 := 7
  power := fun _ => 0

/-- recombination without any power input heats the electrons -/
example (junk : Data.Cache 2 1) (calls : List (Data.Call 2 1)) (t : ℝ) :
    0 < ((attach.objective t ⟨![5, 2], 9⟩).run (attach.history junk calls)).1.rho := by
  rw [attach.attachment_heats (by norm_num) (fun _ => rfl) (fun _ => rfl) (fun _ => rfl) rfl]
  have hte : 0 < attach.getElectronTemperature ⟨![5, 2], 9⟩ none none := by
    have : attach.C.kB * attach.tempG / attach.C.e ≤ _ := (attach.electron_temperature ⟨![5, 2], 9⟩).1
    have h2 : attach.C.kB * attach.tempG / attach.C.e = 300 := by norm_num [attach, consts]
    linarith
  rw [(attach.gives_rates _ _ (attach.valid_history junk calls)).1]
  have : 0 < attach.pRates ⟨![5, 2], 9⟩ 0 := by
    have h2 : attach.elc 0 := by norm_num [Data.elc, attach]
    simp only [Data.pRates, Data.fRates, Data.pK, if_pos h2, Data.fRateElectron]
    simp [attach, Data.pNe, Data.fElectronDensity, Fin.sum_univ_two]
  have h3 : attach.eNet = fun _ => -1 := rfl
  simp [h3]
  positivity

end Demo
end Verif.Pygmol
