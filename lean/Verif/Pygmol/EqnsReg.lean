/-
C61: the states in which the right-hand side is defined, and a concrete model that meets the hypotheses of
the theorems of `EqnsProps`.
-/
import Verif.Pygmol.EqnsProps
import Mathlib.Data.Fin.VecNotation
import Mathlib.Tactic.FinCases

namespace Verif.Pygmol
open Finset
namespace Data
variable {ns nr : ℕ} (D : Data ns nr)

/-- **C61.** All denominators are non-zero, so the right-hand side is defined, in every state of the
following kind: no density is negative, each species has a partner to collide with, there are electrons and
neutrals, Coulomb collisions are weak; and the chemistry has a positive ion, species have a size, and (for
the default diffusion model) negative ions stick. -/
theorem regular_of_physical (hph : D.Physical) {y : Y ns} (hn : ∀ i, 0 ≤ y.n i)
    (hne : 0 < D.getElectronDensity y none) (hlj : ∀ i, 0 < D.ljSigma i)
    (hpartner : ∀ i, ∃ k, k ≠ i ∧ 0 < y.n k)
    (hw : ∀ i k, i ≠ k → ¬ D.neu i → ¬ D.neu k → D.fB0 (D.pV y) i k < 2 * D.pDebye y)
    (hneu : ∃ i, D.charge i = 0 ∧ 0 < y.n i) (hpos : ∃ i, 0 < D.charge i)
    (hneg : D.thermalFlux = true → ∀ i, D.charge i < 0 → 0 < D.stick i) : D.Regular y := by
  have hw' : D.WeakCoupling y := fun i k h1 h2 h3 => (hw i k h1 h2 h3).le
  have hsig : ∀ i k, i ≠ k → 0 < D.pSigma y i k := by
    intro i k hik
    unfold pSigma
    rw [if_neg hik]
    by_cases hc : ¬ D.neu i ∧ ¬ D.neu k
    · rw [if_pos hc]
      have hb := b0_pos (y := y) hph hc.1 hc.2
      have := hw i k hik hc.1 hc.2
      have h1 : 0 < Real.log (2 * D.pDebye y / D.fB0 (D.pV y) i k) :=
        Real.log_pos (by rw [lt_div_iff₀ hb]; linarith)
      have := Real.pi_pos
      unfold fSigmaIon
      positivity
    · rw [if_neg hc]
      have := hlj i; have := hlj k
      unfold fSigmaHard; positivity
  have hmfp : ∀ i, 0 < ∑ k, y.n k * D.pSigma y i k := by
    intro i
    obtain ⟨k, hk, hnk⟩ := hpartner i
    exact sum_pos' (fun k _ => mul_nonneg (hn k) (sigma_nonneg hph hw' i k))
      ⟨k, mem_univ k, mul_pos hnk (hsig i k hk.symm)⟩
  have hfree : ∀ i, 0 < D.pFree y i := by
    intro i
    have h1 : 0 < D.pMfp y i := div_pos one_pos (hmfp i)
    have := v_pos (y := y) hph i
    have := Real.pi_pos
    unfold pFree fFree; positivity
  have hamb : 0 < D.pAmb y := by
    have h1 := te_pos (y := y) hph; have h2 := ti_pos (y := y) hph
    have h3 := D.C.kB_pos; have h4 := D.C.e_pos
    have h5 : 0 ≤ (∑ i ∈ univ.filter D.neg, y.n i) / D.pNe y :=
      div_nonneg (sum_nonneg fun i _ => hn i) (le_of_lt hne)
    obtain ⟨i, hi⟩ := hpos
    have hmem : i ∈ univ.filter D.pos := mem_filter.2 ⟨mem_univ i, hi⟩
    have hcard : 0 < (univ.filter D.pos).card := card_pos.2 ⟨i, hmem⟩
    have h6 : 0 < (∑ i ∈ univ.filter D.pos, D.pFree y i) / ((univ.filter D.pos).card : ℝ) :=
      div_pos (sum_pos (fun i _ => hfree i) ⟨i, hmem⟩) (Nat.cast_pos.2 hcard)
    have h7 : 0 < D.pTe y * D.C.e / D.C.kB / D.pTi y := by positivity
    unfold pAmb fAmbPos
    positivity
  refine ⟨hne.ne', ?_, fun i => (hmfp i).ne', hpos, fun hm i => ?_⟩
  · obtain ⟨i, hi, hni⟩ := hneu
    exact (sum_pos' (fun i _ => hn i) ⟨i, mem_filter.2 ⟨mem_univ i, hi⟩, hni⟩).ne'
  · have hL := diffL_pos hph
    have hv := v_pos (y := y) hph i
    have hs := hph.stick i
    by_cases hc : D.charge i < 0
    · have h1 := hneg hm i hc
      have h2 := diff_nonneg hph hn hne hw' i
      have : 0 < D.stick i * D.diffL + 4 * D.pDiff y i / D.pV y i := by positivity
      exact this.ne'
    · have h2 : 0 < D.pDiff y i := by
        unfold pDiff fDiff
        rw [if_neg (show ¬ D.neg i from hc)]
        split_ifs
        · exact hamb
        · exact hfree i
      have : 0 < D.stick i * D.diffL + 4 * D.pDiff y i / D.pV y i := by positivity
      exact this.ne'

end Data

/-! ### a concrete model: Ar, Ar+, Ar*; ionisation, excitation, elastic collision -/
namespace Demo

noncomputable def consts : Consts := ⟨1, 1, 1, 1, one_pos, one_pos, one_pos, one_pos⟩

noncomputable def argon : Data 3 3 where
  C := consts
  charge := ![0, 1, 0]
  mass := fun _ => 40
  ljSigma := fun _ => 3
  stick := ![0, 1, 1]
  arrhA := fun _ => 1
  arrhB := fun _ => 0
  arrhC := ![16, 12, 0]
  enLoss := ![16, 12, 0]
  elastic := ![false, false, true]
  eNet := ![1, 0, 0]
  eLhs := fun _ => 1
  mLhs := fun _ => 0
  ret := fun i k => if i = 0 ∧ k ≠ 0 then 1 else 0
  net := ![![-1, 1, 0], ![-1, 0, 1], ![0, 0, 0]]
  lhs := fun _ => ![1, 0, 0]
  feed := ![10, 0, 0]
  tempG := 300
  r := 1
  z := 1
  p0 := 100
  power := fun _ => 500

/-- a state without Ar* -/
noncomputable def start : Y 3 := ⟨![5, 2, 0], 9⟩

theorem physical : argon.Physical where
  tempG := by norm_num [argon]
  r := by norm_num [argon]
  z := by norm_num [argon]
  p0 := by norm_num [argon]
  mass := fun i => by norm_num [argon]
  stick := fun i => by fin_cases i <;> norm_num [argon]
  feed := fun i => by fin_cases i <;> norm_num [argon]
  ret := fun i k => by simp only [argon]; split_ifs <;> norm_num
  arrhA := fun i => by norm_num [argon]
  lhs := fun j i => by fin_cases i <;> simp [argon]
  net := fun j i => by fin_cases j <;> fin_cases i <;> simp [argon]

theorem start_nonneg (i : Fin 3) : 0 ≤ start.n i := by fin_cases i <;> norm_num [start]

theorem start_ne : argon.getElectronDensity start none = 2 := by
  simp [Data.getElectronDensity, Data.fElectronDensity, Data.getDensityVector, start, argon,
    Fin.sum_univ_three]

theorem no_ion_pair (y : Y 3) : ∀ i k, i ≠ k → ¬ argon.neu i → ¬ argon.neu k →
    argon.fB0 (argon.pV y) i k < 2 * argon.pDebye y := by
  intro i k hik hi hk
  exfalso
  revert hik hi hk
  fin_cases i <;> fin_cases k <;> simp [Data.neu, argon]

theorem start_regular : argon.Regular start :=
  argon.regular_of_physical physical start_nonneg (by rw [start_ne]; norm_num)
    (fun i => by norm_num [argon])
    (fun i => by
      by_cases h : i = 0
      · exact ⟨1, by rw [h]; decide, by norm_num [start]⟩
      · exact ⟨0, Ne.symm h, by norm_num [start]⟩)
    (no_ion_pair start) ⟨0, rfl, by norm_num [start]⟩ ⟨1, by norm_num [argon]⟩
    (fun _ i hi => by
      exfalso; revert hi; fin_cases i <;> simp [argon])

/-- the hypotheses of `absent_species_grows` are met: Ar* is absent and is produced -/
example (junk : Data.Cache 3 3) (calls : List (Data.Call 3 3)) (t : ℝ) :
    1e10 ≤ ((argon.objective t start).run (argon.history junk calls)).1.n 2 :=
  argon.absent_species_grows physical start_nonneg (by rw [start_ne]; norm_num)
    (fun i k h1 h2 h3 => (no_ion_pair start i k h1 h2 h3).le) start_regular junk calls t (by simp [start])

/-- the wall conserves particles here: Ar+ and Ar* come back as Ar -/
example (junk : Data.Cache 3 3) (y : Y 3) :
    ∑ i, 1 * ((argon.getDiffusionSourceRates y none none).run (argon.history junk [])).1 i = 0 :=
  argon.wall_conserves (fun _ => 1) y (fun k hk => by
    revert hk; fin_cases k <;> simp [argon]) junk []

/-- the flow theorems apply -/
example : 0 < ∑ i ∈ univ.filter argon.neu, start.n i :=
  sum_pos' (fun i _ => start_nonneg i) ⟨0, mem_filter.2 ⟨mem_univ _, rfl⟩, by norm_num [start]⟩

/-- the electrons are hotter than the gas in a state with enough energy -/
example : argon.C.kB * argon.tempG / argon.C.e <
    argon.getElectronTemperature ⟨![5, 2, 0], 3000⟩ none none := by
  have h : argon.getElectronDensity ⟨![5, 2, 0], 3000⟩ none = 2 := by
    simp [Data.getElectronDensity, Data.fElectronDensity, Data.getDensityVector, argon, Fin.sum_univ_three]
  have : argon.getElectronTemperature ⟨![5, 2, 0], 3000⟩ none none =
      max (3000 / argon.getElectronDensity ⟨![5, 2, 0], 3000⟩ none * 2 / 3)
        (argon.tempG * argon.C.kB / argon.C.e) := rfl
  rw [this, h]
  refine lt_max_of_lt_left ?_
  norm_num [argon, consts]

/-! an exact solution: a quiet gas at the set pressure -/

noncomputable def quiet : Data 2 0 where
  C := consts
  charge := ![0, 1]
  mass := fun _ => 40
  ljSigma := fun _ => 3
  stick := fun _ => 0
  arrhA := Fin.elim0
  arrhB := Fin.elim0
  arrhC := Fin.elim0
  enLoss := Fin.elim0
  elastic := Fin.elim0
  eNet := Fin.elim0
  eLhs := Fin.elim0
  mLhs := Fin.elim0
  ret := fun _ _ => 0
  net := Fin.elim0
  lhs := Fin.elim0
  feed := fun _ => 0
  tempG := 1
  r := 1
  z := 1
  p0 := 7
  power := fun _ => 500

theorem quiet_physical : quiet.Physical where
  tempG := by norm_num [quiet]
  r := by norm_num [quiet]
  z := by norm_num [quiet]
  p0 := by norm_num [quiet]
  mass := fun i => by norm_num [quiet]
  stick := fun i => by norm_num [quiet]
  feed := fun i => by norm_num [quiet]
  ret := fun i k => by norm_num [quiet]
  arrhA := fun j => j.elim0
  lhs := fun j => j.elim0
  net := fun j => j.elim0

/-- constant densities, growing electron energy -/
noncomputable def quietSol (t : ℝ) : Y 2 := ⟨![5, 2], 500 / quiet.volume * t⟩

theorem quiet_rhs (t : ℝ) (i : Fin 2) : (quiet.rhs t (quietSol t)).n i = 0 := by
  have hs : ∀ i, quiet.pSinks (quietSol t) i = 0 := fun i => quiet.sinks_zero_of_stick rfl
  have hsrc : quiet.pSrc (quietSol t) i = 0 := by
    have : quiet.pSrc (quietSol t) i = quiet.pSinks (quietSol t) i +
      ∑ k, -quiet.pSinks (quietSol t) k * quiet.ret i k := rfl
    rw [this]; simp [hs]
  have hvol : quiet.pVol (quietSol t) i = 0 := rfl
  have hp : quiet.pP (quietSol t) = quiet.p0 := by
    simp [Data.pP, Data.fPressure, Data.pTot, Data.fTotalDensity, quietSol, quiet, consts, Fin.sum_univ_two]
    norm_num
  have hflow : quiet.pFlow (quietSol t) i = 0 := by
    have : quiet.pFlow (quietSol t) i = quiet.fFlow (quietSol t).n (quiet.pP (quietSol t)) i := rfl
    rw [this, hp]
    unfold Data.fFlow
    have : ∀ k, quiet.feed k = 0 := fun _ => rfl
    simp [this]
  have hmin : Data.fMinN (quietSol t).n i = 0 := by
    fin_cases i <;> simp [Data.fMinN, quietSol]
  have : (quiet.rhs t (quietSol t)).n i = quiet.pVol (quietSol t) i + quiet.pFlow (quietSol t) i
    + quiet.pSrc (quietSol t) i + Data.fMinN (quietSol t).n i := rfl
  rw [this, hvol, hflow, hsrc]
  simpa using hmin

example : ∀ t ∈ Set.Icc (0 : ℝ) 1, ∀ i, 0 < (quietSol t).n i :=
  quiet.densities_stay_positive quiet_physical 1 quietSol
    (fun i t _ => by rw [quiet_rhs]; exact hasDerivWithinAt_const _ _ _)
    (fun i => by fin_cases i <;> norm_num [quietSol])
    (fun t _ => by
      have hn : ∀ i, 0 ≤ (quietSol t).n i := fun i => by fin_cases i <;> norm_num [quietSol]
      have hne : 0 < quiet.getElectronDensity (quietSol t) none := by
        simp [Data.getElectronDensity, Data.fElectronDensity, Data.getDensityVector, quietSol, quiet]
      have hw : ∀ i k, i ≠ k → ¬ quiet.neu i → ¬ quiet.neu k →
          quiet.fB0 (quiet.pV (quietSol t)) i k < 2 * quiet.pDebye (quietSol t) := by
        intro i k hik hi hk
        exfalso
        revert hik hi hk
        fin_cases i <;> fin_cases k <;> simp [Data.neu, quiet]
      refine ⟨hne, fun i k h1 h2 h3 => (hw i k h1 h2 h3).le, quiet.regular_of_physical quiet_physical hn hne
        (fun i => by norm_num [quiet]) (fun i => ?_) hw ⟨0, rfl, by norm_num [quietSol]⟩
        ⟨1, by norm_num [quiet]⟩ (fun _ i hi => ?_)⟩
      · by_cases h : i = 0
        · exact ⟨1, by rw [h]; decide, by norm_num [quietSol]⟩
        · exact ⟨0, Ne.symm h, by norm_num [quietSol]⟩
      · exfalso; revert hi; fin_cases i <;> simp [quiet])

end Demo
end Verif.Pygmol
