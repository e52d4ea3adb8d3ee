/-
Property C126 for the runs of a Morris analysis: small changes of the factors change the results little.
-/
import Verif.Fwork.MorrisEqnsDemo
import Verif.Fwork.MaximalEqns
import Verif.Pygmol.Depend

namespace Verif.Fwork.MorrisEqns
open Finset Verif.Plaschem Verif.Plaschem.Net Verif.Pygmol
open Verif.Fwork.GraphRun (ns nr)
open Verif.Fwork.Morris (PyDicts Kind dimension inForce SameButArrh)
open Verif.Fwork.MorrisWhole (chemAt)
open Verif.Fwork.ReducedEqns

variable {net : Net} {st : State} {X : RP → Extra} {P : ReducedEqns.Params}

/-- The densities of each species and the energies differ by at most `c`. -/
structure NearY (net : Net) (a b : State) (c : ℝ) (y : Y (ns net a)) (y' : Y (ns net b)) : Prop where
  n : ∀ i i', spAt net a i = spAt net b i' → |y'.n i' - y.n i| ≤ c
  rho : |y'.rho - y.rho| ≤ c

theorem same_stable (hr : Reachable net st) (hcl : net.RetClosed) (hpy : PyDicts net st) {D : Data (ns net st) (nr net st)}
    (hD : ReadsAll X P D) (hph : D.Physical) {T : ℝ} (hT : 0 < T) (hP : ContinuousOn D.power (Set.Icc 0 T)) {y : ℝ → Y (ns net st)}
    (hy : D.Solves T y) (hdef : ∀ t ∈ Set.Icc 0 T, D.Defined (y t)) :
    ∃ L > (0 : ℝ), ∃ δ > (0 : ℝ), ∀ d ∈ Set.Ioc 0 δ, ∀ b, SameButArrh b st → ∀ c : Fin (nr net st) → ℚ,
      (∀ j v, inForce st (reAt net st j) = some v → inForce b (reAt net st j) = some (v * c j)) → (∀ j, 0 ≤ c j) →
      (∀ j, |(c j : ℝ) - 1| ≤ d) → ∀ D' : Data (ns net b) (nr net b), ReadsAll X P D' →
      ∃ y', D'.Solves T y' ∧ SameY net st b (y 0) (y' 0) ∧ ∀ t ∈ Set.Icc 0 T, D'.Defined (y' t) ∧ NearY net st b (L * d) (y t) (y' t) := by
  obtain ⟨L, hL, δ, hδ, h⟩ := Data.run_stable hph hT hP hy hdef
  set M := ∑ j, D.arrhA j + 1 with hM
  have hMs : 0 ≤ ∑ j, D.arrhA j := sum_nonneg fun j _ => hph.arrhA j
  have hM0 : 0 < M := by positivity
  refine ⟨L * M, by positivity, δ / M, by positivity, fun d hd b hb c hc hc0 hcd D' hD' => ?_⟩
  have hd0 : 0 < d := hd.1
  obtain ⟨a, rfl⟩ : ∃ a, b = { st with adArrhA := a } := ⟨_, same_eq hb⟩
  have e := data_same hr hcl hpy hD hD' hc
  obtain ⟨z, hz0, hz, hnear⟩ := h (M * d) ⟨by positivity, by have := (le_div_iff₀ hM0).1 hd.2; linarith⟩ (fun j => c j * D.arrhA j) (y 0)
    (fun j => mul_nonneg (by exact_mod_cast hc0 j) (hph.arrhA j)) (fun j => by
      have e1 : (c j : ℝ) * D.arrhA j - D.arrhA j = (c j - 1) * D.arrhA j := by ring
      have h1 : D.arrhA j ≤ M := by
        have := single_le_sum (f := D.arrhA) (fun k _ => hph.arrhA k) (mem_univ j)
        linarith
      rw [e1, abs_mul, abs_of_nonneg (hph.arrhA j), mul_comm]
      exact mul_le_mul h1 (hcd j) (abs_nonneg _) hM0.le)
    ⟨fun i => by simpa using by positivity, by simpa using by positivity⟩
  have hsol : Data.Solves D' T z := by rw [e]; exact hz
  refine ⟨z, hsol, ⟨fun i i' hi => ?_, ?_⟩, fun t ht => ⟨?_, ⟨fun i i' hi => ?_, ?_⟩⟩⟩
  · have : i = i' := spAt_inj hr hi
    subst this
    rw [hz0]
  · rw [hz0]
  · have hdd : Data.Defined (Data.withRates D fun j => c j * D.arrhA j) (z t) := Data.withRates_defined.2 (hnear t ht).1
    rw [e]; exact hdd
  · have : i = i' := spAt_inj hr hi
    subst this
    exact ((hnear t ht).2.1 i).trans (le_of_eq (by ring))
  · exact ((hnear t ht).2.2).trans (le_of_eq (by ring))

/-- **C126.** If the run with the analysed chemistry reaches its end, then so does the run at every vector of factors that changes the
rates by a small enough part, and at all times it differs from the first by at most a constant times this part. -/
theorem perturbed_stable (hr : Reachable net st) (hcl : net.RetClosed) (hpy : PyDicts net st) (kind : Kind)
    {D : Data (ns net st) (nr net st)} (hD : ReadsAll X P D) (hph : D.Physical) {T : ℝ} (hT : 0 < T)
    (hP : ContinuousOn D.power (Set.Icc 0 T)) {y : ℝ → Y (ns net st)} (hy : D.Solves T y) (hdef : ∀ t ∈ Set.Icc 0 T, D.Defined (y t)) :
    ∃ L > (0 : ℝ), ∃ δ > (0 : ℝ), ∀ d ∈ Set.Ioc 0 δ, ∀ x : Fin (dimension net st kind) → ℚ, (∀ i, 0 ≤ x i) →
      (∀ j, |(scale net st kind x j : ℝ) - 1| ≤ d) →
      ∀ D' : Data (ns net (chemAt net kind st x)) (nr net (chemAt net kind st x)), ReadsAll X P D' →
      ∃ y', D'.Solves T y' ∧ SameY net st (chemAt net kind st x) (y 0) (y' 0) ∧
        ∀ t ∈ Set.Icc 0 T, D'.Defined (y' t) ∧ NearY net st (chemAt net kind st x) (L * d) (y t) (y' t) := by
  obtain ⟨L, hL, δ, hδ, h⟩ := same_stable hr hcl hpy hD hph hT hP hy hdef
  refine ⟨L, hL, δ, hδ, fun d hd x hx hs D' hD' => ?_⟩
  obtain ⟨h1, h2⟩ := chem_scaled hr (rated hr hD) kind x
  exact h d hd _ h1 _ h2 (scale_nonneg hx) hs D' hD'

/-- **C126.** For factors of reactions, in terms of the factors themselves: the run at every vector near enough to the middle one, all
factors 1/2, differs from the run with the analysed chemistry by at most a constant times the largest distance of a factor from 1/2. -/
theorem factors_stable (hr : Reachable net st) (hcl : net.RetClosed) (hpy : PyDicts net st)
    {D : Data (ns net st) (nr net st)} (hD : ReadsAll X P D) (hph : D.Physical) {T : ℝ} (hT : 0 < T)
    (hP : ContinuousOn D.power (Set.Icc 0 T)) {y : ℝ → Y (ns net st)} (hy : D.Solves T y) (hdef : ∀ t ∈ Set.Icc 0 T, D.Defined (y t)) :
    ∃ L > (0 : ℝ), ∃ δ > (0 : ℝ), ∀ d ∈ Set.Ioc 0 δ, ∀ x : Fin (dimension net st .reactions) → ℚ, (∀ i, 0 ≤ x i) →
      (∀ i, |(x i : ℝ) - 1 / 2| ≤ d) →
      ∀ D' : Data (ns net (chemAt net .reactions st x)) (nr net (chemAt net .reactions st x)), ReadsAll X P D' →
      ∃ y', D'.Solves T y' ∧ SameY net st (chemAt net .reactions st x) (y 0) (y' 0) ∧
        ∀ t ∈ Set.Icc 0 T, D'.Defined (y' t) ∧ NearY net st (chemAt net .reactions st x) (L * d) (y t) (y' t) := by
  obtain ⟨L, hL, δ, hδ, h⟩ := perturbed_stable hr hcl hpy .reactions hD hph hT hP hy hdef
  refine ⟨L * 2, by positivity, δ / 2, by positivity, fun d hd x hx hs D' hD' => ?_⟩
  have hd0 : 0 < d := hd.1
  have k := h (2 * d) ⟨by positivity, by linarith [hd.2]⟩ x hx (fun j => by
    have e : ((scale net st .reactions x j : ℚ) : ℝ) = 2 * (x j : ℝ) := by
      show ((2 * x j : ℚ) : ℝ) = _
      push_cast
      rfl
    have := hs j
    rw [e, show 2 * (x j : ℝ) - 1 = 2 * ((x j : ℝ) - 1 / 2) by ring, abs_mul, abs_of_pos two_pos]
    linarith) D' hD'
  rw [show L * 2 * d = L * (2 * d) by ring]
  exact k

end Verif.Fwork.MorrisEqns

namespace Verif.Pygmol.TimeDemo

/-- the hypotheses of `run_stable` are met -/
example : ∃ L > (0 : ℝ), ∃ δ > (0 : ℝ), ∀ d ∈ Set.Ioc 0 δ, ∀ (A : Fin 2 → ℝ) (z0 : Y 3), (∀ j, 0 ≤ A j) → (∀ j, |A j - 1| ≤ d) →
    Data.Within d (sol 0) z0 → ∃ z, z 0 = z0 ∧ (swap.withRates A).Solves 7 z ∧
      ∀ t ∈ Set.Icc (0 : ℝ) 7, swap.Defined (z t) ∧ Data.Within (L * d) (sol t) (z t) :=
  Data.run_stable physical (by norm_num) continuousOn_const solves fun t _ => sol_defined t

end Verif.Pygmol.TimeDemo

namespace Verif.Fwork.MorrisEqns.Demo
open Finset Verif.Plaschem Verif.Plaschem.Net Verif.Pygmol
open Verif.Fwork.GraphRun (ns nr)
open Verif.Fwork.Morris (Kind dimension)
open Verif.Fwork.MorrisWhole (chemAt)
open Verif.Fwork.ReducedEqns
open Verif.Fwork.PhysEqns.Demo (X)

/-- the hypotheses of `perturbed_stable` are met, for factors of species -/
example (C : Consts) : ∃ T ∈ Set.Ioc 0 Pygmol.Demo.params.tEnd, ∃ y, (D C).Solves T y ∧ y 0 = y0 ∧
    ∃ L > (0 : ℝ), ∃ δ > (0 : ℝ), ∀ d ∈ Set.Ioc 0 δ, ∀ x : Fin (dimension net st .species) → ℚ, (∀ i, 0 ≤ x i) →
      (∀ j, |(scale net st .species x j : ℝ) - 1| ≤ d) →
      ∀ D' : Data (ns net (chemAt net .species st x)) (nr net (chemAt net .species st x)), ReadsAll X (P C) D' →
      ∃ y', D'.Solves T y' ∧ SameY net st (chemAt net .species st x) (y 0) (y' 0) ∧
        ∀ t ∈ Set.Icc 0 T, D'.Defined (y' t) ∧ NearY net st (chemAt net .species st x) (L * d) (y t) (y' t) := by
  obtain ⟨T, hT, y, h1, h2, h3, -⟩ := develops C
  exact ⟨T, hT, y, h1, h2, perturbed_stable reach retClosed pyDicts .species (reads C) (physical C) hT.1
    ((power_cont C).mono (Set.Icc_subset_Icc_right hT.2)) h1 h3⟩

/-- the hypotheses of `factors_stable` are met -/
example (C : Consts) : ∃ T ∈ Set.Ioc 0 Pygmol.Demo.params.tEnd, ∃ y, (D C).Solves T y ∧ y 0 = y0 ∧
    ∃ L > (0 : ℝ), ∃ δ > (0 : ℝ), ∀ d ∈ Set.Ioc 0 δ, ∀ x : Fin (dimension net st .reactions) → ℚ, (∀ i, 0 ≤ x i) →
      (∀ i, |(x i : ℝ) - 1 / 2| ≤ d) →
      ∀ D' : Data (ns net (chemAt net .reactions st x)) (nr net (chemAt net .reactions st x)), ReadsAll X (P C) D' →
      ∃ y', D'.Solves T y' ∧ SameY net st (chemAt net .reactions st x) (y 0) (y' 0) ∧
        ∀ t ∈ Set.Icc 0 T, D'.Defined (y' t) ∧ NearY net st (chemAt net .reactions st x) (L * d) (y t) (y' t) := by
  obtain ⟨T, hT, y, h1, h2, h3, -⟩ := develops C
  exact ⟨T, hT, y, h1, h2, factors_stable reach retClosed pyDicts (reads C) (physical C) hT.1
    ((power_cont C).mono (Set.Icc_subset_Icc_right hT.2)) h1 h3⟩

end Verif.Fwork.MorrisEqns.Demo
