/-
Property C133: a run with other energy losses.
-/
import Verif.Pygmol.Losses
import Verif.Fwork.DependEqns

namespace Verif.Fwork.MorrisEqns.Demo
open Finset Verif.Plaschem Verif.Plaschem.Net Verif.Pygmol
open Verif.Fwork.GraphRun (ns nr)
open Verif.Fwork.ReducedEqns
open Verif.Fwork.PhysEqns.Demo (X)

/-- The hypotheses of `loss_stable` are met by a run with the chemistry of argon: every loss is a little larger. There is an inelastic
electron collision in it, so the equations are not the same. -/
example (C : Consts) : ∃ T ∈ Set.Ioc 0 Pygmol.Demo.params.tEnd, ∃ y, (D C).Solves T y ∧ y 0 = y0 ∧ (D C).inelastic.Nonempty ∧
    ∃ L > (0 : ℝ), ∃ δ > (0 : ℝ), ∀ d ∈ Set.Ioc 0 δ, ∃ z, z 0 = y0 ∧ ((D C).withLoss fun j => (D C).enLoss j + d).Solves T z ∧
      ∀ t ∈ Set.Icc 0 T, Data.Within (L * d) (y t) (z t) := by
  obtain ⟨T, hT, y, h1, h2, h3, -⟩ := develops C
  obtain ⟨L, hL, δ, hδ, key⟩ := Data.loss_stable (physical C) hT.1 ((power_cont C).mono (Set.Icc_subset_Icc_right hT.2)) h1 h3
  refine ⟨T, hT, y, h1, h2, ?_, L, hL, δ, hδ, fun d hd => ?_⟩
  · have h : ∃ j : Fin (nr net st), 0 < (Dict.get? (okOr (net.stoichElectron st false .lhs)) (reAt net st j).id).getD 0 ∧
        ¬ ((okOr (net.reactionsElastic st false)).map Prod.snd).getD j false = true := by decide +kernel
    obtain ⟨j, hj⟩ := h
    exact ⟨j, mem_filter.2 ⟨mem_univ j, hj⟩⟩
  · obtain ⟨z, hz0, hz, hn⟩ := key d hd (fun j => (D C).enLoss j + d) fun j _ _ => by
      rw [add_sub_cancel_left, abs_of_pos hd.1]
    exact ⟨z, hz0.trans h2, hz, fun t ht => (hn t ht).2⟩

end Verif.Fwork.MorrisEqns.Demo
