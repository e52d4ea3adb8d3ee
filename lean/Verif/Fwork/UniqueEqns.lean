/-
Property C121, for the equations read from a chemistry: the exact time development is determined by the chemistry, the parameters
and the initial state, and does not depend on the order in which species and reactions are listed.
-/
import Verif.Pygmol.Unique
import Verif.Fwork.OrderEqns
import Verif.Fwork.AdhocEqns

namespace Verif.Fwork.UniqueEqns
open Finset Verif.Plaschem Verif.Plaschem.Net Verif.Pygmol
open Verif.Fwork.GraphRun (ns nr)
open Verif.Fwork.Morris (PyDicts)
open Verif.Fwork.ReducedEqns Verif.Fwork.OrderEqns

variable {net net' : Net} {st : State} {X : RP → Extra} {P : Params}

/-- **C121.** Two set-ups of the equations from one chemistry and the same parameters have the same solutions: a solution of one
that starts where a solution of the other starts, and that stays where the equations are defined, is that solution. -/
theorem same_development (hr : Reachable net st) (hcl : net.RetClosed) (hpy : PyDicts net st)
    {D D' : Data (ns net st) (nr net st)} (hD : ReadsAll X P D) (hD' : ReadsAll X P D') (hph : D.Physical) {T : ℝ}
    {y y' : ℝ → Y (ns net st)} (hy : D.Solves T y) (h0 : ∀ i, 0 < (y 0).n i) (hin : ∀ t ∈ Set.Icc 0 T, D.Inside (y t))
    (hy' : D'.Solves T y') (he : y' 0 = y 0) : ∀ t ∈ Set.Icc 0 T, y' t = y t := by
  rw [AdhocEqns.reads_unique hr hcl hpy hD hD'] at hy'
  exact Data.unique_solution hph hy h0 hin hy' he

/-- **C121.** The order in which species and reactions are listed does not matter for the time development: if the initial
densities agree, the densities agree at all times. -/
theorem order_of_development (h : Shuffled net net') (hr : Reachable net st) (hcl : net.RetClosed) (hpy : PyDicts net st)
    (hone : OnePartner net st) {D : Data (ns net st) (nr net st)} {D' : Data (ns net' st) (nr net' st)} (hD : ReadsAll X P D)
    (hD' : ReadsAll X P D') (hph : D.Physical) {T : ℝ} {y : ℝ → Y (ns net st)} {y' : ℝ → Y (ns net' st)} (hy : D.Solves T y)
    (h0 : ∀ i, 0 < (y 0).n i) (hin : ∀ t ∈ Set.Icc 0 T, D.Inside (y t)) (hy' : D'.Solves T y')
    (he : Agrees net net' st (y 0) (y' 0)) : ∀ t ∈ Set.Icc 0 T, Agrees net net' st (y t) (y' t) := by
  obtain ⟨hwf, -⟩ := reachable_inv hr
  obtain ⟨f, hf, hfb⟩ := positions (h.getSpecies st false false true)
    ((hwf.spNodup.sublist (List.filter_sublist.map _)).of_map)
  have hf' : ∀ i, spAt net st (f i) = spAt net' st i := hf
  -- the inverse of `f`
  choose g hg using hfb.2
  have hsp : ∀ i, spAt net' st (g i) = spAt net st i := fun i => by rw [← hf', hg]
  let z : ℝ → Y (ns net st) := fun t => ⟨fun i => (y' t).n (g i), (y' t).rho⟩
  have hag : ∀ t, Agrees net net' st (z t) (y' t) := fun t => ⟨fun i i' hi => by
    have : g i = i' := spAt_inj (h.reachable hr) ((hsp i).trans hi)
    show (y' t).n (g i) = _
    rw [this], rfl⟩
  have hz : D.Solves T z := fun t ht => by
    obtain ⟨k1, k2, -⟩ := order_of_equations h hr hcl hpy hone hD hD' (hag t) t
    refine ⟨fun i => ?_, ?_⟩
    · rw [k1 i (g i) (hsp i).symm]
      exact (hy' t ht).1 (g i)
    · rw [k2]
      exact (hy' t ht).2
  have hz0 : z 0 = y 0 := by
    have : ∀ i, (z 0).n i = (y 0).n i := fun i => (he.n i (g i) (hsp i).symm).symm
    exact AdhocEqns.same_y (fun i => (this i).symm) he.rho
  intro t ht
  rw [← Data.unique_solution hph hy h0 hin hz hz0 t ht]
  exact hag t

end Verif.Fwork.UniqueEqns
