/-
Model of pygmo_fwork/pygmol/equations.py: the right-hand side of the system of ordinary differential
equations, over the real numbers (floating-point rounding is not modelled).

Division: numpy yields nan or inf where a denominator vanishes, Lean's real division yields 0. Theorems
for which this matters carry the hypothesis that the denominator is not zero.

Arrays over the heavy species are functions on `Fin ns`, arrays over the reactions functions on `Fin nr`
(the shape checks of equations.py:274-292).
-/
import Mathlib.Analysis.SpecialFunctions.Pow.Real
import Mathlib.Analysis.SpecialFunctions.Log.Basic
import Mathlib.Analysis.Real.Sqrt
import Mathlib.Analysis.Real.Pi.Bounds
import Mathlib.Algebra.BigOperators.Fin
import Mathlib.Algebra.Order.BigOperators.Group.Finset

namespace Verif.Pygmol
open Finset

/-- the physical constants of scipy.constants used by the equations (equations.py:2): Boltzmann
constant, elementary charge, electron mass, vacuum permittivity. -/
structure Consts where
  kB : ℝ
  e : ℝ
  mE : ℝ
  eps0 : ℝ
  kB_pos : 0 < kB
  e_pos : 0 < e
  mE_pos : 0 < mE
  eps0_pos : 0 < eps0

/-- equations.py:149-288: what `Equations.__init__` extracts from the chemistry and the model
parameters. `mass` is in kg and `ljSigma` in m, i.e. after the conversions of lines 158-159. -/
structure Data (ns nr : ℕ) where
  C : Consts
  charge : Fin ns → ℤ
  mass : Fin ns → ℝ
  ljSigma : Fin ns → ℝ
  stick : Fin ns → ℝ
  arrhA : Fin nr → ℝ
  arrhB : Fin nr → ℝ
  arrhC : Fin nr → ℝ
  enLoss : Fin nr → ℝ
  elastic : Fin nr → Bool
  eNet : Fin nr → ℤ
  eLhs : Fin nr → ℤ
  mLhs : Fin nr → ℤ
  /-- `return_matrix[i, j]`: particles `i` created by each particle `j` stuck to the surface -/
  ret : Fin ns → Fin ns → ℝ
  net : Fin nr → Fin ns → ℤ
  lhs : Fin nr → Fin ns → ℤ
  /-- feed flow of each species in sccm, 0 for species without feed -/
  feed : Fin ns → ℝ
  tempG : ℝ
  r : ℝ
  z : ℝ
  p0 : ℝ
  /-- the external power as a function of time, see `Verif.Pygmol.interp` -/
  power : ℝ → ℝ
  /-- class attribute `diffusion_model` (equations.py:30): `false` is 0, `true` is 1 -/
  thermalFlux : Bool := true

/-- the vector of unknowns `(n_1, ..., n_N, rho)` (equations.py:17-19, 296-314). -/
structure Y (ns : ℕ) where
  n : Fin ns → ℝ
  rho : ℝ

namespace Data
variable {ns nr : ℕ} (D : Data ns nr)

/-! ### formulas, with explicit arguments -/

/-- equations.py:206. -/
noncomputable def volume : ℝ := Real.pi * D.r ^ 2 * D.z
/-- equations.py:207. -/
noncomputable def area : ℝ := 2 * Real.pi * D.r * (D.r + D.z)
/-- equations.py:208: diffusion length. -/
noncomputable def diffL : ℝ := (Real.sqrt ((Real.pi / D.z) ^ 2 + (2.405 / D.r) ^ 2))⁻¹
/-- equations.py:214. -/
noncomputable def mtorr : ℝ := 0.133322

/-- equations.py:217-220: masks of species. -/
def pos (i : Fin ns) : Prop := 0 < D.charge i
def neg (i : Fin ns) : Prop := D.charge i < 0
def neu (i : Fin ns) : Prop := D.charge i = 0
instance : DecidablePred D.pos := fun i => inferInstanceAs (Decidable (0 < D.charge i))
instance : DecidablePred D.neg := fun i => inferInstanceAs (Decidable (D.charge i < 0))
instance : DecidablePred D.neu := fun i => inferInstanceAs (Decidable (D.charge i = 0))
/-- equations.py:223: electron collisions. -/
def elc (j : Fin nr) : Prop := 0 < D.eLhs j
instance : DecidablePred D.elc := fun j => inferInstanceAs (Decidable (0 < D.eLhs j))

/-- equations.py:234-242: the mass of the first collision partner of an elastic electron collision, 0 for
other reactions. (An elastic electron collision without partner is rejected in the constructor.) -/
noncomputable def partnerMass (j : Fin nr) : ℝ :=
  if D.elc j ∧ D.elastic j then
    match (List.finRange ns).find? (fun i => 0 < D.lhs j i) with
    | some i => D.mass i
    | none => 0
  else 0

/-- equations.py:245-247. -/
noncomputable def reducedMass (i k : Fin ns) : ℝ := D.mass i * D.mass k / (D.mass i + D.mass k)

/-- equations.py:249-250: mean of the masses of the positive ions (nan without positive ions). -/
noncomputable def meanIonMass : ℝ :=
  (∑ i ∈ univ.filter D.pos, D.mass i) / (univ.filter D.pos).card

/-- equations.py:252. -/
noncomputable def sheathFactor : ℝ := Real.log (Real.sqrt (D.meanIonMass / (2 * Real.pi * D.C.mE)))

/-- equations.py:316-328 `get_total_density`. -/
noncomputable def fTotalDensity (n : Fin ns → ℝ) : ℝ := ∑ i, n i

/-- equations.py:330-342 `get_total_pressure`. -/
noncomputable def fPressure (nTot : ℝ) : ℝ := D.C.kB * D.tempG * nTot

/-- equations.py:344-362 `get_ion_temperature`. -/
noncomputable def fIonTemp (p : ℝ) : ℝ :=
  if p > mtorr then (0.5 * D.C.e / D.C.kB - D.tempG) / (p / mtorr) + D.tempG
  else 0.5 * D.C.e / D.C.kB

/-- equations.py:364-376 `get_electron_density`. -/
noncomputable def fElectronDensity (n : Fin ns → ℝ) : ℝ := ∑ i, n i * (D.charge i : ℝ)

/-- equations.py:378-398 `get_electron_temperature`. -/
noncomputable def fElectronTemp (nE rho : ℝ) : ℝ := max (rho / nE * 2 / 3) (D.tempG * D.C.kB / D.C.e)

/-- equations.py:400-413 `get_debye_length`. -/
noncomputable def fDebye (nE tempE : ℝ) : ℝ := Real.sqrt (D.C.eps0 * tempE / D.C.e / nE)

/-- equations.py:415-430 `get_reaction_rate_coefficients`, the part that depends on the electron
temperature. -/
noncomputable def fRateElectron (tempE : ℝ) (j : Fin nr) : ℝ :=
  D.arrhA j * tempE ^ D.arrhB j * Real.exp (-D.arrhC j / tempE)

/-- equations.py:258-260: the static part of the rate coefficients. -/
noncomputable def fRateHeavy (j : Fin nr) : ℝ :=
  D.arrhA j * (D.tempG / 300) ^ D.arrhB j * Real.exp (-D.arrhC j / D.tempG)

/-- equations.py:432-459 `get_reaction_rates`: rate coefficient times the product of the reactant
densities; the electron is the first, M the last factor. -/
noncomputable def fRates (n : Fin ns → ℝ) (nE nTot : ℝ) (k : Fin nr → ℝ) (j : Fin nr) : ℝ :=
  k j * (nE ^ D.eLhs j * (∏ i, n i ^ D.lhs j i) * nTot ^ D.mLhs j)

/-- equations.py:461-477 `get_volumetric_source_rates`. -/
noncomputable def fVol (rates : Fin nr → ℝ) (i : Fin ns) : ℝ := ∑ j, (D.net j i : ℝ) * rates j

/-- equations.py:479-507 `get_flow_source_rates`: pressure regulation (neutral species only), inflow, and
outflow (neutral species only). -/
noncomputable def fFlow (n : Fin ns → ℝ) (p : ℝ) (i : Fin ns) : ℝ :=
  (if D.neu i then -(n i * (1 / 1e-3) * (p - D.p0) / D.p0) else 0)
  + D.feed i * 4.485e17 / D.volume
  - (if D.neu i then (∑ k, D.feed k * 4.485e17 / D.volume) * n i / (∑ k ∈ univ.filter D.neu, n k)
     else 0)

/-- equations.py:263-266, 509-524 `get_mean_speeds`: mean thermal speed at temperature `T`. -/
noncomputable def fSpeed (T : ℝ) (i : Fin ns) : ℝ :=
  Real.sqrt (8 * D.C.kB * T / (Real.pi * D.mass i))

/-- equations.py:540-545: classical distance of closest approach of two ions. -/
noncomputable def fB0 (v : Fin ns → ℝ) (i k : Fin ns) : ℝ :=
  D.C.e ^ 2 * |(D.charge i : ℝ) * (D.charge k : ℝ)| / (2 * Real.pi * D.C.eps0)
    / (D.reducedMass i k * v i ^ 2)

/-- equations.py:546-548: cross section of an ion-ion pair. -/
noncomputable def fSigmaIon (v : Fin ns → ℝ) (debye : ℝ) (i k : Fin ns) : ℝ :=
  Real.pi * D.fB0 v i k ^ 2 * Real.log (2 * debye / D.fB0 v i k)

/-- equations.py:267-272: hard-sphere cross section. -/
noncomputable def fSigmaHard (i k : Fin ns) : ℝ := (D.ljSigma i + D.ljSigma k) ^ 2

/-- equations.py:555-571 `get_mean_free_paths`. -/
noncomputable def fMfp (n : Fin ns → ℝ) (sigma : Fin ns → Fin ns → ℝ) (i : Fin ns) : ℝ :=
  1 / ∑ k, n k * sigma i k

/-- equations.py:573-588 `get_free_diffusivities`. -/
noncomputable def fFree (mfp v : Fin ns → ℝ) (i : Fin ns) : ℝ := Real.pi / 8 * mfp i * v i

/-- equations.py:591-622 `get_ambipolar_diffusivity_pos`. -/
noncomputable def fAmbPos (n : Fin ns → ℝ) (nE tempI tempE : ℝ) (free : Fin ns → ℝ) : ℝ :=
  let gamma := tempE * D.C.e / D.C.kB / tempI
  let alpha := (∑ i ∈ univ.filter D.neg, n i) / nE
  let mean := (∑ i ∈ univ.filter D.pos, free i) / (univ.filter D.pos).card
  mean * (1 + gamma * (1 + 2 * alpha)) / (1 + alpha * gamma)

/-- equations.py:624-635 `get_ambipolar_diffusivity_neg`. -/
noncomputable def fAmbNeg : ℝ := 0

/-- equations.py:637-661 `get_diffusivities`. -/
noncomputable def fDiff (free : Fin ns → ℝ) (ambPos ambNeg : ℝ) (i : Fin ns) : ℝ :=
  if D.pos i then ambPos else if D.neg i then ambNeg else free i

/-- equations.py:663-699 `get_wall_fluxes`. -/
noncomputable def fWall (n diff v : Fin ns → ℝ) (i : Fin ns) : ℝ :=
  if D.thermalFlux then -diff i * n i * D.stick i / (D.stick i * D.diffL + 4 * diff i / v i)
  else -diff i * n i * D.stick i / D.diffL ^ 2 * D.volume / D.area

/-- equations.py:701-714 `get_diffusion_sinks`. -/
noncomputable def fSinks (wall : Fin ns → ℝ) (i : Fin ns) : ℝ := wall i * D.area / D.volume

/-- equations.py:716-730 `get_diffusion_sources`. -/
noncomputable def fSources (sinks : Fin ns → ℝ) (i : Fin ns) : ℝ := ∑ k, -sinks k * D.ret i k

/-- equations.py:752-772 `get_min_n_correction`. -/
noncomputable def fMinN (n : Fin ns → ℝ) (i : Fin ns) : ℝ := if n i < 1 then (1 - n i) / 1e-10 else 0

/-- equations.py:774-800 `get_dn_dt`. -/
noncomputable def fDn (vol flow diff minN : Fin ns → ℝ) (i : Fin ns) : ℝ :=
  vol i + flow i + diff i + minN i

/-- equations.py:811-821 `get_drho_dt_ext`. -/
noncomputable def fExt (power : ℝ) : ℝ := power / D.volume / D.C.e

/-- equations.py:823-839 `get_el_en_losses`, elastic electron collisions. -/
noncomputable def fElasticLoss (tempE : ℝ) (j : Fin nr) : ℝ :=
  3 * D.C.mE / D.partnerMass j * (tempE - D.tempG * D.C.kB / D.C.e)

/-- equations.py:841-859 `get_drho_dt_el_inel`. -/
noncomputable def fElInel (loss rates : Fin nr → ℝ) : ℝ := ∑ j ∈ univ.filter D.elc, loss j * rates j

/-- equations.py:861-878 `get_drho_dt_gain_loss`. -/
noncomputable def fGainLoss (tempE : ℝ) (rates : Fin nr → ℝ) : ℝ :=
  3 / 2 * tempE * ∑ j, (D.eNet j : ℝ) * rates j

/-- equations.py:880-898 `get_drho_dt_el_walls`. -/
noncomputable def fElWalls (tempE : ℝ) (diff : Fin ns → ℝ) : ℝ :=
  -2 * tempE * ∑ i, (D.charge i : ℝ) * diff i

/-- equations.py:900-911 `get_sheath_voltage`. -/
noncomputable def fSheath (tempE : ℝ) : ℝ := tempE * D.sheathFactor

/-- equations.py:913-935 `get_drho_dt_ions_walls`. -/
noncomputable def fIonsWalls (tempE shPot : ℝ) (diff : Fin ns → ℝ) : ℝ :=
  -0.5 * tempE * (∑ i ∈ univ.filter D.pos, diff i)
    - shPot * ∑ i ∈ univ.filter D.pos, (D.charge i : ℝ) * diff i

/-- equations.py:937-954 `get_min_rho_correction`. -/
noncomputable def fMinRho (rho : ℝ) : ℝ := if rho < 1 then (1 - rho) / 1e-10 else 0

/-- equations.py:956-990 `get_drho_dt`. -/
noncomputable def fDrho (ext elInel gainLoss elWalls ionsWalls minRho : ℝ) : ℝ :=
  ext - elInel - gainLoss - elWalls - ionsWalls + minRho

/-! ### the methods, with their caches

`Equations` keeps four arrays that are partly static and partly overwritten by each evaluation
(equations.py:254-272): rate coefficients, mean speeds, cross sections and energy losses. Methods are
modelled as state transformers. An optional argument is an `Option`. The methods return the cached array
itself; the model returns its value at that moment, which is what the callers below use before any other
call overwrites it. -/

/-- equations.py:256-272: the partly dynamic arrays. -/
structure Cache (ns nr : ℕ) where
  k : Fin nr → ℝ
  v : Fin ns → ℝ
  sigma : Fin ns → Fin ns → ℝ
  loss : Fin nr → ℝ

/-- equations.py:254-272: the arrays after construction; the dynamic entries are uninitialised memory. -/
noncomputable def initCache (junk : Cache ns nr) : Cache ns nr where
  k := fun j => if D.elc j then junk.k j else D.fRateHeavy j
  v := fun i => if D.neu i then D.fSpeed D.tempG i else junk.v i
  sigma := fun i k => if i = k then 0
    else if ¬ D.neu i ∧ ¬ D.neu k then junk.sigma i k else D.fSigmaHard i k
  loss := D.enLoss

/-- computations that read and write the arrays -/
abbrev M (ns nr : ℕ) (α : Type) := StateM (Cache ns nr) α

/-- `if x is None: x = default` -/
def orElse {α : Type} (x : Option α) (default : M ns nr α) : M ns nr α :=
  match x with
  | some a => pure a
  | none => default

/-- equations.py:296-304. -/
def getDensityVector (y : Y ns) : Fin ns → ℝ := y.n
/-- equations.py:306-314. -/
def getElectronEnergyDensity (y : Y ns) : ℝ := y.rho

/-- equations.py:316-328. -/
noncomputable def getTotalDensity (y : Y ns) (n : Option (Fin ns → ℝ)) : ℝ :=
  fTotalDensity (n.getD (getDensityVector y))
/-- equations.py:330-342. -/
noncomputable def getTotalPressure (y : Y ns) (nTot : Option ℝ) : ℝ :=
  D.fPressure (nTot.getD (getTotalDensity y none))
/-- equations.py:344-362. -/
noncomputable def getIonTemperature (y : Y ns) (p : Option ℝ) : ℝ :=
  D.fIonTemp (p.getD (D.getTotalPressure y none))
/-- equations.py:364-376. -/
noncomputable def getElectronDensity (y : Y ns) (n : Option (Fin ns → ℝ)) : ℝ :=
  D.fElectronDensity (n.getD (getDensityVector y))
/-- equations.py:378-398. -/
noncomputable def getElectronTemperature (y : Y ns) (nE rho : Option ℝ) : ℝ :=
  D.fElectronTemp (nE.getD (D.getElectronDensity y none)) (rho.getD (getElectronEnergyDensity y))
/-- equations.py:400-413. -/
noncomputable def getDebyeLength (y : Y ns) (nE tempE : Option ℝ) : ℝ :=
  D.fDebye (nE.getD (D.getElectronDensity y none)) (tempE.getD (D.getElectronTemperature y none none))

/-- equations.py:415-430: only the entries of electron collisions are overwritten. -/
noncomputable def getReactionRateCoefficients (y : Y ns) (tempE : Option ℝ) : M ns nr (Fin nr → ℝ) := do
  let te := tempE.getD (D.getElectronTemperature y none none)
  modify fun c => { c with k := fun j => if D.elc j then D.fRateElectron te j else c.k j }
  return (← get).k

/-- equations.py:432-459. -/
noncomputable def getReactionRates (y : Y ns) (n : Option (Fin ns → ℝ)) (nE nTot : Option ℝ)
    (k : Option (Fin nr → ℝ)) : M ns nr (Fin nr → ℝ) := do
  let n' := n.getD (getDensityVector y)
  let nE' := nE.getD (D.getElectronDensity y (some n'))
  let nTot' := nTot.getD (getTotalDensity y (some n'))
  let k' ← orElse k (D.getReactionRateCoefficients y none)
  return D.fRates n' nE' nTot' k'

/-- equations.py:461-477. -/
noncomputable def getVolumetricSourceRates (y : Y ns) (rates : Option (Fin nr → ℝ)) :
    M ns nr (Fin ns → ℝ) := do
  let rates' ← orElse rates (D.getReactionRates y none none none none)
  return D.fVol rates'

/-- equations.py:479-507. -/
noncomputable def getFlowSourceRates (y : Y ns) (n : Option (Fin ns → ℝ)) (p : Option ℝ) : Fin ns → ℝ :=
  D.fFlow (n.getD (getDensityVector y)) (p.getD (D.getTotalPressure y none))

/-- equations.py:509-524: only the entries of ions are overwritten. -/
noncomputable def getMeanSpeeds (y : Y ns) (tempI : Option ℝ) : M ns nr (Fin ns → ℝ) := do
  let ti := tempI.getD (D.getIonTemperature y none)
  modify fun c => { c with v := fun i => if D.neu i then c.v i else D.fSpeed ti i }
  return (← get).v

/-- equations.py:526-553: the ion-ion entries are overwritten, then the diagonal is set to 0. -/
noncomputable def getSigmaSc (y : Y ns) (v : Option (Fin ns → ℝ)) (debye : Option ℝ) :
    M ns nr (Fin ns → Fin ns → ℝ) := do
  let v' ← orElse v (D.getMeanSpeeds y none)
  let debye' := debye.getD (D.getDebyeLength y none none)
  modify fun c => { c with
    sigma := fun i k => if i = k then 0
      else if ¬ D.neu i ∧ ¬ D.neu k then D.fSigmaIon v' debye' i k else c.sigma i k }
  return (← get).sigma

/-- equations.py:555-571. -/
noncomputable def getMeanFreePaths (y : Y ns) (n : Option (Fin ns → ℝ))
    (sigma : Option (Fin ns → Fin ns → ℝ)) : M ns nr (Fin ns → ℝ) := do
  let n' := n.getD (getDensityVector y)
  let sigma' ← orElse sigma (D.getSigmaSc y none none)
  return fMfp n' sigma'

/-- equations.py:573-588. -/
noncomputable def getFreeDiffusivities (y : Y ns) (mfp v : Option (Fin ns → ℝ)) :
    M ns nr (Fin ns → ℝ) := do
  let mfp' ← orElse mfp (D.getMeanFreePaths y none none)
  let v' ← orElse v (D.getMeanSpeeds y none)
  return fFree mfp' v'

/-- equations.py:591-622. -/
noncomputable def getAmbipolarDiffusivityPos (y : Y ns) (n : Option (Fin ns → ℝ))
    (nE tempI tempE : Option ℝ) (free : Option (Fin ns → ℝ)) : M ns nr ℝ := do
  let n' := n.getD (getDensityVector y)
  let nE' := nE.getD (D.getElectronDensity y (some n'))
  let tempI' := tempI.getD (D.getIonTemperature y none)
  let tempE' := tempE.getD (D.getElectronTemperature y (some nE') none)
  let free' ← orElse free (D.getFreeDiffusivities y none none)
  return D.fAmbPos n' nE' tempI' tempE' free'

/-- equations.py:637-661. -/
noncomputable def getDiffusivities (y : Y ns) (free : Option (Fin ns → ℝ)) (aPos aNeg : Option ℝ) :
    M ns nr (Fin ns → ℝ) := do
  let free' ← orElse free (D.getFreeDiffusivities y none none)
  let aPos' ← orElse aPos (D.getAmbipolarDiffusivityPos y none none none none (some free'))
  let aNeg' := aNeg.getD fAmbNeg
  return D.fDiff free' aPos' aNeg'

/-- equations.py:663-699. -/
noncomputable def getWallFluxes (y : Y ns) (n diff v : Option (Fin ns → ℝ)) : M ns nr (Fin ns → ℝ) := do
  let n' := n.getD (getDensityVector y)
  let diff' ← orElse diff (D.getDiffusivities y none none none)
  let v' ← orElse v (D.getMeanSpeeds y none)
  return D.fWall n' diff' v'

/-- equations.py:701-714. -/
noncomputable def getDiffusionSinks (y : Y ns) (wall : Option (Fin ns → ℝ)) : M ns nr (Fin ns → ℝ) := do
  let wall' ← orElse wall (D.getWallFluxes y none none none)
  return D.fSinks wall'

/-- equations.py:716-730. -/
noncomputable def getDiffusionSources (y : Y ns) (sinks : Option (Fin ns → ℝ)) :
    M ns nr (Fin ns → ℝ) := do
  let sinks' ← orElse sinks (D.getDiffusionSinks y none)
  return D.fSources sinks'

/-- equations.py:732-750. -/
noncomputable def getDiffusionSourceRates (y : Y ns) (sinks sources : Option (Fin ns → ℝ)) :
    M ns nr (Fin ns → ℝ) := do
  let sinks' ← orElse sinks (D.getDiffusionSinks y none)
  let sources' ← orElse sources (D.getDiffusionSources y (some sinks'))
  return sinks' + sources'

/-- equations.py:752-772. -/
noncomputable def getMinNCorrection (y : Y ns) (n : Option (Fin ns → ℝ)) : Fin ns → ℝ :=
  fMinN (n.getD (getDensityVector y))

/-- equations.py:774-800. -/
noncomputable def getDnDt (y : Y ns) (vol flow diff minN : Option (Fin ns → ℝ)) :
    M ns nr (Fin ns → ℝ) := do
  let vol' ← orElse vol (D.getVolumetricSourceRates y none)
  let flow' := flow.getD (D.getFlowSourceRates y none none)
  let diff' ← orElse diff (D.getDiffusionSourceRates y none none)
  let minN' := minN.getD (getMinNCorrection y none)
  return fDn vol' flow' diff' minN'

/-- equations.py:802-821. -/
noncomputable def getDrhoExt (t : ℝ) (power : Option ℝ) : ℝ := D.fExt (power.getD (D.power t))

/-- equations.py:823-839: only the entries of elastic electron collisions are overwritten. -/
noncomputable def getElEnLosses (y : Y ns) (tempE : Option ℝ) : M ns nr (Fin nr → ℝ) := do
  let te := tempE.getD (D.getElectronTemperature y none none)
  modify fun c => { c with
    loss := fun j => if D.elc j ∧ D.elastic j then D.fElasticLoss te j else c.loss j }
  return (← get).loss

/-- equations.py:841-859. -/
noncomputable def getDrhoElInel (y : Y ns) (loss rates : Option (Fin nr → ℝ)) : M ns nr ℝ := do
  let loss' ← orElse loss (D.getElEnLosses y none)
  let rates' ← orElse rates (D.getReactionRates y none none none none)
  return D.fElInel loss' rates'

/-- equations.py:861-878. -/
noncomputable def getDrhoGainLoss (y : Y ns) (tempE : Option ℝ) (rates : Option (Fin nr → ℝ)) :
    M ns nr ℝ := do
  let te := tempE.getD (D.getElectronTemperature y none none)
  let rates' ← orElse rates (D.getReactionRates y none none none none)
  return D.fGainLoss te rates'

/-- equations.py:880-898. -/
noncomputable def getDrhoElWalls (y : Y ns) (tempE : Option ℝ) (diff : Option (Fin ns → ℝ)) :
    M ns nr ℝ := do
  let te := tempE.getD (D.getElectronTemperature y none none)
  let diff' ← orElse diff (D.getDiffusionSourceRates y none none)
  return D.fElWalls te diff'

/-- equations.py:900-911. -/
noncomputable def getSheathVoltage (y : Y ns) (tempE : Option ℝ) : ℝ :=
  D.fSheath (tempE.getD (D.getElectronTemperature y none none))

/-- equations.py:913-935. -/
noncomputable def getDrhoIonsWalls (y : Y ns) (tempE shPot : Option ℝ) (diff : Option (Fin ns → ℝ)) :
    M ns nr ℝ := do
  let te := tempE.getD (D.getElectronTemperature y none none)
  let sh := shPot.getD (D.getSheathVoltage y none)
  let diff' ← orElse diff (D.getDiffusionSourceRates y none none)
  return D.fIonsWalls te sh diff'

/-- equations.py:937-954. -/
noncomputable def getMinRhoCorrection (y : Y ns) (rho : Option ℝ) : ℝ :=
  fMinRho (rho.getD (getElectronEnergyDensity y))

/-- equations.py:956-990. -/
noncomputable def getDrhoDt (t : ℝ) (y : Y ns) (ext elInel gainLoss elWalls ionsWalls minRho : Option ℝ) :
    M ns nr ℝ := do
  let ext' := ext.getD (D.getDrhoExt t none)
  let elInel' ← orElse elInel (D.getDrhoElInel y none none)
  let gainLoss' ← orElse gainLoss (D.getDrhoGainLoss y none none)
  let elWalls' ← orElse elWalls (D.getDrhoElWalls y none none)
  let ionsWalls' ← orElse ionsWalls (D.getDrhoIonsWalls y none none none)
  let minRho' := minRho.getD (getMinRhoCorrection y none)
  return fDrho ext' elInel' gainLoss' elWalls' ionsWalls' minRho'

/-- equations.py:992-1008. -/
noncomputable def getDyDt (t : ℝ) (y : Y ns) (dn : Option (Fin ns → ℝ)) (drho : Option ℝ) :
    M ns nr (Y ns) := do
  let dn' ← orElse dn (D.getDnDt y none none none none)
  let drho' ← orElse drho (D.getDrhoDt t y none none none none none none)
  return ⟨dn', drho'⟩

/-- equations.py:1024-1069: the objective function handed to the solver. -/
noncomputable def objective (t : ℝ) (y : Y ns) : M ns nr (Y ns) := do
  let n := getDensityVector y
  let rho := getElectronEnergyDensity y
  let nTot := getTotalDensity y (some n)
  let p := D.getTotalPressure y (some nTot)
  let tempI := D.getIonTemperature y (some p)
  let nE := D.getElectronDensity y (some n)
  let tempE := D.getElectronTemperature y (some nE) (some rho)
  let debye := D.getDebyeLength y (some nE) (some tempE)
  let k ← D.getReactionRateCoefficients y (some tempE)
  let rates ← D.getReactionRates y (some n) (some nE) (some nTot) (some k)
  let sourceVol ← D.getVolumetricSourceRates y (some rates)
  let sourceFlow := D.getFlowSourceRates y (some n) (some p)
  let v ← D.getMeanSpeeds y (some tempI)
  let sigma ← D.getSigmaSc y (some v) (some debye)
  let mfp ← D.getMeanFreePaths y (some n) (some sigma)
  let free ← D.getFreeDiffusivities y (some mfp) (some v)
  let aPos ← D.getAmbipolarDiffusivityPos y (some n) (some nE) (some tempI) (some tempE) (some free)
  let aNeg := fAmbNeg
  let diff ← D.getDiffusivities y (some free) (some aPos) (some aNeg)
  let wall ← D.getWallFluxes y (some n) (some diff) (some v)
  let sinks ← D.getDiffusionSinks y (some wall)
  let sources ← D.getDiffusionSources y (some sinks)
  let sourceDiff ← D.getDiffusionSourceRates y (some sinks) (some sources)
  let minN := getMinNCorrection y (some n)
  let dn ← D.getDnDt y (some sourceVol) (some sourceFlow) (some sourceDiff) (some minN)
  let ext := D.getDrhoExt t (some (D.power t))
  let losses ← D.getElEnLosses y (some tempE)
  let elInel ← D.getDrhoElInel y (some losses) (some rates)
  let gainLoss ← D.getDrhoGainLoss y (some tempE) (some rates)
  let elWalls ← D.getDrhoElWalls y (some tempE) (some sourceDiff)
  let shPot := D.getSheathVoltage y (some tempE)
  let ionsWalls ← D.getDrhoIonsWalls y (some tempE) (some shPot) (some sourceDiff)
  let minRho := getMinRhoCorrection y (some rho)
  let drho ← D.getDrhoDt t y (some ext) (some elInel) (some gainLoss) (some elWalls) (some ionsWalls)
    (some minRho)
  D.getDyDt t y (some dn) (some drho)

end Data
end Verif.Pygmol
