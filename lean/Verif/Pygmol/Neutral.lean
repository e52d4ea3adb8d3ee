/-
Model of pygmo_fwork/pygmol/neutral_model.py: chemistries and equations without charged species.
-/
import Verif.Pygmol.EqnsChem
import Verif.Pygmol.InitN

namespace Verif.Pygmol
open Finset
open Verif.Plaschem

/-! ### Model: `NeutralChemistry` -/

/-- neutral_model.py:19-25 `NeutralChemistry.assert_consistency` (`get_species_charge()` leaves out the special species). -/
def neutralAssert (net : Net) (st : State) : Except Err Unit :=
  if ¬ ∀ s ∈ net.getSpecies st false false true, s.getCharge = some 0 then .error .consistency
  else net.assertConsistency st

/-- plaschem/chemistry.py:29-92 `__init__` for the subclass: `requires_charge` is `False`, and `assert_consistency` is
the one above. -/
def neutralInit (net : Net) : Except Err State :=
  if ¬ (net.species.map RP.id).Nodup ∨ ¬ (net.reactions.map Reaction.id).Nodup then .error .consistency
  else
    match neutralAssert net State.fresh with
    | .error e => .error e
    | .ok () => .ok State.fresh

/-- neutral_model.py:27-39 `get_reactions_stoich_coefs_electron`: zeros, for every method. -/
def neutralElectron (net : Net) (st : State) (disabled : Bool) : Dict Nat Int :=
  (net.getReactions st disabled).map fun r => (r.id, 0)

namespace Data
variable {ns nr : ℕ} (D : Data ns nr)

/-! ### Model: `NeutralEquations` -/

/-- neutral_model.py:48-50: the assertion of the constructor. -/
def NeutralOk : Prop := ∀ i, D.charge i = 0

/-- neutral_model.py:60-61: the array as it is. -/
def neuRateCoefficients : M ns nr (Fin nr → ℝ) := do return (← get).k
/-- neutral_model.py:63-64. -/
def neuMeanSpeeds : M ns nr (Fin ns → ℝ) := do return (← get).v
/-- neutral_model.py:66-67. -/
def neuSigmaSc : M ns nr (Fin ns → Fin ns → ℝ) := do return (← get).sigma
/-- neutral_model.py:69-70: the argument is returned, `None` if it is not passed. -/
def neuDiffusivities (free : Option (Fin ns → ℝ)) : Option (Fin ns → ℝ) := free

/-- equations.py:432-459 with the overridden `get_electron_density` (0, neutral_model.py:56-57). -/
noncomputable def neuRates (y : Y ns) (n : Option (Fin ns → ℝ)) (nE nTot : Option ℝ) (k : Option (Fin nr → ℝ)) :
    M ns nr (Fin nr → ℝ) := do
  let n' := n.getD (getDensityVector y)
  let nE' := nE.getD 0
  let nTot' := nTot.getD (getTotalDensity y (some n'))
  let k' ← orElse k neuRateCoefficients
  return D.fRates n' nE' nTot' k'

/-- equations.py:461-477. -/
noncomputable def neuVol (y : Y ns) (rates : Option (Fin nr → ℝ)) : M ns nr (Fin ns → ℝ) := do
  let rates' ← orElse rates (D.neuRates y none none none none)
  return D.fVol rates'

/-- equations.py:555-571. -/
noncomputable def neuMfp (y : Y ns) (n : Option (Fin ns → ℝ)) (sigma : Option (Fin ns → Fin ns → ℝ)) :
    M ns nr (Fin ns → ℝ) := do
  let n' := n.getD (getDensityVector y)
  let sigma' ← orElse sigma neuSigmaSc
  return fMfp n' sigma'

/-- equations.py:573-588. -/
noncomputable def neuFree (y : Y ns) (mfp v : Option (Fin ns → ℝ)) : M ns nr (Fin ns → ℝ) := do
  let mfp' ← orElse mfp (neuMfp y none none)
  let v' ← orElse v neuMeanSpeeds
  return fFree mfp' v'

/-- equations.py:663-699: without `diff_c`, `self.get_diffusivities(y)` is called, which returns `None` here; the
arithmetic with `None` raises a TypeError, modelled by `none`. -/
noncomputable def neuWall (y : Y ns) (n diff v : Option (Fin ns → ℝ)) : M ns nr (Option (Fin ns → ℝ)) := do
  let n' := n.getD (getDensityVector y)
  let diff' := match diff with
    | some d => some d
    | none => neuDiffusivities none
  let v' ← orElse v neuMeanSpeeds
  return diff'.map fun d => D.fWall n' d v'

/-- equations.py:701-714. -/
noncomputable def neuSinks (y : Y ns) (wall : Option (Fin ns → ℝ)) : M ns nr (Option (Fin ns → ℝ)) := do
  match wall with
  | some w => return some (D.fSinks w)
  | none => return (← D.neuWall y none none none).map D.fSinks

/-- neutral_model.py:73-107: the objective function. All arguments are passed on, so that the methods of the base class
that are not overridden (diffusion sources, corrections, `get_dn_dt`, `get_dy_dt`) reduce to their formulas. -/
noncomputable def neuObjective (_t : ℝ) (y : Y ns) : M ns nr (Option (Y ns)) := do
  let n := getDensityVector y
  let nTot := getTotalDensity y (some n)
  let p := D.getTotalPressure y (some nTot)
  let k ← neuRateCoefficients
  let rates ← D.neuRates y (some n) (some 0) (some nTot) (some k)
  let vol ← D.neuVol y (some rates)
  let flow := D.getFlowSourceRates y (some n) (some p)
  let v ← neuMeanSpeeds
  let sigma ← neuSigmaSc
  let mfp ← neuMfp y (some n) (some sigma)
  let free ← neuFree y (some mfp) (some v)
  let diff := neuDiffusivities (some free)
  let some wall ← D.neuWall y (some n) diff (some v) | return none
  let some sinks ← D.neuSinks y (some wall) | return none
  let sources := D.fSources sinks
  let src := sinks + sources
  let minN := getMinNCorrection y (some n)
  return some ⟨fDn vol flow src minN, 0⟩

/-- calls of the methods of `NeutralEquations` that touch the arrays -/
inductive NCall (ns nr : ℕ) where
  | rateCoefficients (y : Y ns)
  | rates (y : Y ns) (n : Option (Fin ns → ℝ)) (nE nTot : Option ℝ) (k : Option (Fin nr → ℝ))
  | vol (y : Y ns) (rates : Option (Fin nr → ℝ))
  | meanSpeeds (y : Y ns)
  | sigmaSc (y : Y ns)
  | mfp (y : Y ns) (n : Option (Fin ns → ℝ)) (sigma : Option (Fin ns → Fin ns → ℝ))
  | free (y : Y ns) (mfp v : Option (Fin ns → ℝ))
  | wall (y : Y ns) (n diff v : Option (Fin ns → ℝ))
  | sinks (y : Y ns) (wall : Option (Fin ns → ℝ))
  | elEnLosses (y : Y ns) (tempE : ℝ)
  | objective (t : ℝ) (y : Y ns)

/-- the arrays after a call -/
noncomputable def neuAfter (c : Cache ns nr) : NCall ns nr → Cache ns nr
  | .rateCoefficients _ => (neuRateCoefficients.run c).2
  | .rates y n ne nt k => ((D.neuRates y n ne nt k).run c).2
  | .vol y r => ((D.neuVol y r).run c).2
  | .meanSpeeds _ => (neuMeanSpeeds.run c).2
  | .sigmaSc _ => (neuSigmaSc.run c).2
  | .mfp y n s => ((neuMfp y n s).run c).2
  | .free y m v => ((neuFree y m v).run c).2
  | .wall y n d v => ((D.neuWall y n d v).run c).2
  | .sinks y w => ((D.neuSinks y w).run c).2
  | .elEnLosses y te => ((D.getElEnLosses y (some te)).run c).2
  | .objective t y => ((D.neuObjective t y).run c).2

/-- the arrays of a new `NeutralEquations` after any sequence of calls -/
noncomputable def neuHistory (junk : Cache ns nr) (calls : List (NCall ns nr)) : Cache ns nr :=
  calls.foldl D.neuAfter (D.initCache junk)

/-- neutral_model.py:123-145 `_build_y0`: densities. -/
noncomputable def neuN0 (i : Fin ns) : ℝ :=
  if 0 < ∑ k, D.feed k then
    if 0 < D.feed i then D.feed i / (∑ k, D.feed k) * (D.nTot - ∑ _k : Fin ns, D.nTot * 1e-15)
    else D.nTot * 1e-15
  else D.nTot / ns

/-- neutral_model.py:145. -/
noncomputable def neuY0 : Y ns := ⟨D.neuN0, 0⟩

/-- neutral_model.py:142-152 `_y0_from_init_params` with densities given, `none` for the exception. -/
noncomputable def neuFromInit (names : Fin ns → Str) (d : Dict Str ℝ) : Option (Y ns) :=
  if (∀ k ∈ d.keys, ∃ i, names i = k) ∧ ∀ i, names i ∈ d.keys then
    some ⟨fun i => (Dict.get? d (names i)).getD 0, 0⟩
  else none

/-! ### Proofs -/

variable {D}

/-- What `NeutralEquations` gets from a `NeutralChemistry`: only neutral species (asserted by the constructor) and no
electron coefficients. -/
structure Neutral (D : Data ns nr) : Prop where
  charge : D.NeutralOk
  eLhs : ∀ j, D.eLhs j = 0

namespace Neutral
variable (h : Neutral D)
include h

theorem not_elc (j : Fin nr) : ¬ D.elc j := by
  unfold elc
  rw [h.eLhs j]
  decide

theorem neu (i : Fin ns) : D.neu i := h.charge i

theorem ne (y : Y ns) : D.pNe y = 0 := by
  unfold pNe fElectronDensity
  exact sum_eq_zero fun i _ => by rw [h.charge i]; simp

/-- no call changes the arrays -/
theorem after (c : Cache ns nr) (call : NCall ns nr) : D.neuAfter c call = c := by
  cases call with
  | rateCoefficients => rfl
  | rates _ _ _ _ k => cases k <;> rfl
  | vol _ r => cases r <;> rfl
  | meanSpeeds => rfl
  | sigmaSc => rfl
  | mfp _ _ s => cases s <;> rfl
  | free _ m v => cases m <;> cases v <;> rfl
  | wall _ _ _ v => cases v <;> rfl
  | sinks _ w => cases w <;> rfl
  | elEnLosses y te =>
    show ({ c with loss := fun j => if D.elc j ∧ D.elastic j then D.fElasticLoss te j else c.loss j } : Cache ns nr) = c
    have : (fun j => if D.elc j ∧ D.elastic j then D.fElasticLoss te j else c.loss j) = c.loss := by
      funext j
      rw [if_neg fun h' => h.not_elc j h'.1]
    rw [this]
  | objective => rfl

theorem history (junk : Cache ns nr) (calls : List (NCall ns nr)) : D.neuHistory junk calls = D.initCache junk := by
  unfold neuHistory
  induction calls with
  | nil => rfl
  | cons a l ih => rw [List.foldl_cons, h.after, ih]

theorem init_k (junk : Cache ns nr) (y : Y ns) : (D.initCache junk).k = D.pK y := by
  funext j
  unfold initCache pK
  simp only [if_neg (h.not_elc j)]

theorem init_v (junk : Cache ns nr) (y : Y ns) : (D.initCache junk).v = D.pV y := by
  funext i
  unfold initCache pV
  simp only [if_pos (h.neu i)]

theorem init_sigma (junk : Cache ns nr) (y : Y ns) : (D.initCache junk).sigma = D.pSigma y := by
  funext i k
  unfold initCache pSigma
  simp only [h.neu i, not_true, false_and, if_false]

theorem diff (y : Y ns) : D.pDiff y = D.pFree y := by
  funext i
  unfold pDiff fDiff
  rw [if_neg (show ¬ D.pos i by unfold pos; rw [h.charge i]; decide),
    if_neg (show ¬ D.neg i by unfold neg; rw [h.charge i]; decide)]

/-- **C83.** The equations of the neutral model are those of the full model for a chemistry without charged species,
except that the electron energy is not changed; they do not depend on uninitialised memory or on what was called
before. -/
theorem objective (junk : Cache ns nr) (calls : List (NCall ns nr)) (t : ℝ) (y : Y ns) :
    ((D.neuObjective t y).run (D.neuHistory junk calls)).1 = some ⟨(D.rhs t y).n, 0⟩ := by
  have e : ((D.neuObjective t y).run (D.neuHistory junk calls)).1 = some ⟨fDn (D.fVol (D.fRates y.n 0 (pTot y)
      (D.neuHistory junk calls).k)) (D.pFlow y)
      (D.fSinks (D.fWall y.n (fFree (fMfp y.n (D.neuHistory junk calls).sigma) (D.neuHistory junk calls).v)
        (D.neuHistory junk calls).v) + D.fSources (D.fSinks (D.fWall y.n
          (fFree (fMfp y.n (D.neuHistory junk calls).sigma) (D.neuHistory junk calls).v)
        (D.neuHistory junk calls).v))) (fMinN y.n), 0⟩ := rfl
  rw [e, h.history, h.init_k junk y, h.init_v junk y, h.init_sigma junk y]
  have hw : D.fWall y.n (fFree (fMfp y.n (D.pSigma y)) (D.pV y)) (D.pV y) = D.pWall y := by
    unfold pWall
    rw [h.diff]
    rfl
  rw [hw, ← h.ne y]
  rfl

/-- **C83.** The rates reported after a run are the ones used in the equations. -/
theorem rates (junk : Cache ns nr) (calls : List (NCall ns nr)) (t : ℝ) (y : Y ns) :
    ∃ rates, ((D.neuRates y none none none none).run (D.neuHistory junk calls)).1 = rates ∧
      ((D.neuVol y none).run (D.neuHistory junk calls)).1 = D.pVol y ∧
      (∀ i, D.pVol y i = ∑ j, (D.net j i : ℝ) * rates j) ∧
      ∀ dy, ((D.neuObjective t y).run (D.neuHistory junk calls)).1 = some dy →
        ∀ i, dy.n i = D.pVol y i + D.pFlow y i + D.pSrc y i + fMinN y.n i := by
  have e : ((D.neuRates y none none none none).run (D.neuHistory junk calls)).1 =
      D.fRates y.n 0 (pTot y) (D.neuHistory junk calls).k := rfl
  have e' : D.fRates y.n 0 (pTot y) (D.neuHistory junk calls).k = D.pRates y := by
    rw [h.history, h.init_k junk y, ← h.ne y]
    rfl
  refine ⟨_, rfl, ?_, fun i => ?_, fun dy hdy i => ?_⟩
  · have : ((D.neuVol y none).run (D.neuHistory junk calls)).1 = D.fVol (D.fRates y.n 0 (pTot y)
      (D.neuHistory junk calls).k) := rfl
    rw [this, e']
    rfl
  · rw [e, e']
    rfl
  · rw [h.objective] at hdy
    cases hdy
    rfl

/-- **C83.** Wall fluxes cannot be reported: the method called with the state alone, as the diagnostics do, raises a
TypeError in every state. -/
theorem wall_fluxes_fail (junk : Cache ns nr) (calls : List (NCall ns nr)) (y : Y ns) :
    ((D.neuWall y none none none).run (D.neuHistory junk calls)).1 = none ∧
    ((D.neuSinks y none).run (D.neuHistory junk calls)).1 = none := ⟨rfl, rfl⟩

theorem weak (y : Y ns) : D.WeakCoupling y := fun i _ _ hi => absurd (h.neu i) hi

theorem rates_nonneg (hph : D.Physical) {y : Y ns} (hn : ∀ i, 0 ≤ y.n i) (j : Fin nr) : 0 ≤ D.pRates y j := by
  have h1 := k_nonneg (y := y) hph j
  have h2 : 0 ≤ ∏ i, y.n i ^ D.lhs j i := prod_nonneg fun i _ => zpow_nonneg (hn i) _
  have h3 : 0 ≤ pTot y := by
    unfold pTot fTotalDensity
    exact sum_nonneg fun i _ => hn i
  unfold pRates fRates
  rw [h.eLhs j, zpow_zero, one_mul]
  exact mul_nonneg h1 (mul_nonneg h2 (zpow_nonneg h3 _))

/-- an absent species grows -/
theorem dn_at_zero (hph : D.Physical) {y : Y ns} (hn : ∀ i, 0 ≤ y.n i) {i : Fin ns} (hi : y.n i = 0) :
    1e10 ≤ D.pDn y i := by
  have hd : ∀ i, 0 ≤ D.pDiff y i := fun i => by
    rw [h.diff]
    exact free_nonneg hph hn (h.weak y) i
  have hvol : 0 ≤ D.pVol y i := by
    unfold pVol fVol
    refine sum_nonneg fun j _ => ?_
    by_cases hl : 0 < D.lhs j i
    · rw [rates_zero hi hl]; simp
    · have h1 := hph.net j i
      have h2 : 0 ≤ D.net j i := by omega
      exact mul_nonneg (by exact_mod_cast h2) (h.rates_nonneg hph hn j)
  have hV := volume_pos hph
  have hflow : 0 ≤ D.pFlow y i := by
    have := hph.feed i
    have h0 : 0 ≤ D.feed i * 4.485e17 / D.volume := by positivity
    unfold pFlow fFlow
    rw [hi]
    simpa using h0
  have hsink : D.pSinks y i = 0 := by
    unfold pSinks fSinks pWall fWall
    rw [hi]; simp
  have hsrc : 0 ≤ D.pSrc y i := by
    have : D.pSrc y i = D.pSinks y i + ∑ k, -D.pSinks y k * D.ret i k := rfl
    rw [this, hsink, zero_add]
    exact sum_nonneg fun k _ => mul_nonneg (neg_nonneg.2 (sinks_nonpos hph hn hd k)) (hph.ret i k)
  have hmin : 1e10 ≤ fMinN y.n i := (min_n_correction y i).2.2 hi.le
  have : D.pDn y i = D.pVol y i + D.pFlow y i + D.pSrc y i + fMinN y.n i := rfl
  rw [this]; linarith

/-- **C84.** Exact solutions of the neutral model stay positive, and no denominator vanishes along them (so that it does
not matter what the division by zero gives in the model), if there are at least two species with positive sizes. -/
theorem stay_positive (hph : D.Physical) (T : ℝ) (y : ℝ → Y ns) (junk : Cache ns nr) (calls : List (NCall ns nr))
    (dy : ℝ → Y ns) (hdy : ∀ t, ((D.neuObjective t (y t)).run (D.neuHistory junk calls)).1 = some (dy t))
    (hsol : ∀ i, ∀ t ∈ Set.Icc 0 T, HasDerivWithinAt (fun s => (y s).n i) ((dy t).n i) (Set.Icc 0 T) t)
    (h0 : ∀ i, 0 < (y 0).n i) :
    (∀ t ∈ Set.Icc 0 T, ∀ i, 0 < (y t).n i) ∧
    ((∀ i, 0 < D.ljSigma i) → 2 ≤ ns → ∀ t ∈ Set.Icc 0 T,
      (∑ i ∈ univ.filter D.neu, (y t).n i) ≠ 0 ∧ ∀ i, ∑ k, (y t).n k * D.pSigma (y t) i k ≠ 0) := by
  have key : ∀ t ∈ Set.Icc 0 T, ∀ i, 0 < (y t).n i := by
    refine stays_positive T (fun t => (y t).n) (fun t => (dy t).n) hsol h0 fun t ht hnn i hz => ?_
    have := hdy t
    rw [h.objective] at this
    have hpos : 1e10 ≤ D.pDn (y t) i := h.dn_at_zero hph hnn hz
    have h1 : (0 : ℝ) < 1e10 := by norm_num
    have h2 : (dy t).n = D.pDn (y t) := by
      rw [← Option.some.inj this]
      rfl
    show 0 < (dy t).n i
    rw [h2]
    exact lt_of_lt_of_le h1 hpos
  refine ⟨key, fun hl hns t ht => ⟨?_, fun i => ?_⟩⟩
  · have : 0 < ∑ i ∈ univ.filter D.neu, (y t).n i :=
      sum_pos (fun i _ => key t ht i) ⟨⟨0, by omega⟩, mem_filter.2 ⟨mem_univ _, h.neu _⟩⟩
    exact this.ne'
  · have : Nontrivial (Fin ns) := Fin.nontrivial_iff_two_le.2 hns
    obtain ⟨k, hk⟩ := exists_ne i
    have h1 : ∀ k, 0 ≤ (y t).n k * D.pSigma (y t) i k := fun k =>
      mul_nonneg (key t ht k).le (sigma_nonneg hph (h.weak _) i k)
    have h2 : 0 < (y t).n k * D.pSigma (y t) i k := by
      refine mul_pos (key t ht k) ?_
      unfold pSigma
      rw [if_neg (Ne.symm hk), if_neg (fun hh => hh.1 (h.neu i))]
      have := hl i; have := hl k
      unfold fSigmaHard
      positivity
    exact (lt_of_lt_of_le h2 (single_le_sum (f := fun k => (y t).n k * D.pSigma (y t) i k) (fun k _ => h1 k)
      (mem_univ k))).ne'

end Neutral

/-- **C84.** With one species only, the mean free path is a division by zero in every state: particles of the same kind
do not count as collision partners. -/
theorem single_species_undefined (D : Data 1 nr) (y : Y 1) (i : Fin 1) : ∑ k, y.n k * D.pSigma y i k = 0 := by
  refine sum_eq_zero fun k _ => ?_
  rw [Subsingleton.elim i k]
  unfold pSigma
  rw [if_pos rfl, mul_zero]

/-- **C84.** Initial densities of the neutral model: without feed the pressure is the given one; with feeds it is too
low by a fraction of 1e-15 for every fed species; the densities are positive for less than 1e15 species. -/
theorem neutral_start (hph : D.Physical) (hns : 0 < ns) :
    (∑ i, D.feed i = 0 → D.getTotalPressure D.neuY0 none = D.p0) ∧
    (0 < ∑ i, D.feed i → D.getTotalPressure D.neuY0 none =
      D.p0 * (1 - (univ.filter fun i => 0 < D.feed i).card * 1e-15)) ∧
    ((ns : ℝ) < 1e15 → ∀ i, 0 < D.neuY0.n i) ∧ D.neuY0.rho = 0 := by
  have hk := D.C.kB_pos; have hT := hph.tempG; have hp := hph.p0
  have hnt : 0 < D.nTot := by unfold nTot; positivity
  have hns' : (0 : ℝ) < ns := by exact_mod_cast hns
  have hp' : D.C.kB * D.tempG * D.nTot = D.p0 := by
    unfold nTot
    field_simp
  have hP : D.getTotalPressure D.neuY0 none = D.C.kB * D.tempG * ∑ i, D.neuN0 i := rfl
  refine ⟨fun h => ?_, fun h => ?_, fun h i => ?_, rfl⟩
  · have : ∀ i, D.neuN0 i = D.nTot / ns := fun i => by
      unfold neuN0
      rw [if_neg (by rw [h]; exact lt_irrefl _)]
    rw [hP, sum_congr rfl fun i _ => this i, sum_const, card_univ, Fintype.card_fin, nsmul_eq_mul]
    field_simp
    linarith
  · have e : ∀ i, D.neuN0 i = D.feed i / (∑ k, D.feed k) * (D.nTot - ns * (D.nTot * 1e-15)) +
        if 0 < D.feed i then 0 else D.nTot * 1e-15 := fun i => by
      unfold neuN0
      rw [if_pos h, sum_const, card_univ, Fintype.card_fin, nsmul_eq_mul]
      by_cases hi : 0 < D.feed i
      · rw [if_pos hi, if_pos hi, add_zero]
      · have : D.feed i = 0 := le_antisymm (not_lt.1 hi) (hph.feed i)
        rw [if_neg hi, if_neg hi, this]
        ring
    have e2 : ∑ i : Fin ns, (if 0 < D.feed i then 0 else D.nTot * 1e-15) =
        (ns - (univ.filter fun i => 0 < D.feed i).card) * (D.nTot * 1e-15) := by
      have : ∀ i : Fin ns, (if 0 < D.feed i then 0 else D.nTot * 1e-15) =
          D.nTot * 1e-15 - (if 0 < D.feed i then D.nTot * 1e-15 else 0) := fun i => by split_ifs <;> ring
      rw [sum_congr rfl fun i _ => this i, sum_sub_distrib, sum_const, card_univ, Fintype.card_fin, nsmul_eq_mul,
        ← sum_filter, sum_const, nsmul_eq_mul]
      ring
    rw [hP, sum_congr rfl fun i _ => e i, sum_add_distrib, e2, ← sum_mul, ← sum_div, div_self h.ne']
    rw [← hp']
    ring
  · show 0 < D.neuN0 i
    unfold neuN0
    rw [sum_const, card_univ, Fintype.card_fin, nsmul_eq_mul]
    have h1 : 0 < D.nTot - ns * (D.nTot * 1e-15) := by
      have : (ns : ℝ) * (D.nTot * 1e-15) < 1e15 * (D.nTot * 1e-15) :=
        mul_lt_mul_of_pos_right h (by positivity)
      have e : (1e15 : ℝ) * (D.nTot * 1e-15) = D.nTot := by ring
      linarith
    split_ifs <;> positivity

/-- **C84.** Given initial densities are taken over by name, whatever their order; exactly the names of the species have to
be given. Nothing else is checked: a negative density is taken over, too. -/
theorem neutral_given_start (names : Fin ns → Str) (d : Dict Str ℝ) (hd : d.keys.Nodup) (y : Y ns) :
    neuFromInit names d = some y ↔
      (∀ k, k ∈ d.keys ↔ ∃ i, names i = k) ∧ (∀ i, (names i, y.n i) ∈ d) ∧ y.rho = 0 := by
  unfold neuFromInit
  constructor
  · intro h
    split at h
    · rename_i hk
      cases h
      refine ⟨fun k => ⟨hk.1 k, fun ⟨i, hi⟩ => hi ▸ hk.2 i⟩, fun i => ?_, rfl⟩
      obtain ⟨q, hq, he⟩ := List.mem_map.1 (hk.2 i)
      have hg : Dict.get? d (names i) = some q.2 := he ▸ Dict.get?_of_mem hd hq
      show (names i, (Dict.get? d (names i)).getD 0) ∈ d
      rw [hg, ← he]
      exact hq
    · cases h
  · rintro ⟨h1, h2, h3⟩
    rw [if_pos ⟨fun k hk => (h1 k).1 hk, fun i => (h1 _).2 ⟨i, rfl⟩⟩]
    congr 1
    cases y with
    | mk n rho =>
      have : (fun i => (Dict.get? d (names i)).getD 0) = n := by
        funext i
        rw [Dict.get?_of_mem (p := (names i, n i)) hd (h2 i)]
        rfl
      rw [this, ← h3]

end Data

/-! ### The chemistry -/

open Net Data

/-- **C83.** Which neutral chemistries are accepted: those that pass the checks of a chemistry without requirements on
charge, and whose species other than the electron and M are all neutral. -/
theorem neutral_accepted_iff {net : Net} (hq : net.requiresCharge = false) {st : State} :
    neutralInit net = .ok st ↔
      net.init = .ok st ∧ ∀ s ∈ net.species, s.name ≠ str!"e" → s.name ≠ str!"M" → s.charge.getD 0 = 0 := by
  have hsp : (∀ s ∈ net.getSpecies State.fresh false false true, s.getCharge = some 0) ↔
      ∀ s ∈ net.species, s.name ≠ str!"e" → s.name ≠ str!"M" → s.charge.getD 0 = 0 := by
    have mem : ∀ s, s ∈ net.getSpecies State.fresh false false true ↔
        s ∈ net.species ∧ s.name ≠ str!"e" ∧ s.name ≠ str!"M" := by
      intro s
      unfold getSpecies
      rw [List.mem_filter]
      simp [speciesMask, State.fresh, RP.isSpecial]
    have chg : ∀ s : RP, s.name ≠ str!"M" → (s.getCharge = some 0 ↔ s.charge.getD 0 = 0) := by
      intro s hs
      unfold RP.getCharge
      rw [if_neg hs]
      cases s.charge <;> simp
    constructor
    · intro h s hs h1 h2
      exact (chg s h2).1 (h s ((mem s).2 ⟨hs, h1, h2⟩))
    · intro h s hs
      obtain ⟨h1, h2, h3⟩ := (mem s).1 hs
      exact (chg s h3).2 (h s h1 h2 h3)
  unfold neutralInit Net.init neutralAssert
  rw [hq]
  by_cases hid : ¬ (net.species.map RP.id).Nodup ∨ ¬ (net.reactions.map Reaction.id).Nodup
  · rw [if_pos hid, if_pos hid]
    simp
  · rw [if_neg hid, if_neg hid]
    by_cases hn : ∀ s ∈ net.getSpecies State.fresh false false true, s.getCharge = some 0
    · rw [if_neg (not_not.2 hn)]
      have := hsp.1 hn
      cases net.assertConsistency State.fresh with
      | error e => simp
      | ok u => exact ⟨fun h => ⟨h, this⟩, fun h => h.1⟩
    · rw [if_pos hn]
      have : ¬ ∀ s ∈ net.species, s.name ≠ str!"e" → s.name ≠ str!"M" → s.charge.getD 0 = 0 := fun h => hn (hsp.2 h)
      simp [this]

/-- equations.py:155-181 for a neutral chemistry -/
structure NeutralReads {net : Net} {st : State}
    (D : Data (net.getSpecies st false false true).length (net.getReactions st false).length) : Prop where
  charge : ∀ i, D.charge i = (spAt net st i).chargeOf
  netC : ∃ M, net.stoichiomatrix st false false .net = .ok M ∧
    ∀ j i, D.net j i = cell M (reAt net st j).id (spAt net st i).id
  lhs : ∃ M, net.stoichiomatrix st false false .lhs = .ok M ∧
    ∀ j i, D.lhs j i = cell M (reAt net st j).id (spAt net st i).id
  eNet : ∀ j, D.eNet j = (Dict.get? (neutralElectron net st false) (reAt net st j).id).getD 0
  eLhs : ∀ j, D.eLhs j = (Dict.get? (neutralElectron net st false) (reAt net st j).id).getD 0
  mLhs : ∃ E, net.stoichArbitrary st false .lhs = .ok E ∧
    ∀ j, D.mLhs j = (E.get? (reAt net st j).id).getD 0

namespace NeutralReads
variable {net : Net} {st : State}
  {D : Data (net.getSpecies st false false true).length (net.getReactions st false).length}

/-- **C83.** In every state reached from an accepted neutral chemistry, the equations are accepted (their assertion
holds), and the theorems about neutral equations apply. -/
theorem neutral (h : NeutralReads D) {st0 : State} (hq : net.requiresCharge = false) (hi : neutralInit net = .ok st0) :
    Neutral D := by
  obtain ⟨-, hch⟩ := (neutral_accepted_iff hq).1 hi
  refine ⟨fun i => ?_, fun j => ?_⟩
  · rw [h.charge]
    have hm : spAt net st i ∈ net.getSpecies st false false true := List.getElem_mem _
    obtain ⟨h1, h2⟩ := List.mem_filter.1 hm
    have h3 : ¬ (spAt net st i).isSpecial = true := by
      simp only [speciesMask, Bool.false_or, Bool.true_or, Bool.and_true, Bool.and_eq_true] at h2
      simpa using h2.2
    simp only [RP.isSpecial, decide_eq_true_eq, not_or] at h3
    have := hch _ h1 h3.1 h3.2
    unfold RP.chargeOf RP.getCharge
    rw [if_neg h3.2]
    cases hc : (spAt net st i).charge with
    | none => rfl
    | some c => rw [hc] at this; exact this
  · rw [h.eLhs]
    unfold neutralElectron
    cases hg : Dict.get? ((net.getReactions st false).map fun r => (r.id, (0 : Int))) (reAt net st j).id with
    | none => rfl
    | some v =>
      have := Dict.mem_of_get? hg
      obtain ⟨r, -, he⟩ := List.mem_map.1 this
      rw [← (Prod.mk.inj he).2]
      rfl

/-- **C84.** Balance of the elements in the neutral model: the atoms of an element change only by what flows in and out
and by what the wall keeps. -/
theorem element_balance (h : NeutralReads D) {st0 : State} (hq : net.requiresCharge = false)
    (hi : neutralInit net = .ok st0) (hr : Reachable net st) {F : Str → Option (Dict Str Nat)}
    (hb : ∀ r ∈ net.reactions, Balanced F r.reactants r.products) (t : ℝ) (y dy : Y _)
    (junk : Data.Cache _ _) (calls : List (NCall _ _))
    (hdy : ((D.neuObjective t y).run (D.neuHistory junk calls)).1 = some dy) {el : Str} (hel : el ≠ str!"M")
    (hmin : ∀ i, 1 ≤ y.n i)
    (hwall : ∀ k, D.stick k ≠ 0 → ∑ i, D.ret i k * ((spAt net st i).atomCount F el : ℝ) =
      ((spAt net st k).atomCount F el : ℝ)) :
    ∑ i, ((spAt net st i).atomCount F el : ℝ) * dy.n i =
      ∑ i, ((spAt net st i).atomCount F el : ℝ) * D.getFlowSourceRates y none none i := by
  rw [(h.neutral hq hi).objective] at hdy
  cases hdy
  obtain ⟨N, hN, hrows⟩ := stoichiomatrix_elements hr hb
  obtain ⟨N', hN', hn⟩ := h.netC
  rw [hN] at hN'; cases hN'
  have rows : ∀ j, ∑ i, D.net j i * ((spAt net st i).atomCount F el : Int) = 0 := by
    intro j
    obtain ⟨row, h1, h2⟩ := hrows (reAt net st j) (List.getElem_mem _)
    rw [← h2 el hel, ← sum_fin_list]
    exact sum_congr rfl fun i _ => by rw [hn]; unfold cell; rw [h1]
  have h1 : ∑ i, ((spAt net st i).atomCount F el : ℝ) * D.pVol y i = 0 := by
    have := D.vol_weighted (fun i => ((spAt net st i).atomCount F el : ℝ)) (D.pRates y)
    have e : D.pVol y = D.fVol (D.pRates y) := rfl
    rw [e, this]
    refine sum_eq_zero fun j _ => ?_
    have h2 : ∑ i, (D.net j i : ℝ) * ((spAt net st i).atomCount F el : ℝ) = 0 := by
      have := congrArg (Int.cast : Int → ℝ) (rows j)
      push_cast at this
      exact this
    rw [h2, zero_mul]
  have h2 := D.wall_conserves (fun i => ((spAt net st i).atomCount F el : ℝ)) y hwall junk []
  rw [(D.gives_src y _ (D.valid_history junk [])).1] at h2
  have h3 : ∀ i, (D.rhs t y).n i = D.pVol y i + D.getFlowSourceRates y none none i + D.pSrc y i
      + Data.getMinNCorrection y none i := fun _ => rfl
  have h4 : ∀ i, Data.getMinNCorrection y none i = 0 := fun i => (Data.min_n_correction y i).1 (hmin i)
  simp only [h3, h4, mul_add, sum_add_distrib, h1, h2]
  simp

end NeutralReads

/-! ### Witnesses -/

namespace DemoN

def e : RP := { oid := 0, id := 0, name := str!"e", charge := some (-1), mass := some 1 }
def Ar : RP := { oid := 2, id := 1, name := str!"Ar", mass := some 40 }
def ArX : RP := { oid := 5, id := 4, name := str!"Ar*", mass := some 40, stateless := some str!"Ar",
                  state := some str!"4s" }
def r1 : Reaction := { id := 1, reactants := [e, Ar], products := [ArX, e] }
def r2 : Reaction := { id := 2, reactants := [ArX, Ar], products := [Ar, Ar] }

/-- a chemistry with an electron -/
def net : Net := { requiresCharge := false, species := [e, Ar, ArX], reactions := [r1, r2] }

theorem accepted : neutralInit net = .ok State.fresh := by rfl

theorem reach : Reachable net State.fresh := .init (by rfl)

/-- data as read from the chemistry -/
noncomputable def data (D : Data (net.getSpecies State.fresh false false true).length
    (net.getReactions State.fresh false).length) :
    Data (net.getSpecies State.fresh false false true).length (net.getReactions State.fresh false).length :=
  { D with
    charge := fun i => (spAt net State.fresh i).chargeOf
    net := fun j i => cell (okOr (net.stoichiomatrix State.fresh false false .net)) (reAt net State.fresh j).id
      (spAt net State.fresh i).id
    lhs := fun j i => cell (okOr (net.stoichiomatrix State.fresh false false .lhs)) (reAt net State.fresh j).id
      (spAt net State.fresh i).id
    eNet := fun j => (Dict.get? (neutralElectron net State.fresh false) (reAt net State.fresh j).id).getD 0
    eLhs := fun j => (Dict.get? (neutralElectron net State.fresh false) (reAt net State.fresh j).id).getD 0
    mLhs := fun j => (Dict.get? (okOr (net.stoichArbitrary State.fresh false .lhs)) (reAt net State.fresh j).id).getD 0 }

theorem reads (D) : NeutralReads (data D) := by
  obtain ⟨L, R, N, hL, hR, hN, -⟩ := stoichiomatrix_net_eq_diff reach false false
  obtain ⟨E3, h3⟩ := arbitrary_ok net State.fresh (m := .lhs) (by simp)
  exact ⟨fun _ => rfl, ⟨N, hN, fun j i => by simp only [data, hN, okOr]⟩,
    ⟨L, hL, fun j i => by simp only [data, hL, okOr]⟩, fun _ => rfl, fun _ => rfl,
    ⟨E3, h3, fun j => by simp only [data, h3, okOr]⟩⟩

end DemoN

/-- **C83.** A neutral chemistry with an electron is accepted, against the documentation, and its electron collisions
then run without electrons: `e + Ar -> e + Ar*` with a rate proportional to the density of argon. -/
theorem electron_not_rejected :
    neutralInit DemoN.net = .ok State.fresh ∧ (∃ s ∈ DemoN.net.species, s.name = str!"e") ∧
    ∀ (D : Data 2 2) (y : Y 2) (junk : Cache 2 2) (calls : List (NCall 2 2)),
      ((Data.neuRates (ns := 2) (nr := 2) (DemoN.data D) y none none none none).run
        (Data.neuHistory (ns := 2) (nr := 2) (DemoN.data D) junk calls)).1 0 =
        Data.fRateHeavy (ns := 2) (nr := 2) (DemoN.data D) 0 * y.n 0 := by
  refine ⟨DemoN.accepted, ⟨DemoN.e, by decide, rfl⟩, fun D y junk calls => ?_⟩
  have hN : Neutral (ns := 2) (nr := 2) (DemoN.data D) := (DemoN.reads D).neutral rfl DemoN.accepted
  have h1 : Data.lhs (ns := 2) (nr := 2) (DemoN.data D) 0 0 = 1 := rfl
  have h2 : Data.lhs (ns := 2) (nr := 2) (DemoN.data D) 0 1 = 0 := rfl
  have h3 : Data.mLhs (ns := 2) (nr := 2) (DemoN.data D) 0 = 0 := rfl
  generalize hG : (show Data 2 2 from DemoN.data D) = G
  have hG' : (DemoN.data D : Data 2 2) = G := hG
  rw [hG'] at hN h1 h2 h3 ⊢
  have e1 : ((G.neuRates y none none none none).run (G.neuHistory junk calls)).1 =
      G.fRates y.n 0 (Data.pTot y) (G.neuHistory junk calls).k := rfl
  rw [e1, hN.history, hN.init_k junk y]
  unfold Data.fRates
  have hk : G.pK y 0 = G.fRateHeavy 0 := by
    unfold Data.pK
    rw [if_neg (hN.not_elc 0)]
  rw [hN.eLhs 0, h3, hk, Fin.prod_univ_two, h1, h2]
  simp

/-! the hypotheses are met -/

namespace DemoN

/-- two gases at the set pressure -/
noncomputable def quiet : Data 2 0 := { Demo.quiet with charge := fun _ => 0 }

theorem quiet_physical : quiet.Physical :=
  ⟨Demo.quiet_physical.tempG, Demo.quiet_physical.r, Demo.quiet_physical.z, Demo.quiet_physical.p0,
    Demo.quiet_physical.mass, Demo.quiet_physical.stick, Demo.quiet_physical.feed, Demo.quiet_physical.ret,
    Demo.quiet_physical.arrhA, Demo.quiet_physical.lhs, Demo.quiet_physical.net⟩

theorem quiet_neutral : Neutral quiet := ⟨fun _ => rfl, fun j => j.elim0⟩

noncomputable def quietSol (_t : ℝ) : Y 2 := ⟨![5, 2], 0⟩

theorem quiet_rhs (t : ℝ) (i : Fin 2) : (quiet.rhs t (quietSol t)).n i = 0 := by
  have hs : ∀ i, quiet.pSinks (quietSol t) i = 0 := fun i => quiet.sinks_zero_of_stick rfl
  have hsrc : quiet.pSrc (quietSol t) i = 0 := by
    have : quiet.pSrc (quietSol t) i = quiet.pSinks (quietSol t) i +
      ∑ k, -quiet.pSinks (quietSol t) k * quiet.ret i k := rfl
    rw [this]; simp [hs]
  have hvol : quiet.pVol (quietSol t) i = 0 := rfl
  have hp : quiet.pP (quietSol t) = quiet.p0 := by
    simp [Data.pP, Data.fPressure, Data.pTot, Data.fTotalDensity, quietSol, quiet, Demo.quiet, Demo.consts,
      Fin.sum_univ_two]
    norm_num
  have hflow : quiet.pFlow (quietSol t) i = 0 := by
    have : quiet.pFlow (quietSol t) i = quiet.fFlow (quietSol t).n (quiet.pP (quietSol t)) i := rfl
    rw [this, hp]
    unfold Data.fFlow
    have : ∀ k, quiet.feed k = 0 := fun _ => rfl
    simp [this]
  have hmin : Data.fMinN (quietSol t).n i = 0 := by
    fin_cases i <;> simp [Data.fMinN, quietSol]
  have : (quiet.rhs t (quietSol t)).n i = quiet.pVol (quietSol t) i + quiet.pFlow (quietSol t) i
    + quiet.pSrc (quietSol t) i + Data.fMinN (quietSol t).n i := rfl
  rw [this, hvol, hflow, hsrc]
  simpa using hmin

example (junk : Cache 2 0) (calls : List (NCall 2 0)) : ∀ t ∈ Set.Icc (0 : ℝ) 1, ∀ i, 0 < (quietSol t).n i :=
  (quiet_neutral.stay_positive quiet_physical 1 quietSol junk calls _
    (fun t => quiet_neutral.objective junk calls t (quietSol t))
    (fun i t _ => by
      show HasDerivWithinAt _ ((quiet.rhs t (quietSol t)).n i) _ _
      rw [quiet_rhs]
      exact hasDerivWithinAt_const _ _ _)
    (fun i => by fin_cases i <;> norm_num [quietSol])).1

example : quiet.getTotalPressure quiet.neuY0 none = quiet.p0 :=
  (neutral_start quiet_physical (by norm_num)).1 (by simp [quiet, Demo.quiet])

/-- a chemistry with an ion is rejected -/
example : neutralInit { net with species := [e, Ar, ArX, { Ar with oid := 9, id := 9, name := str!"Ar+", charge := some 1 }] }
    = .error .consistency := by rfl

/-- the given dictionary need not be in the order of the species, and negative values pass -/
example : Data.neuFromInit (ns := 2) ![str!"Ar", str!"Ar*"] [(str!"Ar*", -3), (str!"Ar", 2)] = some ⟨![2, -3], 0⟩ :=
  (neutral_given_start _ _ (by decide) _).2
    ⟨fun k => by
      simp only [Dict.keys, List.map, Fin.exists_fin_two, List.mem_cons, List.not_mem_nil, or_false]
      exact ⟨fun h => h.elim (fun h => .inr h.symm) (fun h => .inl h.symm),
        fun h => h.elim (fun h => .inr h.symm) (fun h => .inl h.symm)⟩,
     fun i => by fin_cases i <;> simp, rfl⟩

end DemoN
end Verif.Pygmol
