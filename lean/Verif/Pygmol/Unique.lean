/-
Property C121: the equations of the global model determine the development in time. Where they are defined they are Lipschitz, so an
exact solution is the only one with its initial state, and there is one for a while from every such state.
-/
import Verif.Pygmol.Lip
import Verif.Pygmol.Time

namespace Verif.Pygmol
open Finset
open scoped NNReal
namespace Data
variable {ns nr : ℕ} {D : Data ns nr}

/-! ### the right-hand side as a function of a vector -/

/-- the state a vector stands for (equations.py:17-19) -/
def ofVec (e : (Fin ns → ℝ) × ℝ) : Y ns := ⟨e.1, e.2⟩
def toVec (y : Y ns) : (Fin ns → ℝ) × ℝ := (y.n, y.rho)

variable {x : (Fin ns → ℝ) × ℝ}

theorem lip_n (i : Fin ns) : LipAt (fun e : (Fin ns → ℝ) × ℝ => (ofVec e).n i) x :=
  ContDiffAt.exists_lipschitzOnWith (𝕂 := ℝ) (f := fun e : (Fin ns → ℝ) × ℝ => e.1 i) (by fun_prop)

theorem lip_rho : LipAt (fun e : (Fin ns → ℝ) × ℝ => (ofVec e).rho) x :=
  ContDiffAt.exists_lipschitzOnWith (𝕂 := ℝ) (f := fun e : (Fin ns → ℝ) × ℝ => e.2) (by fun_prop)

theorem lip_tot : LipAt (fun e : (Fin ns → ℝ) × ℝ => pTot (ofVec e)) x :=
  LipAt.sum (s := univ) fun i _ => lip_n i

theorem lip_p : LipAt (fun e => D.pP (ofVec e)) x := (LipAt.const _).mul lip_tot

theorem ionTemp_eq (p : ℝ) : D.fIonTemp p = (0.5 * D.C.e / D.C.kB - D.tempG) / max (p / mtorr) 1 + D.tempG := by
  have hm : (0 : ℝ) < mtorr := by unfold mtorr; norm_num
  unfold fIonTemp
  split
  · rename_i h
    rw [max_eq_left]
    rw [le_div_iff₀ hm]
    linarith
  · rename_i h
    rw [max_eq_right]
    · ring
    · rw [div_le_iff₀ hm]
      linarith

theorem lip_ti : LipAt (fun e => D.pTi (ofVec e)) x := by
  have hm : mtorr ≠ 0 := by unfold mtorr; norm_num
  unfold pTi
  simp only [ionTemp_eq]
  refine LipAt.add (LipAt.div (LipAt.const _) (LipAt.max_const (lip_p.div (LipAt.const _) hm) 1) ?_) (LipAt.const _)
  exact (lt_of_lt_of_le one_pos (le_max_right _ _)).ne'

theorem lip_ne : LipAt (fun e => D.pNe (ofVec e)) x := LipAt.sum (s := univ) fun i _ => (lip_n i).mul (LipAt.const _)

theorem lip_te (hne : D.pNe (ofVec x) ≠ 0) : LipAt (fun e => D.pTe (ofVec e)) x :=
  LipAt.max_const ((((lip_rho.div lip_ne hne).mul (LipAt.const 2)).div (LipAt.const 3) (by norm_num))) _

theorem _root_.Verif.Pygmol.LipAt.zpow_nonneg {E : Type*} [PseudoMetricSpace E] {x : E} {f : E → ℝ} (hf : LipAt f x) {m : ℤ} (hm : 0 ≤ m) :
    LipAt (fun z => f z ^ m) x := by
  obtain ⟨k, rfl⟩ := Int.eq_ofNat_of_zero_le hm
  simpa using hf.pow k

/-- the states in question: all densities and the electron density are positive and no denominator vanishes -/
structure Good (D : Data ns nr) (y : Y ns) : Prop where
  n : ∀ i, 0 < y.n i
  ne : 0 < D.pNe y
  regular : D.Regular y

/-- the same with densities that may vanish -/
structure Weak (D : Data ns nr) (y : Y ns) : Prop where
  n : ∀ i, 0 ≤ y.n i
  ne : 0 < D.pNe y
  regular : D.Regular y

theorem Good.weak {y : Y ns} (h : D.Good y) : D.Weak y := ⟨fun i => (h.n i).le, h.ne, h.regular⟩

variable (hph : D.Physical) (hg : D.Weak (ofVec x))
include hph hg

omit hph in
theorem tot_pos : 0 < pTot (ofVec x) := by
  change 0 < ∑ i, (ofVec x).n i
  refine lt_of_le_of_ne (sum_nonneg fun i _ => hg.n i) fun h => hg.ne.ne ?_
  change 0 = ∑ i, (ofVec x).n i * (D.charge i : ℝ)
  have h0 := (sum_eq_zero_iff_of_nonneg fun i _ => hg.n i).1 h.symm
  exact (sum_eq_zero fun i hi => by rw [h0 i hi, zero_mul]).symm

theorem debye_pos : 0 < D.C.eps0 * D.pTe (ofVec x) / D.C.e / D.pNe (ofVec x) := by
  have h1 := te_pos (D := D) (y := ofVec x) hph
  have h2 := D.C.eps0_pos
  have h3 := D.C.e_pos
  have h4 := hg.ne
  positivity

theorem lip_debye : LipAt (fun e => D.pDebye (ofVec e)) x :=
  LipAt.sqrt ((((LipAt.const _).mul (lip_te hg.ne.ne')).div (LipAt.const _) D.C.e_pos.ne').div lip_ne hg.ne.ne')
    (debye_pos hph hg).ne'

theorem lip_k (j : Fin nr) : LipAt (fun e => D.pK (ofVec e) j) x := by
  unfold pK
  by_cases h : D.elc j
  · simp only [if_pos h]
    have ht := lip_te (x := x) hg.ne.ne'
    have h0 := (te_pos (D := D) (y := ofVec x) hph).ne'
    exact ((LipAt.const _).mul (ht.rpow _ h0)).mul (((LipAt.const _).div ht h0).exp)
  · simp only [if_neg h]
    exact LipAt.const _

theorem lip_rates (j : Fin nr) : LipAt (fun e => D.pRates (ofVec e) j) x :=
  (lip_k hph hg j).mul (((lip_ne.zpow _ hg.ne.ne').mul (LipAt.prod fun i _ => (lip_n i).zpow_nonneg (hph.lhs j i))).mul
    (lip_tot.zpow _ (tot_pos hg).ne'))

theorem lip_vol (i : Fin ns) : LipAt (fun e => D.pVol (ofVec e) i) x :=
  LipAt.sum (s := univ) fun j _ => (LipAt.const _).mul (lip_rates hph hg j)

theorem lip_flow (i : Fin ns) : LipAt (fun e => D.pFlow (ofVec e) i) x := by
  unfold pFlow fFlow
  refine LipAt.sub (LipAt.add ?_ (LipAt.const _)) ?_
  · by_cases h : D.neu i
    · simp only [if_pos h]
      exact ((((lip_n i).mul (LipAt.const _)).mul (lip_p.sub (LipAt.const _))).div (LipAt.const _) hph.p0.ne').neg
    · simp only [if_neg h]
      exact LipAt.const _
  · by_cases h : D.neu i
    · simp only [if_pos h]
      exact ((LipAt.const _).mul (lip_n i)).div (LipAt.sum fun k _ => lip_n k) hg.regular.neutrals
    · simp only [if_neg h]
      exact LipAt.const _

omit hg in
theorem lip_v (i : Fin ns) : LipAt (fun e => D.pV (ofVec e) i) x := by
  unfold pV
  by_cases h : D.neu i
  · simp only [if_pos h]
    exact LipAt.const _
  · simp only [if_neg h]
    have h1 := ti_pos (D := D) (y := ofVec x) hph
    have h2 := hph.mass i
    have h3 := D.C.kB_pos
    exact LipAt.sqrt (((LipAt.const _).mul lip_ti).div (LipAt.const _) (by positivity)) (by positivity)

omit hg in
theorem lip_b0 (i k : Fin ns) : LipAt (fun e => D.fB0 (D.pV (ofVec e)) i k) x := by
  have h1 := v_pos (D := D) (y := ofVec x) hph i
  have h2 := hph.mass i
  have h3 := hph.mass k
  have h4 : 0 < D.reducedMass i k := by unfold reducedMass; positivity
  exact (LipAt.const _).div ((LipAt.const _).mul ((lip_v hph i).pow 2)) (by positivity)

theorem lip_sigma (i k : Fin ns) : LipAt (fun e => D.pSigma (ofVec e) i k) x := by
  unfold pSigma
  by_cases h : i = k
  · simp only [if_pos h]
    exact LipAt.const _
  · simp only [if_neg h]
    by_cases h' : ¬ D.neu i ∧ ¬ D.neu k
    · simp only [if_pos h']
      have h1 := b0_pos (D := D) (y := ofVec x) hph h'.1 h'.2
      have h2 : 0 < D.pDebye (ofVec x) := Real.sqrt_pos.2 (debye_pos hph hg)
      exact ((LipAt.const _).mul ((lip_b0 hph i k).pow 2)).mul
        (LipAt.log (((LipAt.const 2).mul (lip_debye hph hg)).div (lip_b0 hph i k) h1.ne') (by positivity))
    · simp only [if_neg h']
      exact LipAt.const _

theorem lip_free (i : Fin ns) : LipAt (fun e => D.pFree (ofVec e) i) x :=
  ((LipAt.const _).mul ((LipAt.const 1).div (LipAt.sum fun k _ => (lip_n k).mul (lip_sigma hph hg i k)) (hg.regular.mfp i))).mul
    (lip_v hph i)

theorem amb_den : 0 < 1 + (∑ i ∈ univ.filter D.neg, (ofVec x).n i) / D.pNe (ofVec x) *
    (D.pTe (ofVec x) * D.C.e / D.C.kB / D.pTi (ofVec x)) := by
  have h1 := te_pos (D := D) (y := ofVec x) hph
  have h2 := ti_pos (D := D) (y := ofVec x) hph
  have h3 := D.C.e_pos
  have h4 := D.C.kB_pos
  have h5 := hg.ne
  have h6 : 0 ≤ ∑ i ∈ univ.filter D.neg, (ofVec x).n i := sum_nonneg fun i _ => hg.n i
  positivity

theorem lip_amb : LipAt (fun e => D.pAmb (ofVec e)) x := by
  have h2 := ti_pos (D := D) (y := ofVec x) hph
  have hgam : LipAt (fun e => D.pTe (ofVec e) * D.C.e / D.C.kB / D.pTi (ofVec e)) x :=
    (((lip_te hg.ne.ne').mul (LipAt.const _)).div (LipAt.const _) D.C.kB_pos.ne').div lip_ti h2.ne'
  have halp : LipAt (fun e => (∑ i ∈ univ.filter D.neg, (ofVec e).n i) / D.pNe (ofVec e)) x :=
    (LipAt.sum fun i _ => lip_n i).div lip_ne hg.ne.ne'
  have hcard : ((univ.filter D.pos).card : ℝ) ≠ 0 := by
    obtain ⟨i, hi⟩ := hg.regular.posIon
    exact_mod_cast (card_pos.2 ⟨i, mem_filter.2 ⟨mem_univ i, hi⟩⟩).ne'
  have hmean : LipAt (fun e => (∑ i ∈ univ.filter D.pos, D.pFree (ofVec e) i) / (univ.filter D.pos).card) x :=
    (LipAt.sum fun i _ => lip_free hph hg i).div (LipAt.const _) hcard
  exact (hmean.mul ((LipAt.const 1).add (hgam.mul ((LipAt.const 1).add ((LipAt.const 2).mul halp))))).div
    ((LipAt.const 1).add (halp.mul hgam)) (amb_den hph hg).ne'

theorem lip_diff (i : Fin ns) : LipAt (fun e => D.pDiff (ofVec e) i) x := by
  unfold pDiff fDiff
  by_cases h : D.pos i
  · simp only [if_pos h]
    exact lip_amb hph hg
  · simp only [if_neg h]
    by_cases h' : D.neg i
    · simp only [if_pos h']
      exact LipAt.const _
    · simp only [if_neg h']
      exact lip_free hph hg i

theorem lip_sinks (i : Fin ns) : LipAt (fun e => D.pSinks (ofVec e) i) x := by
  have h1 := area_pos hph
  have h2 := volume_pos hph
  have h3 := diffL_pos hph
  have hnum : LipAt (fun e => -D.pDiff (ofVec e) i * (ofVec e).n i * D.stick i) x :=
    ((lip_diff hph hg i).neg.mul (lip_n i)).mul (LipAt.const _)
  unfold pSinks fSinks pWall fWall
  refine (LipAt.mul ?_ (LipAt.const _)).div (LipAt.const _) h2.ne'
  by_cases h : D.thermalFlux = true
  · simp only [if_pos h]
    exact hnum.div ((LipAt.const _).add (((LipAt.const 4).mul (lip_diff hph hg i)).div (lip_v hph i)
      (v_pos (D := D) (y := ofVec x) hph i).ne')) (hg.regular.wall h i)
  · simp only [if_neg h]
    exact ((hnum.div (LipAt.const _) (by positivity)).mul (LipAt.const _)).div (LipAt.const _) h1.ne'

theorem lip_src (i : Fin ns) : LipAt (fun e => D.pSrc (ofVec e) i) x :=
  (lip_sinks hph hg i).add (LipAt.sum (s := univ) fun k _ => (lip_sinks hph hg k).neg.mul (LipAt.const _))

omit hph hg in
theorem ramp_eq (u : ℝ) : (if u < 1 then (1 - u) / 1e-10 else 0) = max (1 - u) 0 / 1e-10 := by
  split
  · rw [max_eq_left (by linarith)]
  · rw [max_eq_right (by linarith), zero_div]

theorem lip_dn (i : Fin ns) : LipAt (fun e => D.pDn (ofVec e) i) x := by
  refine (((lip_vol hph hg i).add (lip_flow hph hg i)).add (lip_src hph hg i)).add ?_
  unfold fMinN
  simp only [ramp_eq]
  exact (((LipAt.const 1).sub (lip_n i)).max_const 0).div (LipAt.const _) (by norm_num)

omit hph in
theorem lip_loss (j : Fin nr) : LipAt (fun e => D.pLoss (ofVec e) j) x := by
  unfold pLoss
  by_cases h : D.elc j ∧ D.elastic j = true
  · simp only [if_pos h]
    exact (LipAt.const _).mul ((lip_te hg.ne.ne').sub (LipAt.const _))
  · simp only [if_neg h]
    exact LipAt.const _

/-- the rate of change of the electron energy without the power -/
theorem lip_drho : LipAt (fun e => -D.pElInel (ofVec e) - D.pGainLoss (ofVec e) - D.pElWalls (ofVec e) -
    D.pIonsWalls (ofVec e) + fMinRho (ofVec e).rho) x := by
  have ht := lip_te (x := x) hg.ne.ne'
  refine LipAt.add (LipAt.sub (LipAt.sub (LipAt.sub (LipAt.neg ?_) ?_) ?_) ?_) ?_
  · exact LipAt.sum (s := univ.filter D.elc) fun j _ => (lip_loss hg j).mul (lip_rates hph hg j)
  · exact ((LipAt.const _).mul ht).mul (LipAt.sum fun j _ => (LipAt.const _).mul (lip_rates hph hg j))
  · exact ((LipAt.const _).mul ht).mul (LipAt.sum fun i _ => (LipAt.const _).mul (lip_src hph hg i))
  · exact (((LipAt.const _).mul ht).mul (LipAt.sum fun i _ => lip_src hph hg i)).sub
      ((ht.mul (LipAt.const _)).mul (LipAt.sum fun i _ => (LipAt.const _).mul (lip_src hph hg i)))
  · unfold fMinRho
    simp only [ramp_eq]
    exact (((LipAt.const 1).sub lip_rho).max_const 0).div (LipAt.const _) (by norm_num)

/-- the right-hand side without the power, on vectors -/
noncomputable def field (D : Data ns nr) (e : (Fin ns → ℝ) × ℝ) : (Fin ns → ℝ) × ℝ :=
  (D.pDn (ofVec e), -D.pElInel (ofVec e) - D.pGainLoss (ofVec e) - D.pElWalls (ofVec e) - D.pIonsWalls (ofVec e) +
    fMinRho (ofVec e).rho)

/-- the power, on vectors -/
noncomputable def heating (D : Data ns nr) (t : ℝ) : (Fin ns → ℝ) × ℝ := (0, D.fExt (D.power t))

theorem lip_field : LipAt D.field x := (LipAt.pi fun i => lip_dn hph hg i).prodMk (lip_drho hph hg)

omit hg in
/-- the states in question are an open set -/
theorem good_nhds (hg : D.Good (ofVec x)) : ∀ᶠ e in nhds x, D.Good (ofVec e) := by
  have hk := hg.weak
  have h1 : ∀ᶠ e in nhds x, ∀ i, 0 < (ofVec e).n i :=
    Filter.eventually_all.2 fun i => (lip_n i).continuousAt.eventually_const_lt (hg.n i)
  have h2 : ∀ᶠ e in nhds x, 0 < D.pNe (ofVec e) := lip_ne.continuousAt.eventually_const_lt hg.ne
  have h3 : ∀ᶠ e in nhds x, ∑ i ∈ univ.filter D.neu, (ofVec e).n i ≠ 0 :=
    (LipAt.sum fun i _ => lip_n i).continuousAt.eventually_ne hg.regular.neutrals
  have h4 : ∀ᶠ e in nhds x, ∀ i, ∑ k, (ofVec e).n k * D.pSigma (ofVec e) i k ≠ 0 :=
    Filter.eventually_all.2 fun i =>
      (LipAt.sum (s := univ) fun k _ => (lip_n k).mul (lip_sigma hph hk i k)).continuousAt.eventually_ne (hg.regular.mfp i)
  have h5 : ∀ᶠ e in nhds x, D.thermalFlux = true →
      ∀ i, D.stick i * D.diffL + 4 * D.pDiff (ofVec e) i / D.pV (ofVec e) i ≠ 0 := by
    by_cases h : D.thermalFlux = true
    · have : ∀ᶠ e in nhds x, ∀ i, D.stick i * D.diffL + 4 * D.pDiff (ofVec e) i / D.pV (ofVec e) i ≠ 0 :=
        Filter.eventually_all.2 fun i => (LipAt.add (LipAt.const _) (((LipAt.const 4).mul (lip_diff hph hk i)).div
          (lip_v hph i) (v_pos (D := D) (y := ofVec x) hph i).ne')).continuousAt.eventually_ne (hg.regular.wall h i)
      exact this.mono fun e he _ => he
    · exact Filter.Eventually.of_forall fun e h' => absurd h' h
  filter_upwards [h1, h2, h3, h4, h5] with e k1 k2 k3 k4 k5
  exact ⟨k1, k2, k2.ne', k3, k4, hg.regular.posIon, k5⟩

omit hph hg

theorem rhs_vec (t : ℝ) (y : Y ns) : toVec (D.rhs t y) = D.field (toVec y) + D.heating t := by
  refine Prod.ext (funext fun i => ?_) ?_
  · show D.pDn y i = D.pDn y i + 0
    rw [add_zero]
  · show D.pDrho t y = -D.pElInel y - D.pGainLoss y - D.pElWalls y - D.pIonsWalls y + fMinRho y.rho + D.fExt (D.power t)
    unfold pDrho fDrho
    ring

/-- solutions in terms of vectors, on any interval -/
theorem solves_vec {s : Set ℝ} {t : ℝ} {y : ℝ → Y ns} :
    ((∀ i, HasDerivWithinAt (fun r => (y r).n i) ((D.rhs t (y t)).n i) s t) ∧
      HasDerivWithinAt (fun r => (y r).rho) (D.rhs t (y t)).rho s t) ↔
    HasDerivWithinAt (fun r => toVec (y r)) (D.field (toVec (y t)) + D.heating t) s t := by
  rw [← rhs_vec]
  constructor
  · rintro ⟨h1, h2⟩
    exact (hasDerivWithinAt_pi.2 h1).prodMk h2
  · intro h
    exact ⟨hasDerivWithinAt_pi.1 h.fst, h.snd⟩

/-! ### the theorems -/

/-- a solution in good states is the only one with its initial state -/
theorem unique_of_good (hph : D.Physical) {T : ℝ} {y z : ℝ → Y ns} (hy : D.Solves T y)
    (hg : ∀ t ∈ Set.Icc 0 T, D.Good (y t)) (hz : D.Solves T z) (hyz : z 0 = y 0) : ∀ t ∈ Set.Icc 0 T, z t = y t := by
  have key := ode_unique (F := D.field) (u := D.heating) (f := fun r => toVec (y r)) (g := fun r => toVec (z r)) (T := T)
    (fun t ht => solves_vec.1 (hy t ht)) (fun t ht => solves_vec.1 (hz t ht)) (by simp only [hyz])
    fun t ht => lip_field hph (hg t ht).weak
  intro t ht
  exact congrArg ofVec (key ht).symm

/-- **C121.** An exact solution that stays where the equations are defined is the only solution with its initial state. -/
theorem unique_solution (hph : D.Physical) {T : ℝ} {y z : ℝ → Y ns} (hy : D.Solves T y) (h0 : ∀ i, 0 < (y 0).n i)
    (hin : ∀ t ∈ Set.Icc 0 T, D.Inside (y t)) (hz : D.Solves T z) (hyz : z 0 = y 0) : ∀ t ∈ Set.Icc 0 T, z t = y t := by
  have hpos := D.densities_stay_positive hph T y (fun i t ht => (hy t ht).1 i) h0 hin
  exact unique_of_good hph hy (fun t ht => ⟨hpos t ht, (hin t ht).1, (hin t ht).2.2⟩) hz hyz

/-- **C121.** From every state in which the equations are defined there is an exact solution for a while, in such states. -/
theorem solution_exists (hph : D.Physical) {y0 : Y ns} (hn : ∀ i, 0 < y0.n i) (hne : 0 < D.getElectronDensity y0 none)
    (hreg : D.Regular y0) {T : ℝ} (hT : 0 < T) (hP : ContinuousOn D.power (Set.Icc 0 T)) :
    ∃ ε ∈ Set.Ioc 0 T, ∃ y, D.Solves ε y ∧ y 0 = y0 ∧
      ∀ t ∈ Set.Icc 0 ε, (∀ i, 0 < (y t).n i) ∧ 0 < D.getElectronDensity (y t) none ∧ D.Regular (y t) := by
  have hg : D.Good (ofVec (toVec y0)) := ⟨hn, hne, hreg⟩
  obtain ⟨ε, hε, f, h0, hf, hU⟩ := ode_exists (F := D.field) (u := D.heating) hT
    (continuousOn_const.prodMk ((hP.div_const _).div_const _)) (lip_field hph hg.weak) (good_nhds hph hg)
  refine ⟨ε, hε, fun t => ofVec (f t), fun t ht => solves_vec.2 (hf t ht), by simp only [h0]; rfl, fun t ht => ?_⟩
  have := hU t ht
  exact ⟨this.n, this.ne, this.regular⟩

/-- **C121.** A solution can be continued as long as the equations are defined. -/
theorem solution_continues (hph : D.Physical) {T : ℝ} (hT : 0 ≤ T) {y : ℝ → Y ns} (hy : D.Solves T y) (hn : ∀ i, 0 < (y T).n i)
    (hne : 0 < D.getElectronDensity (y T) none) (hreg : D.Regular (y T)) {T' : ℝ} (hT' : T < T')
    (hP : ContinuousOn D.power (Set.Icc T T')) :
    ∃ S ∈ Set.Ioc T T', ∃ z, D.Solves S z ∧ (∀ t ∈ Set.Icc 0 T, z t = y t) ∧
      ∀ t ∈ Set.Icc T S, (∀ i, 0 < (z t).n i) ∧ 0 < D.getElectronDensity (z t) none ∧ D.Regular (z t) := by
  have hg : D.Good (ofVec (toVec (y T))) := ⟨hn, hne, hreg⟩
  obtain ⟨ε, hε, f, h0, hf, hU⟩ := ode_exists (F := D.field) (u := fun t => D.heating (T + t)) (T := T' - T) (sub_pos.2 hT')
    (continuousOn_const.prodMk (((hP.comp (by fun_prop) fun t ht => ⟨by linarith [ht.1], by linarith [ht.2]⟩).div_const _).div_const _))
    (lip_field hph hg.weak) (good_nhds hph hg)
  set z : ℝ → Y ns := fun t => if t ≤ T then y t else ofVec (f (t - T)) with hz
  have hzl : ∀ t ≤ T, z t = y t := fun t ht => by simp only [hz, if_pos ht]
  have hzr : ∀ t ≥ T, z t = ofVec (f (t - T)) := fun t ht => by
    by_cases h : t ≤ T
    · have : t = T := le_antisymm h ht
      subst this
      rw [hzl t le_rfl, sub_self, h0]
      rfl
    · simp only [hz, if_neg h]
  have hε0 := hε.1
  have hl : ∀ t ∈ Set.Icc 0 T, HasDerivWithinAt (fun r => toVec (z r)) (D.field (toVec (z t)) + D.heating t) (Set.Icc 0 T) t := by
    intro t ht
    have := solves_vec.1 (hy t ht)
    rw [hzl t ht.2]
    exact this.congr (fun r hr => by rw [hzl r hr.2]) (by rw [hzl t ht.2])
  have hr : ∀ t ∈ Set.Icc T (T + ε),
      HasDerivWithinAt (fun r => toVec (z r)) (D.field (toVec (z t)) + D.heating t) (Set.Icc T (T + ε)) t := by
    intro t ht
    have h1 := hf (t - T) ⟨by linarith [ht.1], by linarith [ht.2]⟩
    have h2 : HasDerivWithinAt (fun r => f (r - T)) (D.field (f (t - T)) + D.heating (T + (t - T))) (Set.Icc T (T + ε)) t := by
      have h3 : HasDerivWithinAt (fun r : ℝ => r - T) 1 (Set.Icc T (T + ε)) t := (hasDerivWithinAt_id t _).sub_const T
      have h4 : Set.MapsTo (fun r : ℝ => r - T) (Set.Icc T (T + ε)) (Set.Icc 0 ε) :=
        fun r hr => ⟨by linarith [hr.1], by linarith [hr.2]⟩
      have h5 := HasDerivWithinAt.scomp t h1 h3 h4
      rw [one_smul] at h5
      exact h5
    rw [add_sub_cancel] at h2
    rw [hzr t ht.1]
    exact h2.congr (fun r hr => by rw [hzr r hr.1]; rfl) (by rw [hzr t ht.1]; rfl)
  refine ⟨T + ε, ⟨by linarith, by linarith [hε.2]⟩, z, fun t ht => solves_vec.2 ?_, fun t ht => hzl t ht.2, fun t ht => ?_⟩
  · have hun : Set.Icc 0 (T + ε) = Set.Icc 0 T ∪ Set.Icc T (T + ε) :=
      (Set.Icc_union_Icc_eq_Icc hT (by linarith)).symm
    rw [hun]
    have far : ∀ {a b c : ℝ} {p : ℝ → (Fin ns → ℝ) × ℝ} {q}, c ∉ Set.Icc a b → HasDerivWithinAt p q (Set.Icc a b) c :=
      fun {a b c p q} h => HasFDerivWithinAt.of_notMem_closure (by rwa [isClosed_Icc.closure_eq])
    refine HasDerivWithinAt.union ?_ ?_
    · by_cases h : t ∈ Set.Icc 0 T
      · exact hl t h
      · exact far h
    · by_cases h : t ∈ Set.Icc T (T + ε)
      · exact hr t h
      · exact far h
  · rw [hzr t ht.1]
    have := hU (t - T) ⟨by linarith [ht.1], by linarith [ht.2]⟩
    exact ⟨this.n, this.ne, this.regular⟩

end Data

namespace TimeDemo

/-- every solution of the equations of `swap` that starts like `sol` is `sol` -/
example (z : ℝ → Y 3) (hz : swap.Solves 7 z) (h0 : z 0 = sol 0) : ∀ t ∈ Set.Icc (0 : ℝ) 7, z t = sol t :=
  Data.unique_solution physical solves (fun i => by fin_cases i <;> norm_num [sol]) (fun t _ => inside t) hz h0

/-- and `sol` can be continued -/
example : ∃ S ∈ Set.Ioc (7 : ℝ) 8, ∃ z, swap.Solves S z ∧ (∀ t ∈ Set.Icc (0 : ℝ) 7, z t = sol t) ∧
    ∀ t ∈ Set.Icc (7 : ℝ) S, (∀ i, 0 < (z t).n i) ∧ 0 < swap.getElectronDensity (z t) none ∧ swap.Regular (z t) :=
  Data.solution_continues physical (by norm_num) solves (fun i => by fin_cases i <;> norm_num [sol]) (inside 7).1 (inside 7).2.2
    (by norm_num) continuousOn_const

/-- there is a solution from another state, with more of the first species -/
example : ∃ ε ∈ Set.Ioc (0 : ℝ) 1, ∃ y, swap.Solves ε y ∧ y 0 = ⟨![6, 5, 2], 1⟩ ∧
    ∀ t ∈ Set.Icc 0 ε, (∀ i, 0 < (y t).n i) ∧ 0 < swap.getElectronDensity (y t) none ∧ swap.Regular (y t) := by
  have hn : ∀ i, 0 < (⟨![6, 5, 2], 1⟩ : Y 3).n i := fun i => by fin_cases i <;> norm_num
  have hne : 0 < swap.getElectronDensity ⟨![6, 5, 2], 1⟩ none := by
    simp [Data.getElectronDensity, Data.fElectronDensity, Data.getDensityVector, swap, Fin.sum_univ_three]
  refine Data.solution_exists physical hn hne (swap.regular_of_physical physical (fun i => (hn i).le) hne
    (fun i => by norm_num [swap]) (fun i => ?_) ?_ ⟨0, rfl, hn 0⟩ ⟨2, by simp [swap]⟩ (fun _ i hi => ?_)) one_pos continuousOn_const
  · by_cases h : i = 0
    · exact ⟨1, by rw [h]; decide, hn 1⟩
    · exact ⟨0, Ne.symm h, hn 0⟩
  · intro i k hik hi hk
    exfalso
    revert hik hi hk
    fin_cases i <;> fin_cases k <;> simp [Data.neu, swap]
  · exfalso; revert hi; fin_cases i <;> simp [swap]

end TimeDemo
end Verif.Pygmol
