/-
Property C133: runs with nearly the same energies lost in electron collisions.
-/
import Verif.Pygmol.Depend

namespace Verif.Pygmol.Data
open Finset
variable {ns nr : ℕ} {D : Data ns nr}

/-- The same equations with other energies lost by electrons in the reactions. -/
def withLoss (D : Data ns nr) (B : Fin nr → ℝ) : Data ns nr := { D with enLoss := B }

theorem withLoss_physical (hph : D.Physical) (B : Fin nr → ℝ) : (D.withLoss B).Physical :=
  ⟨hph.tempG, hph.r, hph.z, hph.p0, hph.mass, hph.stick, hph.feed, hph.ret, hph.arrhA, hph.lhs, hph.net⟩

theorem withLoss_defined {B : Fin nr → ℝ} {y : Y ns} : (D.withLoss B).Defined y ↔ D.Defined y :=
  ⟨fun h => ⟨h.1, h.2.1, ⟨h.2.2.nE, h.2.2.neutrals, h.2.2.mfp, h.2.2.posIon, h.2.2.wall⟩⟩,
    fun h => ⟨h.1, h.2.1, ⟨h.2.2.nE, h.2.2.neutrals, h.2.2.mfp, h.2.2.posIon, h.2.2.wall⟩⟩⟩

/-- the inelastic electron collisions -/
def inelastic (D : Data ns nr) : Finset (Fin nr) := univ.filter fun j => D.elc j ∧ ¬ D.elastic j

/-- only the losses of inelastic electron collisions play a role, and the equations depend on them linearly -/
theorem withLoss_field (B : Fin nr → ℝ) (e : (Fin ns → ℝ) × ℝ) :
    (D.withLoss B).field e = D.field e + (0, ∑ j ∈ D.inelastic, (D.enLoss j - B j) * D.pRates (ofVec e) j) := by
  refine Prod.ext (by rw [Prod.fst_add]; exact (add_zero _).symm) ?_
  have h : (D.withLoss B).pElInel (ofVec e) = D.pElInel (ofVec e) - ∑ j ∈ D.inelastic, (D.enLoss j - B j) * D.pRates (ofVec e) j := by
    show (∑ j ∈ univ.filter D.elc, (if D.elc j ∧ D.elastic j then D.fElasticLoss (D.pTe (ofVec e)) j else B j) * D.pRates (ofVec e) j) =
      (∑ j ∈ univ.filter D.elc, (if D.elc j ∧ D.elastic j then D.fElasticLoss (D.pTe (ofVec e)) j else D.enLoss j) *
        D.pRates (ofVec e) j) - _
    unfold inelastic
    rw [sum_filter, sum_filter, sum_filter, ← sum_sub_distrib]
    refine sum_congr rfl fun j _ => ?_
    by_cases h1 : D.elc j <;> by_cases h2 : D.elastic j = true <;> simp [h1, h2]
    ring
  show -(D.withLoss B).pElInel (ofVec e) - D.pGainLoss (ofVec e) - D.pElWalls (ofVec e) - D.pIonsWalls (ofVec e) + fMinRho (ofVec e).rho =
    (-D.pElInel (ofVec e) - D.pGainLoss (ofVec e) - D.pElWalls (ofVec e) - D.pIonsWalls (ofVec e) + fMinRho (ofVec e).rho) + _
  rw [h]
  ring

/-- **C133.** If a run reaches its end in states in which the equations are defined, so does every run for which the energies lost in the
inelastic electron collisions are near enough, whatever losses are given for other reactions, and at all times it differs from the first
by at most a constant times the difference of the losses. -/
theorem loss_stable (hph : D.Physical) {T : ℝ} (hT : 0 < T) (hP : ContinuousOn D.power (Set.Icc 0 T)) {y : ℝ → Y ns} (hy : D.Solves T y)
    (hdef : ∀ t ∈ Set.Icc 0 T, D.Defined (y t)) :
    ∃ L > (0 : ℝ), ∃ δ > (0 : ℝ), ∀ d ∈ Set.Ioc 0 δ, ∀ B : Fin nr → ℝ, (∀ j, D.elc j → ¬ D.elastic j → |B j - D.enLoss j| ≤ d) →
      ∃ z, z 0 = y 0 ∧ (D.withLoss B).Solves T z ∧ ∀ t ∈ Set.Icc 0 T, D.Defined (z t) ∧ Within (L * d) (y t) (z t) := by
  obtain ⟨C, hC, hCd, L, hL, δ, hδ, key⟩ := run_near hph hT hP hy hdef
  have hcont : ∀ B : Fin nr → ℝ, ContinuousOn (D.withLoss B).field C := fun B e he =>
    ((lip_field (D := D.withLoss B) (x := e) (withLoss_physical hph B)
      (withLoss_defined.2 (hCd e he)).good.weak).continuousAt).continuousWithinAt
  have hex : ∀ j, ∃ c, j ∈ D.inelastic → ∀ e ∈ C, |D.pRates (ofVec e) j| ≤ c := fun j => by
    by_cases hj : j ∈ D.inelastic
    · obtain ⟨c, hc⟩ := hC.exists_bound_of_continuousOn ((hcont (Function.update D.enLoss j (D.enLoss j - 1))).sub (hcont D.enLoss))
      refine ⟨c, fun _ e he => ?_⟩
      have h := hc e he
      rw [Pi.sub_apply, withLoss_field, withLoss_field] at h
      have e1 : ∑ k ∈ D.inelastic, (D.enLoss k - Function.update D.enLoss j (D.enLoss j - 1) k) * D.pRates (ofVec e) k =
          D.pRates (ofVec e) j := by
        rw [sum_eq_single_of_mem j hj fun k _ hk => by rw [Function.update_of_ne hk, sub_self, zero_mul], Function.update_self]
        ring
      rw [e1] at h
      simp only [sub_self, zero_mul, sum_const_zero, add_sub_add_left_eq_sub] at h
      have h2 := (norm_snd_le _).trans h
      simpa using h2
    · exact ⟨0, fun h => absurd h hj⟩
  choose c hc using hex
  set M := ∑ j, |c j| + 1 with hM
  have hS : 0 ≤ ∑ j, |c j| := sum_nonneg fun j _ => abs_nonneg _
  have hM0 : 1 ≤ M := by linarith
  refine ⟨L * M, by positivity, δ / M, by positivity, fun d hd B hB => ?_⟩
  have hd0 : 0 < d := hd.1
  have hdM : M * d ≤ δ := by
    have := (le_div_iff₀ (by positivity)).1 hd.2
    linarith
  rw [mul_assoc]
  refine key (M * d) ⟨by positivity, hdM⟩ (D.withLoss B) (y 0) (withLoss_physical hph B) hP
    (fun t _ => by show ‖D.heating t - D.heating t‖ ≤ _; rw [sub_self, norm_zero]; positivity)
    (fun _ => withLoss_defined) (fun x hx => ?_)
    ⟨fun i => by rw [sub_self, abs_zero]; positivity, by rw [sub_self, abs_zero]; positivity⟩
  rw [withLoss_field, add_sub_cancel_left, Prod.norm_mk, norm_zero, max_eq_right (norm_nonneg _), Real.norm_eq_abs]
  have h1 : |∑ j ∈ D.inelastic, (D.enLoss j - B j) * D.pRates (ofVec x) j| ≤ ∑ j ∈ D.inelastic, d * |c j| :=
    (abs_sum_le_sum_abs _ _).trans (sum_le_sum fun j hj => by
      have hj' := (mem_filter.1 hj).2
      rw [abs_mul, abs_sub_comm]
      exact mul_le_mul (hB j hj'.1 hj'.2) ((hc j hj x hx).trans (le_abs_self _)) (abs_nonneg _) hd0.le)
  have h2 : ∑ j ∈ D.inelastic, d * |c j| ≤ ∑ j, d * |c j| :=
    sum_le_sum_of_subset_of_nonneg (filter_subset _ _) fun j _ _ => by positivity
  rw [← mul_sum univ] at h2
  nlinarith

end Verif.Pygmol.Data
