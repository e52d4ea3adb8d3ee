/-
Functions that are Lipschitz near a point, and uniqueness and existence for differential equations with such right-hand sides
(tools for property C121).
-/
import Mathlib.Analysis.ODE.PicardLindelof
import Mathlib.Analysis.ODE.ExistUnique
import Mathlib.Analysis.Calculus.ContDiff.RCLike
import Mathlib.Analysis.SpecialFunctions.Pow.Deriv
import Mathlib.Analysis.SpecialFunctions.Sqrt
import Mathlib.Analysis.SpecialFunctions.Log.Deriv

namespace Verif.Pygmol
open Filter Topology Set
open scoped NNReal

/-- `f` is Lipschitz in a neighbourhood of `x` -/
def LipAt {E F : Type*} [PseudoMetricSpace E] [PseudoMetricSpace F] (f : E → F) (x : E) : Prop :=
  ∃ K : ℝ≥0, ∃ s ∈ 𝓝 x, LipschitzOnWith K f s

namespace LipAt
variable {E F G : Type*} [PseudoMetricSpace E] [PseudoMetricSpace F] [PseudoMetricSpace G] {x : E}

theorem of_lipschitzWith {f : E → F} {K : ℝ≥0} (h : LipschitzWith K f) : LipAt f x :=
  ⟨K, univ, univ_mem, h.lipschitzOnWith⟩

theorem const (c : F) : LipAt (fun _ : E => c) x := of_lipschitzWith (LipschitzWith.const c)

theorem continuousAt {f : E → F} (h : LipAt f x) : ContinuousAt f x := by
  obtain ⟨K, s, hs, hf⟩ := h
  exact hf.continuousOn.continuousAt hs

theorem comp {g : F → G} {f : E → F} (hg : LipAt g (f x)) (hf : LipAt f x) : LipAt (fun z => g (f z)) x := by
  have hc := hf.continuousAt
  obtain ⟨K, s, hs, hK⟩ := hg
  obtain ⟨L, t, ht, hL⟩ := hf
  exact ⟨K * L, t ∩ f ⁻¹' s, inter_mem ht (hc hs), hK.comp (hL.mono inter_subset_left) fun z hz => hz.2⟩

theorem prodMk {f : E → F} {g : E → G} (hf : LipAt f x) (hg : LipAt g x) : LipAt (fun z => (f z, g z)) x := by
  obtain ⟨K, s, hs, hK⟩ := hf
  obtain ⟨L, t, ht, hL⟩ := hg
  exact ⟨max K L, s ∩ t, inter_mem hs ht, (hK.mono inter_subset_left).prodMk (hL.mono inter_subset_right)⟩

theorem pi {n : ℕ} {f : E → Fin n → ℝ} (h : ∀ i, LipAt (fun z => f z i) x) : LipAt f x := by
  choose K s hs hK using h
  refine ⟨Finset.univ.sup K, ⋂ i, s i, iInter_mem.2 hs, fun a ha b hb => ?_⟩
  rw [edist_pi_le_iff]
  intro i
  refine (hK i (mem_iInter.1 ha i) (mem_iInter.1 hb i)).trans ?_
  gcongr
  exact Finset.le_sup (Finset.mem_univ i)

theorem smooth {g : ℝ → ℝ} {f : E → ℝ} (hg : ContDiffAt ℝ 1 g (f x)) (hf : LipAt f x) : LipAt (fun z => g (f z)) x :=
  comp hg.exists_lipschitzOnWith hf

theorem smooth₂ {g : ℝ × ℝ → ℝ} {f₁ f₂ : E → ℝ} (hg : ContDiffAt ℝ 1 g (f₁ x, f₂ x)) (h₁ : LipAt f₁ x) (h₂ : LipAt f₂ x) :
    LipAt (fun z => g (f₁ z, f₂ z)) x :=
  comp (f := fun z => (f₁ z, f₂ z)) hg.exists_lipschitzOnWith (h₁.prodMk h₂)

variable {f g : E → ℝ}

theorem add (hf : LipAt f x) (hg : LipAt g x) : LipAt (fun z => f z + g z) x :=
  smooth₂ (g := fun p => p.1 + p.2) (contDiffAt_fst.add contDiffAt_snd) hf hg
theorem sub (hf : LipAt f x) (hg : LipAt g x) : LipAt (fun z => f z - g z) x :=
  smooth₂ (g := fun p => p.1 - p.2) (contDiffAt_fst.sub contDiffAt_snd) hf hg
theorem mul (hf : LipAt f x) (hg : LipAt g x) : LipAt (fun z => f z * g z) x :=
  smooth₂ (g := fun p => p.1 * p.2) (contDiffAt_fst.mul contDiffAt_snd) hf hg
theorem div (hf : LipAt f x) (hg : LipAt g x) (h : g x ≠ 0) : LipAt (fun z => f z / g z) x :=
  smooth₂ (g := fun p => p.1 / p.2) (contDiffAt_fst.div contDiffAt_snd h) hf hg
theorem neg (hf : LipAt f x) : LipAt (fun z => -f z) x := smooth (g := fun u => -u) contDiffAt_id.neg hf
theorem pow (hf : LipAt f x) (m : ℕ) : LipAt (fun z => f z ^ m) x := smooth (g := fun u => u ^ m) (contDiffAt_id.pow m) hf
theorem zpow (hf : LipAt f x) (m : ℤ) (h : f x ≠ 0) : LipAt (fun z => f z ^ m) x := by
  cases m with
  | ofNat m => simpa using hf.pow m
  | negSucc m =>
    have := (const (E := E) (x := x) (1 : ℝ)).div (hf.pow (m + 1)) (pow_ne_zero _ h)
    simpa [zpow_negSucc] using this
theorem rpow (hf : LipAt f x) (b : ℝ) (h : f x ≠ 0) : LipAt (fun z => f z ^ b) x :=
  smooth (g := fun u => u ^ b) (Real.contDiffAt_rpow_const_of_ne h) hf
theorem exp (hf : LipAt f x) : LipAt (fun z => Real.exp (f z)) x := smooth Real.contDiff_exp.contDiffAt hf
theorem log (hf : LipAt f x) (h : f x ≠ 0) : LipAt (fun z => Real.log (f z)) x := smooth (Real.contDiffAt_log.2 h) hf
theorem sqrt (hf : LipAt f x) (h : f x ≠ 0) : LipAt (fun z => √(f z)) x := smooth (Real.contDiffAt_sqrt h) hf
theorem max_const (hf : LipAt f x) (c : ℝ) : LipAt (fun z => max (f z) c) x :=
  comp (g := fun u => max u c) (of_lipschitzWith (LipschitzWith.id.max_const c)) hf

theorem sum {ι : Type*} {s : Finset ι} {f : ι → E → ℝ} (h : ∀ i ∈ s, LipAt (f i) x) : LipAt (fun z => ∑ i ∈ s, f i z) x := by
  classical
  induction s using Finset.induction_on with
  | empty => simpa using const (0 : ℝ)
  | insert a s ha ih =>
    simp only [Finset.sum_insert ha]
    exact (h a (Finset.mem_insert_self a s)).add (ih fun i hi => h i (Finset.mem_insert_of_mem hi))

theorem prod {ι : Type*} {s : Finset ι} {f : ι → E → ℝ} (h : ∀ i ∈ s, LipAt (f i) x) : LipAt (fun z => ∏ i ∈ s, f i z) x := by
  classical
  induction s using Finset.induction_on with
  | empty => simpa using const (1 : ℝ)
  | insert a s ha ih =>
    simp only [Finset.prod_insert ha]
    exact (h a (Finset.mem_insert_self a s)).mul (ih fun i hi => h i (Finset.mem_insert_of_mem hi))

end LipAt

variable {E : Type*} [NormedAddCommGroup E] [NormedSpace ℝ E]

theorem _root_.LipschitzOnWith.add_const {F : E → E} {K : ℝ≥0} {s : Set E} (h : LipschitzOnWith K F s) (c : E) :
    LipschitzOnWith K (fun e => F e + c) s := fun a ha b hb => by
  rw [edist_add_right]
  exact h ha hb

/-- A solution along which the autonomous part is locally Lipschitz is the only one with its initial value. -/
theorem ode_unique {F : E → E} {u : ℝ → E} {T : ℝ} {f g : ℝ → E}
    (hf : ∀ t ∈ Icc 0 T, HasDerivWithinAt f (F (f t) + u t) (Icc 0 T) t)
    (hg : ∀ t ∈ Icc 0 T, HasDerivWithinAt g (F (g t) + u t) (Icc 0 T) t) (h0 : f 0 = g 0)
    (hF : ∀ t ∈ Icc 0 T, LipAt F (f t)) : EqOn f g (Icc 0 T) := by
  have cf : ContinuousOn f (Icc 0 T) := fun t ht => (hf t ht).continuousWithinAt
  have cg : ContinuousOn g (Icc 0 T) := fun t ht => (hg t ht).continuousWithinAt
  by_cases hT : 0 ≤ T
  swap
  · intro t ht; exact absurd (ht.1.trans ht.2) hT
  have key : Icc 0 T ⊆ {t | f t = g t} := by
    refine IsClosed.Icc_subset_of_forall_exists_gt (a := 0) (b := T) ?_ h0 fun t ht y hy => ?_
    · have := (cf.sub cg).preimage_isClosed_of_isClosed isClosed_Icc (isClosed_singleton (x := (0 : E)))
      convert this using 1
      ext t
      simp only [mem_inter_iff, mem_setOf_eq, mem_preimage, mem_singleton_iff, Pi.sub_apply, sub_eq_zero, and_comm]
    · obtain ⟨hte, ht0, htT⟩ := ht
      obtain ⟨K, s, hs, hK⟩ := hF t ⟨ht0, htT.le⟩
      have hs' : s ∈ 𝓝 (g t) := by rw [← show f t = g t from hte]; exact hs
      have e1 := (cf t ⟨ht0, htT.le⟩).preimage_mem_nhdsWithin hs
      have e2 := (cg t ⟨ht0, htT.le⟩).preimage_mem_nhdsWithin hs'
      obtain ⟨ε, hε, hball⟩ := Metric.mem_nhdsWithin_iff.1 (inter_mem e1 e2)
      set b := min (min y T) (t + ε / 2) with hb
      have htb : t < b := lt_min (lt_min hy htT) (by linarith)
      have hbT : b ≤ T := (min_le_left _ _).trans (min_le_right _ _)
      have hin : ∀ r ∈ Icc t b, f r ∈ s ∧ g r ∈ s := fun r hr => hball ⟨by
        rw [Metric.mem_ball, Real.dist_eq, abs_of_nonneg (by linarith [hr.1])]
        have := hr.2.trans (min_le_right _ _)
        linarith, ht0.trans hr.1, hr.2.trans hbT⟩
      have hsub : Icc t b ⊆ Icc 0 T := Icc_subset_Icc ht0 hbT
      have hder : ∀ {p : ℝ → E}, (∀ r ∈ Icc 0 T, HasDerivWithinAt p (F (p r) + u r) (Icc 0 T) r) →
          ∀ r ∈ Ico t b, HasDerivWithinAt p (F (p r) + u r) (Ici r) r := fun hp r hr =>
        (hp r (hsub ⟨hr.1, hr.2.le⟩)).mono_of_mem_nhdsWithin
          (mem_of_superset (Icc_mem_nhdsGE (hr.2.trans_le hbT)) (Icc_subset_Icc_left (ht0.trans hr.1)))
      have := ODE_solution_unique_of_mem_Icc_right (v := fun r e => F e + u r) (s := fun _ => s) (K := K) (a := t) (b := b)
        (fun r _ => hK.add_const (u r))
        (cf.mono hsub) (hder hf) (fun r hr => (hin r ⟨hr.1, hr.2.le⟩).1) (cg.mono hsub) (hder hg)
        (fun r hr => (hin r ⟨hr.1, hr.2.le⟩).2) hte
      exact ⟨b, this ⟨htb.le, le_rfl⟩, htb, (min_le_left _ _).trans (min_le_left _ _)⟩
  exact key

/-- There is a solution for a while, within any given neighbourhood. -/
theorem ode_exists [CompleteSpace E] {F : E → E} {u : ℝ → E} {T : ℝ} (hT : 0 < T) (hu : ContinuousOn u (Icc 0 T)) {x : E}
    (hF : LipAt F x) {U : Set E} (hU : U ∈ 𝓝 x) : ∃ ε ∈ Ioc 0 T, ∃ f : ℝ → E, f 0 = x ∧
      (∀ t ∈ Icc 0 ε, HasDerivWithinAt f (F (f t) + u t) (Icc 0 ε) t) ∧ ∀ t ∈ Icc 0 ε, f t ∈ U := by
  obtain ⟨K, s, hs, hK⟩ := hF
  obtain ⟨a, ha, hball⟩ := Metric.nhds_basis_closedBall.mem_iff.1 hs
  obtain ⟨B, hB⟩ := isCompact_Icc.exists_bound_of_continuousOn hu
  have hB0 : 0 ≤ B := (norm_nonneg _).trans (hB 0 ⟨le_rfl, hT.le⟩)
  have hnorm : ∀ z ∈ Metric.closedBall x a, ‖F z‖ ≤ ‖F x‖ + K * a := fun z hz => by
    have h1 := hK.dist_le_mul z (hball hz) x (hball (Metric.mem_closedBall_self ha.le))
    rw [dist_eq_norm] at h1
    have h2 : (K : ℝ) * dist z x ≤ K * a := mul_le_mul_of_nonneg_left hz K.2
    have h3 := norm_le_norm_add_norm_sub' (F z) (F x)
    linarith
  set L : ℝ := ‖F x‖ + K * a + B with hL
  have hL0 : 0 ≤ L := by positivity
  set δ : ℝ := min T (a / (L + 1)) with hδ
  have hδ0 : 0 < δ := lt_min hT (by positivity)
  have hδT : δ ≤ T := min_le_left _ _
  have hpl : IsPicardLindelof (fun t e => F e + u t) (⟨0, le_rfl, hδ0.le⟩ : Icc 0 δ) x ⟨a, ha.le⟩ 0 ⟨L, hL0⟩ K := by
    refine ⟨fun t _ => (hK.mono hball).add_const (u t), fun z _ => ?_, fun t ht z hz => ?_, ?_⟩
    · exact continuousOn_const.add (hu.mono (Icc_subset_Icc_right hδT))
    · refine (norm_add_le _ _).trans ?_
      have h1 := hnorm z hz
      have h2 := hB t ⟨ht.1, ht.2.trans hδT⟩
      show _ ≤ L
      linarith
    · show L * max (δ - 0) (0 - 0) ≤ a - 0
      rw [sub_zero, sub_zero, sub_zero, max_eq_left hδ0.le]
      have : δ * (L + 1) ≤ a := by
        rw [← le_div_iff₀ (by positivity)]
        exact min_le_right _ _
      nlinarith
  obtain ⟨f, hf0, hf⟩ := hpl.exists_eq_forall_mem_Icc_hasDerivWithinAt₀
  have hf0' : f 0 = x := hf0
  have hc : ContinuousWithinAt f (Icc 0 δ) 0 := (hf 0 ⟨le_rfl, hδ0.le⟩).continuousWithinAt
  obtain ⟨η, hη, hin⟩ := Metric.mem_nhdsWithin_iff.1 (hc.preimage_mem_nhdsWithin (by rw [hf0']; exact hU))
  refine ⟨min δ (η / 2), ⟨lt_min hδ0 (half_pos hη), (min_le_left _ _).trans hδT⟩, f, hf0', fun t ht => ?_, fun t ht => ?_⟩
  · exact (hf t ⟨ht.1, ht.2.trans (min_le_left _ _)⟩).mono (Icc_subset_Icc_right (min_le_left _ _))
  · refine hin ⟨?_, ht.1, ht.2.trans (min_le_left _ _)⟩
    rw [Metric.mem_ball, Real.dist_eq, sub_zero, abs_of_nonneg ht.1]
    linarith [ht.2.trans (min_le_right _ _)]

end Verif.Pygmol
