/-
Property C126: the time development depends on the start and on the rates of the reactions without jumps.
-/
import Verif.Pygmol.Maximal

namespace Verif.Pygmol
open Filter Topology Set Finset
open scoped NNReal

/-! ### ordinary differential equations -/

section ode
variable {E : Type*} [NormedAddCommGroup E] [NormedSpace ℝ E]

/-- Around a compact set near the points of which `F` is Lipschitz, it is so with one constant. -/
theorem uniform_lip {F : E → E} {C : Set E} (hC : IsCompact C) (hF : ∀ x ∈ C, LipAt F x) :
    ∃ K : ℝ≥0, ∃ r > 0, ∀ x ∈ C, LipschitzOnWith K F (Metric.ball x r) := by
  choose! K s hs hL using hF
  obtain ⟨t, ht, hcov⟩ := hC.elim_nhds_subcover (fun x => interior (s x)) fun x hx => interior_mem_nhds.2 (hs x hx)
  obtain ⟨r, hr, hball⟩ := lebesgue_number_lemma_of_metric (c := fun x : t => interior (s x)) hC (fun _ => isOpen_interior) (by
    intro x hx
    obtain ⟨i, hi, hxi⟩ := mem_iUnion₂.1 (hcov hx)
    exact mem_iUnion.2 ⟨⟨i, hi⟩, hxi⟩)
  refine ⟨t.sup K, r, hr, fun x hx => ?_⟩
  obtain ⟨i, hi⟩ := hball x hx
  exact ((hL i (ht i i.2)).mono (hi.trans interior_subset)).weaken (Finset.le_sup (f := K) i.2)

/-- A solution of a nearby equation with a nearby start stays near. -/
theorem ode_near {F G : E → E} {u v : ℝ → E} {T S : ℝ} (hST : S ≤ T) {f g : ℝ → E}
    (hf : ∀ t ∈ Icc 0 T, HasDerivWithinAt f (F (f t) + u t) (Icc 0 T) t)
    (hg : ∀ t ∈ Icc 0 S, HasDerivWithinAt g (G (g t) + v t) (Icc 0 S) t) {K : ℝ≥0} {r : ℝ} (hr : 0 < r)
    (hL : ∀ t ∈ Icc 0 T, LipschitzOnWith K F (Metric.ball (f t) r)) {d : ℝ} (hd : 0 < d) (hdr : d * Real.exp ((K + 1) * T) < r)
    (h0 : ‖g 0 - f 0‖ ≤ d) (hG : ∀ t ∈ Icc 0 T, ∀ x ∈ Metric.ball (f t) r, ‖(G x + v t) - (F x + u t)‖ < d) :
    ∀ t ∈ Icc 0 S, ‖g t - f t‖ ≤ d * Real.exp ((K + 1) * t) := by
  have hf' : ∀ t ∈ Icc 0 S, HasDerivWithinAt f (F (f t) + u t) (Icc 0 S) t := fun t ht =>
    (hf t ⟨ht.1, ht.2.trans hST⟩).mono (Icc_subset_Icc_right hST)
  refine image_norm_le_of_norm_deriv_right_lt_deriv_boundary' (f := fun t => g t - f t) (a := 0) (b := S)
    (f' := fun t => (G (g t) + v t) - (F (f t) + u t)) (B' := fun t => d * (Real.exp ((K + 1) * t) * (K + 1)))
    (fun t ht => ((hg t ht).continuousWithinAt.sub (hf' t ht).continuousWithinAt))
    (fun t ht => ((hg t ⟨ht.1, ht.2.le⟩).sub (hf' t ⟨ht.1, ht.2.le⟩)).mono_of_mem_nhdsWithin ?_) ?_ (by fun_prop) (fun t _ => ?_) ?_
  · exact mem_of_superset (Icc_mem_nhdsGE ht.2) (Icc_subset_Icc_left ht.1)
  · simpa using h0
  · have : HasDerivAt (fun t : ℝ => ((K : ℝ) + 1) * t) ((K : ℝ) + 1) t := by simpa using (hasDerivAt_id t).const_mul ((K : ℝ) + 1)
    exact ((this.exp).const_mul d).hasDerivWithinAt
  · intro t ht heq
    have hT : t ∈ Icc 0 T := ⟨ht.1, ht.2.le.trans hST⟩
    have hb : d * Real.exp ((K + 1) * t) ≤ d * Real.exp ((K + 1) * T) := by
      have : (0 : ℝ) ≤ (K : ℝ) + 1 := by positivity
      gcongr
      exact hT.2
    have hge : d ≤ d * Real.exp ((K + 1) * t) := by
      have : (1 : ℝ) ≤ Real.exp ((K + 1) * t) := Real.one_le_exp (mul_nonneg (by positivity) ht.1)
      nlinarith
    have hmem : g t ∈ Metric.ball (f t) r := by
      rw [Metric.mem_ball, dist_eq_norm]
      exact heq.trans_lt (hb.trans_lt hdr)
    have h1 := hG t hT _ hmem
    have h2 : ‖F (g t) - F (f t)‖ ≤ K * ‖g t - f t‖ := (hL t hT).norm_sub_le hmem (Metric.mem_ball_self hr)
    have e : (G (g t) + v t) - (F (f t) + u t) = ((G (g t) + v t) - (F (g t) + u t)) + (F (g t) - F (f t)) := by abel
    show ‖(G (g t) + v t) - (F (f t) + u t)‖ < _
    rw [e]
    have h3 : ‖g t - f t‖ = d * Real.exp ((K + 1) * t) := heq
    rw [h3] at h2
    have := norm_add_le ((G (g t) + v t) - (F (g t) + u t)) (F (g t) - F (f t))
    nlinarith

end ode

namespace Data
variable {ns nr : ℕ} {D : Data ns nr}

/-! ### the rates -/

/-- The same equations with other pre-exponential factors. -/
def withRates (D : Data ns nr) (A : Fin nr → ℝ) : Data ns nr := { D with arrhA := A }

theorem withRates_physical (hph : D.Physical) {A : Fin nr → ℝ} (hA : ∀ j, 0 ≤ A j) : (D.withRates A).Physical :=
  ⟨hph.tempG, hph.r, hph.z, hph.p0, hph.mass, hph.stick, hph.feed, hph.ret, hA, hph.lhs, hph.net⟩

theorem withRates_defined {A : Fin nr → ℝ} {y : Y ns} : (D.withRates A).Defined y ↔ D.Defined y :=
  ⟨fun h => ⟨h.1, h.2.1, ⟨h.2.2.nE, h.2.2.neutrals, h.2.2.mfp, h.2.2.posIon, h.2.2.wall⟩⟩,
    fun h => ⟨h.1, h.2.1, ⟨h.2.2.nE, h.2.2.neutrals, h.2.2.mfp, h.2.2.posIon, h.2.2.wall⟩⟩⟩

theorem withRates_rates (A : Fin nr → ℝ) (y : Y ns) (j : Fin nr) :
    (D.withRates A).pRates y j = A j * (D.withRates fun _ => 1).pRates y j := by
  have e : ∀ B : Fin nr → ℝ, (D.withRates B).pRates y j =
      (if D.elc j then B j * D.pTe y ^ D.arrhB j * Real.exp (-D.arrhC j / D.pTe y) else
        B j * (D.tempG / 300) ^ D.arrhB j * Real.exp (-D.arrhC j / D.tempG)) *
        (D.pNe y ^ D.eLhs j * (∏ i, y.n i ^ D.lhs j i) * pTot y ^ D.mLhs j) := fun B => rfl
  rw [e, e]
  split_ifs <;> ring

/-- the equations depend on the factors linearly -/
theorem withRates_field (A : Fin nr → ℝ) (e : (Fin ns → ℝ) × ℝ) :
    (D.withRates A).field e = D.field e + ∑ j, (A j - D.arrhA j) • ((D.withRates (Pi.single j 1)).field e - (D.withRates 0).field e) := by
  set ρ := (D.withRates fun _ => 1).pRates (ofVec e) with hρ
  have h1 : ∀ B : Fin nr → ℝ, ∀ i, ((D.withRates B).field e).1 i = ∑ j, B j * ((D.net j i : ℝ) * ρ j) +
      (D.pFlow (ofVec e) i + D.pSrc (ofVec e) i + fMinN (ofVec e).n i) := fun B i => by
    have : ((D.withRates B).field e).1 i = ∑ j, (D.net j i : ℝ) * (D.withRates B).pRates (ofVec e) j + D.pFlow (ofVec e) i +
      D.pSrc (ofVec e) i + fMinN (ofVec e).n i := rfl
    rw [this]
    simp only [withRates_rates B]
    rw [show (∑ j, B j * ((D.net j i : ℝ) * ρ j)) = ∑ j, (D.net j i : ℝ) * (B j * ρ j) from sum_congr rfl fun j _ => by ring]
    ring
  have h2 : ∀ B : Fin nr → ℝ, ((D.withRates B).field e).2 = ∑ j, B j * (-(if D.elc j then D.pLoss (ofVec e) j * ρ j else 0) -
      3 / 2 * D.pTe (ofVec e) * ((D.eNet j : ℝ) * ρ j)) + (-D.pElWalls (ofVec e) - D.pIonsWalls (ofVec e) + fMinRho (ofVec e).rho) := fun B => by
    have : ((D.withRates B).field e).2 = -(∑ j ∈ univ.filter D.elc, D.pLoss (ofVec e) j * (D.withRates B).pRates (ofVec e) j) -
      3 / 2 * D.pTe (ofVec e) * ∑ j, (D.eNet j : ℝ) * (D.withRates B).pRates (ofVec e) j - D.pElWalls (ofVec e) - D.pIonsWalls (ofVec e) +
        fMinRho (ofVec e).rho := rfl
    rw [this]
    simp only [withRates_rates B, sum_filter]
    rw [mul_sum, show (∑ j, B j * (-(if D.elc j then D.pLoss (ofVec e) j * ρ j else 0) - 3 / 2 * D.pTe (ofVec e) * ((D.eNet j : ℝ) * ρ j))) =
      -(∑ j, if D.elc j then D.pLoss (ofVec e) j * (B j * ρ j) else 0) - ∑ j, 3 / 2 * D.pTe (ofVec e) * ((D.eNet j : ℝ) * (B j * ρ j)) by
        rw [← sum_neg_distrib, ← sum_sub_distrib]
        refine sum_congr rfl fun j _ => ?_
        split_ifs <;> ring]
    ring
  have hD : D.field e = (D.withRates D.arrhA).field e := rfl
  have gen : ∀ c : Fin nr → ℝ, ∑ j, A j * c j = ∑ j, D.arrhA j * c j + ∑ j, (A j - D.arrhA j) * c j := fun c => by
    rw [← sum_add_distrib]; exact sum_congr rfl fun j _ => by ring
  have one : ∀ (c : Fin nr → ℝ) (j : Fin nr), ∑ k, (Pi.single j 1 : Fin nr → ℝ) k * c k = c j := fun c j => by
    simp [Pi.single_apply]
  rw [hD]
  refine Prod.ext (funext fun i => ?_) ?_
  · simp only [Prod.fst_add, Pi.add_apply, Prod.fst_sum, Finset.sum_apply, Prod.smul_fst, Pi.smul_apply, Prod.fst_sub, Pi.sub_apply, h1,
      smul_eq_mul, one, Pi.zero_apply, zero_mul, sum_const_zero, zero_add, add_sub_cancel_right]
    rw [gen]; ring
  · simp only [Prod.snd_add, Prod.snd_sum, Prod.smul_snd, Prod.snd_sub, h2, smul_eq_mul, one, Pi.zero_apply, zero_mul, sum_const_zero,
      zero_add, add_sub_cancel_right]
    rw [gen]; ring

/-- The states differ by at most `c` in each density and in the energy. -/
def Within (c : ℝ) (y z : Y ns) : Prop := (∀ i, |z.n i - y.n i| ≤ c) ∧ |z.rho - y.rho| ≤ c

theorem within_iff {c : ℝ} (hc : 0 ≤ c) {y z : Y ns} : Within c y z ↔ ‖toVec z - toVec y‖ ≤ c := by
  rw [Prod.norm_def, max_le_iff, pi_norm_le_iff_of_nonneg hc]
  rfl

/-- Near a run that reaches its end, equations that differ little have runs that differ little. -/
theorem run_near (hph : D.Physical) {T : ℝ} (hT : 0 < T) (hP : ContinuousOn D.power (Icc 0 T)) {y : ℝ → Y ns} (hy : D.Solves T y)
    (hdef : ∀ t ∈ Icc 0 T, D.Defined (y t)) :
    ∃ C : Set ((Fin ns → ℝ) × ℝ), IsCompact C ∧ (∀ e ∈ C, D.Defined (ofVec e)) ∧ ∃ L > (0 : ℝ), ∃ δ > (0 : ℝ), ∀ d ∈ Set.Ioc 0 δ,
      ∀ (E : Data ns nr) (z0 : Y ns), E.Physical → ContinuousOn E.power (Icc 0 T) →
      (∀ t ∈ Icc 0 T, ‖E.heating t - D.heating t‖ ≤ d) → (∀ y, E.Defined y ↔ D.Defined y) →
      (∀ x ∈ C, ‖E.field x - D.field x‖ ≤ d) → Within d (y 0) z0 →
      ∃ z, z 0 = z0 ∧ E.Solves T z ∧ ∀ t ∈ Icc 0 T, D.Defined (z t) ∧ Within (L * d) (y t) (z t) := by
  set f : ℝ → (Fin ns → ℝ) × ℝ := fun t => toVec (y t) with hfd
  have hf : ∀ t ∈ Icc 0 T, HasDerivWithinAt f (D.field (f t) + D.heating t) (Icc 0 T) t := fun t ht => solves_vec.1 (hy t ht)
  have hfc : ContinuousOn f (Icc 0 T) := fun t ht => (hf t ht).continuousWithinAt
  have hC : IsCompact (f '' Icc 0 T) := isCompact_Icc.image_of_continuousOn hfc
  -- a tube of states in which the equations are defined
  have hopen : IsOpen {e : (Fin ns → ℝ) × ℝ | D.Good (ofVec e)} := isOpen_iff_mem_nhds.2 fun e he => good_nhds (x := e) hph he
  obtain ⟨r1, hr1, hsub⟩ := hC.exists_cthickening_subset_open hopen (by
    rintro _ ⟨t, ht, rfl⟩
    exact (hdef t ht).good)
  have hKc : IsCompact (Metric.cthickening r1 (f '' Icc 0 T)) := hC.cthickening
  obtain ⟨K, r2, hr2, hL⟩ := uniform_lip (F := D.field) hC (by
    rintro _ ⟨t, ht, rfl⟩
    exact lip_field (x := f t) hph (hdef t ht).good.weak)
  set r := min r1 r2 with hrd
  have hr : 0 < r := lt_min hr1 hr2
  have htube : ∀ t ∈ Icc 0 T, ∀ x, ‖x - f t‖ ≤ r → x ∈ Metric.cthickening r1 (f '' Icc 0 T) := fun t ht x hx =>
    Metric.mem_cthickening_of_dist_le x (f t) _ _ ⟨t, ht, rfl⟩ (by rw [dist_eq_norm]; exact hx.trans (min_le_left _ _))
  set X := Real.exp ((K + 1) * T) with hX
  have hX0 : 0 < X := Real.exp_pos _
  refine ⟨Metric.cthickening r1 (f '' Icc 0 T), hKc, fun e he => ⟨(hsub he).n, (hsub he).ne, (hsub he).regular⟩,
    3 * X, by positivity, r / (2 * (3 * X)), by positivity, fun d hd E z0 hphE hpow hheat hdE hED hz0 => ?_⟩
  have hd0 : 0 < d := hd.1
  have hMd : 3 * d * X < r := by
    have h1 : d * (2 * (3 * X)) ≤ r := (le_div_iff₀ (by positivity)).1 hd.2
    nlinarith
  have hdz : ‖toVec z0 - f 0‖ ≤ 3 * d := ((within_iff hd0.le).1 hz0).trans (by nlinarith)
  have hXge : 1 ≤ X := Real.one_le_exp (mul_nonneg (by positivity) hT.le)
  -- the start is in the tube
  have hz0def : D.Defined z0 := by
    have := hsub (htube 0 ⟨le_rfl, hT.le⟩ (toVec z0) (hdz.trans (by nlinarith)))
    exact ⟨this.n, this.ne, this.regular⟩
  have hG : ∀ t ∈ Icc 0 T, ∀ x ∈ Metric.ball (f t) r, ‖(E.field x + E.heating t) - (D.field x + D.heating t)‖ < 3 * d :=
    fun t ht x hx => by
      have h1 := hED x (htube t ht x (by rw [Metric.mem_ball, dist_eq_norm] at hx; exact hx.le))
      rw [add_sub_add_comm]
      exact (norm_add_le _ _).trans_lt (by linarith [hheat t ht])
  have near : ∀ S ≤ T, ∀ z : ℝ → Y ns, z 0 = z0 → E.Solves S z → ∀ t ∈ Icc 0 S,
      ‖toVec (z t) - f t‖ ≤ 3 * d * Real.exp ((K + 1) * t) := fun S hS z hz hsol =>
    ode_near (F := D.field) (G := E.field) (u := D.heating) (v := E.heating) (g := fun t => toVec (z t)) hS hf
      (fun t ht => solves_vec.1 (hsol t ht)) hr
      (fun t ht => (hL _ ⟨t, ht, rfl⟩).mono (Metric.ball_subset_ball (min_le_right _ _))) (by positivity) hMd
      (by show ‖toVec (z 0) - f 0‖ ≤ _; rw [hz]; exact hdz) hG
  have hle : ∀ t ∈ Icc 0 T, 3 * d * Real.exp ((K + 1) * t) ≤ 3 * d * X := fun t ht => by
    have : (0 : ℝ) ≤ (K : ℝ) + 1 := by positivity
    rw [hX]
    gcongr
    exact ht.2
  obtain ⟨τ, hτ, z, hz, ⟨rfl, hsol, -⟩ | hleave⟩ :=
    maximal_development hphE ((hdE _).2 hz0def) hT hpow
  · refine ⟨z, hz.start, hsol, fun t ht => ?_⟩
    have h1 := (near τ le_rfl z hz.start hsol t ht).trans (hle t ht)
    have := hsub (htube t ht (toVec (z t)) (h1.trans hMd.le))
    refine ⟨⟨this.n, this.ne, this.regular⟩, (within_iff (by positivity)).2 (h1.trans (le_of_eq (by ring)))⟩
  · exfalso
    obtain ⟨t, ht, hnot⟩ := hleave (Metric.cthickening r1 (f '' Icc 0 T)) hKc
      (fun e he => (hdE _).2 ⟨(hsub he).n, (hsub he).ne, (hsub he).regular⟩) 0 hτ.1
    have htT : t ∈ Icc 0 T := ⟨ht.1.le, ht.2.le.trans hτ.2⟩
    have h1 := (near t htT.2 z hz.start (hz.solves t ⟨ht.1.le, ht.2⟩) t ⟨ht.1.le, le_rfl⟩).trans (hle t htT)
    exact hnot (htube t htT (toVec (z t)) (h1.trans hMd.le))

/-- **C126.** If a run reaches its end in states in which the equations are defined, so does every run with a start and with rates near
enough, and at all times it differs from the first by at most a constant times the difference of the starts and of the rates. -/
theorem run_stable (hph : D.Physical) {T : ℝ} (hT : 0 < T) (hP : ContinuousOn D.power (Icc 0 T)) {y : ℝ → Y ns} (hy : D.Solves T y)
    (hdef : ∀ t ∈ Icc 0 T, D.Defined (y t)) :
    ∃ L > (0 : ℝ), ∃ δ > (0 : ℝ), ∀ d ∈ Set.Ioc 0 δ, ∀ (A : Fin nr → ℝ) (z0 : Y ns), (∀ j, 0 ≤ A j) → (∀ j, |A j - D.arrhA j| ≤ d) → Within d (y 0) z0 →
      ∃ z, z 0 = z0 ∧ (D.withRates A).Solves T z ∧ ∀ t ∈ Icc 0 T, D.Defined (z t) ∧ Within (L * d) (y t) (z t) := by
  obtain ⟨C, hC, hCd, L, hL, δ, hδ, key⟩ := run_near hph hT hP hy hdef
  -- what the rates change
  have hcont : ∀ B : Fin nr → ℝ, (∀ j, 0 ≤ B j) → ContinuousOn (D.withRates B).field C := fun B hB e he =>
    ((lip_field (D := D.withRates B) (x := e) (withRates_physical hph hB)
      (withRates_defined.2 (hCd e he)).good.weak).continuousAt).continuousWithinAt
  have hex : ∀ j, ∃ c, ∀ e ∈ C, ‖(D.withRates (Pi.single j 1)).field e - (D.withRates 0).field e‖ ≤ c := fun j =>
    hC.exists_bound_of_continuousOn ((hcont _ fun k => by
      by_cases h : k = j
      · subst h; simp
      · simp [h]).sub (hcont 0 fun k => le_rfl))
  choose c hc using hex
  set M := ∑ j, |c j| + 1 with hM
  have hS : 0 ≤ ∑ j, |c j| := sum_nonneg fun j _ => abs_nonneg _
  have hM0 : 1 ≤ M := by linarith
  refine ⟨L * M, by positivity, δ / M, by positivity, fun d hd A z0 hA hAd hz0 => ?_⟩
  have hd0 : 0 < d := hd.1
  have hdM : M * d ≤ δ := by
    have := (le_div_iff₀ (by positivity)).1 hd.2
    linarith
  rw [mul_assoc]
  refine key (M * d) ⟨by positivity, hdM⟩ (D.withRates A) z0 (withRates_physical hph hA) hP (fun t _ => by show ‖D.heating t - D.heating t‖ ≤ _; rw [sub_self, norm_zero]; positivity) (fun _ => withRates_defined) (fun x hx => ?_)
    ⟨fun i => (hz0.1 i).trans (by nlinarith), hz0.2.trans (by nlinarith)⟩
  rw [withRates_field, add_sub_cancel_left]
  have h1 : ‖∑ j, (A j - D.arrhA j) • ((D.withRates (Pi.single j 1)).field x - (D.withRates 0).field x)‖ ≤ ∑ j, d * |c j| :=
    (norm_sum_le _ _).trans (sum_le_sum fun j _ => by
      rw [norm_smul]
      exact mul_le_mul (hAd j) ((hc j x hx).trans (le_abs_self _)) (norm_nonneg _) hd0.le)
  rw [← mul_sum] at h1
  nlinarith

end Data
end Verif.Pygmol
