/-
Property C125, continued: what can stop a time development before the end of the run. Joins Maximal with the bounds of C97.
-/
import Verif.Pygmol.Maximal

namespace Verif.Pygmol
open Filter Topology Set Finset

namespace Data
variable {ns nr : ℕ} {D : Data ns nr}

/-- The edge of the states in which the equations are defined, up to `b`: all neutrals together or the electrons are fewer than `b`, or two
charged species come within `b` Debye lengths of the distance beyond which the cross section for their collisions is negative. -/
def NearEdge (D : Data ns nr) (b : ℝ) (y : Y ns) : Prop :=
  ∑ i ∈ univ.filter D.neu, y.n i < b ∨ D.getElectronDensity y none < b ∨
    ∃ i k, i ≠ k ∧ ¬ D.neu i ∧ ¬ D.neu k ∧ (2 - b) * D.pDebye y < D.fB0 (D.pV y) i k

/-! ### the equations depend on the energy through the electron temperature only -/

section cold
variable {y y' : Y ns} (h1 : y.n = y'.n) (hTe : D.pTe y = D.pTe y')
include h1 hTe

theorem debye_congr : D.pDebye y = D.pDebye y' := by simp only [pDebye, pNe, h1, hTe]

omit hTe in
theorem v_congr : D.pV y = D.pV y' := by
  funext i
  simp only [pV, pTi, pP, pTot, h1]

theorem rates_congr : D.pRates y = D.pRates y' := by
  have hk : D.pK y = D.pK y' := funext fun j => by simp only [pK, hTe]
  simp only [pRates, pNe, pTot, h1, hk]

theorem src_congr : D.pSrc y = D.pSrc y' := by
  have hv := v_congr (D := D) h1
  have hs : D.pSigma y = D.pSigma y' := funext fun i => funext fun k => by simp only [pSigma, hv, debye_congr h1 hTe]
  have hf : D.pFree y = D.pFree y' := by simp only [pFree, pMfp, h1, hs, hv]
  have hd : D.pDiff y = D.pDiff y' := by simp only [pDiff, pAmb, pNe, pTi, pP, pTot, h1, hTe, hf]
  simp only [pSrc, pSources, pSinks, pWall, h1, hd, hv]

theorem drho_congr : D.pElInel y = D.pElInel y' ∧ D.pGainLoss y = D.pGainLoss y' ∧ D.pElWalls y = D.pElWalls y' ∧
    D.pIonsWalls y = D.pIonsWalls y' := by
  have hr := rates_congr h1 hTe
  have hs := src_congr h1 hTe
  have hl : D.pLoss y = D.pLoss y' := funext fun j => by simp only [pLoss, hTe]
  refine ⟨?_, ?_, ?_, ?_⟩
  · simp only [pElInel, hl, hr]
  · simp only [pGainLoss, hTe, hr]
  · simp only [pElWalls, hTe, hs]
  · simp only [pIonsWalls, hTe, hs]

end cold

/-- below zero energy the electron temperature is that of the gas -/
theorem te_cold (hph : D.Physical) {y : Y ns} (hne : 0 < D.pNe y) (hr : y.rho ≤ 0) : D.pTe y = D.pTe ⟨y.n, 0⟩ := by
  have hg : 0 ≤ D.tempG * D.C.kB / D.C.e := by
    have := hph.tempG; have := D.C.kB_pos; have := D.C.e_pos
    positivity
  have e : ∀ y : Y ns, 0 < D.pNe y → y.rho ≤ 0 → D.pTe y = D.tempG * D.C.kB / D.C.e := fun y hne hr => by
    refine max_eq_right (le_trans ?_ hg)
    have : y.rho / D.pNe y ≤ 0 := div_nonpos_of_nonpos_of_nonneg hr hne.le
    linarith
  rw [e y hne hr, e ⟨y.n, 0⟩ hne le_rfl]

/-! ### compact sets of states away from the edge -/

/-- states away from the edge with bounded densities and energy -/
def box (D : Data ns nr) (b B : ℝ) : Set ((Fin ns → ℝ) × ℝ) :=
  {e | (∀ i, e.1 i ∈ Set.Icc 0 B) ∧ e.2 ∈ Set.Icc (-B) B ∧ ¬ D.NearEdge b ⟨e.1, e.2⟩}

theorem away {b : ℝ} {y : Y ns} (h : ¬ D.NearEdge b y) : b ≤ ∑ i ∈ univ.filter D.neu, y.n i ∧ b ≤ D.pNe y ∧
    ∀ i k, i ≠ k → ¬ D.neu i → ¬ D.neu k → D.fB0 (D.pV y) i k ≤ (2 - b) * D.pDebye y := by
  unfold NearEdge at h
  push Not at h
  exact ⟨h.1, h.2.1, fun i k h1 h2 h3 => h.2.2 i k h1 h2 h3⟩

theorem debye_at (hph : D.Physical) {e : (Fin ns → ℝ) × ℝ} (hne : 0 < D.pNe (ofVec e)) :
    LipAt (fun e => D.pDebye (ofVec e)) e ∧ 0 < D.pDebye (ofVec e) := by
  have h1 := te_pos (D := D) (y := ofVec e) hph
  have h2 := D.C.eps0_pos
  have h3 := D.C.e_pos
  have hp : 0 < D.C.eps0 * D.pTe (ofVec e) / D.C.e / D.pNe (ofVec e) := by positivity
  exact ⟨LipAt.sqrt ((((LipAt.const _).mul (lip_te hne.ne')).div (LipAt.const _) D.C.e_pos.ne').div lip_ne hne.ne') hp.ne',
    Real.sqrt_pos.2 hp⟩

theorem box_compact (hph : D.Physical) {b B : ℝ} (hb : 0 < b) : IsCompact (D.box b B) := by
  have hK : IsCompact ((Set.Icc (fun _ => 0) (fun _ => B) : Set (Fin ns → ℝ)) ×ˢ Set.Icc (-B) B) := isCompact_Icc.prod isCompact_Icc
  have hcn : Continuous fun e : (Fin ns → ℝ) × ℝ => ∑ i ∈ univ.filter D.neu, (ofVec e).n i :=
    continuous_iff_continuousAt.2 fun e => (LipAt.sum fun i _ => lip_n i).continuousAt
  have hce : Continuous fun e : (Fin ns → ℝ) × ℝ => D.pNe (ofVec e) := continuous_iff_continuousAt.2 fun e => lip_ne.continuousAt
  set K : Set ((Fin ns → ℝ) × ℝ) := ((Set.Icc (fun _ => 0) (fun _ => B) : Set (Fin ns → ℝ)) ×ˢ Set.Icc (-B) B) ∩
    ((fun e => ∑ i ∈ univ.filter D.neu, (ofVec e).n i) ⁻¹' Set.Ici b ∩ (fun e => D.pNe (ofVec e)) ⁻¹' Set.Ici b) with hKd
  have hc1 : IsCompact K := hK.inter_right ((isClosed_Ici.preimage hcn).inter (isClosed_Ici.preimage hce))
  have hcl : ∀ i k, ContinuousOn (fun e => D.fB0 (D.pV (ofVec e)) i k - (2 - b) * D.pDebye (ofVec e)) K := fun i k e he =>
    (((lip_b0 hph i k).sub ((LipAt.const _).mul (debye_at hph (hb.trans_le he.2.2)).1)).continuousAt).continuousWithinAt
  have hall : D.box b B = K ∩ ⋂ i, ⋂ k, {e | e ∈ K ∧ (i ≠ k → ¬ D.neu i → ¬ D.neu k →
      D.fB0 (D.pV (ofVec e)) i k - (2 - b) * D.pDebye (ofVec e) ≤ 0)} := by
    ext e
    simp only [Set.mem_inter_iff, Set.mem_iInter]
    constructor
    · rintro ⟨h1, h2, h3⟩
      obtain ⟨k1, k2, k3⟩ := away h3
      have : e ∈ K := ⟨⟨⟨fun i => (h1 i).1, fun i => (h1 i).2⟩, h2⟩, k1, k2⟩
      exact ⟨this, fun i k => ⟨this, fun q1 q2 q3 => sub_nonpos.2 (k3 i k q1 q2 q3)⟩⟩
    · rintro ⟨⟨⟨h1, h2⟩, h3, h3'⟩, h4⟩
      refine ⟨fun i => ⟨h1.1 i, h1.2 i⟩, h2, ?_⟩
      rintro (h | h | ⟨i, k, q1, q2, q3, q4⟩)
      · exact absurd h (not_lt.2 h3)
      · exact absurd h (not_lt.2 h3')
      · exact absurd q4 (not_lt.2 (sub_nonpos.1 ((h4 i k).2 q1 q2 q3)))
  rw [hall]
  refine hc1.inter_right (isClosed_iInter fun i => isClosed_iInter fun k => ?_)
  by_cases hq : i ≠ k ∧ ¬ D.neu i ∧ ¬ D.neu k
  · have : {e | e ∈ K ∧ (i ≠ k → ¬ D.neu i → ¬ D.neu k → D.fB0 (D.pV (ofVec e)) i k - (2 - b) * D.pDebye (ofVec e) ≤ 0)} =
        K ∩ (fun e => D.fB0 (D.pV (ofVec e)) i k - (2 - b) * D.pDebye (ofVec e)) ⁻¹' Set.Iic 0 := by
      ext e
      exact ⟨fun h => ⟨h.1, h.2 hq.1 hq.2.1 hq.2.2⟩, fun h => ⟨h.1, fun _ _ _ => h.2⟩⟩
    rw [this]
    exact (hcl i k).preimage_isClosed_of_isClosed hc1.isClosed isClosed_Iic
  · have : {e | e ∈ K ∧ (i ≠ k → ¬ D.neu i → ¬ D.neu k → D.fB0 (D.pV (ofVec e)) i k - (2 - b) * D.pDebye (ofVec e) ≤ 0)} = K := by
      ext e
      exact ⟨fun h => h.1, fun h => ⟨h, fun a b c => absurd ⟨a, b, c⟩ hq⟩⟩
    rw [this]
    exact hc1.isClosed

/-- What C125 asks of the chemistry besides being physical: species have a size, and negative ions stick if the wall flux is limited. -/
structure Complete (D : Data ns nr) : Prop where
  size : ∀ i, 0 < D.ljSigma i
  negative : D.thermalFlux = true → ∀ i, D.charge i < 0 → 0 < D.stick i

theorem weak_away (hph : D.Physical) (hc : D.Complete) {b : ℝ} (hb : 0 < b) {y : Y ns} (hn : ∀ i, 0 ≤ y.n i) (h : ¬ D.NearEdge b y) :
    D.Weak y ∧ D.WeakCoupling y := by
  obtain ⟨h1, h2, h3⟩ := away h
  have hd : 0 < D.pDebye y := (debye_at (e := toVec y) hph (hb.trans_le h2)).2
  have hw : ∀ i k, i ≠ k → ¬ D.neu i → ¬ D.neu k → D.fB0 (D.pV y) i k < 2 * D.pDebye y := fun i k q1 q2 q3 =>
    (h3 i k q1 q2 q3).trans_lt (by nlinarith)
  obtain ⟨q, hq, hqn⟩ : ∃ q, D.charge q = 0 ∧ 0 < y.n q := by
    obtain ⟨q, hq, hqn⟩ := exists_lt_of_sum_lt (s := univ.filter D.neu) (f := fun _ => (0 : ℝ)) (g := y.n)
      (by rw [sum_const_zero]; exact hb.trans_le h1)
    exact ⟨q, (mem_filter.1 hq).2, hqn⟩
  obtain ⟨p, hp, hpn⟩ : ∃ p, 0 < D.charge p ∧ 0 < y.n p := by
    have : ∑ _i : Fin ns, (0 : ℝ) < ∑ i, y.n i * (D.charge i : ℝ) := by rw [sum_const_zero]; exact hb.trans_le h2
    obtain ⟨p, -, hp⟩ := exists_lt_of_sum_lt this
    have hc : (0 : ℝ) < D.charge p := by
      by_contra hneg
      exact absurd (mul_nonpos_of_nonneg_of_nonpos (hn p) (not_lt.1 hneg)) (not_le.2 hp)
    exact ⟨p, by exact_mod_cast hc, by
      rcases (hn p).lt_or_eq with h | h
      · exact h
      · rw [← h, zero_mul] at hp; exact absurd hp (lt_irrefl _)⟩
  have hpq : p ≠ q := fun e => by rw [e, hq] at hp; exact lt_irrefl _ hp
  refine ⟨⟨hn, hb.trans_le h2, D.regular_of_physical hph hn (hb.trans_le h2) hc.size (fun i => ?_) hw ⟨q, hq, hqn⟩ ⟨p, hp⟩
    hc.negative⟩, fun i k q1 q2 q3 => (hw i k q1 q2 q3).le⟩
  by_cases e : p = i
  · exact ⟨q, fun h => hpq (e.trans h.symm), hqn⟩
  · exact ⟨p, e, hpn⟩

theorem box_weak (hph : D.Physical) (hc : D.Complete) {b B : ℝ} (hb : 0 < b) {e : (Fin ns → ℝ) × ℝ} (he : e ∈ D.box b B) :
    D.Weak (ofVec e) ∧ D.WeakCoupling (ofVec e) := weak_away hph hc hb (fun i => (he.1 i).1) he.2.2

theorem box_field (hph : D.Physical) (hc : D.Complete) {b B : ℝ} (hb : 0 < b) : ContinuousOn D.field (D.box b B) := fun e he =>
  ((lip_field (x := e) hph (box_weak hph hc hb he).1).continuousAt).continuousWithinAt

/-- away from the edge, species of which there is little become more -/
theorem box_grows (hph : D.Physical) (hc : D.Complete) {b B : ℝ} (hb : 0 < b) (i : Fin ns) :
    ∃ δ > 0, ∀ e ∈ D.box b B, e.1 i < δ → 0 < D.pDn (ofVec e) i := by
  have hcl : IsCompact (D.box b B ∩ (fun e => (D.field e).1 i) ⁻¹' Set.Iic 0) := by
    have hcont : ContinuousOn (fun e => (D.field e).1 i) (D.box b B) :=
      (continuous_apply i).comp_continuousOn (continuous_fst.comp_continuousOn (box_field hph hc hb))
    have hk := box_compact (D := D) (B := B) hph hb
    exact hk.of_isClosed_subset (hcont.preimage_isClosed_of_isClosed hk.isClosed isClosed_Iic) Set.inter_subset_left
  rcases (D.box b B ∩ (fun e => (D.field e).1 i) ⁻¹' Set.Iic 0).eq_empty_or_nonempty with h | h
  · refine ⟨1, one_pos, fun e he _ => ?_⟩
    by_contra hneg
    exact (Set.mem_empty_iff_false e).1 (h ▸ ⟨he, not_lt.1 hneg⟩)
  · obtain ⟨e0, he0, hmin⟩ := hcl.exists_isMinOn h (f := fun e : (Fin ns → ℝ) × ℝ => e.1 i) (by fun_prop)
    refine ⟨e0.1 i, ?_, fun e he hlt => ?_⟩
    · rcases (he0.1.1 i).1.lt_or_eq with h | h
      · exact h
      · exfalso
        obtain ⟨hw1, hw2⟩ := box_weak hph hc hb he0.1
        have h1 : 1e10 ≤ D.pDn (ofVec e0) i := D.dn_at_zero hph hw1.n hw1.ne (diff_nonneg hph hw1.n hw1.ne hw2) h.symm
        have h2 : D.pDn (ofVec e0) i ≤ 0 := he0.2
        norm_num at h1
        linarith
    · by_contra hneg
      exact absurd (hmin ⟨he, not_lt.1 hneg⟩) (not_le.2 hlt)

/-- **C125.** Under the conditions of C97 for bounded densities and energy, the time development reaches the end of the run unless it comes
as near as one likes to the edge of the states in which the equations are defined. -/
theorem reaches_end (hph : D.Physical) (hc : D.Complete) {w : Fin ns → ℝ} (hw : D.Kept w) (hw1 : ∀ i, 1 ≤ w i) (hr : D.NeutralReturn)
    (hm : ∀ i, 0 < D.charge i → 2 * Real.pi * D.C.mE ≤ D.mass i) (hloss : ∀ j, 0 ≤ D.enLoss j) (he : ∀ j, 0 ≤ D.eNet j)
    {y0 : Y ns} (h0 : D.Defined y0) {T : ℝ} (hT : 0 < T) (hP : ContinuousOn D.power (Set.Icc 0 T)) {P : ℝ} (hP0 : ∀ t, |D.power t| ≤ P) :
    ∃ τ ∈ Set.Ioc 0 T, ∃ y, D.Development y0 τ y ∧
      ((τ = T ∧ D.Solves T y ∧ D.Defined (y T)) ∨ ∀ b > 0, ∃ t ∈ Set.Ico 0 τ, D.NearEdge b (y t)) := by
  obtain ⟨τ, hτ, y, hy, h | h⟩ := maximal_development hph h0 hT hP
  · exact ⟨τ, hτ, y, hy, Or.inl h⟩
  refine ⟨τ, hτ, y, hy, Or.inr fun b hb => ?_⟩
  by_contra hcon
  push Not at hcon
  have hV := volume_pos hph
  have hE := D.C.e_pos
  have hPn : 0 ≤ P := (abs_nonneg _).trans (hP0 0)
  have hins : ∀ t ∈ Set.Ico 0 τ, ∀ r ∈ Set.Icc 0 t, D.Inside (y r) := fun t ht r hr => by
    have hr' : r ∈ Set.Ico 0 τ := ⟨hr.1, hr.2.trans_lt ht.2⟩
    have k1 := hy.defined r hr'
    exact ⟨k1.2.1, (weak_away hph hc hb (fun i => (k1.1 i).le) (hcon r hr')).2, k1.2.2⟩
  have hst : ∀ i, 0 < (y 0).n i := (hy.defined 0 ⟨le_rfl, hτ.1⟩).1
  -- upper bounds
  obtain ⟨W, hW⟩ : ∃ W, ∀ i, w i ≤ W := ⟨∑ i, w i, fun i => single_le_sum (f := w) (fun k _ => hw.nonneg k) (mem_univ i)⟩
  obtain ⟨B1, hB1⟩ : ∃ B, ∀ t ∈ Set.Ico 0 τ, ∀ i, (y t).n i ≤ B := by
    refine ⟨max (amount w (y 0)) (W * (D.p0 / (D.C.kB * D.tempG))) + (D.fed w + 1e10 * ∑ i, w i) * τ, fun t ht i => ?_⟩
    have k := (total_density_bounded hph hw hw1 hW (hy.solves t ht) hst (hins t ht) t ⟨ht.1, le_rfl⟩)
    have k1 : (y t).n i ≤ ∑ i, (y t).n i := single_le_sum (f := (y t).n) (fun k' _ => (k.1 k').le) (mem_univ i)
    have k2 : 0 ≤ D.fed w + 1e10 * ∑ i, w i := by
      have := amount_fed w hph hw.nonneg
      have : 0 ≤ ∑ i, w i := sum_nonneg fun i _ => hw.nonneg i
      positivity
    have := mul_le_mul_of_nonneg_left ht.2.le k2
    linarith [k.2]
  obtain ⟨p, hp⟩ : ∃ p, 0 < D.charge p := (hy.defined 0 ⟨le_rfl, hτ.1⟩).2.2.posIon
  obtain ⟨B2, hB2⟩ : ∃ B, ∀ t ∈ Set.Ico 0 τ, (y t).rho ≤ B := by
    refine ⟨max (y 0).rho 1 + P / D.volume / D.C.e * τ, fun t ht => ?_⟩
    have k := energy_bounded hph hr hm ⟨p, hp⟩ hloss he hPn (fun t => (le_abs_self _).trans (hP0 t)) (hy.solves t ht) hst (hins t ht) t
      ⟨ht.1, le_rfl⟩
    have k2 : 0 ≤ P / D.volume / D.C.e := by positivity
    have := mul_le_mul_of_nonneg_left ht.2.le k2
    linarith
  -- lower bound of the energy
  obtain ⟨B3, hB3⟩ : ∃ B, ∀ t ∈ Set.Ico 0 τ, -(y t).rho ≤ B := by
    obtain ⟨A, hA⟩ := (box_compact (D := D) (b := b) (B := |B1|) hph hb).exists_bound_of_continuousOn (box_field hph hc hb)
    refine ⟨max (-(y 0).rho) 0 + (|A| + P / D.volume / D.C.e) * τ, fun t ht => ?_⟩
    have hrate : 0 ≤ |A| + P / D.volume / D.C.e := by positivity
    have k := bounded_growth (T := t) (f := fun r => -(y r).rho) (g := fun r => -(D.rhs r (y r)).rho)
      (fun r hr => ((hy.solves t ht r hr).2).neg) hrate (le_max_left (-(y 0).rho) 0) (fun r hr hB => ?_) t ⟨ht.1, le_rfl⟩
    · have := mul_le_mul_of_nonneg_left ht.2.le hrate
      linarith
    · have hr' : r ∈ Set.Ico 0 τ := ⟨hr.1, hr.2.trans_lt ht.2⟩
      have hneg : (y r).rho ≤ 0 := by
        have := (le_max_right (-(y 0).rho) 0).trans_lt hB
        linarith
      obtain ⟨a1, a2, a3⟩ := away (hcon r hr')
      have hte := te_cold hph (hb.trans_le a2) hneg
      have hmem : ((y r).n, (0 : ℝ)) ∈ D.box b |B1| := by
        refine ⟨fun i => ⟨((hy.defined r hr').1 i).le, (hB1 r hr' i).trans (le_abs_self _)⟩, ⟨by simp, by simp⟩, ?_⟩
        rintro (h | h | ⟨i, k, q1, q2, q3, q4⟩)
        · exact absurd h (not_lt.2 a1)
        · exact absurd h (not_lt.2 a2)
        · have e1 := debye_congr (D := D) (y := y r) (y' := ⟨(y r).n, 0⟩) rfl hte
          have e2 := v_congr (D := D) (y := y r) (y' := ⟨(y r).n, 0⟩) rfl
          refine absurd (a3 i k q1 q2 q3) (not_le.2 ?_)
          rw [e1, e2]
          exact q4
      obtain ⟨c1, c2, c3, c4⟩ := drho_congr (D := D) (y := y r) (y' := ⟨(y r).n, 0⟩) rfl hte
      have hb1 : |(D.field ((y r).n, 0)).2| ≤ A := (norm_snd_le (D.field ((y r).n, 0))).trans (hA _ hmem)
      have e3 : (D.field ((y r).n, 0)).2 = -D.pElInel (y r) - D.pGainLoss (y r) - D.pElWalls (y r) - D.pIonsWalls (y r) + fMinRho 0 := by
        rw [c1, c2, c3, c4]; rfl
      have e4 : (D.rhs r (y r)).rho = D.fExt (D.power r) - D.pElInel (y r) - D.pGainLoss (y r) - D.pElWalls (y r) - D.pIonsWalls (y r) +
          fMinRho (y r).rho := rfl
      have e5 : fMinRho 0 ≤ fMinRho (y r).rho := by
        unfold fMinRho
        rw [if_pos (by norm_num), if_pos (by linarith)]
        gcongr
      have e6 : -(P / D.volume / D.C.e) ≤ D.fExt (D.power r) := by
        have : -P ≤ D.power r := (abs_le.1 (hP0 r)).1
        have e : D.fExt (D.power r) = D.power r / D.volume / D.C.e := rfl
        rw [e, ← neg_div, ← neg_div]
        gcongr
      have := (abs_le.1 hb1).1
      have := le_abs_self A
      show -(D.rhs r (y r)).rho ≤ _
      rw [e4]
      linarith
  set B := max |B1| (max |B2| |B3|) with hBd
  have hbox : ∀ t ∈ Set.Ico 0 τ, toVec (y t) ∈ D.box b B := fun t ht => by
    refine ⟨fun i => ⟨((hy.defined t ht).1 i).le, (hB1 t ht i).trans ((le_abs_self _).trans (le_max_left _ _))⟩, ⟨?_, ?_⟩, hcon t ht⟩
    · have := hB3 t ht
      have : |B3| ≤ B := (le_max_right _ _).trans (le_max_right _ _)
      have := le_abs_self B3
      show -B ≤ (y t).rho
      linarith
    · exact (hB2 t ht).trans ((le_abs_self _).trans ((le_max_left _ _).trans (le_max_right _ _)))
  -- lower bounds of the densities
  choose δ hδ hgrow using box_grows (D := D) (b := b) (B := B) hph hc hb
  have hlow : ∀ t ∈ Set.Ico 0 τ, ∀ i, min ((y 0).n i) (δ i) ≤ (y t).n i := fun t ht i => by
    have k := bounded_growth (T := t) (f := fun r => -(y r).n i) (g := fun r => -D.pDn (y r) i) (B := -min ((y 0).n i) (δ i)) (c := 0)
      (fun r hr => ((hy.solves t ht r hr).1 i).neg) le_rfl (neg_le_neg (min_le_left _ _)) (fun r hr hB => ?_) t ⟨ht.1, le_rfl⟩
    · linarith
    · have hlt : (y r).n i < δ i := (neg_lt_neg_iff.1 hB).trans_le (min_le_right _ _)
      have : 0 < D.pDn (y r) i := hgrow i (toVec (y r)) (hbox r ⟨hr.1, hr.2.trans_lt ht.2⟩) hlt
      show -D.pDn (y r) i ≤ 0
      linarith
  -- the development stays in a compact set
  obtain ⟨t, ht, hout⟩ := h (D.box b B ∩ ⋂ i, {e | min ((y 0).n i) (δ i) ≤ e.1 i})
    ((box_compact hph hb).inter_right (isClosed_iInter fun i => isClosed_le continuous_const (by fun_prop)))
    (fun e he => by
      have hwk := (box_weak hph hc hb he.1).1
      exact ⟨fun i => (lt_min (hst i) (hδ i)).trans_le (Set.mem_iInter.1 he.2 i), hwk.ne, hwk.regular⟩) 0 hτ.1
  have ht' : t ∈ Set.Ico 0 τ := ⟨ht.1.le, ht.2⟩
  exact hout ⟨hbox t ht', Set.mem_iInter.2 fun i => hlow t ht' i⟩

end Data
end Verif.Pygmol
