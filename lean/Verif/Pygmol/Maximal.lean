/-
Property C125: the time development goes on to the end of the run unless it leaves the states in which the equations are defined.
-/
import Verif.Pygmol.Unique
import Mathlib.Analysis.Calculus.FDeriv.Extend

namespace Verif.Pygmol
open Filter Topology Set
open scoped NNReal

section ode
variable {E : Type*} [NormedAddCommGroup E] [NormedSpace ℝ E]

/-- a solution on all shorter intervals has its derivative inside -/
theorem ode_inner {F : E → E} {u : ℝ → E} {τ : ℝ} {f : ℝ → E}
    (hf : ∀ s ∈ Ico 0 τ, ∀ t ∈ Icc 0 s, HasDerivWithinAt f (F (f t) + u t) (Icc 0 s) t) {t : ℝ} (ht : t ∈ Ioo 0 τ) :
    HasDerivAt f (F (f t) + u t) t := by
  have h := hf ((t + τ) / 2) ⟨by linarith [ht.1, ht.2], by linarith [ht.2]⟩ t ⟨ht.1.le, by linarith [ht.2]⟩
  exact h.hasDerivAt (Icc_mem_nhds ht.1 (by linarith [ht.2]))

/-- A solution that stays in a compact set in which the right-hand side is continuous has a limit. -/
theorem ode_limit {F : E → E} {u : ℝ → E} {τ : ℝ} {f : ℝ → E}
    (hf : ∀ s ∈ Ico 0 τ, ∀ t ∈ Icc 0 s, HasDerivWithinAt f (F (f t) + u t) (Icc 0 s) t) (hu : ContinuousOn u (Icc 0 τ))
    {K : Set E} (hK : IsCompact K) (hF : ContinuousOn F K) {s : ℝ} (hs0 : 0 ≤ s) (hs : s < τ) (hin : ∀ t ∈ Ioo s τ, f t ∈ K) :
    ∃ L ∈ K, Tendsto f (𝓝[<] τ) (𝓝 L) := by
  obtain ⟨A, hA⟩ := hK.exists_bound_of_continuousOn hF
  obtain ⟨B, hB⟩ := (isCompact_Icc (a := (0 : ℝ)) (b := τ)).exists_bound_of_continuousOn hu
  have hlip : LipschitzOnWith (Real.toNNReal (A + B)) f (Ioo s τ) := by
    refine (convex_Ioo s τ).lipschitzOnWith_of_nnnorm_hasDerivWithin_le (f' := fun t => F (f t) + u t)
      (fun t ht => (ode_inner hf ⟨hs0.trans_lt ht.1, ht.2⟩).hasDerivWithinAt) fun t ht => ?_
    rw [← NNReal.coe_le_coe, coe_nnnorm]
    refine ((norm_add_le _ _).trans (add_le_add (hA _ (hin t ht)) (hB t ⟨hs0.trans ht.1.le, ht.2.le⟩))).trans (Real.le_coe_toNNReal _)
  have hmem : Ioo s τ ∈ 𝓝[<] τ := Ioo_mem_nhdsLT hs
  have hc : Cauchy (map f (𝓝[<] τ)) :=
    ((cauchy_nhds (a := τ)).mono (g := 𝓝[<] τ) nhdsWithin_le_nhds).map_of_le hlip.uniformContinuousOn (le_principal_iff.2 hmem)
  obtain ⟨L, hL, h⟩ := hK.isComplete _ hc (le_principal_iff.2 (mem_map.2 (mem_of_superset hmem fun t ht => hin t ht)))
  exact ⟨L, hL, h⟩

/-- A solution with a limit is, with this limit as its last value, a solution up to the last time. -/
theorem ode_extend {F : E → E} {u : ℝ → E} {τ : ℝ} (hτ : 0 < τ) {f : ℝ → E}
    (hf : ∀ s ∈ Ico 0 τ, ∀ t ∈ Icc 0 s, HasDerivWithinAt f (F (f t) + u t) (Icc 0 s) t) (hu : ContinuousOn u (Icc 0 τ))
    (hF : ContinuousAt F (f τ)) (hlim : Tendsto f (𝓝[<] τ) (𝓝 (f τ))) :
    ∀ t ∈ Icc 0 τ, HasDerivWithinAt f (F (f t) + u t) (Icc 0 τ) t := by
  intro t ht
  rcases ht.2.lt_or_eq with h | rfl
  · have k := hf ((t + τ) / 2) ⟨by linarith [ht.1], by linarith⟩ t ⟨ht.1, by linarith⟩
    refine k.mono_of_mem_nhdsWithin ?_
    have : Icc 0 τ ∩ Iio ((t + τ) / 2) ∈ 𝓝[Icc 0 τ] t := inter_mem_nhdsWithin _ (Iio_mem_nhds (by linarith))
    exact mem_of_superset this fun r hr => ⟨hr.1.1, hr.2.le⟩
  · have hmem : Ioo 0 t ∈ 𝓝[<] t := Ioo_mem_nhdsLT hτ
    have hu' : Tendsto u (𝓝[<] t) (𝓝 (u t)) :=
      (hu t ⟨hτ.le, le_rfl⟩).mono_left (nhdsWithin_le_of_mem (mem_of_superset hmem fun r hr => ⟨hr.1.le, hr.2.le⟩))
    have := hasDerivWithinAt_Iic_of_tendsto_deriv (s := Ioo 0 t) (f := f) (a := t) (e := F (f t) + u t)
      (fun r hr => (ode_inner hf hr).differentiableAt.differentiableWithinAt)
      (hlim.mono_left (nhdsWithin_mono _ fun r hr => hr.2)) hmem
      (((hF.tendsto.comp hlim).add hu').congr' (by
        filter_upwards [hmem] with r hr
        exact (ode_inner hf hr).deriv.symm))
    exact this.mono fun r hr => hr.2

end ode

namespace Data
variable {ns nr : ℕ} {D : Data ns nr}

theorem Solves.mono {s s' : ℝ} {y : ℝ → Y ns} (h : D.Solves s y) (hs : s' ≤ s) : D.Solves s' y := fun t ht => by
  have := h t ⟨ht.1, ht.2.trans hs⟩
  exact ⟨fun i => (this.1 i).mono (Icc_subset_Icc_right hs), this.2.mono (Icc_subset_Icc_right hs)⟩

theorem Solves.congr {s : ℝ} {y z : ℝ → Y ns} (h : D.Solves s y) (e : ∀ t ∈ Icc 0 s, z t = y t) : D.Solves s z := fun t ht => by
  have := h t ht
  rw [← e t ht] at this
  exact ⟨fun i => (this.1 i).congr (fun r hr => by rw [e r hr]) (by rw [e t ht]),
    this.2.congr (fun r hr => by rw [e r hr]) (by rw [e t ht])⟩

/-- The states in which the equations are defined: all densities and the electron density are positive, and no denominator vanishes. -/
def Defined (D : Data ns nr) (y : Y ns) : Prop := (∀ i, 0 < y.n i) ∧ 0 < D.getElectronDensity y none ∧ D.Regular y

theorem Defined.good {y : Y ns} (h : D.Defined y) : D.Good y := ⟨h.1, h.2.1, h.2.2⟩

/-- The time development from `y0` up to, but not including, the time `τ`. -/
structure Development (D : Data ns nr) (y0 : Y ns) (τ : ℝ) (y : ℝ → Y ns) : Prop where
  start : y 0 = y0
  solves : ∀ s ∈ Ico 0 τ, D.Solves s y
  defined : ∀ t ∈ Ico 0 τ, D.Defined (y t)

/-- In the end the state is in no given compact set of states in which the equations are defined: densities or energy grow without bounds,
or come close to states in which the equations are not defined. -/
def Leaves (D : Data ns nr) (τ : ℝ) (y : ℝ → Y ns) : Prop :=
  ∀ K : Set ((Fin ns → ℝ) × ℝ), IsCompact K → (∀ e ∈ K, D.Defined ⟨e.1, e.2⟩) → ∀ s < τ, ∃ t ∈ Ioo s τ, ((y t).n, (y t).rho) ∉ K

/-- **C125.** From every state in which the equations are defined, there is a time up to which the time development exists: the end of the
run, and it can be computed up to and including this, or the state leaves the states in which the equations are defined. -/
theorem maximal_development (hph : D.Physical) {y0 : Y ns} (h0 : D.Defined y0) {T : ℝ} (hT : 0 < T)
    (hP : ContinuousOn D.power (Icc 0 T)) :
    ∃ τ ∈ Ioc 0 T, ∃ y, D.Development y0 τ y ∧ ((τ = T ∧ D.Solves T y ∧ D.Defined (y T)) ∨ D.Leaves τ y) := by
  set S : Set ℝ := {s | s ∈ Ioc 0 T ∧ ∃ y, y 0 = y0 ∧ D.Solves s y ∧ ∀ t ∈ Icc 0 s, D.Defined (y t)} with hS
  obtain ⟨ε, hε, y1, k1, k2, k3⟩ := solution_exists hph h0.1 h0.2.1 h0.2.2 hT hP
  have hεS : ε ∈ S := ⟨hε, y1, k2, k1, k3⟩
  have hbdd : BddAbove S := ⟨T, fun s hs => hs.1.2⟩
  set τ := sSup S with hτ
  have hετ : ε ≤ τ := le_csSup hbdd hεS
  have hτ0 : 0 < τ := hε.1.trans_le hετ
  have hτT : τ ≤ T := csSup_le ⟨ε, hεS⟩ fun s hs => hs.1.2
  by_cases hmem : τ ∈ S
  · obtain ⟨-, y, q1, q2, q3⟩ := hmem
    refine ⟨τ, ⟨hτ0, hτT⟩, y, ⟨q1, fun s hs => q2.mono hs.2.le, fun t ht => q3 t ⟨ht.1, ht.2.le⟩⟩, ?_⟩
    left
    have hend := q3 τ ⟨hτ0.le, le_rfl⟩
    have : τ = T := by
      by_contra hne
      have hlt := lt_of_le_of_ne hτT hne
      obtain ⟨s, hs, z, z1, z2, z3⟩ := solution_continues hph hτ0.le q2 hend.1 hend.2.1 hend.2.2 hlt
        (hP.mono (Icc_subset_Icc_left hτ0.le))
      have : s ∈ S := ⟨⟨hτ0.trans hs.1, hs.2⟩, z, by rw [z2 0 ⟨le_rfl, hτ0.le⟩, q1], z1, fun t ht => by
        by_cases h : t ≤ τ
        · rw [z2 t ⟨ht.1, h⟩]; exact q3 t ⟨ht.1, h⟩
        · exact z3 t ⟨(not_le.1 h).le, ht.2⟩⟩
      exact absurd (le_csSup hbdd this) (not_le.2 hs.1)
    exact ⟨this, by rw [← this]; exact q2, by rw [← this]; exact hend⟩
  · have hex : ∀ t : ℝ, ∃ y : ℝ → Y ns, t < τ → ∃ s ∈ S, t < s ∧ y 0 = y0 ∧ D.Solves s y ∧ ∀ r ∈ Icc 0 s, D.Defined (y r) := by
      intro t
      by_cases h : t < τ
      · obtain ⟨s, hs, hts⟩ := exists_lt_of_lt_csSup ⟨ε, hεS⟩ h
        obtain ⟨-, y, a, b, c⟩ := id hs
        exact ⟨y, fun _ => ⟨s, hs, hts, a, b, c⟩⟩
      · exact ⟨fun _ => y0, fun h' => absurd h' h⟩
    choose g hg using hex
    have heq : ∀ t ∈ Ico 0 τ, ∀ r ∈ Icc 0 t, g r r = g t r := by
      intro t ht r hr
      obtain ⟨s, -, s1, s2, s3, s4⟩ := hg t ht.2
      obtain ⟨s', -, s1', s2', s3', s4'⟩ := hg r (hr.2.trans_lt ht.2)
      exact unique_of_good hph (s3.mono (hr.2.trans s1.le)) (fun q hq => (s4 q ⟨hq.1, hq.2.trans (hr.2.trans s1.le)⟩).good)
        (s3'.mono s1'.le) (s2'.trans s2.symm) r ⟨hr.1, le_rfl⟩
    have hdev : D.Development y0 τ (fun t => g t t) := by
      refine ⟨?_, fun s hs => ?_, fun t ht => ?_⟩
      · obtain ⟨s, -, -, s2, -⟩ := hg 0 hτ0
        exact s2
      · obtain ⟨s', -, s1, -, s3, -⟩ := hg s hs.2
        exact (s3.mono s1.le).congr fun r hr => heq s hs r hr
      · obtain ⟨s, -, s1, -, -, s4⟩ := hg t ht.2
        exact s4 t ⟨ht.1, s1.le⟩
    refine ⟨τ, ⟨hτ0, hτT⟩, _, hdev, Or.inr fun K hK hKd s hs => ?_⟩
    by_contra hcon
    push Not at hcon
    have hu : ContinuousOn D.heating (Icc 0 τ) :=
      continuousOn_const.prodMk (((hP.mono (Icc_subset_Icc_right hτT)).div_const _).div_const _)
    have hfield : ∀ e ∈ K, ContinuousAt D.field e := fun e he => (lip_field (x := e) hph (hKd e he).good.weak).continuousAt
    obtain ⟨L, hL, hlim⟩ := ode_limit (F := D.field) (u := D.heating) (f := fun t => toVec (g t t)) (τ := τ) (K := K) (s := max s 0)
      (fun r hr t ht => solves_vec.1 (hdev.solves r hr t ht)) hu hK (fun e he => (hfield e he).continuousWithinAt) (le_max_right _ _)
      (max_lt hs hτ0) fun t ht => hcon t ⟨(le_max_left _ _).trans_lt ht.1, ht.2⟩
    set z : ℝ → Y ns := fun t => if t = τ then ofVec L else g t t with hz
    have hzl : ∀ t, t ≠ τ → z t = g t t := fun t ht => by simp only [hz, if_neg ht]
    have hzτ : z τ = ofVec L := by simp only [hz, if_true]
    have hsol : D.Solves τ z := fun t ht => by
      refine solves_vec.2 (ode_extend (F := D.field) (u := D.heating) (f := fun t => toVec (z t)) hτ0 (fun r hr t ht => ?_) hu ?_ ?_ t ht)
      · have := (hdev.solves r hr).congr (z := z) fun q hq => hzl q (hq.2.trans_lt hr.2).ne
        exact solves_vec.1 (this t ht)
      · show ContinuousAt D.field (toVec (z τ))
        rw [hzτ]
        exact hfield L hL
      · show Tendsto _ _ (𝓝 (toVec (z τ)))
        rw [hzτ]
        refine hlim.congr' ?_
        filter_upwards [self_mem_nhdsWithin] with r hr
        rw [hzl r (ne_of_lt hr)]
    refine hmem ⟨⟨hτ0, hτT⟩, z, ?_, hsol, fun t ht => ?_⟩
    · rw [hzl 0 hτ0.ne]; exact hdev.start
    · by_cases h : t = τ
      · rw [h, hzτ]; exact hKd L hL
      · rw [hzl t h]; exact hdev.defined t ⟨ht.1, lt_of_le_of_ne ht.2 h⟩

/-- **C125.** There is no other: every solution that starts like a time development agrees with it as long as both last. -/
theorem development_unique (hph : D.Physical) {y0 : Y ns} {τ : ℝ} {y : ℝ → Y ns} (h : D.Development y0 τ y) {S : ℝ} {z : ℝ → Y ns}
    (hz : D.Solves S z) (hz0 : z 0 = y0) : ∀ t ∈ Icc 0 S, t < τ → z t = y t := by
  intro t ht hτ
  exact unique_of_good hph (h.solves t ⟨ht.1, hτ⟩) (fun r hr => (h.defined r ⟨hr.1, hr.2.trans_lt hτ⟩).good) (hz.mono ht.2)
    (hz0.trans h.start.symm) t ⟨ht.1, le_rfl⟩

/-- **C125.** A time development that leaves the states in which the equations are defined cannot be continued: if a solution with
this start is in such a state at this time, the development has not left them. -/
theorem leaves_ends (hph : D.Physical) {y0 : Y ns} {τ : ℝ} (hτ : 0 < τ) {y : ℝ → Y ns} (h : D.Development y0 τ y)
    {S : ℝ} (hS : τ ≤ S) {z : ℝ → Y ns} (hz : D.Solves S z) (hz0 : z 0 = y0) (hd : D.Defined (z τ)) : ¬ D.Leaves τ y := by
  intro hl
  have hg := good_nhds (x := toVec (z τ)) hph hd.good
  obtain ⟨K, ⟨hK, hKc⟩, hKs⟩ := (compact_basis_nhds (toVec (z τ))).mem_iff.1 hg
  have hcont : ContinuousWithinAt (fun r => toVec (z r)) (Icc 0 S) τ :=
    (solves_vec.1 (hz τ ⟨hτ.le, hS⟩)).continuousWithinAt
  have hev : ∀ᶠ r in 𝓝[<] τ, toVec (z r) ∈ K := by
    have : Tendsto (fun r => toVec (z r)) (𝓝[<] τ) (𝓝 (toVec (z τ))) :=
      hcont.mono_left (nhdsWithin_le_of_mem (mem_of_superset (Ioo_mem_nhdsLT hτ) fun r hr => ⟨hr.1.le, hr.2.le.trans hS⟩))
    exact this hK
  obtain ⟨s, hs, hsub⟩ := (mem_nhdsLT_iff_exists_Ioo_subset).1 hev
  obtain ⟨t, ht, hnot⟩ := hl K hKc (fun e he => ⟨(hKs he).n, (hKs he).ne, (hKs he).regular⟩) (max s 0) (max_lt hs hτ)
  have ht0 : 0 < t := (le_max_right _ _).trans_lt ht.1
  have e := development_unique hph h hz hz0 t ⟨ht0.le, ht.2.le.trans hS⟩ ht.2
  refine hnot ?_
  have := hsub ⟨(le_max_left _ _).trans_lt ht.1, ht.2⟩
  change toVec (z t) ∈ K at this
  rw [e] at this
  exact this

end Data
end Verif.Pygmol
