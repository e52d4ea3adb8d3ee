/-
Properties C103, C104: solutions over time. The pressure approaches the set pressure without overshoot; the neutral model
cannot blow up.
-/
import Verif.Pygmol.Time
import Verif.Pygmol.Neutral

namespace Verif.Pygmol
open Finset
open Verif.Plaschem
namespace Data
variable {ns nr : ℕ} (D : Data ns nr)

/-! ### Specification -/

/-- Particles are neither made nor lost in reactions and at the wall. -/
structure KeepsParticles : Prop where
  reactions : ∀ j, ∑ i, D.net j i = 0
  wall : ∀ k, D.stick k ≠ 0 → ∑ i, D.ret i k = 1

/-- the pressure of the neutral species -/
noncomputable def neutralPressure (y : Y ns) : ℝ := D.C.kB * D.tempG * ∑ i ∈ univ.filter (fun i => D.charge i = 0), y.n i

/-- A solution of the neutral model on `[0, T]`: the derivatives are what the objective function returns, for any
uninitialised memory and after any calls. -/
def NeuSolves (T : ℝ) (y : ℝ → Y ns) : Prop := ∀ t ∈ Set.Icc 0 T, ∀ (junk : Cache ns nr) (calls : List (NCall ns nr)),
  ∃ dy, ((D.neuObjective t (y t)).run (D.neuHistory junk calls)).1 = some dy ∧
    (∀ i, HasDerivWithinAt (fun s => (y s).n i) (dy.n i) (Set.Icc 0 T) t) ∧
    HasDerivWithinAt (fun s => (y s).rho) dy.rho (Set.Icc 0 T) t

/-! ### Proofs -/

variable {D}

theorem pressure_deriv {T : ℝ} {y : ℝ → Y ns} (hy : D.SolvesN T y) (t : ℝ) (ht : t ∈ Set.Icc 0 T) :
    HasDerivWithinAt (fun s => D.getTotalPressure (y s) none) (D.C.kB * D.tempG * ∑ i, (D.rhs t (y t)).n i)
      (Set.Icc 0 T) t := by
  have e : (fun s => D.getTotalPressure (y s) none) = fun s => D.C.kB * D.tempG * amount (fun _ => 1) (y s) := by
    funext s
    show D.C.kB * D.tempG * ∑ i, (y s).n i = _
    simp [amount]
  rw [e]
  have := (amount_deriv hy (fun _ => 1) t ht).const_mul (D.C.kB * D.tempG)
  simpa only [one_mul] using this

/-- the change of the total density -/
theorem total_rate (hK : D.KeepsParticles) (t : ℝ) {y : Y ns} (hn : ∑ i ∈ univ.filter D.neu, y.n i ≠ 0) :
    ∑ i, (D.rhs t y).n i = -((∑ i ∈ univ.filter D.neu, y.n i) / 1e-3 * (D.getTotalPressure y none - D.p0) / D.p0)
      + ∑ i, fMinN y.n i := by
  have h3 : ∀ i, (D.rhs t y).n i = D.pVol y i + D.getFlowSourceRates y none none i + D.pSrc y i + fMinN y.n i := fun _ => rfl
  have h1 : ∑ i, D.pVol y i = 0 := by
    have := D.vol_weighted (fun _ => 1) (D.pRates y)
    simp only [one_mul, mul_one] at this
    rw [show D.pVol y = D.fVol (D.pRates y) from rfl, this]
    refine sum_eq_zero fun j _ => ?_
    have := congrArg (Int.cast : Int → ℝ) (hK.reactions j)
    push_cast at this
    rw [this, zero_mul]
  have h2 : ∑ i, D.pSrc y i = 0 := by
    have hb := D.wall_balance (fun _ => 1) y ⟨fun _ => 0, fun _ => 0, fun _ _ => 0, fun _ => 0⟩ []
    simp only at hb
    rw [(D.gives_src y _ (D.valid_history _ [])).1, (D.gives_sinks y _ (D.valid_history _ [])).1] at hb
    simp only [one_mul, mul_one] at hb
    rw [hb]
    refine sum_eq_zero fun k _ => ?_
    by_cases hk : D.stick k = 0
    · rw [D.sinks_zero_of_stick hk, mul_zero]
    · rw [hK.wall k hk]; simp
  simp only [h3, sum_add_distrib, h1, h2]
  rw [D.flow_total y hn]
  ring

theorem minN_nonneg (y : Y ns) : 0 ≤ ∑ i, fMinN y.n i := sum_nonneg fun i _ => by
  unfold fMinN
  split
  · rename_i h
    have : (0 : ℝ) ≤ 1 - y.n i := by linarith
    positivity
  · exact le_rfl

theorem minN_zero {y : Y ns} (h : ∀ i, 1 ≤ y.n i) : ∑ i, fMinN y.n i = 0 := sum_eq_zero fun i _ =>
  if_neg (not_lt.2 (h i))

/-- the law of the pressure -/
theorem pressure_rate (hK : D.KeepsParticles) (t : ℝ) {y : Y ns} (hn : ∑ i ∈ univ.filter D.neu, y.n i ≠ 0) :
    D.C.kB * D.tempG * ∑ i, (D.rhs t y).n i =
      -(D.neutralPressure y * (D.getTotalPressure y none - D.p0) / (1e-3 * D.p0)) + D.C.kB * D.tempG * ∑ i, fMinN y.n i := by
  rw [total_rate hK t hn]
  have : D.neutralPressure y = D.C.kB * D.tempG * ∑ i ∈ univ.filter D.neu, y.n i := rfl
  rw [this]
  by_cases hp : D.p0 = 0
  · rw [hp]; ring
  · field_simp

section approach
variable (hph : D.Physical) (hK : D.KeepsParticles) {T : ℝ} {y : ℝ → Y ns} (hy : D.SolvesN T y)
  (hn : ∀ t ∈ Set.Icc 0 T, ∀ i, 0 < (y t).n i) (hneu : ∃ i, D.charge i = 0)
include hph hK hy hn hneu

omit hK hy in
theorem neuSum_pos : ∀ t ∈ Set.Icc 0 T, 0 < ∑ i ∈ univ.filter D.neu, (y t).n i ∧ 0 < D.neutralPressure (y t) := by
  intro t ht
  obtain ⟨i, hi⟩ := hneu
  have h1 : 0 < ∑ i ∈ univ.filter D.neu, (y t).n i :=
    sum_pos (fun i _ => hn t ht i) ⟨i, mem_filter.2 ⟨mem_univ _, hi⟩⟩
  refine ⟨h1, ?_⟩
  have hk := D.C.kB_pos
  have := hph.tempG
  have e : D.neutralPressure (y t) = D.C.kB * D.tempG * ∑ i ∈ univ.filter D.neu, (y t).n i := rfl
  rw [e]
  positivity

/-- from above: not below the set pressure -/
theorem above (h0 : D.p0 ≤ D.getTotalPressure (y 0) none) : ∀ t ∈ Set.Icc 0 T, D.p0 ≤ D.getTotalPressure (y t) none := by
  intro t ht
  have hd : ∀ t ∈ Set.Icc 0 T, HasDerivWithinAt (fun s => -D.getTotalPressure (y s) none)
      (-(D.C.kB * D.tempG * ∑ i, (D.rhs t (y t)).n i)) (Set.Icc 0 T) t := fun t ht => (pressure_deriv hy t ht).neg
  have := bounded_growth hd (B := -D.p0) le_rfl (by linarith) (fun t ht hB => by
    obtain ⟨p1, p2⟩ := neuSum_pos hph hn hneu t ht
    rw [pressure_rate hK t p1.ne']
    have hp0 := hph.p0
    have hk := D.C.kB_pos
    have ht := hph.tempG
    have h1 : 0 ≤ D.p0 - D.getTotalPressure (y t) none := by linarith
    have h2 : 0 ≤ D.neutralPressure (y t) * (D.p0 - D.getTotalPressure (y t) none) / (1e-3 * D.p0) := by positivity
    have h3 := minN_nonneg (y t)
    have h4 : 0 ≤ D.C.kB * D.tempG * ∑ i, fMinN (y t).n i := by positivity
    have e : D.neutralPressure (y t) * (D.getTotalPressure (y t) none - D.p0) / (1e-3 * D.p0) =
      -(D.neutralPressure (y t) * (D.p0 - D.getTotalPressure (y t) none) / (1e-3 * D.p0)) := by ring
    rw [e]; linarith) t ht
  linarith

/-- from below, if the artificial correction does not act -/
theorem below (h1 : ∀ t ∈ Set.Icc 0 T, ∀ i, 1 ≤ (y t).n i) (h0 : D.getTotalPressure (y 0) none ≤ D.p0) :
    ∀ t ∈ Set.Icc 0 T, D.getTotalPressure (y t) none ≤ D.p0 := by
  intro t ht
  have := bounded_growth (pressure_deriv hy) (B := D.p0) le_rfl h0 (fun t ht hB => by
    obtain ⟨p1, p2⟩ := neuSum_pos hph hn hneu t ht
    rw [pressure_rate hK t p1.ne', minN_zero (h1 t ht)]
    have hp0 := hph.p0
    have h1 : 0 ≤ D.getTotalPressure (y t) none - D.p0 := by linarith
    have h2 : 0 ≤ D.neutralPressure (y t) * (D.getTotalPressure (y t) none - D.p0) / (1e-3 * D.p0) := by positivity
    linarith) t ht
  linarith

/-- the approach to the set pressure -/
theorem approaches (h1 : ∀ t ∈ Set.Icc 0 T, ∀ i, 1 ≤ (y t).n i) :
    (D.p0 ≤ D.getTotalPressure (y 0) none → (∀ t ∈ Set.Icc 0 T, D.p0 ≤ D.getTotalPressure (y t) none) ∧
      AntitoneOn (fun t => D.getTotalPressure (y t) none) (Set.Icc 0 T)) ∧
    (D.getTotalPressure (y 0) none ≤ D.p0 → (∀ t ∈ Set.Icc 0 T, D.getTotalPressure (y t) none ≤ D.p0) ∧
      MonotoneOn (fun t => D.getTotalPressure (y t) none) (Set.Icc 0 T)) := by
  have hp0 := hph.p0
  refine ⟨fun h0 => ?_, fun h0 => ?_⟩
  · have ha := above hph hK hy hn hneu h0
    refine ⟨ha, antitone_of_nonpos (pressure_deriv hy) le_rfl le_rfl fun t ht => ?_⟩
    have ht := Set.Ioo_subset_Icc_self ht
    obtain ⟨p1, p2⟩ := neuSum_pos hph hn hneu t ht
    rw [pressure_rate hK t p1.ne', minN_zero (h1 t ht)]
    have h1 : 0 ≤ D.getTotalPressure (y t) none - D.p0 := by linarith [ha t ht]
    have h2 : 0 ≤ D.neutralPressure (y t) * (D.getTotalPressure (y t) none - D.p0) / (1e-3 * D.p0) := by positivity
    linarith
  · have hb := below hph hK hy hn hneu h1 h0
    refine ⟨hb, ?_⟩
    have : AntitoneOn (fun t => -D.getTotalPressure (y t) none) (Set.Icc 0 T) := by
      refine antitone_of_nonpos (fun t ht => (pressure_deriv hy t ht).neg) le_rfl le_rfl fun t ht => ?_
      have ht := Set.Ioo_subset_Icc_self ht
      obtain ⟨p1, p2⟩ := neuSum_pos hph hn hneu t ht
      rw [pressure_rate hK t p1.ne', minN_zero (h1 t ht)]
      have h1 : 0 ≤ D.p0 - D.getTotalPressure (y t) none := by linarith [hb t ht]
      have h2 : 0 ≤ D.neutralPressure (y t) * (D.p0 - D.getTotalPressure (y t) none) / (1e-3 * D.p0) := by positivity
      have e : D.neutralPressure (y t) * (D.getTotalPressure (y t) none - D.p0) / (1e-3 * D.p0) =
        -(D.neutralPressure (y t) * (D.p0 - D.getTotalPressure (y t) none) / (1e-3 * D.p0)) := by ring
      rw [e]; linarith
    intro a ha b hb hab
    have := this ha hb hab
    simp only at this ⊢
    linarith

end approach

/-- **C103.** The pressure is regulated without overshoot: if reactions and walls keep the number of particles, a pressure
that starts at or above the set pressure stays there; as long as the artificial correction of low densities does not act,
it only falls; and one that starts at or below stays there and only rises. -/
theorem pressure_no_overshoot (hph : D.Physical) (hK : D.KeepsParticles) {T : ℝ} {y : ℝ → Y ns} (hy : D.Solves T y)
    (h0 : ∀ i, 0 < (y 0).n i) (hin : ∀ t ∈ Set.Icc 0 T, D.Inside (y t)) (hneu : ∃ i, D.charge i = 0) :
    (D.p0 ≤ D.getTotalPressure (y 0) none → ∀ t ∈ Set.Icc 0 T, D.p0 ≤ D.getTotalPressure (y t) none) ∧
    ((∀ t ∈ Set.Icc 0 T, ∀ i, 1 ≤ (y t).n i) →
      (D.p0 ≤ D.getTotalPressure (y 0) none → AntitoneOn (fun t => D.getTotalPressure (y t) none) (Set.Icc 0 T)) ∧
      (D.getTotalPressure (y 0) none ≤ D.p0 → (∀ t ∈ Set.Icc 0 T, D.getTotalPressure (y t) none ≤ D.p0) ∧
        MonotoneOn (fun t => D.getTotalPressure (y t) none) (Set.Icc 0 T))) := by
  have hpos := D.densities_stay_positive hph T y (fun i t ht => (hy t ht).1 i) h0 hin
  have hN : D.SolvesN T y := fun t ht => (hy t ht).1
  refine ⟨above hph hK hN hpos hneu, fun h1 => ⟨fun h => ((approaches hph hK hN hpos hneu h1).1 h).2, fun h => ?_⟩⟩
  exact (approaches hph hK hN hpos hneu h1).2 h

/-! ### the neutral model -/

namespace Neutral
variable (h : Neutral D)
include h

theorem solvesN {T : ℝ} {y : ℝ → Y ns} (hy : D.NeuSolves T y) : D.SolvesN T y := by
  intro t ht i
  obtain ⟨dy, h1, h2, -⟩ := hy t ht ⟨fun _ => 0, fun _ => 0, fun _ _ => 0, fun _ => 0⟩ []
  rw [h.objective] at h1
  cases h1
  exact h2 i

theorem positive (hph : D.Physical) {T : ℝ} {y : ℝ → Y ns} (hy : D.NeuSolves T y) (h0 : ∀ i, 0 < (y 0).n i) :
    ∀ t ∈ Set.Icc 0 T, ∀ i, 0 < (y t).n i := by
  have hj : Cache ns nr := ⟨fun _ => 0, fun _ => 0, fun _ _ => 0, fun _ => 0⟩
  exact (h.stay_positive hph T y hj [] (fun t => ⟨(D.rhs t (y t)).n, 0⟩) (fun t => h.objective _ _ t (y t))
    (fun i t ht => h.solvesN hy t ht i) h0).1

theorem sinks (hph : D.Physical) {y : Y ns} (hn : ∀ i, 0 ≤ y.n i) (i : Fin ns) : D.pSinks y i ≤ 0 :=
  sinks_nonpos hph hn (fun i => by
    rw [h.diff]
    exact free_nonneg hph hn (h.weak y) i) i

/-- **C104.** The electron energy of the neutral model does not change. -/
theorem energy_constant {T : ℝ} {y : ℝ → Y ns} (hy : D.NeuSolves T y) : ∀ t ∈ Set.Icc 0 T, (y t).rho = (y 0).rho := by
  have hd : ∀ t ∈ Set.Icc 0 T, HasDerivWithinAt (fun s => (y s).rho) 0 (Set.Icc 0 T) t := by
    intro t ht
    obtain ⟨dy, h1, -, h2⟩ := hy t ht ⟨fun _ => 0, fun _ => 0, fun _ _ => 0, fun _ => 0⟩ []
    rw [h.objective] at h1
    cases h1
    exact h2
  intro t ht
  have a := bounded_growth hd (B := (y 0).rho) le_rfl le_rfl (fun _ _ _ => le_rfl) t ht
  have b := bounded_growth (fun t ht => (hd t ht).neg) (B := -(y 0).rho) le_rfl le_rfl (fun _ _ _ => by simp) t ht
  simp only [Pi.neg_apply] at b
  linarith

/-- **C104.** Solutions of the neutral model cannot blow up: if reactions conserve a quantity of which each species has at
least one unit and at most `W`, and the wall returns no more than it gets, densities stay positive and their sum grows at
most linearly. Nothing is assumed along the solution. -/
theorem no_blow_up (hph : D.Physical) {w : Fin ns → ℝ} (hw : D.Kept w) {W : ℝ} (h1 : ∀ i, 1 ≤ w i) (hW : ∀ i, w i ≤ W)
    {T : ℝ} {y : ℝ → Y ns} (hy : D.NeuSolves T y) (h0 : ∀ i, 0 < (y 0).n i) :
    ∀ t ∈ Set.Icc 0 T, (∀ i, 0 < (y t).n i) ∧ ∑ i, (y t).n i ≤
      max (∑ i, w i * (y 0).n i) (W * (D.p0 / (D.C.kB * D.tempG))) + (D.fed w + 1e10 * ∑ i, w i) * t := by
  have hpos := h.positive hph hy h0
  have hnn : ∀ t ∈ Set.Icc 0 T, ∀ i, 0 ≤ (y t).n i := fun t ht i => (hpos t ht i).le
  intro t ht
  have hg := growth hph hw hW (h.solvesN hy) hnn (fun t ht i => h.sinks hph (hnn t ht) i) t ht
  have hle : ∑ i, (y t).n i ≤ amount w (y t) :=
    sum_le_sum fun i _ => le_mul_of_one_le_left (hnn t ht i) (h1 i)
  exact ⟨hpos t ht, hle.trans hg⟩

/-- **C104.** In the neutral model too, what is not fed is washed out. -/
theorem washed_out (hph : D.Physical) {w : Fin ns → ℝ} (hw : D.Kept w) (hf : ∀ i, D.feed i ≠ 0 → w i = 0) {T : ℝ}
    {y : ℝ → Y ns} (hy : D.NeuSolves T y) (h1 : ∀ t ∈ Set.Icc 0 T, ∀ i, 1 ≤ (y t).n i)
    (hp : ∀ t ∈ Set.Icc 0 T, D.p0 ≤ D.getTotalPressure (y t) none) :
    AntitoneOn (fun t => ∑ i, w i * (y t).n i) (Set.Icc 0 T) :=
  washed (h.solvesN hy) hph hw hf
    (fun t ht i => h.sinks hph (fun i => zero_le_one.trans (h1 t ht i)) i) h1 hp

/-- **C103.** In the neutral model the pressure follows an exact law: the deviation of its reciprocal from that of the set
pressure decays exponentially within a millisecond, whatever reactions go on, if they keep the number of particles. -/
theorem pressure_law (hph : D.Physical) (hK : D.KeepsParticles) (hns : 0 < ns) {T : ℝ} {y : ℝ → Y ns} (hy : D.NeuSolves T y)
    (h1 : ∀ t ∈ Set.Icc 0 T, ∀ i, 1 ≤ (y t).n i) :
    ∀ t ∈ Set.Icc 0 T, 1 / D.getTotalPressure (y t) none - 1 / D.p0 =
      (1 / D.getTotalPressure (y 0) none - 1 / D.p0) * Real.exp (-t / 1e-3) := by
  have hneu : ∃ i, D.charge i = 0 := ⟨⟨0, hns⟩, h.charge _⟩
  have hpos : ∀ t ∈ Set.Icc 0 T, ∀ i, 0 < (y t).n i := fun t ht i => zero_lt_one.trans_le (h1 t ht i)
  have hp0 := hph.p0
  have hall : univ.filter D.neu = univ := filter_true_of_mem fun i _ => h.neu i
  have hnp : ∀ t, D.neutralPressure (y t) = D.getTotalPressure (y t) none := fun t => by
    show D.C.kB * D.tempG * ∑ i ∈ univ.filter D.neu, (y t).n i = D.C.kB * D.tempG * ∑ i, (y t).n i
    rw [hall]
  set P : ℝ → ℝ := fun t => D.getTotalPressure (y t) none with hP
  have hPpos : ∀ t ∈ Set.Icc 0 T, 0 < P t := fun t ht => by
    have := (neuSum_pos hph hpos hneu t ht).2
    rwa [hnp] at this
  let Q : ℝ → ℝ := fun t => ((P t)⁻¹ - D.p0⁻¹) * Real.exp (1000 * t)
  have hQ : ∀ t ∈ Set.Icc 0 T, HasDerivWithinAt Q 0 (Set.Icc 0 T) t := by
    intro t ht
    have hd := pressure_deriv (h.solvesN hy) t ht
    obtain ⟨p1, p2⟩ := neuSum_pos hph hpos hneu t ht
    rw [pressure_rate hK t p1.ne', minN_zero (h1 t ht), hnp] at hd
    have hp := hPpos t ht
    have d1 := (hd.inv hp.ne').sub_const D.p0⁻¹
    have d2 : HasDerivAt (fun s : ℝ => Real.exp (1000 * s)) (Real.exp (1000 * t) * 1000) t := by
      have := ((hasDerivAt_id t).const_mul (1000 : ℝ)).exp
      simpa using this
    have d3 := d1.mul d2.hasDerivWithinAt
    refine d3.congr_deriv ?_
    show _ / P t ^ 2 * _ + ((P t)⁻¹ - D.p0⁻¹) * _ = 0
    change -(-(P t * (P t - D.p0) / (1e-3 * D.p0)) + D.C.kB * D.tempG * 0) / P t ^ 2 * Real.exp (1000 * t) + _ = 0
    field_simp
    ring
  intro t ht
  have a := bounded_growth hQ (B := Q 0) le_rfl le_rfl (fun _ _ _ => le_rfl) t ht
  have b := bounded_growth (fun t ht => (hQ t ht).neg) (B := -Q 0) le_rfl le_rfl (fun _ _ _ => by simp) t ht
  simp only [Pi.neg_apply] at b
  have e : Q t = Q 0 := by linarith
  have e0 : Q 0 = (P 0)⁻¹ - D.p0⁻¹ := by simp [Q]
  rw [e0] at e
  show 1 / P t - 1 / D.p0 = (1 / P 0 - 1 / D.p0) * _
  simp only [one_div]
  rw [← e]
  show _ = ((P t)⁻¹ - D.p0⁻¹) * Real.exp (1000 * t) * _
  rw [mul_assoc, ← Real.exp_add]
  have : 1000 * t + -t / 1e-3 = 0 := by ring
  rw [this, Real.exp_zero, mul_one]

end Neutral
end Data

/-! ### the equations of a neutral chemistry -/

namespace NeutralReads
variable {net : Net} {st : State} {F : Str → Option (Dict Str Nat)}
  {D : Data (net.getSpecies st false false true).length (net.getReactions st false).length}

theorem atoms_kept (h : NeutralReads D) (hr : Reachable net st)
    (hb : ∀ r ∈ net.reactions, Balanced F r.reactants r.products) {E : Finset Str} (hE : str!"M" ∉ E)
    (hwall : ∀ el ∈ E, ∀ k, D.stick k ≠ 0 → ∑ i, D.ret i k * ((spAt net st i).atomCount F el : ℝ) ≤
      ((spAt net st k).atomCount F el : ℝ)) : D.Kept (Reads.atomsIn (net := net) (st := st) F E) where
  nonneg i := sum_nonneg fun el _ => Nat.cast_nonneg _
  reactions j := by
    obtain ⟨N, hN, hrows⟩ := stoichiomatrix_elements hr hb
    obtain ⟨N', hN', hn⟩ := h.netC
    rw [hN] at hN'; cases hN'
    unfold Reads.atomsIn
    simp only [mul_sum]
    rw [sum_comm]
    refine sum_eq_zero fun el hel => ?_
    have rows : ∑ i, D.net j i * ((spAt net st i).atomCount F el : Int) = 0 := by
      obtain ⟨row, h1, h2⟩ := hrows (reAt net st j) (List.getElem_mem _)
      rw [← h2 el fun e => hE (e ▸ hel), ← sum_fin_list]
      exact sum_congr rfl fun i _ => by rw [hn]; unfold cell; rw [h1]
    have := congrArg (Int.cast : Int → ℝ) rows
    push_cast at this
    exact this
  wall k hk := by
    unfold Reads.atomsIn
    simp only [mul_sum]
    rw [sum_comm]
    exact sum_le_sum fun el hel => hwall el hel k hk

/-- **C104.** For every accepted neutral chemistry whose reactions balance. -/
theorem no_blow_up (h : NeutralReads D) {st0 : State} (hq : net.requiresCharge = false)
    (hi : neutralInit net = .ok st0) (hr : Reachable net st)
    (hb : ∀ r ∈ net.reactions, Balanced F r.reactants r.products) {E : Finset Str} (hE : str!"M" ∉ E)
    (h1 : ∀ i, ∃ el ∈ E, 0 < (spAt net st i).atomCount F el)
    (hwall : ∀ el ∈ E, ∀ k, D.stick k ≠ 0 → ∑ i, D.ret i k * ((spAt net st i).atomCount F el : ℝ) ≤
      ((spAt net st k).atomCount F el : ℝ)) (hph : D.Physical) {W : ℝ}
    (hW : ∀ i, Reads.atomsIn (net := net) (st := st) F E i ≤ W)
    {T : ℝ} {y : ℝ → Y _} (hy : D.NeuSolves T y) (h0 : ∀ i, 0 < (y 0).n i) :
    ∀ t ∈ Set.Icc 0 T, (∀ i, 0 < (y t).n i) ∧ ∑ i, (y t).n i ≤
      max (∑ i, Reads.atomsIn F E i * (y 0).n i) (W * (D.p0 / (D.C.kB * D.tempG))) +
        (D.fed (Reads.atomsIn F E) + 1e10 * ∑ i, Reads.atomsIn (net := net) (st := st) F E i) * t :=
  (h.neutral hq hi).no_blow_up hph (atoms_kept h hr hb hE hwall) (fun i => by
    obtain ⟨el, hel, hpos⟩ := h1 i
    have h1 : (1 : ℝ) ≤ ((spAt net st i).atomCount F el : ℝ) := by exact_mod_cast hpos
    refine h1.trans ?_
    unfold Reads.atomsIn
    exact single_le_sum (f := fun el => ((spAt net st i).atomCount F el : ℝ)) (fun _ _ => Nat.cast_nonneg _) hel) hW hy h0

end NeutralReads

/-! ### two gases that start at twice the set pressure -/

namespace NeutralTimeDemo
open DemoN (quiet quiet_neutral quiet_physical)

noncomputable def s (t : ℝ) : ℝ := (1 - 1 / 2 * Real.exp (-1000 * t))⁻¹
noncomputable def sol (t : ℝ) : Y 2 := ⟨![5 * s t, 2 * s t], 3⟩

theorem u_bounds {t : ℝ} (ht : 0 ≤ t) : 1 / 2 ≤ 1 - 1 / 2 * Real.exp (-1000 * t) ∧ 1 - 1 / 2 * Real.exp (-1000 * t) < 1 := by
  have h1 : Real.exp (-1000 * t) ≤ 1 := Real.exp_le_one_iff.2 (by linarith)
  have h2 := Real.exp_pos (-1000 * t)
  constructor <;> linarith

theorem s_ge {t : ℝ} (ht : 0 ≤ t) : 1 ≤ s t := by
  obtain ⟨h1, h2⟩ := u_bounds ht
  exact (one_le_inv₀ (by linarith)).2 h2.le

theorem s_deriv {t : ℝ} (ht : 0 ≤ t) : HasDerivAt s (-1000 * (s t * (s t - 1))) t := by
  obtain ⟨h1, h2⟩ := u_bounds ht
  have d1 : HasDerivAt (fun x : ℝ => -1000 * x) (-1000) t := by simpa using (hasDerivAt_id t).const_mul (-1000 : ℝ)
  have h0 : 1 - 1 / 2 * Real.exp (-1000 * t) ≠ 0 := by linarith
  have d2 := ((d1.exp.const_mul (1 / 2)).const_sub 1).inv h0
  refine d2.congr_deriv ?_
  unfold s
  set u := 1 - 1 / 2 * Real.exp (-1000 * t) with hu
  have he : Real.exp (-1000 * t) = 2 * (1 - u) := by rw [hu]; ring
  rw [he]
  field_simp

theorem pressure (t : ℝ) : quiet.getTotalPressure (sol t) none = 7 * s t := by
  show quiet.C.kB * quiet.tempG * ∑ i, (sol t).n i = _
  simp [sol, quiet, Demo.quiet, Demo.consts, Fin.sum_univ_two]
  ring

theorem rhs {t : ℝ} (ht : 0 ≤ t) (i : Fin 2) : (quiet.rhs t (sol t)).n i = -1000 * (s t - 1) * (sol t).n i := by
  have hs : ∀ i, quiet.pSinks (sol t) i = 0 := fun i => quiet.sinks_zero_of_stick rfl
  have hsrc : quiet.pSrc (sol t) i = 0 := by
    have : quiet.pSrc (sol t) i = quiet.pSinks (sol t) i + ∑ k, -quiet.pSinks (sol t) k * quiet.ret i k := rfl
    rw [this]; simp [hs]
  have hvol : quiet.pVol (sol t) i = 0 := rfl
  have hp : quiet.pP (sol t) = 7 * s t := pressure t
  have hp0 : quiet.p0 = 7 := by simp [quiet, Demo.quiet]
  have hflow : quiet.pFlow (sol t) i = -1000 * (s t - 1) * (sol t).n i := by
    have : quiet.pFlow (sol t) i = quiet.fFlow (sol t).n (quiet.pP (sol t)) i := rfl
    rw [this, hp]
    unfold Data.fFlow
    have : ∀ k, quiet.feed k = 0 := fun _ => rfl
    simp only [this, hp0]
    rw [if_pos (quiet_neutral.neu i)]
    simp
    ring
  have hn : ∀ i, 1 ≤ (sol t).n i := fun i => by
    have := s_ge ht
    fin_cases i <;> simp [sol] <;> linarith
  have hmin : Data.fMinN (sol t).n i = 0 := if_neg (not_lt.2 (hn i))
  have : (quiet.rhs t (sol t)).n i = quiet.pVol (sol t) i + quiet.pFlow (sol t) i
    + quiet.pSrc (sol t) i + Data.fMinN (sol t).n i := rfl
  rw [this, hvol, hflow, hsrc, hmin]
  ring

theorem solves (T : ℝ) : quiet.NeuSolves T sol := by
  intro t ht junk calls
  refine ⟨_, quiet_neutral.objective junk calls t (sol t), fun i => ?_, ?_⟩
  · show HasDerivWithinAt _ ((quiet.rhs t (sol t)).n i) _ _
    rw [rhs ht.1]
    have d := s_deriv ht.1
    fin_cases i
    · refine ((d.const_mul 5).hasDerivWithinAt).congr_deriv ?_
      simp [sol]; ring
    · refine ((d.const_mul 2).hasDerivWithinAt).congr_deriv ?_
      simp [sol]; ring
  · exact hasDerivWithinAt_const _ _ _

theorem keeps : quiet.KeepsParticles := ⟨fun j => j.elim0, fun k hk => absurd rfl hk⟩

theorem ge_one {t : ℝ} (ht : 0 ≤ t) (i : Fin 2) : 1 ≤ (sol t).n i := by
  have := s_ge ht
  fin_cases i <;> simp [sol] <;> linarith

/-- the hypotheses of `pressure_law` are met by a solution whose pressure falls -/
example : ∀ t ∈ Set.Icc (0 : ℝ) 5, 1 / quiet.getTotalPressure (sol t) none - 1 / quiet.p0 =
    (1 / quiet.getTotalPressure (sol 0) none - 1 / quiet.p0) * Real.exp (-t / 1e-3) :=
  quiet_neutral.pressure_law quiet_physical keeps (by norm_num) (solves 5) fun _ ht => ge_one ht.1

theorem kept : quiet.Kept fun _ => 1 := ⟨fun _ => zero_le_one, fun j => j.elim0, fun k hk => absurd rfl hk⟩

/-- and those of `no_blow_up` and `washed_out` -/
example : (∀ t ∈ Set.Icc (0 : ℝ) 5, (∀ i, 0 < (sol t).n i) ∧ ∑ i, (sol t).n i ≤
      max (∑ i, 1 * (sol 0).n i) (1 * (quiet.p0 / (quiet.C.kB * quiet.tempG))) +
        (quiet.fed (fun _ => 1) + 1e10 * ∑ _ : Fin 2, 1) * t) ∧
    AntitoneOn (fun t => ∑ i, 1 * (sol t).n i) (Set.Icc 0 5) :=
  ⟨quiet_neutral.no_blow_up quiet_physical kept (fun _ => le_rfl) (fun _ => le_rfl) (solves 5)
    fun i => zero_lt_one.trans_le (ge_one le_rfl i),
   quiet_neutral.washed_out quiet_physical kept (fun i hi => absurd rfl hi) (solves 5) (fun _ ht => ge_one ht.1) fun t ht => by
    rw [pressure]
    have := s_ge ht.1
    simp [quiet, Demo.quiet]
    linarith⟩

/-- the hypotheses of `pressure_no_overshoot` are met -/
example : ∀ t ∈ Set.Icc (0 : ℝ) 7, TimeDemo.swap.p0 ≤ TimeDemo.swap.getTotalPressure (TimeDemo.sol t) none :=
  (Data.pressure_no_overshoot TimeDemo.physical
    ⟨fun j => by fin_cases j <;> simp [TimeDemo.swap, Fin.sum_univ_three], fun k hk => absurd rfl hk⟩ TimeDemo.solves
    (fun i => by fin_cases i <;> norm_num [TimeDemo.sol]) (fun t _ => TimeDemo.inside t) ⟨0, rfl⟩).1 (by
      show _ ≤ TimeDemo.swap.C.kB * TimeDemo.swap.tempG * ∑ i, (TimeDemo.sol 0).n i
      simp [TimeDemo.sol, TimeDemo.swap, Demo.consts, Fin.sum_univ_three]
      norm_num)

/-! argon that is excited and quenched, read from a chemistry -/

noncomputable def base : Data 2 2 where
  C := Demo.consts
  charge := fun _ => 0
  mass := fun _ => 40
  ljSigma := fun _ => 3
  stick := fun _ => 0
  arrhA := ![2, 1]
  arrhB := fun _ => 0
  arrhC := fun _ => 0
  enLoss := fun _ => 0
  elastic := fun _ => false
  eNet := fun _ => 0
  eLhs := fun _ => 0
  mLhs := fun _ => 0
  ret := fun _ _ => 0
  net := fun _ _ => 0
  lhs := fun _ _ => 0
  feed := fun _ => 0
  tempG := 1
  r := 1
  z := 1
  p0 := 7
  power := fun _ => 0

noncomputable def G : Data 2 2 := DemoN.data base

theorem G_net : G.net = ![![-1, 1], ![1, -1]] := by
  funext j i
  fin_cases j <;> fin_cases i <;> rfl

theorem G_lhs : G.lhs = ![![1, 0], ![1, 1]] := by
  funext j i
  fin_cases j <;> fin_cases i <;> rfl

theorem G_mLhs (j : Fin 2) : G.mLhs j = 0 := by fin_cases j <;> rfl

theorem G_neutral : Data.Neutral G := (DemoN.reads base).neutral rfl DemoN.accepted

theorem G_physical : G.Physical where
  tempG := one_pos
  r := one_pos
  z := one_pos
  p0 := by norm_num [G, DemoN.data, base]
  mass := fun i => by norm_num [G, DemoN.data, base]
  stick := fun i => le_rfl
  feed := fun i => le_rfl
  ret := fun i k => le_rfl
  arrhA := fun j => by
    show 0 ≤ base.arrhA j
    fin_cases j <;> norm_num [base]
  lhs := fun j i => by rw [G_lhs]; fin_cases j <;> fin_cases i <;> simp
  net := fun j i => by rw [G_lhs, G_net]; fin_cases j <;> fin_cases i <;> simp

noncomputable def still (_t : ℝ) : Y 2 := ⟨![5, 2], 0⟩

theorem G_rate (t : ℝ) (j : Fin 2) : G.pRates (still t) j = 10 := by
  have : G.pRates (still t) j = G.fRates (still t).n (G.pNe (still t)) (Data.pTot (still t)) (G.pK (still t)) j := rfl
  rw [this]
  have hk : G.pK (still t) j = ![2, 1] j := by
    unfold Data.pK
    rw [if_neg (G_neutral.not_elc j)]
    have : G.fRateHeavy j = base.fRateHeavy j := rfl
    rw [this]
    fin_cases j <;> simp [Data.fRateHeavy, base]
  unfold Data.fRates
  rw [G_neutral.eLhs j, G_mLhs, hk, Fin.prod_univ_two, G_lhs]
  fin_cases j <;> simp [still] <;> norm_num

theorem G_steady (t : ℝ) (i : Fin 2) : (G.rhs t (still t)).n i = 0 := by
  have hs : ∀ i, G.pSinks (still t) i = 0 := fun i => G.sinks_zero_of_stick rfl
  have hsrc : G.pSrc (still t) i = 0 := by
    have : G.pSrc (still t) i = G.pSinks (still t) i + ∑ k, -G.pSinks (still t) k * G.ret i k := rfl
    rw [this]; simp [hs]
  have hvol : G.pVol (still t) i = 0 := by
    have : G.pVol (still t) i = ∑ j, (G.net j i : ℝ) * G.pRates (still t) j := rfl
    rw [this]
    simp only [G_rate, G_net, Fin.sum_univ_two]
    fin_cases i <;> simp
  have hp : G.pP (still t) = G.p0 := by
    show (1 : ℝ) * 1 * ∑ i, (still t).n i = 7
    simp [still]
    norm_num
  have hflow : G.pFlow (still t) i = 0 := by
    have : G.pFlow (still t) i = G.fFlow (still t).n (G.pP (still t)) i := rfl
    rw [this, hp]
    unfold Data.fFlow
    have : ∀ k, G.feed k = 0 := fun _ => rfl
    simp [this]
  have hmin : Data.fMinN (still t).n i = 0 := by
    fin_cases i <;> simp [Data.fMinN, still]
  have : (G.rhs t (still t)).n i = G.pVol (still t) i + G.pFlow (still t) i
    + G.pSrc (still t) i + Data.fMinN (still t).n i := rfl
  rw [this, hvol, hflow, hsrc, hmin]
  simp

theorem G_solves (T : ℝ) : G.NeuSolves T still := fun t _ junk calls =>
  ⟨_, G_neutral.objective junk calls t (still t), fun i => by
    show HasDerivWithinAt _ ((G.rhs t (still t)).n i) _ _
    rw [G_steady]
    exact hasDerivWithinAt_const _ _ _, hasDerivWithinAt_const _ _ _⟩

/-- elements of the two species -/
def F (n : Str) : Option (Dict Str Nat) :=
  if n = str!"Ar" then some [(str!"Ar", 1)] else none

/-- the hypotheses of the theorem about chemistries are met -/
example : ∀ t ∈ Set.Icc (0 : ℝ) 9, (∀ i, 0 < (still t).n i) ∧ ∑ i, (still t).n i ≤
    max (∑ i, Reads.atomsIn (net := DemoN.net) (st := State.fresh) F {str!"Ar"} i * (still 0).n i)
      (1 * (G.p0 / (G.C.kB * G.tempG))) + (G.fed (Reads.atomsIn (net := DemoN.net) (st := State.fresh) F {str!"Ar"}) +
        1e10 * ∑ i, Reads.atomsIn (net := DemoN.net) (st := State.fresh) F {str!"Ar"} i) * t := by
  refine (DemoN.reads base).no_blow_up rfl DemoN.accepted DemoN.reach ?_ (by decide) (fun i => ⟨str!"Ar", by simp, ?_⟩)
    (fun el _ k hk => absurd rfl hk) G_physical (fun i => ?_) (G_solves 9) (fun i => ?_)
  · have hx : ∀ a, DemoN.ArX.atomCount F a = DemoN.Ar.atomCount F a := fun a => rfl
    intro r hr
    have : r = DemoN.r1 ∨ r = DemoN.r2 := by simpa [DemoN.net] using hr
    rcases this with rfl | rfl
    · exact ⟨rfl, fun a => by simp [DemoN.r1, hx, add_comm]⟩
    · exact ⟨rfl, fun a => by simp [DemoN.r2, hx]⟩
  · revert i; decide +kernel
  · have : ∀ i, (spAt DemoN.net State.fresh i).atomCount F str!"Ar" = 1 := by decide +kernel
    unfold Reads.atomsIn
    rw [sum_singleton, this]
    norm_num
  · have : ∀ i : Fin 2, 0 < (still 0).n i := fun i => by fin_cases i <;> norm_num [still]
    exact this i

end NeutralTimeDemo
end Verif.Pygmol
