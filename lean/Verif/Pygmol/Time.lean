/-
Property C97: exact solutions of the equations over time. What is conserved bounds the densities, so that they cannot blow up
in finite time; elements that are not fed are washed out; the electron energy is bounded by the energy supplied.
-/
import Verif.Pygmol.EqnsChem
import Verif.Pygmol.EqnsEnergy
import Verif.Pygmol.EqnsReg
import Mathlib.Analysis.Calculus.Deriv.MeanValue

namespace Verif.Pygmol
open Finset

/-! ### two facts of analysis -/

theorem antitone_of_nonpos {T : ℝ} {f g : ℝ → ℝ} (hd : ∀ t ∈ Set.Icc 0 T, HasDerivWithinAt f (g t) (Set.Icc 0 T) t)
    {a b : ℝ} (ha : 0 ≤ a) (hb : b ≤ T) (hg : ∀ t ∈ Set.Ioo a b, g t ≤ 0) : AntitoneOn f (Set.Icc a b) := by
  have hsub : Set.Icc a b ⊆ Set.Icc 0 T := Set.Icc_subset_Icc ha hb
  refine antitoneOn_of_hasDerivWithinAt_nonpos (convex_Icc a b) (f' := g)
    (fun t ht => (hd t (hsub ht)).continuousWithinAt.mono hsub) ?_ ?_
  · intro t ht
    rw [interior_Icc] at ht ⊢
    exact (hd t (hsub (Set.Ioo_subset_Icc_self ht))).mono (Set.Ioo_subset_Icc_self.trans hsub)
  · intro t ht
    rw [interior_Icc] at ht
    exact hg t ht

/-- A function that grows at most at the rate `c` wherever it is above `B` stays below `B + c t`. -/
theorem bounded_growth {T : ℝ} {f g : ℝ → ℝ} (hd : ∀ t ∈ Set.Icc 0 T, HasDerivWithinAt f (g t) (Set.Icc 0 T) t)
    {B c : ℝ} (hc : 0 ≤ c) (h0 : f 0 ≤ B) (hg : ∀ t ∈ Set.Icc 0 T, B < f t → g t ≤ c) :
    ∀ t ∈ Set.Icc 0 T, f t ≤ B + c * t := by
  intro t1 ht1
  by_contra hcon
  have hcon : B + c * t1 < f t1 := not_le.1 hcon
  let h : ℝ → ℝ := fun t => f t - c * t
  have hh : ∀ t ∈ Set.Icc 0 T, HasDerivWithinAt h (g t - c) (Set.Icc 0 T) t := by
    intro t ht
    have := (hasDerivAt_id t).const_mul c
    simp only [id, mul_one] at this
    exact (hd t ht).sub this.hasDerivWithinAt
  let S : Set ℝ := Set.Icc 0 t1 ∩ h ⁻¹' Set.Iic B
  have hsub1 : Set.Icc 0 t1 ⊆ Set.Icc 0 T := Set.Icc_subset_Icc_right ht1.2
  have hcont : ContinuousOn h (Set.Icc 0 t1) := fun t ht => (hh t (hsub1 ht)).continuousWithinAt.mono hsub1
  have hclosed : IsClosed S := hcont.preimage_isClosed_of_isClosed isClosed_Icc isClosed_Iic
  have hne : S.Nonempty := ⟨0, ⟨le_rfl, ht1.1⟩, by simpa [h] using h0⟩
  have hbdd : BddAbove S := ⟨t1, fun t ht => ht.1.2⟩
  obtain ⟨hI, hB⟩ := hclosed.csSup_mem hne hbdd
  set t0 := sSup S
  have hanti : AntitoneOn h (Set.Icc t0 t1) := by
    refine antitone_of_nonpos hh hI.1 ht1.2 fun t ht => ?_
    have ht' : t ∈ Set.Icc 0 t1 := ⟨hI.1.trans ht.1.le, ht.2.le⟩
    have hnot : B < h t := by
      by_contra hc'
      exact absurd (le_csSup hbdd (show t ∈ S from ⟨ht', not_lt.1 hc'⟩)) (not_le.2 ht.1)
    have : B < f t := by
      have h1 : h t = f t - c * t := rfl
      have h2 : 0 ≤ c * t := mul_nonneg hc ht'.1
      linarith
    linarith [hg t (hsub1 ht') this]
  have := hanti (Set.left_mem_Icc.2 hI.2) (Set.right_mem_Icc.2 hI.2) hI.2
  have hB' : h t0 ≤ B := hB
  have h1 : h t1 = f t1 - c * t1 := rfl
  linarith

namespace Data
variable {ns nr : ℕ} (D : Data ns nr)

/-! ### Specification -/

/-- A solution of the equations on `[0, T]`. -/
def Solves (T : ℝ) (y : ℝ → Y ns) : Prop := ∀ t ∈ Set.Icc 0 T,
  (∀ i, HasDerivWithinAt (fun s => (y s).n i) ((D.rhs t (y t)).n i) (Set.Icc 0 T) t) ∧
  HasDerivWithinAt (fun s => (y s).rho) (D.rhs t (y t)).rho (Set.Icc 0 T) t

/-- The densities solve their equations on `[0, T]`. -/
def SolvesN (T : ℝ) (y : ℝ → Y ns) : Prop := ∀ t ∈ Set.Icc 0 T, ∀ i,
  HasDerivWithinAt (fun s => (y s).n i) ((D.rhs t (y t)).n i) (Set.Icc 0 T) t

/-- The states in which the equations are defined. -/
def Inside (y : Y ns) : Prop := 0 < D.getElectronDensity y none ∧ D.WeakCoupling y ∧ D.Regular y

/-- A quantity that reactions conserve and of which the wall returns no more than it gets. -/
structure Kept (w : Fin ns → ℝ) : Prop where
  nonneg : ∀ i, 0 ≤ w i
  reactions : ∀ j, ∑ i, (D.net j i : ℝ) * w i = 0
  wall : ∀ k, D.stick k ≠ 0 → ∑ i, D.ret i k * w i ≤ w k

/-- the amount of the quantity per volume -/
def amount (w : Fin ns → ℝ) (y : Y ns) : ℝ := ∑ i, w i * y.n i

/-- what the feed brings of the quantity per volume and second -/
noncomputable def fed (w : Fin ns → ℝ) : ℝ := ∑ i, w i * (D.feed i * 4.485e17 / D.volume)

/-! ### proofs -/

variable {D}

/-- the change of the amount -/
theorem amount_rate {w : Fin ns → ℝ} (hw : D.Kept w) (t : ℝ) {y : Y ns} (hs : ∀ i, D.pSinks y i ≤ 0) :
    ∑ i, w i * (D.rhs t y).n i ≤ ∑ i, w i * D.pFlow y i + ∑ i, w i * fMinN y.n i := by
  have h3 : ∀ i, (D.rhs t y).n i = D.pVol y i + D.pFlow y i + D.pSrc y i + fMinN y.n i := fun _ => rfl
  have h1 : ∑ i, w i * D.pVol y i = 0 := by
    have : ∑ i, w i * D.pVol y i = ∑ j, (∑ i, (D.net j i : ℝ) * w i) * D.pRates y j := D.vol_weighted w _
    rw [this]
    exact sum_eq_zero fun j _ => by rw [hw.reactions, zero_mul]
  have h2 : ∑ i, w i * D.pSrc y i ≤ 0 := by
    have hb := D.wall_balance w y ⟨fun _ => 0, fun _ => 0, fun _ _ => 0, fun _ => 0⟩ []
    simp only at hb
    rw [(D.gives_src y _ (D.valid_history _ [])).1, (D.gives_sinks y _ (D.valid_history _ [])).1] at hb
    rw [hb]
    refine sum_nonpos fun k _ => ?_
    by_cases hk : D.stick k = 0
    · rw [D.sinks_zero_of_stick hk, mul_zero]
    · exact mul_nonpos_of_nonneg_of_nonpos (sub_nonneg.2 (hw.wall k hk)) (hs k)
  simp only [h3, mul_add, sum_add_distrib, h1]
  linarith

theorem minN_le (w : Fin ns → ℝ) (hw : ∀ i, 0 ≤ w i) {y : Y ns} (hn : ∀ i, 0 ≤ y.n i) :
    ∑ i, w i * fMinN y.n i ≤ 1e10 * ∑ i, w i := by
  rw [mul_sum]
  refine sum_le_sum fun i _ => ?_
  rw [mul_comm (1e10 : ℝ)]
  refine mul_le_mul_of_nonneg_left ?_ (hw i)
  unfold fMinN
  split
  · rw [div_le_iff₀ (by norm_num)]
    have := hn i
    norm_num
    linarith
  · norm_num

theorem flow_le (hph : D.Physical) {w : Fin ns → ℝ} (hw : ∀ i, 0 ≤ w i) {y : Y ns} (hn : ∀ i, 0 ≤ y.n i)
    (hp : D.p0 ≤ D.pP y) : ∑ i, w i * D.pFlow y i ≤ D.fed w := by
  unfold fed
  refine sum_le_sum fun i _ => mul_le_mul_of_nonneg_left ?_ (hw i)
  have hV : 0 < D.volume := volume_pos hph
  have hp0 := hph.p0
  have h1 : 0 ≤ D.pP y - D.p0 := sub_nonneg.2 hp
  have hF : 0 ≤ ∑ k, D.feed k * 4.485e17 / D.volume := sum_nonneg fun k _ => by
    have := hph.feed k; positivity
  have hN : 0 ≤ ∑ k ∈ univ.filter D.neu, y.n k := sum_nonneg fun k _ => hn k
  have hi := hn i
  change D.fFlow y.n (D.pP y) i ≤ _
  unfold fFlow
  have a1 : (if D.neu i then -(y.n i * (1 / 1e-3) * (D.pP y - D.p0) / D.p0) else 0) ≤ 0 := by
    split
    · rw [neg_nonpos]; positivity
    · exact le_rfl
  have a2 : 0 ≤ (if D.neu i then (∑ k, D.feed k * 4.485e17 / D.volume) * y.n i / (∑ k ∈ univ.filter D.neu, y.n k)
      else 0) := by
    split
    · positivity
    · exact le_rfl
  linarith

theorem amount_deriv {T : ℝ} {y : ℝ → Y ns} (hy : D.SolvesN T y) (w : Fin ns → ℝ) (t : ℝ) (ht : t ∈ Set.Icc 0 T) :
    HasDerivWithinAt (fun s => amount w (y s)) (∑ i, w i * (D.rhs t (y t)).n i) (Set.Icc 0 T) t := by
  unfold amount
  exact HasDerivWithinAt.fun_sum fun i _ => (hy t ht i).const_mul (w i)

theorem amount_fed (w : Fin ns → ℝ) (hph : D.Physical) (hw : ∀ i, 0 ≤ w i) : 0 ≤ D.fed w := by
  have := volume_pos hph
  exact sum_nonneg fun i _ => mul_nonneg (hw i) (by have := hph.feed i; positivity)

/-- Growth of the amount of a quantity, if the wall only takes. -/
theorem growth (hph : D.Physical) {w : Fin ns → ℝ} (hw : D.Kept w) {W : ℝ} (hW : ∀ i, w i ≤ W) {T : ℝ} {y : ℝ → Y ns}
    (hy : D.SolvesN T y) (hn : ∀ t ∈ Set.Icc 0 T, ∀ i, 0 ≤ (y t).n i)
    (hs : ∀ t ∈ Set.Icc 0 T, ∀ i, D.pSinks (y t) i ≤ 0) :
    ∀ t ∈ Set.Icc 0 T, amount w (y t) ≤
      max (amount w (y 0)) (W * (D.p0 / (D.C.kB * D.tempG))) + (D.fed w + 1e10 * ∑ i, w i) * t := by
  have hw0 := hw.nonneg
  refine bounded_growth (amount_deriv hy w) ?_ (le_max_left _ _) fun t ht hB => ?_
  · have := amount_fed w hph hw0
    have : 0 ≤ ∑ i, w i := sum_nonneg fun i _ => hw0 i
    positivity
  · have hlt : W * (D.p0 / (D.C.kB * D.tempG)) < amount w (y t) := lt_of_le_of_lt (le_max_right _ _) hB
    have hle : amount w (y t) ≤ W * ∑ i, (y t).n i := by
      unfold amount
      rw [mul_sum]
      exact sum_le_sum fun i _ => mul_le_mul_of_nonneg_right (hW i) (hn t ht i)
    have hk := D.C.kB_pos
    have htg := hph.tempG
    have hp : D.p0 ≤ D.pP (y t) := by
      have e : D.pP (y t) = D.C.kB * D.tempG * ∑ i, (y t).n i := rfl
      have hWp : 0 ≤ W := by
        by_contra hneg
        have hneg : W < 0 := not_le.1 hneg
        have h1 : amount w (y t) ≤ 0 :=
          hle.trans (mul_nonpos_of_nonpos_of_nonneg hneg.le (sum_nonneg fun i _ => hn t ht i))
        have h2 : amount w (y t) = 0 :=
          le_antisymm h1 (sum_nonneg fun i _ => mul_nonneg (hw0 i) (hn t ht i))
        -- there is no species then
        have h3 : ∀ i : Fin ns, False := fun i => absurd ((hw0 i).trans (hW i)) hneg.not_ge
        have h4 : amount w (y 0) = 0 := sum_eq_zero fun i _ => (h3 i).elim
        exact absurd ((le_max_left _ _).trans_lt hB) (by rw [h2, h4]; exact lt_irrefl 0)
      have h3 : W * (D.p0 / (D.C.kB * D.tempG)) < W * ∑ i, (y t).n i := hlt.trans_le hle
      have h4 : D.p0 / (D.C.kB * D.tempG) < ∑ i, (y t).n i := lt_of_mul_lt_mul_left h3 hWp
      rw [div_lt_iff₀ (by positivity)] at h4
      rw [e]; linarith
    have := amount_rate hw t (hs t ht)
    have := flow_le hph hw0 (hn t ht) hp
    have := minN_le w hw0 (hn t ht)
    linarith

/-- **C97.** Densities cannot blow up: if reactions conserve a quantity of which each species has at least one unit and at most
`W` (the atoms), and the wall returns no more of it than it gets, then the total density grows at most linearly in time. -/
theorem total_density_bounded (hph : D.Physical) {w : Fin ns → ℝ} (hw : D.Kept w) {W : ℝ} (h1 : ∀ i, 1 ≤ w i)
    (hW : ∀ i, w i ≤ W) {T : ℝ} {y : ℝ → Y ns} (hy : D.Solves T y) (h0 : ∀ i, 0 < (y 0).n i)
    (hin : ∀ t ∈ Set.Icc 0 T, D.Inside (y t)) :
    ∀ t ∈ Set.Icc 0 T, (∀ i, 0 < (y t).n i) ∧ ∑ i, (y t).n i ≤
      max (amount w (y 0)) (W * (D.p0 / (D.C.kB * D.tempG))) + (D.fed w + 1e10 * ∑ i, w i) * t := by
  have hpos := D.densities_stay_positive hph T y (fun i t ht => (hy t ht).1 i) h0 hin
  have hnn : ∀ t ∈ Set.Icc 0 T, ∀ i, 0 ≤ (y t).n i := fun t ht i => (hpos t ht i).le
  intro t ht
  have hg := growth hph hw hW (fun t ht => (hy t ht).1) hnn (fun t ht i => sinks_nonpos hph (hnn t ht)
    (diff_nonneg hph (hnn t ht) (hin t ht).1 (hin t ht).2.1) i) t ht
  have hle : ∑ i, (y t).n i ≤ amount w (y t) :=
    sum_le_sum fun i _ => le_mul_of_one_le_left (hnn t ht i) (h1 i)
  exact ⟨hpos t ht, hle.trans hg⟩

/-- what is not fed is washed out, if the wall only takes -/
theorem washed {T : ℝ} {y : ℝ → Y ns} (hy : D.SolvesN T y) (hph : D.Physical) {w : Fin ns → ℝ} (hw : D.Kept w)
    (hf : ∀ i, D.feed i ≠ 0 → w i = 0) (hs : ∀ t ∈ Set.Icc 0 T, ∀ i, D.pSinks (y t) i ≤ 0)
    (h1 : ∀ t ∈ Set.Icc 0 T, ∀ i, 1 ≤ (y t).n i) (hp : ∀ t ∈ Set.Icc 0 T, D.p0 ≤ D.getTotalPressure (y t) none) :
    AntitoneOn (fun t => amount w (y t)) (Set.Icc 0 T) := by
  have hnn : ∀ t ∈ Set.Icc 0 T, ∀ i, 0 ≤ (y t).n i := fun t ht i => zero_le_one.trans (h1 t ht i)
  refine antitone_of_nonpos (amount_deriv hy w) le_rfl le_rfl fun t ht => ?_
  have ht := Set.Ioo_subset_Icc_self ht
  have r := amount_rate hw t (hs t ht)
  have hfed : D.fed w = 0 := sum_eq_zero fun i _ => by
    by_cases h : D.feed i = 0
    · rw [h]; simp
    · rw [hf i h, zero_mul]
  have hfl := flow_le hph hw.nonneg (hnn t ht) (hp t ht)
  have hm : ∑ i, w i * fMinN (y t).n i = 0 := sum_eq_zero fun i _ => by
    rw [show fMinN (y t).n i = 0 from if_neg (not_lt.2 (h1 t ht i)), mul_zero]
  linarith

/-- **C97.** What is not fed is washed out: as long as the pressure is not below the set pressure and the artificial
correction does not act, the amount of a conserved quantity that no fed species carries does not grow. -/
theorem washed_out (hph : D.Physical) {w : Fin ns → ℝ} (hw : D.Kept w) (hf : ∀ i, D.feed i ≠ 0 → w i = 0) {T : ℝ}
    {y : ℝ → Y ns} (hy : D.Solves T y) (hin : ∀ t ∈ Set.Icc 0 T, D.Inside (y t)) (h1 : ∀ t ∈ Set.Icc 0 T, ∀ i, 1 ≤ (y t).n i)
    (hp : ∀ t ∈ Set.Icc 0 T, D.p0 ≤ D.getTotalPressure (y t) none) :
    AntitoneOn (fun t => amount w (y t)) (Set.Icc 0 T) := by
  have hnn : ∀ t ∈ Set.Icc 0 T, ∀ i, 0 ≤ (y t).n i := fun t ht i => zero_le_one.trans (h1 t ht i)
  exact washed (fun t ht => (hy t ht).1) hph hw hf (fun t ht i => sinks_nonpos hph (hnn t ht)
    (diff_nonneg hph (hnn t ht) (hin t ht).1 (hin t ht).2.1) i) h1 hp

/-- **C97.** The electron energy is bounded by the energy supplied, if no reaction consumes more electrons than it
produces and inelastic losses are not negative. -/
theorem energy_bounded (hph : D.Physical) (hr : D.NeutralReturn)
    (hm : ∀ i, 0 < D.charge i → 2 * Real.pi * D.C.mE ≤ D.mass i) (hpos : ∃ i, 0 < D.charge i)
    (hloss : ∀ j, 0 ≤ D.enLoss j) (he : ∀ j, 0 ≤ D.eNet j) {P : ℝ} (hP0 : 0 ≤ P) (hP : ∀ t, D.power t ≤ P) {T : ℝ} {y : ℝ → Y ns}
    (hy : D.Solves T y) (h0 : ∀ i, 0 < (y 0).n i) (hin : ∀ t ∈ Set.Icc 0 T, D.Inside (y t)) :
    ∀ t ∈ Set.Icc 0 T, (y t).rho ≤ max (y 0).rho 1 + P / D.volume / D.C.e * t := by
  have hpn := D.densities_stay_positive hph T y (fun i t ht => (hy t ht).1 i) h0 hin
  have hnn : ∀ t ∈ Set.Icc 0 T, ∀ i, 0 ≤ (y t).n i := fun t ht i => (hpn t ht i).le
  have hV := volume_pos hph
  have hE := D.C.e_pos
  refine bounded_growth (fun t ht => (hy t ht).2) (by positivity) (le_max_left _ _) fun t ht hB => ?_
  have hrho : 1 ≤ (y t).rho := ((le_max_right _ _).trans_lt hB).le
  have hb := D.energy_budget hph (hnn t ht) (hin t ht).1 (hin t ht).2.1 hr hm hpos hloss hrho t
    ⟨fun _ => 0, fun _ => 0, fun _ _ => 0, fun _ => 0⟩ []
  simp only at hb
  rw [D.objective_history_independent, (D.gives_rates _ _ (D.valid_history _ [])).1] at hb
  have hte : 0 < D.getElectronTemperature (y t) none none := te_pos hph
  have hsum : 0 ≤ ∑ j, (D.eNet j : ℝ) * D.pRates (y t) j :=
    sum_nonneg fun j _ => mul_nonneg (Int.cast_nonneg (he j)) (rates_nonneg hph (hnn t ht) (hin t ht).1 j)
  have hpow : D.power t / D.volume / D.C.e ≤ P / D.volume / D.C.e := by
    have := hP t
    gcongr
  have : 0 ≤ 3 / 2 * D.getElectronTemperature (y t) none none * ∑ j, (D.eNet j : ℝ) * D.pRates (y t) j := by positivity
  linarith

end Data

/-! ### the equations of a chemistry -/

namespace Reads
open Verif.Plaschem
variable {net : Net} {st : State} {F : Str → Option (Dict Str Nat)}
  {D : Data (net.getSpecies st false false true).length (net.getReactions st false).length}

/-- number of atoms of the elements `E` in species `i` -/
def atomsIn (F : Str → Option (Dict Str Nat)) (E : Finset Str) (i : Fin (net.getSpecies st false false true).length) : ℝ :=
  ∑ el ∈ E, ((spAt net st i).atomCount F el : ℝ)

/-- atoms are conserved -/
theorem atoms_kept (h : Reads D) (hr : Reachable net st) (hFM : ∀ n d, F n = some d → d.get? str!"M" = none)
    (hb : ∀ r ∈ net.reactions, Balanced F r.reactants r.products) (hq : net.requiresCharge = true)
    (he : ∀ s ∈ net.species, s.name = str!"e" → s.chargeOf = -1) {E : Finset Str} (hE : str!"M" ∉ E)
    (hwall : ∀ el ∈ E, ∀ k, D.stick k ≠ 0 → ∑ i, D.ret i k * ((spAt net st i).atomCount F el : ℝ) ≤
      ((spAt net st k).atomCount F el : ℝ)) : D.Kept (atomsIn (net := net) (st := st) F E) where
  nonneg i := sum_nonneg fun el _ => Nat.cast_nonneg _
  reactions j := by
    unfold atomsIn
    simp only [mul_sum]
    rw [sum_comm]
    refine sum_eq_zero fun el hel => ?_
    have := (rows h hr hFM hb hq he j).2 el fun e => hE (e ▸ hel)
    have := congrArg (Int.cast : Int → ℝ) this
    push_cast at this
    exact this
  wall k hk := by
    unfold atomsIn
    simp only [mul_sum]
    rw [sum_comm]
    exact sum_le_sum fun el hel => hwall el hel k hk

/-- **C97.** For a chemistry whose reactions balance: densities stay positive and their sum grows at most linearly in time, with
a rate that the feed and the artificial correction determine, whatever the rate coefficients are. `E` are elements such
that each species has an atom of them. -/
theorem no_blow_up (h : Reads D) (hr : Reachable net st) (hFM : ∀ n d, F n = some d → d.get? str!"M" = none)
    (hb : ∀ r ∈ net.reactions, Balanced F r.reactants r.products) (hq : net.requiresCharge = true)
    (he : ∀ s ∈ net.species, s.name = str!"e" → s.chargeOf = -1) {E : Finset Str} (hE : str!"M" ∉ E)
    (h1 : ∀ i, ∃ el ∈ E, 0 < (spAt net st i).atomCount F el)
    (hwall : ∀ el ∈ E, ∀ k, D.stick k ≠ 0 → ∑ i, D.ret i k * ((spAt net st i).atomCount F el : ℝ) ≤
      ((spAt net st k).atomCount F el : ℝ)) (hph : D.Physical) {W : ℝ} (hW : ∀ i, atomsIn (net := net) (st := st) F E i ≤ W)
    {T : ℝ} {y : ℝ → Y _} (hy : D.Solves T y) (h0 : ∀ i, 0 < (y 0).n i) (hin : ∀ t ∈ Set.Icc 0 T, D.Inside (y t)) :
    ∀ t ∈ Set.Icc 0 T, (∀ i, 0 < (y t).n i) ∧ ∑ i, (y t).n i ≤
      max (∑ i, atomsIn F E i * (y 0).n i) (W * (D.p0 / (D.C.kB * D.tempG))) +
        (D.fed (atomsIn F E) + 1e10 * ∑ i, atomsIn (net := net) (st := st) F E i) * t :=
  Data.total_density_bounded hph (atoms_kept h hr hFM hb hq he hE hwall) (fun i => by
    obtain ⟨el, hel, hpos⟩ := h1 i
    have h1 : (1 : ℝ) ≤ ((spAt net st i).atomCount F el : ℝ) := by exact_mod_cast hpos
    refine h1.trans ?_
    unfold atomsIn
    exact single_le_sum (f := fun el => ((spAt net st i).atomCount F el : ℝ)) (fun _ _ => Nat.cast_nonneg _) hel) hW hy h0 hin

end Reads

/-! ### an exact solution: two isomers in equilibrium, heated electrons -/

namespace TimeDemo
open Demo (consts)

noncomputable def swap : Data 3 2 where
  C := consts
  charge := ![0, 0, 1]
  mass := fun _ => 40
  ljSigma := fun _ => 3
  stick := fun _ => 0
  arrhA := fun _ => 1
  arrhB := fun _ => 0
  arrhC := fun _ => 0
  enLoss := fun _ => 0
  elastic := fun _ => false
  eNet := fun _ => 0
  eLhs := fun _ => 0
  mLhs := fun _ => 0
  ret := fun _ _ => 0
  net := ![![-1, 1, 0], ![1, -1, 0]]
  lhs := ![![1, 0, 0], ![0, 1, 0]]
  feed := fun _ => 0
  tempG := 1
  r := 1
  z := 1
  p0 := 12
  power := fun _ => 500

theorem physical : swap.Physical where
  tempG := by norm_num [swap]
  r := by norm_num [swap]
  z := by norm_num [swap]
  p0 := by norm_num [swap]
  mass := fun i => by norm_num [swap]
  stick := fun i => by norm_num [swap]
  feed := fun i => by norm_num [swap]
  ret := fun i k => by norm_num [swap]
  arrhA := fun j => by norm_num [swap]
  lhs := fun j i => by fin_cases j <;> fin_cases i <;> simp [swap]
  net := fun j i => by fin_cases j <;> fin_cases i <;> simp [swap]

noncomputable def sol (t : ℝ) : Y 3 := ⟨![5, 5, 2], 1 + 500 / swap.volume / swap.C.e * t⟩

theorem sinks (t : ℝ) (i : Fin 3) : swap.pSinks (sol t) i = 0 := swap.sinks_zero_of_stick rfl

theorem src (t : ℝ) (i : Fin 3) : swap.pSrc (sol t) i = 0 := by
  have : swap.pSrc (sol t) i = swap.pSinks (sol t) i + ∑ k, -swap.pSinks (sol t) k * swap.ret i k := rfl
  rw [this]; simp [sinks]

theorem rate (t : ℝ) (j : Fin 2) : swap.pRates (sol t) j = 5 := by
  have : swap.pRates (sol t) j = swap.fRates (sol t).n (swap.pNe (sol t)) (Data.pTot (sol t)) (swap.pK (sol t)) j := rfl
  rw [this]
  fin_cases j <;>
    simp [Data.fRates, Data.pK, Data.elc, Data.fRateHeavy, swap, sol, Fin.prod_univ_three]

theorem steady (t : ℝ) (i : Fin 3) : (swap.rhs t (sol t)).n i = 0 := by
  have hvol : swap.pVol (sol t) i = 0 := by
    have : swap.pVol (sol t) i = ∑ j, (swap.net j i : ℝ) * swap.pRates (sol t) j := rfl
    rw [this]
    simp only [rate]
    fin_cases i <;> simp [swap]
  have hp : swap.pP (sol t) = swap.p0 := by
    simp [Data.pP, Data.fPressure, Data.pTot, Data.fTotalDensity, sol, swap, consts, Fin.sum_univ_three]
    norm_num
  have hflow : swap.pFlow (sol t) i = 0 := by
    have : swap.pFlow (sol t) i = swap.fFlow (sol t).n (swap.pP (sol t)) i := rfl
    rw [this, hp]
    unfold Data.fFlow
    have : ∀ k, swap.feed k = 0 := fun _ => rfl
    simp [this]
  have hmin : Data.fMinN (sol t).n i = 0 := by
    fin_cases i <;> simp [Data.fMinN, sol]
  have : (swap.rhs t (sol t)).n i = swap.pVol (sol t) i + swap.pFlow (sol t) i
    + swap.pSrc (sol t) i + Data.fMinN (sol t).n i := rfl
  rw [this, hvol, hflow, src]
  simpa using hmin

theorem heated {t : ℝ} (ht : 0 ≤ t) : (swap.rhs t (sol t)).rho = 500 / swap.volume / swap.C.e := by
  have hV := Data.volume_pos physical
  have hE := swap.C.e_pos
  have h1 : (swap.rhs t (sol t)).rho = swap.fExt (swap.power t) - swap.pElInel (sol t) - swap.pGainLoss (sol t) -
    swap.pElWalls (sol t) - swap.pIonsWalls (sol t) + Data.fMinRho (sol t).rho := rfl
  have h2 : swap.pElInel (sol t) = 0 := by
    unfold Data.pElInel Data.fElInel
    refine sum_eq_zero fun j hj => ?_
    have := (mem_filter.1 hj).2
    simp [Data.elc, swap] at this
  have h3 : swap.pGainLoss (sol t) = 0 := by
    unfold Data.pGainLoss Data.fGainLoss
    simp [swap]
  have h4 : swap.pElWalls (sol t) = 0 := by
    unfold Data.pElWalls Data.fElWalls
    simp [src]
  have h5 : swap.pIonsWalls (sol t) = 0 := by
    unfold Data.pIonsWalls Data.fIonsWalls
    simp [src]
  have h6 : Data.fMinRho (sol t).rho = 0 := if_neg (by
    have : 0 ≤ 500 / swap.volume / swap.C.e * t := by positivity
    simp only [sol]; linarith)
  rw [h1, h2, h3, h4, h5, h6]
  simp [Data.fExt, swap]

theorem solves : swap.Solves 7 sol := by
  intro t ht
  refine ⟨fun i => ?_, ?_⟩
  · rw [steady]; exact hasDerivWithinAt_const _ _ _
  · rw [heated ht.1]
    have := ((hasDerivAt_id t).const_mul (500 / swap.volume / swap.C.e)).const_add 1
    simp only [id, mul_one] at this
    exact this.hasDerivWithinAt

theorem inside (t : ℝ) : swap.Inside (sol t) := by
  have hn : ∀ i, 0 ≤ (sol t).n i := fun i => by fin_cases i <;> norm_num [sol]
  have hne : 0 < swap.getElectronDensity (sol t) none := by
    simp [Data.getElectronDensity, Data.fElectronDensity, Data.getDensityVector, sol, swap, Fin.sum_univ_three]
  have hw : ∀ i k, i ≠ k → ¬ swap.neu i → ¬ swap.neu k →
      swap.fB0 (swap.pV (sol t)) i k < 2 * swap.pDebye (sol t) := by
    intro i k hik hi hk
    exfalso
    revert hik hi hk
    fin_cases i <;> fin_cases k <;> simp [Data.neu, swap]
  refine ⟨hne, fun i k h1 h2 h3 => (hw i k h1 h2 h3).le, swap.regular_of_physical physical hn hne
    (fun i => by norm_num [swap]) (fun i => ?_) hw ⟨0, rfl, by norm_num [sol]⟩
    ⟨2, by simp [swap]⟩ (fun _ i hi => ?_)⟩
  · by_cases h : i = 0
    · exact ⟨1, by rw [h]; decide, by norm_num [sol]⟩
    · exact ⟨0, Ne.symm h, by norm_num [sol]⟩
  · exfalso; revert hi; fin_cases i <;> simp [swap]

theorem kept : swap.Kept fun _ => 1 where
  nonneg _ := zero_le_one
  reactions j := by fin_cases j <;> simp [swap, Fin.sum_univ_three]
  wall k hk := absurd rfl hk

/-- the hypotheses of `total_density_bounded` are met -/
example : ∀ t ∈ Set.Icc (0 : ℝ) 7, (∀ i, 0 < (sol t).n i) ∧ ∑ i, (sol t).n i ≤
    max (Data.amount (fun _ => 1) (sol 0)) (1 * (swap.p0 / (swap.C.kB * swap.tempG))) +
      (swap.fed (fun _ => 1) + 1e10 * ∑ _ : Fin 3, 1) * t :=
  Data.total_density_bounded physical kept (fun _ => le_rfl) (fun _ => le_rfl) solves
    (fun i => by fin_cases i <;> norm_num [sol]) fun t _ => inside t

/-- the hypotheses of `washed_out` are met -/
example : AntitoneOn (fun t => Data.amount (fun _ => 1) (sol t)) (Set.Icc 0 7) :=
  Data.washed_out physical kept (fun i hi => absurd rfl hi) solves (fun t _ => inside t)
    (fun t _ i => by fin_cases i <;> norm_num [sol]) fun t _ => by
      have : swap.getTotalPressure (sol t) none = swap.pP (sol t) := rfl
      rw [this]
      simp [Data.pP, Data.fPressure, Data.pTot, Data.fTotalDensity, sol, swap, consts, Fin.sum_univ_three]
      norm_num

/-- the hypotheses of `energy_bounded` are met -/
example : ∀ t ∈ Set.Icc (0 : ℝ) 7, (sol t).rho ≤ max (sol 0).rho 1 + 500 / swap.volume / swap.C.e * t :=
  Data.energy_bounded (P := 500) physical (fun _ _ _ => rfl) (fun i _ => by
    have := Real.pi_lt_four
    simp only [swap, consts]
    linarith) ⟨2, by simp [swap]⟩ (fun _ => le_rfl) (fun _ => le_rfl) (by norm_num) (fun _ => le_rfl) solves
    (fun i => by fin_cases i <;> norm_num [sol]) fun t _ => inside t

/-! ### finding: the energy of the electrons has no floor -/

/-- electrons that lose energy in collisions with a gas, without heating -/
noncomputable def leak : Data 2 1 where
  C := consts
  charge := ![0, 1]
  mass := fun _ => 40
  ljSigma := fun _ => 3
  stick := fun _ => 0
  arrhA := fun _ => 1e12
  arrhB := fun _ => 0
  arrhC := fun _ => 0
  enLoss := fun _ => 1
  elastic := fun _ => false
  eNet := fun _ => 0
  eLhs := fun _ => 1
  mLhs := fun _ => 0
  ret := fun _ _ => 0
  net := fun _ _ => 0
  lhs := fun _ => ![1, 0]
  feed := fun _ => 0
  tempG := 1
  r := 1
  z := 1
  p0 := 7
  power := fun _ => 0

theorem leak_physical : leak.Physical where
  tempG := by norm_num [leak]
  r := by norm_num [leak]
  z := by norm_num [leak]
  p0 := by norm_num [leak]
  mass := fun i => by norm_num [leak]
  stick := fun i => by norm_num [leak]
  feed := fun i => by norm_num [leak]
  ret := fun i k => by norm_num [leak]
  arrhA := fun j => by norm_num [leak]
  lhs := fun j i => by fin_cases i <;> simp [leak]
  net := fun j i => by fin_cases i <;> simp [leak]

theorem leak_src (y : Y 2) (i : Fin 2) : leak.pSrc y i = 0 := by
  have hs : ∀ i, leak.pSinks y i = 0 := fun i => leak.sinks_zero_of_stick rfl
  have : leak.pSrc y i = leak.pSinks y i + ∑ k, -leak.pSinks y k * leak.ret i k := rfl
  rw [this]; simp [hs]

theorem leak_rate {rho : ℝ} (hrho : rho < 1) (t : ℝ) :
    (leak.rhs t ⟨![5, 2], rho⟩).rho = 1e10 * (-999 - rho) := by
  set y : Y 2 := ⟨![5, 2], rho⟩ with hy
  have hsrc := leak_src y
  have h1 : (leak.rhs t y).rho = leak.fExt (leak.power t) - leak.pElInel y - leak.pGainLoss y -
    leak.pElWalls y - leak.pIonsWalls y + Data.fMinRho y.rho := rfl
  have hne : leak.pNe y = 2 := by
    simp [Data.pNe, Data.fElectronDensity, leak, hy]
  have hr : ∀ j, leak.pRates y j = 1e13 := by
    intro j
    have : leak.pRates y j = leak.fRates y.n (leak.pNe y) (Data.pTot y) (leak.pK y) j := rfl
    rw [this, Data.fRates, hne]
    have hk : leak.pK y j = 1e12 := by
      simp [Data.pK, Data.elc, Data.fRateElectron, leak]
    rw [hk]
    simp [leak, hy, Fin.prod_univ_two]
    norm_num
  have h2 : leak.pElInel y = 1e13 := by
    unfold Data.pElInel Data.fElInel
    have : univ.filter leak.elc = univ := by
      ext j; simp [Data.elc, leak]
    rw [this]
    simp only [hr]
    simp [Data.pLoss, leak]
  have h3 : leak.pGainLoss y = 0 := by
    unfold Data.pGainLoss Data.fGainLoss
    simp [leak]
  have h4 : leak.pElWalls y = 0 := by
    unfold Data.pElWalls Data.fElWalls
    simp [hsrc]
  have h5 : leak.pIonsWalls y = 0 := by
    unfold Data.pIonsWalls Data.fIonsWalls
    simp [hsrc]
  have h6 : Data.fMinRho y.rho = (1 - rho) / 1e-10 := if_pos hrho
  have h7 : leak.fExt (leak.power t) = 0 := by simp [Data.fExt, leak]
  rw [h1, h2, h3, h4, h5, h6, h7]
  ring

theorem leak_steady (t rho : ℝ) (i : Fin 2) : (leak.rhs t ⟨![5, 2], rho⟩).n i = 0 := by
  set y : Y 2 := ⟨![5, 2], rho⟩ with hy
  have hvol : leak.pVol y i = 0 := by
    have : leak.pVol y i = ∑ j, (leak.net j i : ℝ) * leak.pRates y j := rfl
    rw [this]
    simp [leak]
  have hp : leak.pP y = leak.p0 := by
    simp [Data.pP, Data.fPressure, Data.pTot, Data.fTotalDensity, hy, leak, consts]
    norm_num
  have hflow : leak.pFlow y i = 0 := by
    have : leak.pFlow y i = leak.fFlow y.n (leak.pP y) i := rfl
    rw [this, hp]
    unfold Data.fFlow
    have : ∀ k, leak.feed k = 0 := fun _ => rfl
    simp [this]
  have hmin : Data.fMinN y.n i = 0 := by
    fin_cases i <;> simp [Data.fMinN, hy]
  have : (leak.rhs t y).n i = leak.pVol y i + leak.pFlow y i + leak.pSrc y i + Data.fMinN y.n i := rfl
  rw [this, hvol, hflow, leak_src]
  simpa using hmin

/-- the solution that starts without energy -/
noncomputable def cold (t : ℝ) : Y 2 := ⟨![5, 2], -999 + 999 * Real.exp (-1e10 * t)⟩

theorem cold_solves (T : ℝ) : leak.Solves T cold := by
  intro t ht
  refine ⟨fun i => ?_, ?_⟩
  · unfold cold; rw [leak_steady]; exact hasDerivWithinAt_const _ _ _
  · have hle : Real.exp (-1e10 * t) ≤ 1 := Real.exp_le_one_iff.2 (by have := ht.1; nlinarith)
    unfold cold
    rw [leak_rate (by linarith)]
    have h1 : HasDerivAt (fun s : ℝ => -1e10 * s) (-1e10) t := by
      simpa using (hasDerivAt_id t).const_mul (-1e10 : ℝ)
    have h2 := ((h1.exp).const_mul 999).const_add (-999)
    have e : (1e10 : ℝ) * (-999 - (-999 + 999 * Real.exp (-1e10 * t))) = 999 * (Real.exp (-1e10 * t) * -1e10) := by ring
    rw [e]
    exact h2.hasDerivWithinAt

/-- **Finding.** Unlike densities, the electron energy can be driven below zero: every solution that starts without energy has
a negative energy at some time, although the data are physical, since losses of energy do not cease at the temperature of the
gas and exceed the artificial correction. -/
theorem energy_below_zero {T : ℝ} (hT : 0 < T) {y : ℝ → Y 2} (hy : leak.Solves T y) (h0 : y 0 = ⟨![5, 2], 0⟩) :
    leak.Physical ∧ ∃ t ∈ Set.Icc 0 T, (y t).rho < 0 := by
  refine ⟨leak_physical, ?_⟩
  by_contra hcon
  push Not at hcon
  have hd := (hy 0 ⟨le_rfl, hT.le⟩).2
  rw [h0] at hd
  rw [hasDerivWithinAt_iff_tendsto_slope] at hd
  have hne : (nhdsWithin (0 : ℝ) (Set.Icc 0 T \ {0})).NeBot := by
    rw [← mem_closure_iff_nhdsWithin_neBot, Set.Icc_sdiff_left, closure_Ioc hT.ne]
    exact ⟨le_rfl, hT.le⟩
  have : 0 ≤ (leak.rhs 0 ⟨![5, 2], 0⟩).rho := ge_of_tendsto hd (by
    filter_upwards [self_mem_nhdsWithin] with s hs
    rw [slope_def_field]
    have h1 : (y 0).rho = 0 := by rw [h0]
    rw [h1]
    exact div_nonneg (by have := hcon s hs.1; linarith) (by have := hs.1.1; linarith))
  rw [leak_rate (by norm_num)] at this
  norm_num at this

/-- such a solution exists -/
example : ∃ t ∈ Set.Icc (0 : ℝ) 1, (cold t).rho < 0 :=
  (energy_below_zero zero_lt_one (cold_solves 1) (by simp [cold])).2

end TimeDemo
end Verif.Pygmol
