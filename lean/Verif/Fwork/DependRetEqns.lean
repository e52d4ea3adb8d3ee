/-
Property C126 for the runs of a Morris analysis over return coefficients.
-/
import Verif.Fwork.DependEqns
import Verif.Fwork.MorrisRetEqnsDemo

namespace Verif.Pygmol.Data
open Finset
variable {ns nr : ℕ} {D : Data ns nr}

/-- The same equations with another return matrix. -/
def withRet (D : Data ns nr) (R : Fin ns → Fin ns → ℝ) : Data ns nr := { D with ret := R }

theorem withRet_physical (hph : D.Physical) {R : Fin ns → Fin ns → ℝ} (hR : ∀ i k, 0 ≤ R i k) : (D.withRet R).Physical :=
  ⟨hph.tempG, hph.r, hph.z, hph.p0, hph.mass, hph.stick, hph.feed, hR, hph.arrhA, hph.lhs, hph.net⟩

theorem withRet_defined {R : Fin ns → Fin ns → ℝ} {y : Y ns} : (D.withRet R).Defined y ↔ D.Defined y :=
  ⟨fun h => ⟨h.1, h.2.1, ⟨h.2.2.nE, h.2.2.neutrals, h.2.2.mfp, h.2.2.posIon, h.2.2.wall⟩⟩,
    fun h => ⟨h.1, h.2.1, ⟨h.2.2.nE, h.2.2.neutrals, h.2.2.mfp, h.2.2.posIon, h.2.2.wall⟩⟩⟩

/-- the matrix with a single one -/
def unit (i k : Fin ns) : Fin ns → Fin ns → ℝ := fun a b => if a = i then (if b = k then 1 else 0) else 0

/-- the equations depend on the return matrix linearly -/
theorem withRet_field (R : Fin ns → Fin ns → ℝ) (e : (Fin ns → ℝ) × ℝ) :
    (D.withRet R).field e = D.field e +
      ∑ i, ∑ k, (R i k - D.ret i k) • ((D.withRet (unit i k)).field e - (D.withRet fun _ _ => 0).field e) := by
  set s : Fin ns → ℝ := fun k => -D.pSinks (ofVec e) k with hs
  have h1 : ∀ B : Fin ns → Fin ns → ℝ, ∀ i, ((D.withRet B).field e).1 i = (D.field e).1 i + ∑ k, s k * (B i k - D.ret i k) := fun B i => by
    have h := Verif.Fwork.MorrisRetEqns.dn_ret D B (ofVec e) i
    rw [Verif.Fwork.MorrisRetEqns.src_ret] at h
    exact h
  set w : Fin ns → ℝ := fun i => 2 * D.pTe (ofVec e) * D.charge i +
    if 0 < D.charge i then 1 / 2 * D.pTe (ofVec e) + D.fSheath (D.pTe (ofVec e)) * D.charge i else 0 with hw
  have h2 : ∀ B : Fin ns → Fin ns → ℝ, ((D.withRet B).field e).2 = (D.field e).2 + ∑ i, w i * ∑ k, s k * (B i k - D.ret i k) := fun B => by
    have h := Verif.Fwork.MorrisRetEqns.drho_ret D B 0 (ofVec e)
    simp only [Verif.Fwork.MorrisRetEqns.src_ret] at h
    have e1 : ∀ E : Data ns nr, (E.field e).2 = E.pDrho 0 (ofVec e) - E.fExt (E.power 0) := fun E => by
      have : E.pDrho 0 (ofVec e) = E.fExt (E.power 0) - E.pElInel (ofVec e) - E.pGainLoss (ofVec e) - E.pElWalls (ofVec e) -
        E.pIonsWalls (ofVec e) + fMinRho (ofVec e).rho := rfl
      rw [this]
      show -E.pElInel (ofVec e) - E.pGainLoss (ofVec e) - E.pElWalls (ofVec e) - E.pIonsWalls (ofVec e) + fMinRho (ofVec e).rho = _
      ring
    rw [e1, e1]
    have e2 : (D.withRet B).fExt ((D.withRet B).power 0) = D.fExt (D.power 0) := rfl
    have e3 : (D.withRet B).pDrho 0 (ofVec e) = D.pDrho 0 (ofVec e) + ∑ i, w i * ∑ k, s k * (B i k - D.ret i k) := h
    rw [e2, e3]
    ring
  have k1 : ∀ i k a, ((D.withRet (unit i k)).field e).1 a - ((D.withRet fun _ _ => 0).field e).1 a = if a = i then s k else 0 := fun i k a => by
    rw [h1, h1, add_sub_add_left_eq_sub, ← sum_sub_distrib]
    have : ∀ b, s b * (unit i k a b - D.ret a b) - s b * (0 - D.ret a b) = if a = i then (if b = k then s b else 0) else 0 := fun b => by
      unfold unit
      split_ifs <;> ring
    rw [sum_congr rfl fun b _ => this b]
    split_ifs
    · rw [sum_ite_eq' univ k, if_pos (mem_univ k)]
    · exact sum_const_zero
  have k2 : ∀ i k, ((D.withRet (unit i k)).field e).2 - ((D.withRet fun _ _ => 0).field e).2 = w i * s k := fun i k => by
    have hb : ∀ a, ∑ b, s b * (unit i k a b - D.ret a b) - ∑ b, s b * (0 - D.ret a b) = if a = i then s k else 0 := fun a => by
      have := k1 i k a
      rw [h1, h1, add_sub_add_left_eq_sub] at this
      exact this
    rw [h2, h2, add_sub_add_left_eq_sub, ← sum_sub_distrib]
    rw [sum_congr rfl fun a _ => by rw [← mul_sub, hb a]]
    simp
  refine Prod.ext (funext fun a => ?_) ?_
  · simp only [Prod.fst_add, Pi.add_apply, Prod.fst_sum, Finset.sum_apply, Prod.smul_fst, Pi.smul_apply, Prod.fst_sub, Pi.sub_apply,
      smul_eq_mul, k1]
    rw [h1]
    congr 1
    rw [sum_comm]
    refine sum_congr rfl fun k _ => ?_
    simp [mul_comm]
  · simp only [Prod.snd_add, Prod.snd_sum, Prod.smul_snd, Prod.snd_sub, smul_eq_mul, k2]
    rw [h2]
    congr 1
    refine sum_congr rfl fun i _ => ?_
    rw [mul_sum]
    exact sum_congr rfl fun k _ => by ring

/-- **C126, for return coefficients.** If a run reaches its end in states in which the equations are defined, so does every run with return
coefficients near enough, and at all times it differs from the first by at most a constant times the difference of the coefficients. -/
theorem ret_stable (hph : D.Physical) {T : ℝ} (hT : 0 < T) (hP : ContinuousOn D.power (Set.Icc 0 T)) {y : ℝ → Y ns} (hy : D.Solves T y)
    (hdef : ∀ t ∈ Set.Icc 0 T, D.Defined (y t)) :
    ∃ L > (0 : ℝ), ∃ δ > (0 : ℝ), ∀ d ∈ Set.Ioc 0 δ, ∀ (R : Fin ns → Fin ns → ℝ), (∀ i k, 0 ≤ R i k) → (∀ i k, |R i k - D.ret i k| ≤ d) →
      ∃ z, z 0 = y 0 ∧ (D.withRet R).Solves T z ∧ ∀ t ∈ Set.Icc 0 T, D.Defined (z t) ∧ Within (L * d) (y t) (z t) := by
  obtain ⟨C, hC, hCd, L, hL, δ, hδ, key⟩ := run_near hph hT hP hy hdef
  have hcont : ∀ B : Fin ns → Fin ns → ℝ, (∀ i k, 0 ≤ B i k) → ContinuousOn (D.withRet B).field C := fun B hB e he =>
    ((lip_field (D := D.withRet B) (x := e) (withRet_physical hph hB)
      (withRet_defined.2 (hCd e he)).good.weak).continuousAt).continuousWithinAt
  have hex : ∀ i k, ∃ c, ∀ e ∈ C, ‖(D.withRet (unit i k)).field e - (D.withRet fun _ _ => 0).field e‖ ≤ c := fun i k =>
    hC.exists_bound_of_continuousOn ((hcont _ fun a b => by unfold unit; split_ifs <;> norm_num).sub (hcont _ fun _ _ => le_rfl))
  choose c hc using hex
  set M := ∑ i, ∑ k, |c i k| + 1 with hM
  have hS : 0 ≤ ∑ i, ∑ k, |c i k| := sum_nonneg fun i _ => sum_nonneg fun k _ => abs_nonneg _
  have hM0 : 1 ≤ M := by linarith
  refine ⟨L * M, by positivity, δ / M, by positivity, fun d hd R hR hRd => ?_⟩
  have hd0 : 0 < d := hd.1
  have hdM : M * d ≤ δ := by
    have := (le_div_iff₀ (by positivity)).1 hd.2
    linarith
  rw [mul_assoc]
  refine key (M * d) ⟨by positivity, hdM⟩ (D.withRet R) (y 0) (withRet_physical hph hR) hP (fun t _ => by show ‖D.heating t - D.heating t‖ ≤ _; rw [sub_self, norm_zero]; positivity)
    (fun _ => withRet_defined) (fun x hx => ?_)
    ⟨fun i => by rw [sub_self, abs_zero]; positivity, by rw [sub_self, abs_zero]; positivity⟩
  rw [withRet_field, add_sub_cancel_left]
  have h1 : ‖∑ i, ∑ k, (R i k - D.ret i k) • ((D.withRet (unit i k)).field x - (D.withRet fun _ _ => 0).field x)‖ ≤ ∑ i, ∑ k, d * |c i k| :=
    (norm_sum_le _ _).trans (sum_le_sum fun i _ => (norm_sum_le _ _).trans (sum_le_sum fun k _ => by
      rw [norm_smul]
      exact mul_le_mul (hRd i k) ((hc i k x hx).trans (le_abs_self _)) (norm_nonneg _) hd0.le))
  simp only [← mul_sum] at h1
  nlinarith

end Verif.Pygmol.Data

namespace Verif.Fwork.MorrisRetEqns
open Finset Verif.Plaschem Verif.Plaschem.Net Verif.Pygmol
open Verif.Fwork.GraphRun (ns nr)
open Verif.Fwork.Morris (Pair PyDicts)
open Verif.Fwork.MorrisEval (Path)
open Verif.Fwork.MorrisWholeRet (runState Asked)
open Verif.Fwork.ReducedEqns Verif.Fwork.AdhocEqns
open Verif.Fwork.MorrisEqns (SameY NearY)

variable {net : Net} {st : State} {X : RP → Extra} {P : ReducedEqns.Params} {pw : ℚ → ℚ → ℚ}

theorem retScale_near {n : ℕ} {pairs : Fin n → Pair} (hq : Asked net st pairs) {x : Fin n → ℚ} {d : ℝ} (hd : 0 ≤ d)
    (h : ∀ q, |(pw (pairs q).range (2 * x q - 1) : ℝ) - 1| ≤ d) (a b : Str) : |(retScale pw pairs x a b : ℝ) - 1| ≤ d := by
  by_cases hex : ∃ q, (pairs q).stuck = a ∧ (pairs q).ret = b
  · obtain ⟨q, hk⟩ := hex
    unfold retScale
    rw [prod_eq_single q (fun i _ hi => if_neg fun hc => hi (hq.distinct i q (hc.1.trans hk.1.symm) (hc.2.trans hk.2.symm)))
      (fun hn => absurd (mem_univ q) hn), if_pos hk]
    exact h q
  · push Not at hex
    unfold retScale
    rw [prod_eq_one fun q _ => if_neg fun hc => hex q hc.1 hc.2, Rat.cast_one, sub_self, abs_zero]
    exact hd

/-- **C126, for return coefficients.** If the run with the analysed chemistry reaches its end, then so does each run of a Morris analysis
over return coefficients that changes these by a small enough part, and at all times it differs from the first by at most a constant times
this part. -/
theorem run_stable (hpw : ∀ r y, 1 < r → 0 ≤ pw r y) (hr : Reachable net st) (hcl : net.RetClosed) (hpy : PyDicts net st) {n : ℕ}
    {pairs : Fin n → Pair} (hq : Asked net st pairs) {D : Data (ns net st) (nr net st)} (hD : ReadsAll X P D) (hph : D.Physical) {T : ℝ}
    (hT : 0 < T) (hP : ContinuousOn D.power (Set.Icc 0 T)) {y : ℝ → Y (ns net st)} (hy : D.Solves T y)
    (hdef : ∀ t ∈ Set.Icc 0 T, D.Defined (y t)) :
    ∃ L > (0 : ℝ), ∃ δ > (0 : ℝ), ∀ d ∈ Set.Ioc 0 δ, ∀ (w : Path n) (j : ℕ) (x : Fin n → ℚ) (a : State),
      Morris.Walk (1 / 2) w.1 w.2 → w.point j = some x → runState net pw st pairs w j = .ok a →
      (∀ q, |(pw (pairs q).range (2 * x q - 1) : ℝ) - 1| ≤ d) → ∀ A : Data (ns net a) (nr net a), ReadsAll X P A →
      ∃ y', A.Solves T y' ∧ SameY net st a (y 0) (y' 0) ∧ ∀ t ∈ Set.Icc 0 T, A.Defined (y' t) ∧ NearY net st a (L * d) (y t) (y' t) := by
  obtain ⟨L, hL, δ, hδ, key⟩ := Data.ret_stable hph hT hP hy hdef
  set M := ∑ i, ∑ k, D.ret i k + 1 with hM
  have hcol : ∀ i k, D.ret i k ≤ ∑ i, ∑ k, D.ret i k := fun i k =>
    (single_le_sum (f := fun k => D.ret i k) (fun k _ => hph.ret i k) (mem_univ k)).trans
      (single_le_sum (f := fun i => ∑ k, D.ret i k) (fun i _ => sum_nonneg fun k _ => hph.ret i k) (mem_univ i))
  have hS : 0 ≤ ∑ i, ∑ k, D.ret i k := sum_nonneg fun i _ => sum_nonneg fun k _ => hph.ret i k
  have hM0 : 1 ≤ M := by linarith
  set N := M * (ns net st + 1 : ℝ) with hN
  have hN0 : 0 < N := by positivity
  refine ⟨L * N, by positivity, δ / N, by positivity, fun d hd w j x a hw hp ha hx A hA => ?_⟩
  have hd0 : 0 < d := hd.1
  have hphA := run_physical hpw hr hcl hpy ha hD hA hph
  obtain ⟨-, -, sa, -⟩ := Morris.ret_history hcl hr hpy ha
  obtain ⟨b, rfl⟩ : ∃ b, a = { st with adRet := b } := ⟨_, same_eq sa⟩
  obtain ⟨h1, h2⟩ := run_ret hr hcl hpy hq hw hp ha hD.wall hA.wall
  have e := data_ret hr hcl hpy hD hA
  have hoff : ∀ i k : Fin (ns net st), i ≠ k → |A.ret i k - D.ret i k| ≤ M * d := fun i k hik => by
    rw [h1 i k hik, show D.ret i k * (retScale pw pairs x (spAt net st k).name (spAt net st i).name : ℝ) - D.ret i k =
      D.ret i k * ((retScale pw pairs x (spAt net st k).name (spAt net st i).name : ℝ) - 1) by ring, abs_mul, abs_of_nonneg (hph.ret i k)]
    exact mul_le_mul (by linarith [hcol i k]) (retScale_near hq hd0.le hx _ _) (abs_nonneg _) (by linarith)
  have hMd : 0 ≤ M * d := by positivity
  have hall : ∀ i k : Fin (ns net st), |A.ret i k - D.ret i k| ≤ N * d := fun i k => by
    have hNd : N * d = M * d * (ns net st : ℝ) + M * d := by rw [hN]; ring
    by_cases hik : i = k
    · subst hik
      have hs : A.ret i i - D.ret i i = -∑ m ∈ univ.erase i, (A.ret m i - D.ret m i) := by
        have := h2 i
        rw [← sub_eq_zero, ← sum_sub_distrib, ← add_sum_erase univ _ (mem_univ i)] at this
        linarith
      rw [hs, abs_neg]
      have h3 : |∑ m ∈ univ.erase i, (A.ret m i - D.ret m i)| ≤ ∑ m ∈ univ.erase i, M * d :=
        (abs_sum_le_sum_abs _ _).trans (sum_le_sum fun m hm => hoff m i (mem_erase.1 hm).1)
      rw [sum_const, nsmul_eq_mul] at h3
      have h4 : ((univ.erase i).card : ℝ) ≤ ns net st := by
        have := card_le_univ (univ.erase i)
        rw [Fintype.card_fin] at this
        exact_mod_cast this
      have h5 : ((univ.erase i).card : ℝ) * (M * d) ≤ (ns net st : ℝ) * (M * d) := mul_le_mul_of_nonneg_right h4 hMd
      linarith
    · have h3 := hoff i k hik
      have h4 : 0 ≤ M * d * (ns net st : ℝ) := by positivity
      linarith
  obtain ⟨z, hz0, hz, hnear⟩ := key (N * d) ⟨by positivity, by have := (le_div_iff₀ hN0).1 hd.2; linarith⟩ A.ret hphA.ret hall
  have hsol : Data.Solves A T z := by rw [e]; exact hz
  refine ⟨z, hsol, ⟨fun i i' hi => ?_, ?_⟩, fun t ht => ⟨?_, ⟨fun i i' hi => ?_, ?_⟩⟩⟩
  · have : i = i' := spAt_inj hr hi
    subst this
    rw [hz0]
  · rw [hz0]
  · have hdd : Data.Defined (Data.withRet D A.ret) (z t) := Data.withRet_defined.2 (hnear t ht).1
    rw [e]; exact hdd
  · have : i = i' := spAt_inj hr hi
    subst this
    exact ((hnear t ht).2.1 i).trans (le_of_eq (by ring))
  · exact ((hnear t ht).2.2).trans (le_of_eq (by ring))

end Verif.Fwork.MorrisRetEqns

namespace Verif.Pygmol.TimeDemo

/-- the hypotheses of `ret_stable` are met -/
example : ∃ L > (0 : ℝ), ∃ δ > (0 : ℝ), ∀ d ∈ Set.Ioc 0 δ, ∀ R : Fin 3 → Fin 3 → ℝ, (∀ i k, 0 ≤ R i k) →
    (∀ i k, |R i k - swap.ret i k| ≤ d) → ∃ z, z 0 = sol 0 ∧ (swap.withRet R).Solves 7 z ∧
      ∀ t ∈ Set.Icc (0 : ℝ) 7, swap.Defined (z t) ∧ Data.Within (L * d) (sol t) (z t) :=
  Data.ret_stable physical (by norm_num) continuousOn_const solves fun t _ => sol_defined t

end Verif.Pygmol.TimeDemo

namespace Verif.Fwork.MorrisRetEqns.Demo
open Finset Verif.Plaschem Verif.Plaschem.Net Verif.Pygmol
open Verif.Fwork.GraphRun (ns nr)
open Verif.Fwork.Morris (Pair demoPw)
open Verif.Fwork.MorrisEval (Path)
open Verif.Fwork.MorrisWholeRet (runState)
open Verif.Fwork.ReducedEqns
open Verif.Fwork.MorrisEqns (SameY NearY)
open Verif.Fwork.MorrisEqns.Demo (net retClosed)
open Verif.Fwork.PhysEqns.Demo (X)

/-- The hypotheses of `run_stable` are met. The run with all factors one half is within every bound. -/
example (C : Consts) : ∃ T ∈ Set.Ioc 0 Pygmol.Demo.params.tEnd, ∃ y, (D C).Solves T y ∧ y 0 = y0 ∧
    (∃ L > (0 : ℝ), ∃ δ > (0 : ℝ), ∀ d ∈ Set.Ioc 0 δ, ∀ (w : Path 2) (j : ℕ) (x : Fin 2 → ℚ) (a : State),
      Morris.Walk (1 / 2) w.1 w.2 → w.point j = some x → runState net demoPw st pairs w j = .ok a →
      (∀ q, |(demoPw (pairs q).range (2 * x q - 1) : ℝ) - 1| ≤ d) → ∀ A : Data (ns net a) (nr net a), ReadsAll X (P C) A →
      ∃ y', A.Solves T y' ∧ SameY net st a (y 0) (y' 0) ∧ ∀ t ∈ Set.Icc 0 T, A.Defined (y' t) ∧ NearY net st a (L * d) (y t) (y' t)) ∧
    (∃ a, runState net demoPw st pairs centre 0 = .ok a ∧ ∃ A : Data (ns net a) (nr net a), ReadsAll X (P C) A) ∧
    Morris.Walk (1 / 2) centre.1 centre.2 ∧ centre.point 0 = some (fun _ => 1 / 2) ∧
    ∀ d : ℝ, 0 < d → ∀ q, |(demoPw (pairs q).range (2 * (1 / 2) - 1) : ℝ) - 1| ≤ d := by
  obtain ⟨T, hT, y, h1, h2, h3, -⟩ := develops C
  obtain ⟨a, ha⟩ := centre_ok
  refine ⟨T, hT, y, h1, h2, MorrisRetEqns.run_stable pw_nonneg reach retClosed pyDicts asked (reads C) (physical C) hT.1 (by
    have : (D C).power = powerExt Pygmol.Demo.params.time Pygmol.Demo.params.power := rfl
    rw [this]
    refine (interp_continuous ?_).continuousOn
    simp [Pygmol.Demo.params]) h1 h3,
    ⟨a, ha, run_defined reach retClosed pyDicts ha (reads C)⟩, trivial, rfl, fun d hd q => ?_⟩
  have : demoPw (pairs q).range (2 * (1 / 2) - 1) = 1 := by revert q; decide +kernel
  rw [this, Rat.cast_one, sub_self, abs_zero]
  exact hd.le

end Verif.Fwork.MorrisRetEqns.Demo
