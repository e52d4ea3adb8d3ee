/-
Property C129: runs with nearly the same feed flows and power.
-/
import Verif.Pygmol.Depend
import Verif.Pygmol.Power

namespace Verif.Pygmol

/-- Powers given at the same times that differ by at most `d` differ by at most `d` at all times. -/
theorem powerExt_near {times a b : List ℝ} {d : ℝ} (hd : 0 ≤ d) (ht : times.Pairwise (· ≤ ·))
    (h : List.Forall₂ (fun x y => |y - x| ≤ d) a b) (t : ℝ) : |powerExt times b t - powerExt times a t| ≤ d := by
  unfold powerExt
  induction times generalizing a b with
  | nil => simpa [interp] using hd
  | cons p times ih =>
    cases h with
    | nil => simpa [interp] using hd
    | @cons x y a b hxy h =>
      cases times with
      | nil => simpa [interp] using hxy
      | cons q times =>
        have hpq : p ≤ q := (List.pairwise_cons.1 ht).1 q (by simp)
        cases h with
        | nil => simpa [interp] using hxy
        | @cons x' y' a b hxy' h =>
          have ih' := ih (a := x' :: a) (b := y' :: b) (List.pairwise_cons.1 ht).2 (.cons hxy' h)
          simp only [List.zip_cons_cons] at ih' ⊢
          unfold interp
          simp only
          by_cases h1 : t < p
          · rw [if_pos h1, if_pos h1]; exact hxy
          rw [if_neg h1, if_neg h1]
          by_cases h2 : t < q
          · rw [if_pos h2, if_pos h2]
            push Not at h1
            have hlt : p < q := h1.trans_lt h2
            have h0 : 0 < q - p := by linarith
            set w := (t - p) / (q - p) with hw
            have hw0 : 0 ≤ w := div_nonneg (by linarith) h0.le
            have hw1 : w ≤ 1 := (div_le_one h0).2 (by linarith)
            have e : (y' - y) / (q - p) * (t - p) + y - ((x' - x) / (q - p) * (t - p) + x) = w * (y' - x') + (1 - w) * (y - x) := by
              rw [hw]; field_simp; ring
            rw [e, abs_le]
            rw [abs_le] at hxy hxy'
            constructor <;> nlinarith [hxy.1, hxy.2, hxy'.1, hxy'.2]
          · rw [if_neg h2, if_neg h2]; exact ih'

namespace Data
open Finset
variable {ns nr : ℕ} {D : Data ns nr}

/-- The same equations with other feed flows and another power. -/
def withSupply (D : Data ns nr) (F : Fin ns → ℝ) (p : ℝ → ℝ) : Data ns nr := { D with feed := F, power := p }

theorem withSupply_physical (hph : D.Physical) {F : Fin ns → ℝ} {p : ℝ → ℝ} (hF : ∀ i, 0 ≤ F i) : (D.withSupply F p).Physical :=
  ⟨hph.tempG, hph.r, hph.z, hph.p0, hph.mass, hph.stick, hF, hph.ret, hph.arrhA, hph.lhs, hph.net⟩

theorem withSupply_defined {F : Fin ns → ℝ} {p : ℝ → ℝ} {y : Y ns} : (D.withSupply F p).Defined y ↔ D.Defined y :=
  ⟨fun h => ⟨h.1, h.2.1, ⟨h.2.2.nE, h.2.2.neutrals, h.2.2.mfp, h.2.2.posIon, h.2.2.wall⟩⟩,
    fun h => ⟨h.1, h.2.1, ⟨h.2.2.nE, h.2.2.neutrals, h.2.2.mfp, h.2.2.posIon, h.2.2.wall⟩⟩⟩

/-- the equations depend on the feed flows linearly -/
theorem withSupply_field (F : Fin ns → ℝ) (p : ℝ → ℝ) (e : (Fin ns → ℝ) × ℝ) :
    (D.withSupply F p).field e = D.field e +
      ∑ k, (F k - D.feed k) • ((D.withSupply (Pi.single k 1) p).field e - (D.withSupply 0 p).field e) := by
  have h1 : ∀ B : Fin ns → ℝ, ∀ i, ((D.withSupply B p).field e).1 i = (D.field e).1 i +
      ∑ k, (B k - D.feed k) * ((if i = k then 4.485e17 / D.volume else 0) -
        if D.neu i then 4.485e17 / D.volume * (ofVec e).n i / (∑ k ∈ univ.filter D.neu, (ofVec e).n k) else 0) := fun B i => by
    have e0 : ∀ E : Data ns nr, (E.field e).1 i = (∑ j, (E.net j i : ℝ) * E.pRates (ofVec e) j) + E.pFlow (ofVec e) i +
      E.pSrc (ofVec e) i + fMinN (ofVec e).n i := fun _ => rfl
    have hfl : (D.withSupply B p).pFlow (ofVec e) i = D.pFlow (ofVec e) i +
      ∑ k, (B k - D.feed k) * ((if i = k then 4.485e17 / D.volume else 0) -
        if D.neu i then 4.485e17 / D.volume * (ofVec e).n i / (∑ k ∈ univ.filter D.neu, (ofVec e).n k) else 0) := by
      set S := ∑ k ∈ univ.filter D.neu, (ofVec e).n k with hS
      show (if D.neu i then -((ofVec e).n i * (1 / 1e-3) * (D.pP (ofVec e) - D.p0) / D.p0) else 0) + B i * 4.485e17 / D.volume -
        (if D.neu i then (∑ k, B k * 4.485e17 / D.volume) * (ofVec e).n i / S else 0) =
        ((if D.neu i then -((ofVec e).n i * (1 / 1e-3) * (D.pP (ofVec e) - D.p0) / D.p0) else 0) + D.feed i * 4.485e17 / D.volume -
        (if D.neu i then (∑ k, D.feed k * 4.485e17 / D.volume) * (ofVec e).n i / S else 0)) + _
      simp only [mul_sub, sum_sub_distrib, mul_ite, mul_zero, sum_ite_eq, mem_univ, if_true]
      have hs : ∀ G : Fin ns → ℝ, (∑ k, G k * 4.485e17 / D.volume) = (∑ k, G k) * (4.485e17 / D.volume) := fun G => by
        rw [sum_mul]
        exact sum_congr rfl fun k _ => by ring
      by_cases hn : D.neu i
      · simp only [if_pos hn, hs, ← sum_mul, sum_sub_distrib]
        ring
      · simp only [if_neg hn, sum_const_zero]
        ring
    rw [e0, e0, hfl]
    show (∑ j, (D.net j i : ℝ) * D.pRates (ofVec e) j) + _ + D.pSrc (ofVec e) i + _ = _
    ring
  have h2 : ∀ B : Fin ns → ℝ, ((D.withSupply B p).field e).2 = (D.field e).2 := fun B => rfl
  refine Prod.ext (funext fun a => ?_) ?_
  · simp only [Prod.fst_add, Pi.add_apply, Prod.fst_sum, Finset.sum_apply, Prod.smul_fst, Pi.smul_apply, Prod.fst_sub, Pi.sub_apply,
      smul_eq_mul]
    rw [h1]
    congr 1
    refine sum_congr rfl fun k _ => ?_
    rw [h1, h1, add_sub_add_left_eq_sub, ← sum_sub_distrib]
    congr 1
    simp only [← sub_mul, sub_sub_sub_cancel_right, Pi.zero_apply, sub_zero]
    simp [Pi.single_apply]
  · simp only [Prod.snd_add, Prod.snd_sum, Prod.smul_snd, Prod.snd_sub, h2, sub_self, smul_zero, sum_const_zero, add_zero]

/-- **C129.** If a run reaches its end in states in which the equations are defined, so does every run with feed flows and a power near
enough, and at all times it differs from the first by at most a constant times the difference of the flows and of the powers. -/
theorem supply_stable (hph : D.Physical) {T : ℝ} (hT : 0 < T) (hP : ContinuousOn D.power (Set.Icc 0 T)) {y : ℝ → Y ns} (hy : D.Solves T y)
    (hdef : ∀ t ∈ Set.Icc 0 T, D.Defined (y t)) :
    ∃ L > (0 : ℝ), ∃ δ > (0 : ℝ), ∀ d ∈ Set.Ioc 0 δ, ∀ (F : Fin ns → ℝ) (p : ℝ → ℝ), (∀ i, 0 ≤ F i) → (∀ i, |F i - D.feed i| ≤ d) →
      ContinuousOn p (Set.Icc 0 T) → (∀ t ∈ Set.Icc 0 T, |p t - D.power t| ≤ d) →
      ∃ z, z 0 = y 0 ∧ (D.withSupply F p).Solves T z ∧ ∀ t ∈ Set.Icc 0 T, D.Defined (z t) ∧ Within (L * d) (y t) (z t) := by
  obtain ⟨C, hC, hCd, L, hL, δ, hδ, key⟩ := run_near hph hT hP hy hdef
  have hcont : ∀ B : Fin ns → ℝ, (∀ i, 0 ≤ B i) → ContinuousOn (D.withSupply B D.power).field C := fun B hB e he =>
    ((lip_field (D := D.withSupply B D.power) (x := e) (withSupply_physical hph hB)
      (withSupply_defined.2 (hCd e he)).good.weak).continuousAt).continuousWithinAt
  have hex : ∀ k, ∃ c, ∀ e ∈ C, ‖(D.withSupply (Pi.single k 1) D.power).field e - (D.withSupply 0 D.power).field e‖ ≤ c := fun k =>
    hC.exists_bound_of_continuousOn ((hcont _ fun i => by
      rw [Pi.single_apply]; split_ifs <;> norm_num).sub (hcont _ fun _ => le_rfl))
  choose c hc using hex
  set v := |1 / D.volume / D.C.e| with hv
  set M := ∑ k, |c k| + v + 1 with hM
  have hS : 0 ≤ ∑ k, |c k| := sum_nonneg fun k _ => abs_nonneg _
  have hv0 : 0 ≤ v := abs_nonneg _
  have hM0 : 1 ≤ M := by linarith
  refine ⟨L * M, by positivity, δ / M, by positivity, fun d hd F p hF hFd hpc hp => ?_⟩
  have hd0 : 0 < d := hd.1
  have hdM : M * d ≤ δ := by
    have := (le_div_iff₀ (by positivity)).1 hd.2
    linarith
  rw [mul_assoc]
  refine key (M * d) ⟨by positivity, hdM⟩ (D.withSupply F p) (y 0) (withSupply_physical hph hF) hpc (fun t ht => ?_)
    (fun _ => withSupply_defined) (fun x hx => ?_)
    ⟨fun i => by rw [sub_self, abs_zero]; positivity, by rw [sub_self, abs_zero]; positivity⟩
  · have e : (D.withSupply F p).heating t - D.heating t = (0, (1 / D.volume / D.C.e) * (p t - D.power t)) := by
      refine Prod.ext (sub_self _) ?_
      show p t / D.volume / D.C.e - D.power t / D.volume / D.C.e = _
      ring
    rw [e, Prod.norm_mk, norm_zero, max_eq_right (norm_nonneg _), norm_mul, Real.norm_eq_abs, Real.norm_eq_abs]
    have := mul_le_mul_of_nonneg_left (hp t ht) hv0
    nlinarith
  · have e : (D.withSupply F p).field x = (D.withSupply F D.power).field x := rfl
    rw [e, withSupply_field, add_sub_cancel_left]
    have h1 : ‖∑ k, (F k - D.feed k) • ((D.withSupply (Pi.single k 1) D.power).field x - (D.withSupply 0 D.power).field x)‖ ≤
        ∑ k, d * |c k| :=
      (norm_sum_le _ _).trans (sum_le_sum fun k _ => by
        rw [norm_smul]
        exact mul_le_mul (hFd k) ((hc k x hx).trans (le_abs_self _)) (norm_nonneg _) hd0.le)
    rw [← mul_sum] at h1
    nlinarith

end Verif.Pygmol.Data
