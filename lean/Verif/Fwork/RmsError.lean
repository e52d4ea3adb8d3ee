/-
Property C41: how the two kinds of errors of a reduced solution bound each other.
-/
import Verif.Fwork.TrueError

namespace Verif.Fwork

variable {full red : Sol} {outs : List String} {times : List ℝ} {x y : ℝ}

theorem le_rms {l : List ℝ} (h : rms l = .ok y) {e : ℝ} (he : e ∈ l) : |e| ≤ Real.sqrt l.length * y := by
  have hne : l ≠ [] := List.ne_nil_of_mem he
  unfold rms at h
  rw [if_neg hne] at h
  cases h
  have hn : (0 : ℝ) < l.length := by exact_mod_cast List.length_pos_of_ne_nil hne
  rw [← Real.sqrt_mul hn.le, mul_div_cancel₀ _ hn.ne', ← Real.sqrt_sq_eq_abs]
  refine Real.sqrt_le_sqrt (List.single_le_sum (fun z hz => ?_) _ (List.mem_map.2 ⟨e, he, rfl⟩))
  obtain ⟨w, -, rfl⟩ := List.mem_map.1 hz
  positivity

/-- **C41.** The maximal error is at most the rms error times the root of the number of values compared: of outputs times times. -/
theorem error_max_le_rms (h : errorMax full red outs times = .ok x) (hr : errorRms full red outs times = .ok y) :
    x ≤ Real.sqrt (outs.length * times.length) * y := by
  obtain ⟨out, ho, errs, e1, e, he, hx⟩ := (errorMax_ok h).1
  obtain ⟨vf, vr, m, hd⟩ := outputErrors_ok.1 e1
  unfold errorRms at hr
  cases hm : mapE (outputErrorRms full red times) outs with
  | error e => rw [hm] at hr; cases hr
  | ok ys =>
    rw [hm] at hr
    obtain ⟨z, hz, hz'⟩ := forall₂_mem_left (mapE_ok.1 hm) ho
    unfold outputErrorRms at hz'
    rw [e1] at hz'
    have h1 := le_rms hz' he
    have h2 := (le_abs_self z).trans (le_rms hr hz)
    have l1 : errs.length = times.length := by
      rw [← hd.errs.length_eq, List.length_zip, ← hd.red.length_eq, ← hd.full.length_eq, min_self]
    have l2 : ys.length = outs.length := (mapE_ok.1 hm).length_eq.symm
    rw [l1] at h1
    rw [l2] at h2
    rw [← hx, mul_comm (outs.length : ℝ), Real.sqrt_mul (Nat.cast_nonneg _), mul_assoc]
    exact h1.trans (mul_le_mul_of_nonneg_left h2 (Real.sqrt_nonneg _))

/-- The bound is attained: one output that is right at the first of two times and wrong at the second. -/
example : ∃ (full red : Sol) (x y : ℝ), errorMax full red ["e"] [0, 1] = .ok x ∧ errorRms full red ["e"] [0, 1] = .ok y ∧ 0 < x ∧
    x = Real.sqrt (["e"].length * [(0 : ℝ), 1].length) * y := by
  refine ⟨⟨[0, 1], fun _ => some [1, 1]⟩, ⟨[0, 1], fun _ => some [1, 3]⟩, 2, Real.sqrt 2, ?_, ?_, by norm_num, ?_⟩
  · norm_num [errorMax, mapE, outputErrorMax, outputErrors, resultInTime, interp, maxOf, relErr]
  · norm_num [errorRms, mapE, outputErrorRms, outputErrors, resultInTime, interp, maxOf, relErr, rms]
    rw [if_neg (by simp)]
    simp only
    rw [if_neg (by simp)]
    norm_num
  · norm_num

end Verif.Fwork
