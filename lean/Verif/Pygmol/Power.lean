/-
The external power: adjustment of repeated times (equations.py:190-202) and interpolation
(equations.py:802-809), property C32.
-/
import Mathlib.Analysis.Real.Sqrt
import Mathlib.Topology.Order.OrderClosed
import Mathlib.Tactic.Linarith
import Mathlib.Tactic.FieldSimp
import Mathlib.Tactic.NormNum
import Mathlib.Topology.Piecewise
import Mathlib.Algebra.Order.Floor.Ring

namespace Verif.Pygmol

/-- equations.py:195-198: the loop over the time points. `store` is what happens when a number is written into
the array: nothing for an array of floats, truncation for an array of integers. -/
noncomputable def dedupe (store : ℝ → ℝ) (d : ℝ) : List ℝ → List ℝ
  | a :: b :: l => if a = b then store (a - d) :: dedupe store d (store (b + d) :: l)
    else a :: dedupe store d (b :: l)
  | l => l
termination_by l => l.length

/-- equations.py:194, 199-202: `none` if an assertion fails. `d_t` is 0.00001 of the end time. -/
noncomputable def powerTimes (store : ℝ → ℝ) (tEnd : ℝ) (ts : List ℝ) : Option (List ℝ) :=
  let ts' := dedupe store (0.00001 * tEnd) ts
  if ts'.Pairwise (· ≤ ·) ∧ ts'.Nodup ∧ (∃ a, ts'.head? = some a ∧ a ≤ 0) ∧
      (∃ b, ts'.getLast? = some b ∧ tEnd ≤ b) then some ts'
  else none

/-- numpy.interp(t, times, values): constant outside, linear between the points; `numpy` raises for empty
arrays. -/
noncomputable def interp : List (ℝ × ℝ) → ℝ → ℝ
  | [], _ => 0
  | [p], _ => p.2
  | p :: q :: l, t =>
    if t < p.1 then p.2
    else if t < q.1 then (q.2 - p.2) / (q.1 - p.1) * (t - p.1) + p.2
    else interp (q :: l) t

/-- equations.py:802-809 `get_power_ext`. -/
noncomputable def powerExt (times values : List ℝ) (t : ℝ) : ℝ := interp (times.zip values) t

/-! ### interpolation -/

/-- **C32.** The power stays between the smallest and the largest prescribed value. -/
theorem interp_bounds {l : List (ℝ × ℝ)} (hl : l ≠ []) {lo hi : ℝ}
    (h : ∀ p ∈ l, lo ≤ p.2 ∧ p.2 ≤ hi) (t : ℝ) : lo ≤ interp l t ∧ interp l t ≤ hi := by
  induction l with
  | nil => exact absurd rfl hl
  | cons p l ih =>
    cases l with
    | nil => exact h p (by simp)
    | cons q l =>
      have hp := h p (by simp)
      have hq := h q (by simp)
      have ih' := ih (by simp) (fun r hr => h r (List.mem_cons_of_mem _ hr))
      unfold interp
      by_cases h1 : t < p.1
      · rw [if_pos h1]; exact hp
      rw [if_neg h1]
      by_cases h2 : t < q.1
      · rw [if_pos h2]
        have hd : 0 < q.1 - p.1 := by linarith
        have hs0 : 0 ≤ (t - p.1) / (q.1 - p.1) := div_nonneg (by linarith) hd.le
        have hs1 : (t - p.1) / (q.1 - p.1) ≤ 1 := by rw [div_le_one hd]; linarith
        have e : (q.2 - p.2) / (q.1 - p.1) * (t - p.1) + p.2 =
            (1 - (t - p.1) / (q.1 - p.1)) * p.2 + (t - p.1) / (q.1 - p.1) * q.2 := by ring
        rw [e]
        generalize (t - p.1) / (q.1 - p.1) = s at *
        constructor
        · nlinarith [mul_nonneg hs0 (sub_nonneg.2 hq.1), mul_nonneg (sub_nonneg.2 hs1) (sub_nonneg.2 hp.1)]
        · nlinarith [mul_nonneg hs0 (sub_nonneg.2 hq.2), mul_nonneg (sub_nonneg.2 hs1) (sub_nonneg.2 hp.2)]
      · rw [if_neg h2]; exact ih'

/-- **C32.** The prescribed values are met at the prescribed times. -/
theorem interp_hits {l : List (ℝ × ℝ)} (h : l.Pairwise (fun p q => p.1 < q.1)) :
    ∀ p ∈ l, interp l p.1 = p.2 := by
  induction l with
  | nil => intro p hp; cases hp
  | cons a l ih =>
    intro p hp
    cases l with
    | nil => rw [List.mem_singleton] at hp; rw [hp]; rfl
    | cons q l =>
      rw [List.pairwise_cons] at h
      have hq : a.1 < q.1 := h.1 q (by simp)
      unfold interp
      rcases List.mem_cons.1 hp with rfl | hp'
      · rw [if_neg (lt_irrefl _), if_pos hq, sub_self, mul_zero, zero_add]
      · have h1 : q.1 ≤ p.1 := by
          rcases List.mem_cons.1 hp' with rfl | hp''
          · exact le_rfl
          · exact ((List.pairwise_cons.1 h.2).1 p hp'').le
        rw [if_neg (by linarith), if_neg (by linarith)]
        exact ih h.2 p hp'

/-- **C32.** Between two neighbouring times the power is the straight line through the two points. -/
theorem interp_linear {l₁ l₂ : List (ℝ × ℝ)} {p q : ℝ × ℝ}
    (h : (l₁ ++ p :: q :: l₂).Pairwise (fun p q => p.1 < q.1)) {t : ℝ} (h1 : p.1 ≤ t) (h2 : t < q.1) :
    (interp (l₁ ++ p :: q :: l₂) t - p.2) * (q.1 - p.1) = (q.2 - p.2) * (t - p.1) := by
  induction l₁ with
  | nil =>
    simp only [List.nil_append]
    unfold interp
    rw [if_neg (by linarith), if_pos h2]
    have : q.1 - p.1 ≠ 0 := by linarith
    field_simp
    ring
  | cons a l₁ ih =>
    rw [List.cons_append, List.pairwise_cons] at h
    have hap : a.1 < p.1 := h.1 p (by simp)
    have ih' := ih h.2
    have : interp (a :: l₁ ++ p :: q :: l₂) t = interp (l₁ ++ p :: q :: l₂) t := by
      cases l₁ with
      | nil =>
        simp only [List.cons_append, List.nil_append]
        conv_lhs => unfold interp
        rw [if_neg (by linarith), if_neg (by linarith)]
      | cons b l₁ =>
        simp only [List.cons_append]
        have hbp : b.1 < p.1 := (List.pairwise_cons.1 h.2).1 p (by simp)
        conv_lhs => unfold interp
        rw [if_neg (by linarith), if_neg (by linarith)]
    rw [this]; exact ih'

/-- **C32.** Outside the prescribed interval the power is constant. -/
theorem interp_outside {l : List (ℝ × ℝ)} (h : l.Pairwise (fun p q => p.1 < q.1)) {t : ℝ} :
    (∀ p, l.head? = some p → t ≤ p.1 → interp l t = p.2) ∧
    (∀ p, l.getLast? = some p → p.1 ≤ t → interp l t = p.2) := by
  constructor
  · intro p hp ht
    cases l with
    | nil => simp at hp
    | cons a l =>
      simp only [List.head?_cons, Option.some.injEq] at hp
      subst hp
      rcases ht.lt_or_eq with ht | rfl
      · cases l with
        | nil => rfl
        | cons q l => unfold interp; rw [if_pos ht]
      · exact interp_hits h a (by simp)
  · induction l with
    | nil => intro p hp; simp at hp
    | cons a l ih =>
      intro p hp ht
      cases l with
      | nil => simp at hp; rw [← hp]; rfl
      | cons q l =>
        rw [List.pairwise_cons] at h
        rw [List.getLast?_cons_cons] at hp
        have hqp : q.1 ≤ p.1 := by
          have := List.mem_of_getLast? hp
          rcases List.mem_cons.1 this with rfl | h'
          · exact le_rfl
          · exact ((List.pairwise_cons.1 h.2).1 p h').le
        have haq := h.1 q (by simp)
        unfold interp
        rw [if_neg (by linarith), if_neg (by linarith)]
        exact ih h.2 p hp ht

/-- **C32.** The power has no jumps. -/
theorem interp_continuous {l : List (ℝ × ℝ)} (h : l.Pairwise (fun p q => p.1 < q.1)) :
    Continuous (interp l) := by
  induction l with
  | nil => exact continuous_const
  | cons p l ih =>
    cases l with
    | nil => exact continuous_const
    | cons q l =>
      rw [List.pairwise_cons] at h
      have ih' := ih h.2
      have hpq : p.1 < q.1 := h.1 q (by simp)
      have hq : interp (q :: l) q.1 = q.2 := interp_hits h.2 q (by simp)
      have e : interp (p :: q :: l) = fun t => if p.1 ≤ t then
          (if q.1 ≤ t then interp (q :: l) t else (q.2 - p.2) / (q.1 - p.1) * (t - p.1) + p.2) else p.2 := by
        funext t
        conv_lhs => unfold interp
        by_cases h1 : t < p.1
        · rw [if_pos h1, if_neg (not_le.2 h1)]
        · rw [if_neg h1, if_pos (not_lt.1 h1)]
          by_cases h2 : t < q.1
          · rw [if_pos h2, if_neg (not_le.2 h2)]
          · rw [if_neg h2, if_pos (not_lt.1 h2)]
      rw [e]
      refine Continuous.if_le (Continuous.if_le ih' (by fun_prop) continuous_const continuous_id ?_)
        continuous_const continuous_const continuous_id ?_
      · rintro t rfl
        rw [hq]
        have : q.1 - p.1 ≠ 0 := by linarith
        field_simp
        ring
      · rintro t rfl
        rw [if_neg (not_le.2 hpq)]
        ring

/-! ### adjustment of repeated times -/

/-- **C32.** The adjustment keeps the number of points and (for an array of floats) moves none by more than
the shift. -/
theorem dedupe_close {d : ℝ} (hd : 0 ≤ d) (ts : List ℝ) :
    List.Forall₂ (fun a b => |a - b| ≤ d) (dedupe id d ts) ts := by
  -- the head may have been moved up already
  have key : ∀ n, ∀ (x a : ℝ) (l : List ℝ), l.length = n → (x = a ∨ x = a + d) →
      List.Forall₂ (fun a b => |a - b| ≤ d) (dedupe id d (x :: l)) (a :: l) := by
    intro n
    induction n with
    | zero =>
      intro x a l hl hx
      obtain rfl := List.length_eq_zero_iff.1 hl
      unfold dedupe
      refine List.Forall₂.cons ?_ List.Forall₂.nil
      rcases hx with rfl | rfl
      · simpa using hd
      · rw [add_sub_cancel_left, abs_of_nonneg hd]
    | succ n ih =>
      intro x a l hl hx
      cases l with
      | nil => simp at hl
      | cons b l =>
        have hl' : l.length = n := by simpa using hl
        unfold dedupe
        by_cases hxb : x = b
        · rw [if_pos hxb]
          refine List.Forall₂.cons ?_ (ih _ b l hl' (.inr rfl))
          simp only [id]
          rcases hx with rfl | rfl
          · rw [sub_sub_cancel_left, abs_neg, abs_of_nonneg hd]
          · simpa using hd
        · rw [if_neg hxb]
          refine List.Forall₂.cons ?_ (ih b b l hl' (.inl rfl))
          rcases hx with rfl | rfl
          · simpa using hd
          · rw [add_sub_cancel_left, abs_of_nonneg hd]
  cases ts with
  | nil => unfold dedupe; exact List.Forall₂.nil
  | cons a l => exact key _ a a l rfl (.inl rfl)

/-- **C32.** Strictly increasing times are left alone. -/
theorem dedupe_of_strict (store : ℝ → ℝ) (d : ℝ) {ts : List ℝ} (h : ts.Pairwise (· < ·)) :
    dedupe store d ts = ts := by
  induction ts with
  | nil => unfold dedupe; rfl
  | cons a l ih =>
    rw [List.pairwise_cons] at h
    cases l with
    | nil => unfold dedupe; rfl
    | cons b l =>
      unfold dedupe
      rw [if_neg (h.1 b (by simp)).ne, ih h.2]

/-- **C32.** A time may be given twice, to describe a jump of the power: the adjusted times are strictly
increasing if no time occurs three times in a row and different times are more than two shifts apart. -/
theorem dedupe_strict {d : ℝ} (hd : 0 < d) {ts : List ℝ}
    (hgap : ts.Pairwise (fun a b => a = b ∨ 2 * d < b - a)) (hcount : ∀ a, ts.count a ≤ 2) :
    (dedupe id d ts).Pairwise (· < ·) := by
  -- `x` is the head: original, or moved up from `a` (and then `a` does not occur again)
  have key : ∀ n, ∀ (x a : ℝ) (l : List ℝ), l.length = n → (a :: l).Pairwise (fun a b => a = b ∨ 2 * d < b - a) →
      (∀ c, l.count c ≤ 2) → ((x = a ∧ l.count a ≤ 1) ∨ (x = a + d ∧ l.count a = 0)) →
      (dedupe id d (x :: l)).Pairwise (· < ·) ∧ ∀ c ∈ dedupe id d (x :: l), a - d ≤ c ∧ (x = a + d → x ≤ c) := by
    intro n
    induction n with
    | zero =>
      intro x a l hl _ _ hx
      obtain rfl := List.length_eq_zero_iff.1 hl
      unfold dedupe
      refine ⟨List.pairwise_singleton _ _, ?_⟩
      intro c hc
      rw [List.mem_singleton] at hc
      subst hc
      rcases hx with ⟨rfl, -⟩ | ⟨rfl, -⟩
      · exact ⟨by linarith, fun _ => le_rfl⟩
      · exact ⟨by linarith, fun _ => le_rfl⟩
    | succ n ih =>
      intro x a l hl hg hcnt hx
      cases l with
      | nil => simp at hl
      | cons b l =>
        have hl' : l.length = n := by simpa using hl
        rw [List.pairwise_cons] at hg
        have hcl : ∀ c, l.count c ≤ 2 := fun c => (List.count_le_count_cons).trans (hcnt c)
        have hbb : l.count b ≤ 1 := by
          have := hcnt b
          rw [List.count_cons_self] at this; omega
        have hab := hg.1 b (by simp)
        unfold dedupe
        by_cases hxb : x = b
        · rw [if_pos hxb]
          simp only [id]
          -- then the head is original
          have hxa : x = a ∧ b = a := by
            rcases hx with ⟨h1, h2⟩ | ⟨h1, h2⟩
            · exact ⟨h1, by rw [← hxb, h1]⟩
            · exfalso
              rcases hab with h3 | h3
              · rw [← h3, List.count_cons_self] at h2; omega
              · linarith
          obtain ⟨rfl, rfl⟩ := hxa
          have hb0 : l.count b = 0 := by
            rcases hx with ⟨-, h2⟩ | ⟨h1, -⟩
            · rw [List.count_cons_self] at h2; omega
            · linarith
          obtain ⟨i1, i2⟩ := ih (b + d) b l hl' hg.2 hcl (.inr ⟨rfl, hb0⟩)
          refine ⟨List.pairwise_cons.2 ⟨fun c hc => ?_, i1⟩, fun c hc => ?_⟩
          · have := (i2 c hc).2 rfl; linarith
          · refine ⟨?_, fun h => by linarith⟩
            rcases List.mem_cons.1 hc with rfl | hc
            · exact le_rfl
            · have := (i2 c hc).1; linarith
        · rw [if_neg hxb]
          have hba : 2 * d < b - a := by
            rcases hab with h3 | h3
            · exfalso
              rcases hx with ⟨h1, -⟩ | ⟨-, h2⟩
              · exact hxb (h1.trans h3)
              · rw [h3, List.count_cons_self] at h2; omega
            · exact h3
          obtain ⟨i1, i2⟩ := ih b b l hl' hg.2 hcl (.inl ⟨rfl, hbb⟩)
          have hx' : x ≤ a + d ∧ a - d ≤ x := by
            rcases hx with ⟨h1, -⟩ | ⟨h1, -⟩ <;> constructor <;> linarith
          refine ⟨List.pairwise_cons.2 ⟨fun c hc => ?_, i1⟩, fun c hc => ?_⟩
          · have := (i2 c hc).1; linarith
          · rcases List.mem_cons.1 hc with rfl | hc
            · exact ⟨hx'.2, fun _ => le_rfl⟩
            · have := (i2 c hc).1
              exact ⟨by linarith, fun h => by linarith⟩
  cases ts with
  | nil => unfold dedupe; exact List.Pairwise.nil
  | cons a l =>
    refine (key _ a a l rfl hgap (fun c => (List.count_le_count_cons).trans (hcount c)) (.inl ⟨rfl, ?_⟩)).1
    have := hcount a
    rw [List.count_cons_self] at this; omega

/-- **C32.** A time given three times in a row is always rejected. -/
theorem triple_rejected {tEnd : ℝ} (hT : 0 < tEnd) (l₁ l₂ : List ℝ) (a : ℝ) :
    powerTimes id tEnd (l₁ ++ a :: a :: a :: l₂) = none := by
  have hd : (0 : ℝ) < 0.00001 * tEnd := by positivity
  generalize hdd : 0.00001 * tEnd = d at hd
  -- what follows a head that exceeds the next time
  have down : ∀ (x b : ℝ) (l : List ℝ), b < x → ¬ (dedupe id d (x :: b :: l)).Pairwise (· ≤ ·) := by
    intro x b l hbx hp
    unfold dedupe at hp
    rw [if_neg hbx.ne', List.pairwise_cons] at hp
    have : ∃ c ∈ dedupe id d (b :: l), c ≤ b := by
      cases l with
      | nil => exact ⟨b, by unfold dedupe; simp, le_rfl⟩
      | cons e l =>
        unfold dedupe
        by_cases hbe : b = e
        · rw [if_pos hbe]; exact ⟨b - d, by simp, by linarith⟩
        · rw [if_neg hbe]; exact ⟨b, by simp, le_rfl⟩
    obtain ⟨c, hc, hcb⟩ := this
    have := hp.1 c hc
    linarith
  have key : ∀ (l₁ : List ℝ) (x e : ℝ), (x = e ∨ x = e + d) → ¬ (dedupe id d (x :: (l₁ ++ a :: a :: a :: l₂))).Pairwise (· ≤ ·) := by
    intro l₁
    have base : ∀ x, (x = a ∨ x = a + d) → ¬ (dedupe id d (x :: a :: a :: l₂)).Pairwise (· ≤ ·) := by
      rintro x (rfl | rfl) hp
      · unfold dedupe at hp
        rw [if_pos rfl] at hp
        exact down _ _ _ (by simp only [id]; linarith) (List.pairwise_cons.1 hp).2
      · exact down _ _ _ (by linarith) hp
    induction l₁ with
    | nil =>
      intro x e hx hp
      simp only [List.nil_append] at hp
      unfold dedupe at hp
      by_cases h : x = a
      · rw [if_pos h, List.pairwise_cons] at hp
        exact base _ (.inr rfl) hp.2
      · rw [if_neg h, List.pairwise_cons] at hp
        exact base a (.inl rfl) hp.2
    | cons b l₁ ih =>
      intro x e hx hp
      simp only [List.cons_append] at hp
      unfold dedupe at hp
      by_cases h : x = b
      · rw [if_pos h, List.pairwise_cons] at hp
        exact ih (b + d) b (.inr rfl) hp.2
      · rw [if_neg h, List.pairwise_cons] at hp
        exact ih b b (.inl rfl) hp.2
  have hno : ¬ (dedupe id d (l₁ ++ a :: a :: a :: l₂)).Pairwise (· ≤ ·) := by
    cases l₁ with
    | nil =>
      intro hp
      simp only [List.nil_append] at hp
      unfold dedupe at hp
      rw [if_pos rfl] at hp
      exact down _ _ _ (by simp only [id]; linarith) (List.pairwise_cons.1 hp).2
    | cons b l₁ => exact key l₁ b b (.inl rfl)
  unfold powerTimes
  simp only [hdd]
  rw [if_neg (fun h => hno h.1)]

/-- **C32.** For accepted times, the power is continuous, stays within the prescribed values, and the times
cover the whole simulation. -/
theorem power_accepted {store : ℝ → ℝ} {tEnd : ℝ} {ts ts' values : List ℝ}
    (h : powerTimes store tEnd ts = some ts') (hlen : ts'.length = values.length) :
    Continuous (powerExt ts' values) ∧
    (∀ lo hi, (∀ v ∈ values, lo ≤ v ∧ v ≤ hi) → ∀ t, lo ≤ powerExt ts' values t ∧ powerExt ts' values t ≤ hi) ∧
    (∀ (i : ℕ) (a v : ℝ), ts'[i]? = some a → values[i]? = some v → powerExt ts' values a = v) ∧
    (∃ a b, ts'.head? = some a ∧ ts'.getLast? = some b ∧ a ≤ 0 ∧ tEnd ≤ b) := by
  unfold powerTimes at h
  simp only at h
  by_cases hc : (dedupe store (0.00001 * tEnd) ts).Pairwise (· ≤ ·) ∧
      (dedupe store (0.00001 * tEnd) ts).Nodup ∧
      (∃ a, (dedupe store (0.00001 * tEnd) ts).head? = some a ∧ a ≤ 0) ∧
      (∃ b, (dedupe store (0.00001 * tEnd) ts).getLast? = some b ∧ tEnd ≤ b)
  · rw [if_pos hc] at h
    cases h
    generalize dedupe store (0.00001 * tEnd) ts = us at *
    obtain ⟨h1, h2, ⟨a, ha, ha'⟩, ⟨b, hb, hb'⟩⟩ := hc
    have hstrict : us.Pairwise (· < ·) := (h1.and h2).imp (fun ⟨h, h'⟩ => lt_of_le_of_ne h h')
    have hz : (us.zip values).Pairwise (fun p q => p.1 < q.1) := by
      have : ((us.zip values).map Prod.fst).Pairwise (· < ·) := by
        rw [List.map_fst_zip hlen.le]; exact hstrict
      rwa [List.pairwise_map] at this
    refine ⟨interp_continuous hz, fun lo hi hv t => ?_, fun i a v h3 h4 => ?_, ⟨a, b, ha, hb, ha', hb'⟩⟩
    · refine interp_bounds ?_ (fun p hp => hv p.2 (List.of_mem_zip hp).2) t
      cases us with
      | nil => simp at ha
      | cons u us =>
        cases values with
        | nil => simp at hlen
        | cons v vs => simp
    · refine interp_hits hz (a, v) ?_
      refine List.mem_of_getElem? (i := i) ?_
      rw [List.getElem?_zip_eq_some]
      exact ⟨h3, h4⟩
  · rw [if_neg hc] at h; cases h

/-- a power step at t = 5 is accepted: the hypotheses of `dedupe_strict` hold -/
example : (dedupe id 0.0001 [0, 5, 5, 11]).Pairwise (· < ·) := by
  refine dedupe_strict (by norm_num) ?_ (fun a => ?_)
  · simp only [List.pairwise_cons]
    norm_num
  · simp only [List.count_cons, List.count_nil]
    by_cases h0 : (0 : ℝ) == a <;> by_cases h5 : (5 : ℝ) == a <;> by_cases h11 : (11 : ℝ) == a <;> simp_all <;> linarith

/-- truncation towards zero of non-negative numbers, as happens in an array of integers -/
noncomputable def trunc (x : ℝ) : ℝ := (⌊x⌋ : ℤ)

/-- Finding: if the times are given as integers the adjustment moves a time by a whole unit; the power step
at t = 5 becomes a ramp between 4 and 5. -/
theorem dedupe_int : dedupe trunc 0.0001 [0, 5, 5, 11] = [0, 4, 5, 11] := by
  have h1 : trunc (5 - 0.0001) = 4 := by
    unfold trunc
    have : ⌊(5 - 0.0001 : ℝ)⌋ = 4 := by rw [Int.floor_eq_iff]; norm_num
    rw [this]; norm_num
  have h2 : trunc (5 + 0.0001) = 5 := by
    unfold trunc
    have : ⌊(5 + 0.0001 : ℝ)⌋ = 5 := by rw [Int.floor_eq_iff]; norm_num
    rw [this]; norm_num
  unfold dedupe; rw [if_neg (by norm_num)]
  unfold dedupe; rw [if_pos rfl, h1, h2]
  unfold dedupe; rw [if_neg (by norm_num)]
  unfold dedupe; rfl

end Verif.Pygmol
