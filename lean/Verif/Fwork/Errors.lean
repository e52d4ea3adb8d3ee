/-
Model of pygmo_fwork/optichem/errors.py, class SolutionsDiff (C41).

Numbers are real (rounding is not modelled). `scipy.interpolate.interp1d` with its defaults is modelled for at least
two sorted times. Where a denominator is zero the code goes on with `nan` or `inf`; the model stops with `.nan`.
-/
import Mathlib.Analysis.SpecialFunctions.Pow.NNReal
import Mathlib.Data.List.MinMax
import Mathlib.Algebra.Order.BigOperators.Group.List
import Mathlib.Tactic.Linarith
import Mathlib.Tactic.Ring
import Mathlib.Tactic.FieldSimp
import Mathlib.Tactic.NormNum

namespace Verif.Fwork

/-- a solution: times and the other columns by name -/
structure Sol where
  t : List ℝ
  col : String → Option (List ℝ)

inductive ErrErr where
  | assertion
  /-- not an error of the code: division by zero, or a solution with less than two rows -/
  | nan
  /-- `max` or `.iloc` of an empty sequence -/
  | empty
deriving DecidableEq

/-- scipy `interp1d(xs, ys)(x)` for sorted `xs`: the segment that ends at the first grid point that is not below `x`
(the first segment for the first point itself). -/
noncomputable def interp : List ℝ → List ℝ → ℝ → Option ℝ
  | x₀ :: x₁ :: xs, y₀ :: y₁ :: ys, x =>
    if x ≤ x₁ ∨ xs = [] then
      if x₁ - x₀ = 0 then none else some ((y₁ - y₀) / (x₁ - x₀) * (x - x₀) + y₀)
    else interp (x₁ :: xs) (y₁ :: ys) x
  | _, _, _ => none

/-- errors.py:40-52 `_get_result_in_time` -/
noncomputable def resultInTime (s : Sol) (out : String) (time : ℝ) : Except ErrErr ℝ :=
  match s.col out with
  | none => .error .assertion
  | some ys =>
    match s.t.head?, s.t.getLast? with
    | some a, some b =>
      if a ≤ time ∧ time ≤ b then
        match interp s.t ys time with
        | none => .error .nan
        | some v => .ok v
      else .error .assertion
    | _, _ => .error .empty

/-- list comprehensions that may fail -/
def mapE {A B : Type} (f : A → Except ErrErr B) : List A → Except ErrErr (List B)
  | [] => .ok []
  | a :: l =>
    match f a with
    | .error e => .error e
    | .ok b =>
      match mapE f l with
      | .error e => .error e
      | .ok bs => .ok (b :: bs)

/-- Python's `max` of a list of numbers -/
noncomputable def maxOf : List ℝ → Except ErrErr ℝ
  | [] => .error .empty
  | x :: l => .ok (l.foldl max x)

/-- errors.py:68: one entry of `2*(vals_red - vals_full) / (vals_full + max(vals_full))` -/
noncomputable def relErr (m : ℝ) (p : ℝ × ℝ) : Except ErrErr ℝ :=
  if p.2 + m = 0 then .error .nan else .ok (2 * (p.1 - p.2) / (p.2 + m))

/-- errors.py:54-69 `get_output_errors` -/
noncomputable def outputErrors (full red : Sol) (out : String) (times : List ℝ) : Except ErrErr (List ℝ) :=
  match mapE (resultInTime full out) times with
  | .error e => .error e
  | .ok vf =>
    match mapE (resultInTime red out) times with
    | .error e => .error e
    | .ok vr =>
      match maxOf vf with
      | .error e => .error e
      | .ok m => mapE (relErr m) (vr.zip vf)

/-- errors.py:71-78 `get_output_error_max` -/
noncomputable def outputErrorMax (full red : Sol) (times : List ℝ) (out : String) : Except ErrErr ℝ :=
  match outputErrors full red out times with
  | .error e => .error e
  | .ok l => maxOf (l.map fun x => |x|)

/-- errors.py:26-28 `_array_rms` -/
noncomputable def rms (l : List ℝ) : Except ErrErr ℝ :=
  if l = [] then .error .empty else .ok (Real.sqrt ((l.map fun x => x ^ 2).sum / l.length))

/-- errors.py:80-87 `get_output_error_rms` -/
noncomputable def outputErrorRms (full red : Sol) (times : List ℝ) (out : String) : Except ErrErr ℝ :=
  match outputErrors full red out times with
  | .error e => .error e
  | .ok l => rms l

/-- errors.py:89-97 `get_error_max` -/
noncomputable def errorMax (full red : Sol) (outs : List String) (times : List ℝ) : Except ErrErr ℝ :=
  match mapE (outputErrorMax full red times) outs with
  | .error e => .error e
  | .ok l => maxOf l

/-- errors.py:99-108 `get_error_rms` -/
noncomputable def errorRms (full red : Sol) (outs : List String) (times : List ℝ) : Except ErrErr ℝ :=
  match mapE (outputErrorRms full red times) outs with
  | .error e => .error e
  | .ok l => rms l

/-! ### lemmas -/

theorem mapE_ok {A B : Type} {f : A → Except ErrErr B} {l : List A} {bs : List B} :
    mapE f l = .ok bs ↔ List.Forall₂ (fun a b => f a = .ok b) l bs := by
  induction l generalizing bs with
  | nil => simp [mapE, eq_comm]
  | cons a l ih =>
    rw [mapE, List.forall₂_cons_left_iff]
    cases hf : f a with
    | error e => simp
    | ok b =>
      simp only
      cases hm : mapE f l with
      | error e =>
        simp only [reduceCtorEq, Except.ok.injEq, false_iff]
        rintro ⟨b', u, -, h, -⟩
        rw [← ih, hm] at h
        cases h
      | ok bs' =>
        simp only [Except.ok.injEq]
        constructor
        · rintro rfl
          exact ⟨b, bs', rfl, ih.1 hm, rfl⟩
        · rintro ⟨b', u, rfl, h, rfl⟩
          rw [← ih, hm] at h
          cases h
          rfl

theorem foldl_max_spec (l : List ℝ) : ∀ x : ℝ, (l.foldl max x = x ∨ l.foldl max x ∈ l) ∧ x ≤ l.foldl max x ∧
    ∀ y ∈ l, y ≤ l.foldl max x := by
  induction l with
  | nil => intro x; simp
  | cons z l ih =>
    intro x
    obtain ⟨h1, h2, h3⟩ := ih (max x z)
    rw [List.foldl_cons]
    refine ⟨?_, (le_max_left _ _).trans h2, ?_⟩
    · rcases h1 with h1 | h1
      · rw [h1]
        rcases max_choice x z with h | h
        · exact Or.inl h
        · rw [h]; exact Or.inr (List.mem_cons_self ..)
      · exact Or.inr (List.mem_cons_of_mem _ h1)
    · intro y hy
      rcases List.mem_cons.1 hy with rfl | hy
      · exact (le_max_right _ _).trans h2
      · exact h3 y hy

theorem maxOf_ok {l : List ℝ} {m : ℝ} : maxOf l = .ok m ↔ m ∈ l ∧ ∀ y ∈ l, y ≤ m := by
  cases l with
  | nil => simp [maxOf]
  | cons x l =>
    obtain ⟨h1, h2, h3⟩ := foldl_max_spec l x
    have hm : l.foldl max x ∈ x :: l := by
      rcases h1 with h1 | h1
      · rw [h1]; exact List.mem_cons_self ..
      · exact List.mem_cons_of_mem _ h1
    have hle : ∀ y ∈ x :: l, y ≤ l.foldl max x := by
      intro y hy
      rcases List.mem_cons.1 hy with rfl | hy
      · exact h2
      · exact h3 y hy
    rw [maxOf]
    simp only [Except.ok.injEq]
    constructor
    · rintro rfl; exact ⟨hm, hle⟩
    · rintro ⟨h4, h5⟩; exact le_antisymm (h5 _ hm) (hle _ h4)

theorem maxOf_exists {l : List ℝ} (h : l ≠ []) : ∃ m, maxOf l = .ok m := by
  cases l with
  | nil => exact absurd rfl h
  | cons x l => exact ⟨_, rfl⟩

/-! ### specification -/

/-- value of an output at a time, on the straight line between two consecutive rows of the solution -/
def ValueAt (s : Sol) (out : String) (time v : ℝ) : Prop :=
  ∃ ys, s.col out = some ys ∧ ∃ i x₀ x₁ y₀ y₁, s.t[i]? = some x₀ ∧ s.t[i + 1]? = some x₁ ∧
    ys[i]? = some y₀ ∧ ys[i + 1]? = some y₁ ∧ x₀ < x₁ ∧ x₀ ≤ time ∧ time ≤ x₁ ∧
    v = y₀ + (y₁ - y₀) * ((time - x₀) / (x₁ - x₀))

theorem interp_ok : ∀ (xs ys : List ℝ) (x a b : ℝ), xs.length = ys.length → 2 ≤ xs.length →
    xs.Pairwise (· < ·) → xs.head? = some a → xs.getLast? = some b → a ≤ x → x ≤ b →
    ∃ v, interp xs ys x = some v ∧ ∃ (i : ℕ) (x₀ x₁ y₀ y₁ : ℝ), xs[i]? = some x₀ ∧ xs[i + 1]? = some x₁ ∧
      ys[i]? = some y₀ ∧ ys[i + 1]? = some y₁ ∧ x₀ < x₁ ∧ x₀ ≤ x ∧ x ≤ x₁ ∧
      v = y₀ + (y₁ - y₀) * ((x - x₀) / (x₁ - x₀))
  | [], _, _, _, _, _, h, _, _, _, _, _ => by simp at h
  | [_], _, _, _, _, _, h, _, _, _, _, _ => by simp at h
  | x₀ :: x₁ :: xs, [], _, _, _, h, _, _, _, _, _, _ => by simp at h
  | x₀ :: x₁ :: xs, [_], _, _, _, h, _, _, _, _, _, _ => by simp at h
  | x₀ :: x₁ :: xs, y₀ :: y₁ :: ys, x, a, b, hlen, _, hp, ha, hb, hax, hxb => by
    simp only [List.head?_cons, Option.some.injEq] at ha
    subst ha
    have h01 : x₀ < x₁ := (List.pairwise_cons.1 hp).1 x₁ (List.mem_cons_self ..)
    rw [interp]
    by_cases h : x ≤ x₁ ∨ xs = []
    · rw [if_pos h, if_neg (by linarith)]
      have hx1 : x ≤ x₁ := by
        rcases h with h | rfl
        · exact h
        · simp at hb; linarith
      refine ⟨_, rfl, 0, x₀, x₁, y₀, y₁, rfl, rfl, rfl, rfl, h01, hax, hx1, ?_⟩
      have : x₁ - x₀ ≠ 0 := by linarith
      field_simp
      ring
    · rw [if_neg h]
      push Not at h
      have h2 : 2 ≤ (x₁ :: xs).length := by
        have := List.length_pos_iff.2 h.2
        simp only [List.length_cons]
        omega
      obtain ⟨v, e, i, p⟩ := interp_ok (x₁ :: xs) (y₁ :: ys) x x₁ b (by simpa using hlen) h2
        (List.pairwise_cons.1 hp).2 rfl (by rw [List.getLast?_cons_cons] at hb; exact hb) h.1.le hxb
      exact ⟨v, e, i + 1, p⟩

/-- A solution with at least two rows and strictly increasing times. -/
structure Sol.Valid (s : Sol) (outs : List String) (times : List ℝ) : Prop where
  two : 2 ≤ s.t.length
  increasing : s.t.Pairwise (· < ·)
  cols : ∀ out ∈ outs, ∃ ys, s.col out = some ys ∧ ys.length = s.t.length
  range : ∀ time ∈ times, ∃ a b, s.t.head? = some a ∧ s.t.getLast? = some b ∧ a ≤ time ∧ time ≤ b

theorem resultInTime_ok {s : Sol} {outs : List String} {times : List ℝ} (h : s.Valid outs times) {out : String}
    (ho : out ∈ outs) {time : ℝ} (ht : time ∈ times) :
    ∃ v, resultInTime s out time = .ok v ∧ ValueAt s out time v := by
  obtain ⟨ys, hy, hlen⟩ := h.cols out ho
  obtain ⟨a, b, ha, hb, hat, htb⟩ := h.range time ht
  obtain ⟨v, e, i, p⟩ := interp_ok s.t ys time a b hlen.symm h.two h.increasing ha hb hat htb
  exact ⟨v, by simp only [resultInTime, hy, ha, hb, if_pos (And.intro hat htb), e], ys, hy, i, p⟩

/-- two columns with the same values at all times and the same time grid -/
theorem resultInTime_unique {s : Sol} {out : String} {time v v' : ℝ} (h : resultInTime s out time = .ok v)
    (h' : resultInTime s out time = .ok v') : v = v' := by
  rw [h] at h'
  cases h'
  rfl

/-! ### C41 -/

/-- the values of an output, and the errors, at a list of times -/
structure ErrData (full red : Sol) (out : String) (times : List ℝ) (vf vr errs : List ℝ) (m : ℝ) : Prop where
  full : List.Forall₂ (fun t v => resultInTime full out t = .ok v) times vf
  red : List.Forall₂ (fun t v => resultInTime red out t = .ok v) times vr
  max : maxOf vf = .ok m
  errs : List.Forall₂ (fun (p : ℝ × ℝ) e => p.2 + m ≠ 0 ∧ e = 2 * (p.1 - p.2) / (p.2 + m)) (vr.zip vf) errs

theorem outputErrors_ok {full red : Sol} {out : String} {times errs : List ℝ} :
    outputErrors full red out times = .ok errs ↔ ∃ vf vr m, ErrData full red out times vf vr errs m := by
  unfold outputErrors
  constructor
  · intro h
    cases hf : mapE (resultInTime full out) times with
    | error e => rw [hf] at h; cases h
    | ok vf =>
      rw [hf] at h
      simp only at h
      cases hr : mapE (resultInTime red out) times with
      | error e => rw [hr] at h; cases h
      | ok vr =>
        rw [hr] at h
        simp only at h
        cases hm : maxOf vf with
        | error e => rw [hm] at h; cases h
        | ok m =>
          rw [hm] at h
          simp only at h
          refine ⟨vf, vr, m, mapE_ok.1 hf, mapE_ok.1 hr, hm, (mapE_ok.1 h).imp fun p e he => ?_⟩
          unfold relErr at he
          split at he
          · cases he
          · next hne => cases he; exact ⟨hne, rfl⟩
  · rintro ⟨vf, vr, m, h1, h2, h3, h4⟩
    rw [mapE_ok.2 h1, mapE_ok.2 h2]
    simp only [h3]
    refine mapE_ok.2 (h4.imp fun p e he => ?_)
    unfold relErr
    rw [if_neg he.1, he.2]

theorem forall₂_mem_left {A B : Type} {P : A → B → Prop} {l : List A} {l' : List B} (h : List.Forall₂ P l l')
    {a : A} (ha : a ∈ l) : ∃ b ∈ l', P a b := by
  induction h with
  | nil => cases ha
  | cons hp _ ih =>
    rcases List.mem_cons.1 ha with rfl | ha
    · exact ⟨_, List.mem_cons_self .., hp⟩
    · obtain ⟨b, hb, hp⟩ := ih ha
      exact ⟨b, List.mem_cons_of_mem _ hb, hp⟩

theorem forall₂_mem_right {A B : Type} {P : A → B → Prop} {l : List A} {l' : List B} (h : List.Forall₂ P l l')
    {b : B} (hb : b ∈ l') : ∃ a ∈ l, P a b := by
  induction h with
  | nil => cases hb
  | cons hp _ ih =>
    rcases List.mem_cons.1 hb with rfl | hb
    · exact ⟨_, List.mem_cons_self .., hp⟩
    · obtain ⟨a, ha, hp⟩ := ih hb
      exact ⟨a, List.mem_cons_of_mem _ ha, hp⟩

/-- all errors at one time -/
theorem errData_at {full red : Sol} {out : String} {times vf vr errs : List ℝ} {m : ℝ}
    (h : ErrData full red out times vf vr errs m) {t : ℝ} (ht : t ∈ times) :
    ∃ f r e, resultInTime full out t = .ok f ∧ resultInTime red out t = .ok r ∧ f ∈ vf ∧ e ∈ errs ∧ f + m ≠ 0 ∧
      e = 2 * (r - f) / (f + m) := by
  obtain ⟨h1, h2, -, h4⟩ := h
  induction times generalizing vf vr errs with
  | nil => cases ht
  | cons t' times ih =>
    cases h1 with
    | cons a1 b1 =>
      cases h2 with
      | cons a2 b2 =>
        cases h4 with
        | cons a4 b4 =>
          rcases List.mem_cons.1 ht with rfl | ht
          · exact ⟨_, _, _, a1, a2, List.mem_cons_self .., List.mem_cons_self .., a4.1, a4.2⟩
          · obtain ⟨f, r, e, p1, p2, p3, p4, p5⟩ := ih ht b1 b2 b4
            exact ⟨f, r, e, p1, p2, List.mem_cons_of_mem _ p3, List.mem_cons_of_mem _ p4, p5⟩

theorem errData_from {full red : Sol} {out : String} {times vf vr errs : List ℝ} {m : ℝ}
    (h : ErrData full red out times vf vr errs m) {e : ℝ} (he : e ∈ errs) :
    ∃ t ∈ times, ∃ f r, resultInTime full out t = .ok f ∧ resultInTime red out t = .ok r ∧ f ∈ vf ∧ f + m ≠ 0 ∧
      e = 2 * (r - f) / (f + m) := by
  obtain ⟨h1, h2, -, h4⟩ := h
  induction times generalizing vf vr errs with
  | nil =>
    cases h1
    cases h2
    cases h4
    cases he
  | cons t' times ih =>
    cases h1 with
    | cons a1 b1 =>
      cases h2 with
      | cons a2 b2 =>
        cases h4 with
        | cons a4 b4 =>
          rcases List.mem_cons.1 he with rfl | he
          · exact ⟨t', List.mem_cons_self .., _, _, a1, a2, List.mem_cons_self .., a4.1, a4.2⟩
          · obtain ⟨t, ht, f, r, p1, p2, p3, p4⟩ := ih he b1 b2 b4
            exact ⟨t, List.mem_cons_of_mem _ ht, f, r, p1, p2, List.mem_cons_of_mem _ p3, p4⟩

/-- The errors can be computed for valid solutions if the full solution is non-negative and not zero at all times
considered. -/
theorem errors_exist {full red : Sol} {outs : List String} {times : List ℝ} (hf : full.Valid outs times)
    (hr : red.Valid outs times) {out : String} (ho : out ∈ outs)
    (hpos : (∀ t ∈ times, ∀ v, resultInTime full out t = .ok v → 0 ≤ v) ∧
      ∃ t ∈ times, ∃ v, resultInTime full out t = .ok v ∧ 0 < v) :
    ∃ errs, outputErrors full red out times = .ok errs ∧ errs ≠ [] := by
  have hall : ∀ (s : Sol), s.Valid outs times → ∀ l : List ℝ, (∀ t ∈ l, t ∈ times) →
      ∃ vs, List.Forall₂ (fun t v => resultInTime s out t = .ok v) l vs := by
    intro s hs l
    induction l with
    | nil => intro _; exact ⟨[], .nil⟩
    | cons t l ih =>
      intro hl
      obtain ⟨v, hv, -⟩ := resultInTime_ok hs ho (hl t (List.mem_cons_self ..))
      obtain ⟨vs, hvs⟩ := ih fun t ht => hl t (List.mem_cons_of_mem _ ht)
      exact ⟨v :: vs, .cons hv hvs⟩
  obtain ⟨vf, hvf⟩ := hall full hf times fun _ h => h
  obtain ⟨vr, hvr⟩ := hall red hr times fun _ h => h
  obtain ⟨hnn, t₁, ht₁, v₁, hv₁, hv₁pos⟩ := hpos
  obtain ⟨v₁', hv₁mem, hv₁'⟩ := forall₂_mem_left hvf ht₁
  obtain ⟨m, hm⟩ := maxOf_exists (l := vf) (List.ne_nil_of_mem hv₁mem)
  have hmpos : 0 < m := by
    rw [resultInTime_unique hv₁ hv₁'] at hv₁pos
    exact hv₁pos.trans_le ((maxOf_ok.1 hm).2 _ hv₁mem)
  have hden : ∀ v ∈ vf, v + m ≠ 0 := by
    intro v hv
    obtain ⟨t, ht, hvt⟩ := forall₂_mem_right hvf hv
    have := hnn t ht v hvt
    linarith
  have herr : ∀ (l : List (ℝ × ℝ)), (∀ p ∈ l, p.2 ∈ vf) → ∃ errs, List.Forall₂ (fun (p : ℝ × ℝ) e =>
      p.2 + m ≠ 0 ∧ e = 2 * (p.1 - p.2) / (p.2 + m)) l errs := by
    intro l
    induction l with
    | nil => intro _; exact ⟨[], .nil⟩
    | cons p l ih =>
      intro hl
      obtain ⟨es, hes⟩ := ih fun p hp => hl p (List.mem_cons_of_mem _ hp)
      exact ⟨_ :: es, .cons ⟨hden _ (hl p (List.mem_cons_self ..)), rfl⟩ hes⟩
  obtain ⟨errs, herrs⟩ := herr (vr.zip vf) fun p hp => (List.of_mem_zip hp).2
  refine ⟨errs, outputErrors_ok.2 ⟨vf, vr, m, hvf, hvr, hm, herrs⟩, ?_⟩
  rintro rfl
  have h1 := herrs.length_eq
  have h2 := hvf.length_eq
  have h3 := hvr.length_eq
  have h4 : 0 < times.length := List.length_pos_iff.2 (List.ne_nil_of_mem ht₁)
  simp only [List.length_zip, List.length_nil] at h1
  omega

/-- relation between outputs and overall error -/
theorem errorMax_ok {full red : Sol} {outs : List String} {times : List ℝ} {x : ℝ}
    (h : errorMax full red outs times = .ok x) :
    (∃ out ∈ outs, ∃ errs, outputErrors full red out times = .ok errs ∧ ∃ e ∈ errs, |e| = x) ∧
    ∀ out ∈ outs, ∃ errs, outputErrors full red out times = .ok errs ∧ ∀ e ∈ errs, |e| ≤ x := by
  unfold errorMax at h
  cases hm : mapE (outputErrorMax full red times) outs with
  | error e => rw [hm] at h; cases h
  | ok l =>
    rw [hm] at h
    simp only at h
    obtain ⟨h1, h2⟩ := maxOf_ok.1 h
    have hall := mapE_ok.1 hm
    have hone : ∀ out y, outputErrorMax full red times out = .ok y →
        ∃ errs, outputErrors full red out times = .ok errs ∧ (∃ e ∈ errs, |e| = y) ∧ ∀ e ∈ errs, |e| ≤ y := by
      intro out y hy
      unfold outputErrorMax at hy
      cases he : outputErrors full red out times with
      | error e => rw [he] at hy; cases hy
      | ok errs =>
        rw [he] at hy
        obtain ⟨h3, h4⟩ := maxOf_ok.1 hy
        obtain ⟨e, hem, hey⟩ := List.mem_map.1 h3
        exact ⟨errs, rfl, ⟨e, hem, hey⟩, fun e he => h4 _ (List.mem_map.2 ⟨e, he, rfl⟩)⟩
    constructor
    · obtain ⟨out, ho, hy⟩ := forall₂_mem_right hall h1
      obtain ⟨errs, e1, e2, -⟩ := hone out x hy
      exact ⟨out, ho, errs, e1, e2⟩
    · intro out ho
      obtain ⟨y, hyl, hy⟩ := forall₂_mem_left hall ho
      obtain ⟨errs, e1, -, e3⟩ := hone out y hy
      exact ⟨errs, e1, fun e he => (e3 e he).trans (h2 y hyl)⟩

/-- **C41.** What a bound on the error means. If the maximal error is `x`, then at every time considered every output
of the reduced solution differs from the full one by at most `x` times the mean of the full value and its maximum; so,
for non-negative values, by at most `x` times that maximum. -/
theorem error_max_bounds {full red : Sol} {outs : List String} {times : List ℝ} {x : ℝ}
    (h : errorMax full red outs times = .ok x) {out : String} (ho : out ∈ outs)
    (hnn : ∀ t ∈ times, ∀ v, resultInTime full out t = .ok v → 0 ≤ v) :
    ∃ m, (∃ t ∈ times, resultInTime full out t = .ok m) ∧
      (∀ t ∈ times, ∀ v, resultInTime full out t = .ok v → v ≤ m) ∧
      ∀ t ∈ times, ∀ f r, resultInTime full out t = .ok f → resultInTime red out t = .ok r →
        |r - f| ≤ x * ((f + m) / 2) ∧ |r - f| ≤ x * m := by
  obtain ⟨errs, e1, e2⟩ := (errorMax_ok h).2 out ho
  obtain ⟨vf, vr, m, hd⟩ := outputErrors_ok.1 e1
  obtain ⟨hm1, hm2⟩ := maxOf_ok.1 hd.max
  obtain ⟨tm, htm, hvm⟩ := forall₂_mem_right hd.full hm1
  have hle : ∀ t ∈ times, ∀ v, resultInTime full out t = .ok v → v ≤ m := by
    intro t ht v hv
    obtain ⟨v', hv'm, hv'⟩ := forall₂_mem_left hd.full ht
    rw [resultInTime_unique hv hv']
    exact hm2 v' hv'm
  refine ⟨m, ⟨tm, htm, hvm⟩, hle, fun t ht f r hf hr => ?_⟩
  obtain ⟨f', r', e, p1, p2, p3, p4, p5, p6⟩ := errData_at hd ht
  rw [resultInTime_unique hf p1, resultInTime_unique hr p2]
  have hf0 : 0 ≤ f' := hnn t ht f' p1
  have hfm : f' ≤ m := hle t ht f' p1
  have hden : 0 < f' + m := lt_of_le_of_ne (by linarith) (Ne.symm p5)
  have hx0 : 0 ≤ x := (abs_nonneg e).trans (e2 e p4)
  have habs := e2 e p4
  rw [p6, abs_div, abs_mul, abs_of_pos hden, abs_of_pos (by norm_num : (0 : ℝ) < 2), div_le_iff₀ hden] at habs
  have h1 : |r' - f'| ≤ x * ((f' + m) / 2) := by linarith
  exact ⟨h1, h1.trans (mul_le_mul_of_nonneg_left (by linarith) hx0)⟩

/-- **C41.** The maximal error is zero exactly if all outputs agree at all times; in particular the error of a
solution against itself is zero. It is never negative. -/
theorem error_max_zero_iff {full red : Sol} {outs : List String} {times : List ℝ} {x : ℝ}
    (h : errorMax full red outs times = .ok x) : 0 ≤ x ∧ (x = 0 ↔ ∀ out ∈ outs, ∀ t ∈ times, ∀ f r,
      resultInTime full out t = .ok f → resultInTime red out t = .ok r → r = f) := by
  obtain ⟨⟨out₀, ho₀, errs₀, e₀, x₀, hx₀, hxx⟩, hall⟩ := errorMax_ok h
  have hx0 : 0 ≤ x := by rw [← hxx]; exact abs_nonneg _
  refine ⟨hx0, ?_, ?_⟩
  · rintro hx out ho t ht f r hf hr
    obtain ⟨errs, e1, e2⟩ := hall out ho
    obtain ⟨vf, vr, m, hd⟩ := outputErrors_ok.1 e1
    obtain ⟨f', r', e, p1, p2, p3, p4, p5, p6⟩ := errData_at hd ht
    rw [resultInTime_unique hf p1, resultInTime_unique hr p2]
    have h0 := e2 e p4
    rw [hx] at h0
    have he : e = 0 := abs_eq_zero.1 (le_antisymm h0 (abs_nonneg _))
    rw [he, eq_comm, div_eq_zero_iff] at p6
    rcases p6 with h | h
    · linarith
    · exact absurd h p5
  · intro hall'
    rw [← hxx]
    obtain ⟨vf, vr, m, hd⟩ := outputErrors_ok.1 e₀
    obtain ⟨t, ht, f, r, p1, p2, -, -, p5⟩ := errData_from hd hx₀
    rw [hall' out₀ ho₀ t ht f r p1 p2] at p5
    rw [p5]
    simp

theorem mean_sq_le {l : List ℝ} (hl : l ≠ []) {x : ℝ} (h : ∀ e ∈ l, |e| ≤ x) :
    (l.map fun e => e ^ 2).sum / l.length ≤ x ^ 2 := by
  have hlen : (0 : ℝ) < l.length := by exact_mod_cast List.length_pos_iff.2 hl
  rw [div_le_iff₀ hlen]
  clear hl hlen
  induction l with
  | nil => simp
  | cons e l ih =>
    have h1 := ih fun e he => h e (List.mem_cons_of_mem _ he)
    have h2 : e ^ 2 ≤ x ^ 2 := by
      have := h e (List.mem_cons_self ..)
      rw [← sq_abs e]
      exact pow_le_pow_left₀ (abs_nonneg _) this 2
    simp only [List.map_cons, List.sum_cons, List.length_cons]
    push_cast
    linarith

theorem rms_le {l : List ℝ} {x y : ℝ} (hx : 0 ≤ x) (h : ∀ e ∈ l, |e| ≤ x) (hr : rms l = .ok y) : 0 ≤ y ∧ y ≤ x := by
  unfold rms at hr
  split at hr
  · cases hr
  · next hl =>
    cases hr
    refine ⟨Real.sqrt_nonneg _, ?_⟩
    rw [← Real.sqrt_sq hx]
    exact Real.sqrt_le_sqrt (mean_sq_le hl h)

/-- **C41.** The rms error never exceeds the maximal error. -/
theorem error_rms_le_max {full red : Sol} {outs : List String} {times : List ℝ} {x y : ℝ}
    (h : errorMax full red outs times = .ok x) (hr : errorRms full red outs times = .ok y) : 0 ≤ y ∧ y ≤ x := by
  obtain ⟨-, hall⟩ := errorMax_ok h
  have hx0 := (error_max_zero_iff h).1
  unfold errorRms at hr
  cases hm : mapE (outputErrorRms full red times) outs with
  | error e => rw [hm] at hr; cases hr
  | ok l =>
    rw [hm] at hr
    refine rms_le hx0 ?_ hr
    intro e he
    obtain ⟨out, ho, hy⟩ := forall₂_mem_right (mapE_ok.1 hm) he
    obtain ⟨errs, e1, e2⟩ := hall out ho
    unfold outputErrorRms at hy
    rw [e1] at hy
    obtain ⟨h0, h1⟩ := rms_le hx0 e2 hy
    rw [abs_of_nonneg h0]
    exact h1

/-- multiply all columns except the time by a number -/
def Sol.scale (c : ℝ) (s : Sol) : Sol := ⟨s.t, fun out => (s.col out).map (List.map (c * ·))⟩

theorem interp_scale (c : ℝ) : ∀ (xs ys : List ℝ) (x : ℝ),
    interp xs (ys.map (c * ·)) x = (interp xs ys x).map (c * ·)
  | [], _, _ => by simp [interp]
  | [_], _, _ => by simp [interp]
  | _ :: _ :: _, [], _ => by simp [interp]
  | _ :: _ :: _, [_], _ => by simp [interp]
  | x₀ :: x₁ :: xs, y₀ :: y₁ :: ys, x => by
    simp only [List.map_cons]
    rw [interp, interp]
    split
    · split
      · rfl
      · simp only [Option.map_some, Option.some.injEq]
        ring
    · exact interp_scale c (x₁ :: xs) (y₁ :: ys) x

theorem resultInTime_scale (c : ℝ) (s : Sol) (out : String) (t : ℝ) :
    resultInTime (s.scale c) out t = (resultInTime s out t).map (c * ·) := by
  unfold resultInTime Sol.scale
  simp only
  cases s.col out with
  | none => rfl
  | some ys =>
    simp only [Option.map_some]
    cases s.t.head? with
    | none => rfl
    | some a =>
      cases s.t.getLast? with
      | none => rfl
      | some b =>
        simp only
        split
        · rw [interp_scale]
          cases interp s.t ys t <;> rfl
        · rfl

theorem mapE_map {A B : Type} (f f' : A → Except ErrErr B) (g : B → B) (h : ∀ a, f' a = (f a).map g) (l : List A) :
    mapE f' l = (mapE f l).map (List.map g) := by
  induction l with
  | nil => rfl
  | cons a l ih =>
    rw [mapE, mapE, h a, ih]
    cases f a with
    | error e => rfl
    | ok b =>
      simp only [Except.map]
      cases mapE f l <;> rfl

theorem maxOf_scale {c : ℝ} (hc : 0 < c) (l : List ℝ) : maxOf (l.map (c * ·)) = (maxOf l).map (c * ·) := by
  cases h : maxOf l with
  | error e =>
    cases l with
    | nil => simp only [maxOf] at h; cases h; rfl
    | cons x l => cases h
  | ok m =>
    obtain ⟨h1, h2⟩ := maxOf_ok.1 h
    refine maxOf_ok.2 ⟨List.mem_map.2 ⟨m, h1, rfl⟩, ?_⟩
    intro y hy
    obtain ⟨z, hz, rfl⟩ := List.mem_map.1 hy
    exact mul_le_mul_of_nonneg_left (h2 z hz) hc.le

/-- **C41.** All errors are invariant under multiplying both solutions by a positive number (a change of units). -/
theorem errors_scale {c : ℝ} (hc : 0 < c) (full red : Sol) (out : String) (times : List ℝ) :
    outputErrors (full.scale c) (red.scale c) out times = outputErrors full red out times := by
  unfold outputErrors
  rw [mapE_map (resultInTime full out) _ (c * ·) fun t => resultInTime_scale c full out t]
  cases mapE (resultInTime full out) times with
  | error e => rfl
  | ok vf =>
    simp only [Except.map]
    rw [mapE_map (resultInTime red out) _ (c * ·) fun t => resultInTime_scale c red out t]
    cases mapE (resultInTime red out) times with
    | error e => rfl
    | ok vr =>
      simp only [Except.map]
      rw [maxOf_scale hc]
      cases maxOf vf with
      | error e => rfl
      | ok m =>
        simp only [Except.map]
        rw [List.zip_map]
        induction vr.zip vf with
        | nil => rfl
        | cons p l ih =>
          rw [List.map_cons, mapE, mapE, ih]
          have : relErr (c * m) (Prod.map (c * ·) (c * ·) p) = relErr m p := by
            unfold relErr
            simp only [Prod.map_fst, Prod.map_snd]
            have h1 : c * p.2 + c * m = c * (p.2 + m) := by ring
            rw [h1]
            by_cases h : p.2 + m = 0
            · rw [if_pos h, if_pos (by rw [h, mul_zero])]
            · rw [if_neg h, if_neg (mul_ne_zero hc.ne' h)]
              congr 1
              have := hc.ne'
              field_simp
          rw [this]

/-- a valid solution gives an error, so the theorems are not empty -/
example : ∃ x, errorMax ⟨[0, 1], fun _ => some [1, 2]⟩ ⟨[0, 1], fun _ => some [1, 3]⟩ ["e"] [0, 1] = .ok x ∧ x = 1 / 2 := by
  refine ⟨_, ?_, rfl⟩
  norm_num [errorMax, mapE, outputErrorMax, outputErrors, resultInTime, interp, maxOf, relErr]

end Verif.Fwork
