/-
Model of pygmo_fwork/results.py:483-522 `ResultsParser.compress_solution` (C39, C40).

Numbers are elements of any ordered field `R` (in the code floats; rounding is not modelled). Division by zero
gives `inf` or `nan` in the code; both compare false with a threshold.
-/
import Mathlib.Algebra.Order.Field.Basic
import Mathlib.Data.List.Chain
import Mathlib.Data.List.Sort
import Mathlib.Data.Rat.Defs
import Mathlib.Algebra.Order.Field.Rat
import Mathlib.Tactic.Linarith
import Mathlib.Tactic.Ring
import Mathlib.Tactic.Common

namespace Verif.Fwork

/-- One row of a solution: the time and the other columns. -/
structure Row (C R : Type) where
  t : R
  val : C → R

/-- A solution frame: the labels of the index (unique integers) with the rows. -/
abbrev Frame (C R : Type) := List (ℕ × Row C R)

inductive CompressErr where
  /-- `.iloc[-1]` of an empty frame -/
  | index
  /-- `.loc` of a label that does not exist -/
  | key
deriving DecidableEq

section
variable {C R : Type} [Field R] [LinearOrder R]

/-- `full_sol.loc[i]` -/
def Frame.loc (f : Frame C R) (i : ℕ) : Option (Row C R) := (f.find? fun r => decide (r.1 = i)).map Prod.snd

/-- results.py:507-508, 512: `(abs(next - front) / front < threshold).drop('t').all()` -/
def relBelow (cols : List C) (thr : R) (front next : Row C R) : Bool :=
  cols.all fun c => decide (front.val c ≠ 0) && decide (|next.val c - front.val c| / front.val c < thr)

/-- results.py:507-515: the two conditions under which a row is dropped -/
def dropRow (cols : List C) (thr minStep : R) (front next : Row C R) : Bool :=
  if |next.t - front.t| < minStep then true
  else relBelow cols thr front next

/-- results.py:503-517: the inner loop; the result is `next_index` and the labels to drop. -/
def innerLoop (cols : List C) (thr minStep : R) (f : Frame C R) (front next : ℕ) (drop : List ℕ) :
    Except CompressErr (ℕ × List ℕ) :=
  if next ≥ f.length - 1 then .ok (next, drop)
  else
    match f.loc next, f.loc front with
    | some b, some a =>
      if dropRow cols thr minStep a b then innerLoop cols thr minStep f front (next + 1) (drop ++ [next])
      else .ok (next, drop)
    | _, _ => .error .key
termination_by f.length - 1 - next

/-- results.py:498-518: the outer loop, at most `n` rounds -/
def outerLoop (cols : List C) (thr minStep : R) (f : Frame C R) : ℕ → ℕ → List ℕ → Except CompressErr (List ℕ)
  | n, front, drop =>
    if front ≥ f.length - 1 then .ok drop
    else match n with
      -- not reached, see `compress_keeps`
      | 0 => .error .index
      | n + 1 =>
        match innerLoop cols thr minStep f front (front + 1) drop with
        | .error e => .error e
        | .ok (next, drop) => outerLoop cols thr minStep f n next drop

/-- results.py:483-522 `compress_solution` -/
def compressSolution (cols : List C) (f : Frame C R) (thr minTimestep : R) : Except CompressErr (Frame C R) :=
  match f.getLast? with
  | none => .error .index
  | some last =>
    match outerLoop cols thr (last.2.t * minTimestep) f f.length 0 [] with
    | .error e => .error e
    | .ok drop => .ok (f.filter fun r => !(r.1 ∈ drop))

/-- a frame with the default index 0, 1, ... (e.g. as read from a csv file, or after `reset_index`) -/
def mkFrame (rows : List (Row C R)) : Frame C R := rows.zipIdx.map fun r => (r.2, r.1)

end

/-! ### specification -/

section
variable {C R : Type} [Field R] [LinearOrder R]

/-- `y` is close to `x`: the difference is below the fraction `thr` of `x`. (Nothing is close to zero. For a negative
`x` the code takes the sign of the quotient with it.) -/
def RelClose (thr x y : R) : Prop :=
  (0 < x ∧ |y - x| < thr * x) ∨ (x < 0 ∧ thr * x < |y - x|)

/-- row `b` is redundant after row `a` -/
def Redundant (cols : List C) (thr minStep : R) (a b : Row C R) : Prop :=
  |b.t - a.t| < minStep ∨ ∀ c ∈ cols, RelClose thr (a.val c) (b.val c)

/-- The positions `keep` are a correct selection from `rows`: they begin with the first and end with the last
position; between two consecutive ones `p` and `q` all rows are redundant after row `p`, and row `q` is not, unless it
is the last. -/
structure Selection (cols : List C) (thr minStep : R) (rows : List (Row C R)) (keep : List ℕ) : Prop where
  first : keep.head? = some 0
  last : keep.getLast? = some (rows.length - 1)
  step : keep.IsChain fun p q => p < q ∧
    (∀ i a b, p < i → i < q → rows[p]? = some a → rows[i]? = some b → Redundant cols thr minStep a b) ∧
    (q = rows.length - 1 ∨ ∀ a b, rows[p]? = some a → rows[q]? = some b → ¬ Redundant cols thr minStep a b)

end

/-! ### proofs -/

section
variable {C R : Type} [Field R] [LinearOrder R] [IsStrictOrderedRing R]

theorem relClose_iff (thr x y : R) : (x ≠ 0 ∧ |y - x| / x < thr) ↔ RelClose thr x y := by
  unfold RelClose
  rcases lt_trichotomy x 0 with h | h | h
  · rw [div_lt_iff_of_neg h]
    simp only [h, h.ne, ne_eq, not_false_eq_true, true_and, not_lt.2 h.le, false_and, false_or]
  · simp [h]
  · rw [div_lt_iff₀ h]
    simp only [h, h.ne', ne_eq, not_false_eq_true, true_and, not_lt.2 h.le, false_and, or_false]

theorem dropRow_iff (cols : List C) (thr minStep : R) (a b : Row C R) :
    dropRow cols thr minStep a b = true ↔ Redundant cols thr minStep a b := by
  unfold dropRow Redundant relBelow
  by_cases h : |b.t - a.t| < minStep
  · rw [if_pos h]; simp [h]
  · rw [if_neg h]
    simp only [h, false_or, List.all_eq_true, Bool.and_eq_true, decide_eq_true_eq, relClose_iff]

omit [Field R] [LinearOrder R] [IsStrictOrderedRing R] in
theorem mkFrame_length (rows : List (Row C R)) : (mkFrame rows).length = rows.length := by simp [mkFrame]

omit [Field R] [LinearOrder R] [IsStrictOrderedRing R] in
theorem mkFrame_loc (rows : List (Row C R)) (i : ℕ) : (mkFrame rows).loc i = rows[i]? := by
  have H : ∀ (rows : List (Row C R)) (k i : ℕ),
      (((rows.zipIdx k).map fun r => (r.2, r.1)).find? fun r => decide (r.1 = k + i)).map Prod.snd = rows[i]? := by
    intro rows
    induction rows with
    | nil => intro k i; simp
    | cons r rows ih =>
      intro k i
      rw [List.zipIdx_cons, List.map_cons, List.find?_cons]
      cases i with
      | zero => simp
      | succ i =>
        have h1 : decide (k = k + (i + 1)) = false := by simp
        simp only [h1, List.getElem?_cons_succ]
        have := ih (k + 1) i
        rw [show k + 1 + i = k + (i + 1) by omega] at this
        exact this
  have := H rows 0 i
  simpa [Frame.loc, mkFrame] using this

/-- what the inner loop does -/
theorem innerLoop_ok (cols : List C) (thr minStep : R) (rows : List (Row C R)) (front : ℕ) (hf : front < rows.length) :
    ∀ (k next : ℕ) (drop : List ℕ), rows.length - 1 - next = k → next ≤ rows.length - 1 →
    ∃ next', innerLoop cols thr minStep (mkFrame rows) front next drop =
        .ok (next', drop ++ List.range' next (next' - next)) ∧
      next ≤ next' ∧ next' ≤ rows.length - 1 ∧
      (∀ i a b, next ≤ i → i < next' → rows[front]? = some a → rows[i]? = some b → Redundant cols thr minStep a b) ∧
      (next' = rows.length - 1 ∨
        ∀ a b, rows[front]? = some a → rows[next']? = some b → ¬ Redundant cols thr minStep a b) := by
  intro k
  induction k with
  | zero =>
    intro next drop hk hn
    refine ⟨next, ?_, le_rfl, hn, fun i a b h1 h2 => by omega, Or.inl (by omega)⟩
    unfold innerLoop
    rw [mkFrame_length, if_pos (by omega)]
    simp
  | succ k ih =>
    intro next drop hk hn
    have hlt : next < rows.length := by omega
    have ha : rows[front]? = some rows[front] := List.getElem?_eq_getElem hf
    have hb : rows[next]? = some rows[next] := List.getElem?_eq_getElem hlt
    by_cases hred : dropRow cols thr minStep rows[front] rows[next] = true
    · obtain ⟨next', e, h1, h2, h3, h4⟩ := ih (next + 1) (drop ++ [next]) (by omega) (by omega)
      refine ⟨next', ?_, by omega, h2, ?_, h4⟩
      · unfold innerLoop
        rw [mkFrame_length, if_neg (by omega)]
        simp only [mkFrame_loc, ha, hb, if_pos hred, e, List.append_assoc]
        rw [show next' - next = (next' - (next + 1)) + 1 by omega, List.range'_succ]
        rfl
      · intro i a b hi1 hi2 hia hib
        rcases Nat.eq_or_lt_of_le hi1 with rfl | hi
        · rw [ha] at hia
          rw [hb] at hib
          cases hia
          cases hib
          exact (dropRow_iff ..).1 hred
        · exact h3 i a b hi hi2 hia hib
    · refine ⟨next, ?_, le_rfl, hn, fun i a b h1 h2 => by omega, Or.inr ?_⟩
      · unfold innerLoop
        rw [mkFrame_length, if_neg (by omega)]
        simp only [mkFrame_loc, ha, hb, if_neg hred]
        simp
      · intro a b hia hib
        rw [ha] at hia
        rw [hb] at hib
        cases hia
        cases hib
        exact fun h => hred ((dropRow_iff ..).2 h)

theorem outerLoop_ok (cols : List C) (thr minStep : R) (rows : List (Row C R)) :
    ∀ (n front : ℕ) (drop : List ℕ), front < rows.length → rows.length - 1 - front ≤ n →
    ∃ keep drop' : List ℕ, outerLoop cols thr minStep (mkFrame rows) n front drop = .ok (drop ++ drop') ∧
      keep.head? = some front ∧ keep.getLast? = some (rows.length - 1) ∧
      (∀ i, i ∈ drop' ↔ front ≤ i ∧ i < rows.length ∧ i ∉ keep) ∧
      (∀ i ∈ keep, front ≤ i ∧ i < rows.length) ∧
      keep.IsChain fun p q => p < q ∧
        (∀ i a b, p < i → i < q → rows[p]? = some a → rows[i]? = some b → Redundant cols thr minStep a b) ∧
        (q = rows.length - 1 ∨ ∀ a b, rows[p]? = some a → rows[q]? = some b → ¬ Redundant cols thr minStep a b) := by
  intro n
  induction n with
  | zero =>
    intro front drop hf hn
    refine ⟨[front], [], ?_, rfl, ?_, ?_, ?_, .singleton _⟩
    · unfold outerLoop
      rw [mkFrame_length, if_pos (by omega)]
      simp
    · have : front = rows.length - 1 := by omega
      simp [this]
    · intro i
      simp only [List.not_mem_nil, List.mem_singleton, false_iff]
      omega
    · intro i hi
      rw [List.mem_singleton] at hi
      omega
  | succ n ih =>
    intro front drop hf hn
    by_cases hend : front ≥ rows.length - 1
    · refine ⟨[front], [], ?_, rfl, ?_, ?_, ?_, .singleton _⟩
      · unfold outerLoop
        rw [mkFrame_length, if_pos hend]
        simp
      · have : front = rows.length - 1 := by omega
        simp [this]
      · intro i
        simp only [List.not_mem_nil, List.mem_singleton, false_iff]
        omega
      · intro i hi
        rw [List.mem_singleton] at hi
        omega
    · obtain ⟨next, e, h1, h2, h3, h4⟩ :=
        innerLoop_ok cols thr minStep rows front hf _ (front + 1) drop rfl (by omega)
      obtain ⟨keep, drop', e', k1, k2, k3, k4, k5⟩ :=
        ih next (drop ++ List.range' (front + 1) (next - (front + 1))) (by omega) (by omega)
      refine ⟨front :: keep, List.range' (front + 1) (next - (front + 1)) ++ drop', ?_, rfl, ?_, ?_, ?_, ?_⟩
      · unfold outerLoop
        rw [mkFrame_length, if_neg hend]
        simp only [e, e', List.append_assoc]
      · rw [List.getLast?_cons, k2]
        rfl
      · intro i
        simp only [List.mem_append, List.mem_range'_1, k3 i, List.mem_cons, not_or]
        constructor
        · rintro (h | h)
          · exact ⟨by omega, by omega, by omega, fun hk => by have := (k4 i hk).1; omega⟩
          · exact ⟨by omega, h.2.1, by omega, h.2.2⟩
        · rintro ⟨p1, p2, p3, p4⟩
          by_cases hi : i < next
          · exact Or.inl (by omega)
          · exact Or.inr ⟨by omega, p2, p4⟩
      · intro i hi
        rcases List.mem_cons.1 hi with rfl | hi
        · exact ⟨le_rfl, hf⟩
        · have := k4 i hi
          exact ⟨by omega, this.2⟩
      · refine List.isChain_cons.2 ⟨?_, k5⟩
        intro q hq
        rw [k1] at hq
        cases hq
        exact ⟨by omega, fun i a b hi => h3 i a b (by omega), h4⟩

omit [Field R] [LinearOrder R] [IsStrictOrderedRing R] in
/-- filtering by position -/
theorem mkFrame_filter (rows : List (Row C R)) (keep drop : List ℕ) (hk : keep.Pairwise (· < ·))
    (hlt : ∀ i ∈ keep, i < rows.length) (hd : ∀ i, i ∈ drop ↔ i < rows.length ∧ i ∉ keep) :
    (mkFrame rows).filter (fun r => !(r.1 ∈ drop)) = keep.filterMap fun i => rows[i]?.map fun r => (i, r) := by
  have h1 : mkFrame rows = (List.range rows.length).filterMap fun i => rows[i]?.map fun r => (i, r) := by
    apply List.ext_getElem?
    intro i
    have : (List.range rows.length).filterMap (fun i => rows[i]?.map fun r => (i, r)) =
        rows.zipIdx.map fun r => (r.2, r.1) := by
      have H : ∀ (rows : List (Row C R)) (k : ℕ),
          (List.range' k rows.length).filterMap (fun i => rows[i - k]?.map fun r => (i, r)) =
            (rows.zipIdx k).map fun r => (r.2, r.1) := by
        intro rows
        induction rows with
        | nil => intro k; simp
        | cons r rows ih =>
          intro k
          rw [List.length_cons, List.range'_succ, List.filterMap_cons, List.zipIdx_cons, List.map_cons, ← ih (k + 1)]
          simp only [Nat.sub_self, List.getElem?_cons_zero, Option.map_some]
          congr 1
          refine List.filterMap_congr fun i hi => ?_
          have : k + 1 ≤ i := (List.mem_range'_1.1 hi).1
          rw [show i - k = (i - (k + 1)) + 1 by omega, List.getElem?_cons_succ]
      have := H rows 0
      rw [List.range_eq_range']
      simpa using this
    rw [this]
    rfl
  have h2 : (List.range rows.length).filter (fun i => !(i ∈ drop)) = keep := by
    refine List.Perm.eq_of_pairwise (le := (· < ·)) ?_ ?_ hk ?_
    · intro a b _ _ h h'; exact absurd h (lt_asymm h')
    · exact List.pairwise_lt_range.filter _
    · rw [List.perm_ext_iff_of_nodup (List.nodup_range.filter _) (hk.imp fun h => ne_of_lt h)]
      intro i
      simp only [List.mem_filter, List.mem_range, Bool.not_eq_true', decide_eq_false_iff_not, hd]
      constructor
      · rintro ⟨p, q⟩
        by_contra hc
        exact q ⟨p, hc⟩
      · intro h
        exact ⟨hlt i h, fun hc => hc.2 h⟩
  rw [h1, List.filter_filterMap]
  conv_rhs => rw [← h2, List.filterMap_filter]
  refine List.filterMap_congr fun i _ => ?_
  cases rows[i]? with
  | none => by_cases hi : i ∈ drop <;> simp [hi]
  | some r => by_cases hi : i ∈ drop <;> simp [hi, Option.filter]

omit [Field R] [LinearOrder R] [IsStrictOrderedRing R] in
theorem mkFrame_getLast (rows : List (Row C R)) (r : Row C R) (h : rows.getLast? = some r) :
    ∃ i, (mkFrame rows).getLast? = some (i, r) := by
  unfold mkFrame
  rw [List.getLast?_map]
  have hne : rows ≠ [] := by rintro rfl; cases h
  have : rows.zipIdx.getLast?.map Prod.fst = some r := by
    rw [← List.getLast?_map, List.zipIdx_map_fst, h]
  cases hz : rows.zipIdx.getLast? with
  | none => rw [hz] at this; cases this
  | some x =>
    rw [hz] at this
    cases this
    exact ⟨x.2, rfl⟩

/-- **C39, C40.** For every solution with at least one row (and the default index) and all thresholds, compression
succeeds; the rows kept, with their labels, are a correct selection (`Selection`): first and last row are kept,
every dropped row is redundant after the last kept row before it, and no kept row except the last is redundant after
its predecessor. -/
theorem compress_keeps (cols : List C) (rows : List (Row C R)) (last : Row C R) (hlast : rows.getLast? = some last)
    (thr minTimestep : R) :
    ∃ keep, Selection cols thr (last.t * minTimestep) rows keep ∧
      compressSolution cols (mkFrame rows) thr minTimestep =
        .ok (keep.filterMap fun i => rows[i]?.map fun r => (i, r)) := by
  have hne : rows ≠ [] := by rintro rfl; cases hlast
  have hpos : 0 < rows.length := List.length_pos_iff.2 hne
  obtain ⟨j, hj⟩ := mkFrame_getLast rows last hlast
  obtain ⟨keep, drop, e, k1, k2, k3, k4, k5⟩ :=
    outerLoop_ok cols thr (last.t * minTimestep) rows rows.length 0 [] hpos (by omega)
  refine ⟨keep, ⟨k1, k2, k5⟩, ?_⟩
  have hlt : keep.Pairwise (· < ·) := List.isChain_iff_pairwise.1 (k5.imp fun _ _ h => h.1)
  unfold compressSolution
  rw [hj]
  simp only [mkFrame_length, e, List.nil_append]
  rw [mkFrame_filter rows keep drop hlt (fun i hi => (k4 i hi).2) fun i => by rw [k3]; simp]

omit [IsStrictOrderedRing R] in
/-- A correct selection is unique, so `Selection` says all about the result. -/
theorem selection_unique {cols : List C} {thr minStep : R} {rows : List (Row C R)} {keep keep' : List ℕ}
    (h : Selection cols thr minStep rows keep) (h' : Selection cols thr minStep rows keep') : keep = keep' := by
  have H : ∀ (keep keep' : List ℕ) (p : ℕ), (keep.head? = some p) → (keep'.head? = some p) →
      (keep.getLast? = some (rows.length - 1)) → (keep'.getLast? = some (rows.length - 1)) →
      (keep.IsChain fun p q => p < q ∧
        (∀ i a b, p < i → i < q → rows[p]? = some a → rows[i]? = some b → Redundant cols thr minStep a b) ∧
        (q = rows.length - 1 ∨ ∀ a b, rows[p]? = some a → rows[q]? = some b → ¬ Redundant cols thr minStep a b)) →
      (keep'.IsChain fun p q => p < q ∧
        (∀ i a b, p < i → i < q → rows[p]? = some a → rows[i]? = some b → Redundant cols thr minStep a b) ∧
        (q = rows.length - 1 ∨ ∀ a b, rows[p]? = some a → rows[q]? = some b → ¬ Redundant cols thr minStep a b)) →
      keep = keep' := by
    intro keep
    induction keep with
    | nil => intro keep' p h; cases h
    | cons x keep ih =>
      intro keep' p h1 h1' h2 h2' h3 h3'
      cases h1
      match keep', h1' with
      | x' :: keep', h1' =>
      cases h1'
      have hbound : ∀ (l : List ℕ) (x : ℕ), (x :: l).getLast? = some (rows.length - 1) →
          ((x :: l).IsChain fun p q => p < q ∧
            (∀ i a b, p < i → i < q → rows[p]? = some a → rows[i]? = some b → Redundant cols thr minStep a b) ∧
            (q = rows.length - 1 ∨ ∀ a b, rows[p]? = some a → rows[q]? = some b → ¬ Redundant cols thr minStep a b)) →
          ∀ y ∈ x :: l, x ≤ y ∧ y ≤ rows.length - 1 := by
        intro l
        induction l with
        | nil =>
          intro x hl _ y hy
          rw [List.mem_singleton] at hy
          simp at hl
          omega
        | cons z l ih =>
          intro x hl hc y hy
          rw [List.getLast?_cons_cons] at hl
          rw [List.isChain_cons_cons] at hc
          have := ih z hl hc.2
          rcases List.mem_cons.1 hy with rfl | hy
          · exact ⟨le_rfl, hc.1.1.le.trans (this z (List.mem_cons_self ..)).2⟩
          · exact ⟨hc.1.1.le.trans (this y hy).1, (this y hy).2⟩
      match keep, keep', ih, h2, h2', h3, h3' with
      | [], [], _, _, _, _, _ => rfl
      | [], y' :: k', _, h2, h2', _, h3' =>
        rw [List.getLast?_cons_cons] at h2'
        rw [List.isChain_cons_cons] at h3'
        simp at h2
        have := hbound k' y' h2' h3'.2 y' (List.mem_cons_self ..)
        have := h3'.1.1
        omega
      | y :: k, [], _, h2, h2', h3, _ =>
        rw [List.getLast?_cons_cons] at h2
        rw [List.isChain_cons_cons] at h3
        simp at h2'
        have := hbound k y h2 h3.2 y (List.mem_cons_self ..)
        have := h3.1.1
        omega
      | y :: k, y' :: k', ih, h2, h2', h3, h3' =>
        rw [List.getLast?_cons_cons] at h2 h2'
        rw [List.isChain_cons_cons] at h3 h3'
        have hy := hbound k y h2 h3.2 y (List.mem_cons_self ..)
        have hy' := hbound k' y' h2' h3'.2 y' (List.mem_cons_self ..)
        obtain ⟨⟨a1, a2, a3⟩, a4⟩ := h3
        obtain ⟨⟨b1, b2, b3⟩, b4⟩ := h3'
        have hxl : x < rows.length := by omega
        have hyy : y = y' := by
          rcases lt_trichotomy y y' with hlt | heq | hgt
          · exfalso
            have hyl : y < rows.length := by omega
            rcases a3 with a3 | a3
            · omega
            · exact a3 _ _ (List.getElem?_eq_getElem hxl) (List.getElem?_eq_getElem hyl)
                (b2 y _ _ a1 hlt (List.getElem?_eq_getElem hxl) (List.getElem?_eq_getElem hyl))
          · exact heq
          · exfalso
            have hyl : y' < rows.length := by omega
            rcases b3 with b3 | b3
            · omega
            · exact b3 _ _ (List.getElem?_eq_getElem hxl) (List.getElem?_eq_getElem hyl)
                (a2 y' _ _ b1 hgt (List.getElem?_eq_getElem hxl) (List.getElem?_eq_getElem hyl))
        subst hyy
        rw [ih (y :: k') y rfl rfl h2 h2' a4 b4]
  exact H keep keep' 0 h.first h'.first h.last h'.last h.step h'.step

/-- the rows kept, without labels -/
def pick (rows : List (Row C R)) (keep : List ℕ) : List (Row C R) := keep.filterMap fun i => rows[i]?

omit [IsStrictOrderedRing R] in
theorem selection_lt {cols : List C} {thr minStep : R} {rows : List (Row C R)} {keep : List ℕ} (hne : rows ≠ [])
    (h : Selection cols thr minStep rows keep) : keep.Pairwise (· < ·) ∧ ∀ i ∈ keep, i < rows.length := by
  have hlt : keep.Pairwise (· < ·) := List.isChain_iff_pairwise.1 (h.step.imp fun _ _ h => h.1)
  refine ⟨hlt, fun i hi => ?_⟩
  have hpos : 0 < rows.length := List.length_pos_iff.2 hne
  have hk : keep ≠ [] := List.ne_nil_of_mem hi
  have hl := h.last
  rw [List.getLast?_eq_getLast_of_ne_nil hk] at hl
  have hl' : keep.getLast hk = rows.length - 1 := Option.some.inj hl
  obtain ⟨j, hj, rfl⟩ := List.mem_iff_getElem.1 hi
  rw [List.getLast_eq_getElem] at hl'
  rcases Nat.eq_or_lt_of_le (show j ≤ keep.length - 1 by omega) with he | hlt'
  · subst he; omega
  · have := List.pairwise_iff_getElem.1 hlt j (keep.length - 1) hj (by omega) hlt'
    omega

omit [IsStrictOrderedRing R] in
theorem pick_getElem {cols : List C} {thr minStep : R} {rows : List (Row C R)} {keep : List ℕ} (hne : rows ≠ [])
    (h : Selection cols thr minStep rows keep) : (pick rows keep).length = keep.length ∧
      ∀ i k : ℕ, keep[i]? = some k → (pick rows keep)[i]? = rows[k]? := by
  have hlt := (selection_lt hne h).2
  clear h
  induction keep with
  | nil => exact ⟨rfl, fun i k h => by simp at h⟩
  | cons k keep ih =>
    obtain ⟨h1, h2⟩ := ih fun i hi => hlt i (List.mem_cons_of_mem _ hi)
    have hk : k < rows.length := hlt k (List.mem_cons_self ..)
    have hp : pick rows (k :: keep) = rows[k] :: pick rows keep := by
      unfold pick
      rw [List.filterMap_cons, List.getElem?_eq_getElem hk]
    rw [hp]
    refine ⟨by simp [h1], fun i k' hi => ?_⟩
    cases i with
    | zero =>
      simp only [List.getElem?_cons_zero, Option.some.injEq] at hi
      subst hi
      rw [List.getElem?_cons_zero, List.getElem?_eq_getElem hk]
    | succ i => exact h2 i k' hi

/-- **C39.** Compressing the compressed solution again (with a fresh index and the same thresholds) keeps every
row. -/
theorem compress_idempotent (cols : List C) (rows : List (Row C R)) (hne : rows ≠ []) (thr minTimestep : R)
    {f : Frame C R} (h : compressSolution cols (mkFrame rows) thr minTimestep = .ok f) :
    compressSolution cols (mkFrame (f.map Prod.snd)) thr minTimestep = .ok (mkFrame (f.map Prod.snd)) := by
  obtain ⟨last, hlast⟩ : ∃ last, rows.getLast? = some last := ⟨_, List.getLast?_eq_getLast_of_ne_nil hne⟩
  obtain ⟨keep, hsel, e⟩ := compress_keeps cols rows last hlast thr minTimestep
  rw [e] at h
  obtain ⟨hlt, hmem⟩ := selection_lt hne hsel
  have hf : f.map Prod.snd = pick rows keep := by
    cases h
    rw [List.map_filterMap]
    unfold pick
    refine List.filterMap_congr fun i _ => ?_
    cases rows[i]? <;> rfl
  rw [hf]
  obtain ⟨hlen, hget⟩ := pick_getElem hne hsel
  have hk : keep ≠ [] := by
    intro hk
    have := hsel.first
    rw [hk] at this
    cases this
  have hkl : 0 < keep.length := List.length_pos_iff.2 hk
  -- the last row is the same
  have hlast' : (pick rows keep).getLast? = some last := by
    rw [List.getLast?_eq_getElem?, hlen]
    have h1 := hsel.last
    rw [List.getLast?_eq_getElem?] at h1
    rw [hget _ _ h1, ← hlast, List.getLast?_eq_getElem?]
  obtain ⟨keep', hsel', e'⟩ := compress_keeps cols (pick rows keep) last hlast' thr minTimestep
  have hne' : pick rows keep ≠ [] := by
    intro h0
    rw [h0] at hlen
    simp at hlen
    omega
  -- the full range is a selection of the compressed rows
  have hfull : Selection cols thr (last.t * minTimestep) (pick rows keep) (List.range (pick rows keep).length) := by
    rw [hlen]
    refine ⟨?_, ?_, ?_⟩
    · rw [List.head?_range, if_neg (by omega)]
    · rw [List.getLast?_range, if_neg (by omega), hlen]
    · rw [List.isChain_iff_getElem]
      intro i hi
      simp only [List.getElem_range]
      refine ⟨by omega, fun j a b h1 h2 => by omega, ?_⟩
      have hi' : i + 1 < keep.length := by simpa using hi
      have hstep := List.isChain_iff_getElem.1 hsel.step i hi'
      rcases hstep.2.2 with hq | hq
      · left
        rw [hlen]
        by_contra hc
        have hlast1 : keep[keep.length - 1] = rows.length - 1 := by
          have h1 := hsel.last
          rw [List.getLast?_eq_getElem?, List.getElem?_eq_getElem (by omega)] at h1
          exact Option.some.inj h1
        have := List.pairwise_iff_getElem.1 hlt (i + 1) (keep.length - 1) hi' (by omega) (by omega)
        omega
      · right
        intro a b ha hb
        rw [hget i _ (List.getElem?_eq_getElem (by omega))] at ha
        rw [hget (i + 1) _ (List.getElem?_eq_getElem hi')] at hb
        exact hq a b ha hb
  rw [e', selection_unique hsel' hfull]
  have := mkFrame_filter (pick rows keep) (List.range (pick rows keep).length) [] List.pairwise_lt_range
    (fun i hi => List.mem_range.1 hi) (fun i => by simp [List.mem_range])
  rw [← this]
  simp

/-- **C40.** If times do not decrease and the end time is positive, the compressed solution has at most
`2 + (t_last - t_first) / (t_last * min_timestep)` rows, however long the original is. -/
theorem compress_length (cols : List C) (rows : List (Row C R)) (first last : Row C R)
    (hfirst : rows.head? = some first) (hlast : rows.getLast? = some last)
    (hmono : rows.Pairwise fun a b => a.t ≤ b.t) (thr minTimestep : R) (hpos : 0 < last.t * minTimestep)
    {f : Frame C R} (h : compressSolution cols (mkFrame rows) thr minTimestep = .ok f) :
    ((f.length : R) - 2) * (last.t * minTimestep) ≤ last.t - first.t := by
  have hne : rows ≠ [] := by rintro rfl; cases hlast
  obtain ⟨keep, hsel, e⟩ := compress_keeps cols rows last hlast thr minTimestep
  rw [e] at h
  obtain ⟨hlt, hmem⟩ := selection_lt hne hsel
  have hlenf : f.length = keep.length := by
    cases h
    clear e hsel hlt
    induction keep with
    | nil => rfl
    | cons k keep ih =>
      have hk : k < rows.length := hmem k (List.mem_cons_self ..)
      rw [List.filterMap_cons, List.getElem?_eq_getElem hk]
      simp only [Option.map_some, List.length_cons]
      rw [ih fun i hi => hmem i (List.mem_cons_of_mem _ hi)]
  rw [hlenf]
  have hk : keep ≠ [] := by
    intro hk
    have := hsel.first
    rw [hk] at this
    cases this
  have hkl : 0 < keep.length := List.length_pos_iff.2 hk
  have hmono' : ∀ i j (hi : i < rows.length) (hj : j < rows.length), i ≤ j → rows[i].t ≤ rows[j].t := by
    intro i j hi hj hij
    rcases Nat.eq_or_lt_of_le hij with rfl | hlt'
    · exact le_rfl
    · exact List.pairwise_iff_getElem.1 hmono i j hi hj hlt'
  have h0 : keep[0] = 0 := by
    have := hsel.first
    rw [List.head?_eq_getElem?, List.getElem?_eq_getElem hkl] at this
    exact Option.some.inj this
  have hl1 : keep[keep.length - 1] = rows.length - 1 := by
    have h1 := hsel.last
    rw [List.getLast?_eq_getElem?, List.getElem?_eq_getElem (by omega)] at h1
    exact Option.some.inj h1
  have hrl : 0 < rows.length := List.length_pos_iff.2 hne
  have hft : rows[0] = first := by
    rw [List.head?_eq_getElem?, List.getElem?_eq_getElem hrl] at hfirst
    cases hfirst
    rfl
  have hlt' : rows[rows.length - 1] = last := by
    rw [List.getLast?_eq_getElem?, List.getElem?_eq_getElem (by omega)] at hlast
    cases hlast
    rfl
  -- the time of the i-th row kept
  have hstep : ∀ i (hi : i + 1 < keep.length), (i : R) * (last.t * minTimestep) ≤
      (rows[keep[i]]'(hmem _ (List.getElem_mem _))).t - first.t := by
    intro i
    induction i with
    | zero =>
      intro hi
      simp only [h0, hft, Nat.cast_zero, zero_mul, sub_self, le_refl]
    | succ i ih =>
      intro hi
      have h1 := ih (by omega)
      have hst := List.isChain_iff_getElem.1 hsel.step i (by omega)
      have hm1 : keep[i] < rows.length := hmem _ (List.getElem_mem _)
      have hm2 : keep[i + 1] < rows.length := hmem _ (List.getElem_mem _)
      rcases hst.2.2 with hq | hq
      · have := List.pairwise_iff_getElem.1 hlt (i + 1) (keep.length - 1) (by omega) (by omega) (by omega)
        omega
      · have hnr := hq _ _ (List.getElem?_eq_getElem hm1) (List.getElem?_eq_getElem hm2)
        have hge : last.t * minTimestep ≤ |rows[keep[i + 1]].t - rows[keep[i]].t| := by
          by_contra hc
          exact hnr (Or.inl (not_le.1 hc))
        rw [abs_of_nonneg (sub_nonneg.2 (hmono' _ _ hm1 hm2 hst.1.le))] at hge
        push_cast
        linarith
  by_cases hk2 : keep.length < 2
  · have h1 : keep.length = 1 := by omega
    have hle := hmono' 0 (rows.length - 1) hrl (by omega) (by omega)
    rw [hft, hlt'] at hle
    rw [h1]
    push_cast
    linarith
  · have h1 := hstep (keep.length - 2) (by omega)
    have hm : keep[keep.length - 2] < rows.length := hmem _ (List.getElem_mem _)
    have h2 := hmono' keep[keep.length - 2] (rows.length - 1) hm (by omega) (by omega)
    rw [hlt'] at h2
    rw [Nat.cast_sub (by omega)] at h1
    push_cast at h1
    linarith

omit [IsStrictOrderedRing R] in
/-- Finding: a column that is zero (for example the power in an off phase) is close to nothing, so that rows are
dropped because of the time step only. -/
theorem zero_column_blocks (cols : List C) (thr minStep : R) (a b : Row C R) (c : C) (hc : c ∈ cols)
    (h0 : a.val c = 0) : Redundant cols thr minStep a b ↔ |b.t - a.t| < minStep := by
  unfold Redundant
  constructor
  · rintro (h | h)
    · exact h
    · have := h c hc
      rw [h0] at this
      rcases this with h | h <;> exact absurd h.1 (lt_irrefl _)
  · exact Or.inl

/-- Finding: after a row with a negative value every value of that column counts as close. -/
theorem negative_column_ignored (thr x y : R) (hthr : 0 < thr) (hx : x < 0) : RelClose thr x y :=
  Or.inr ⟨hx, (mul_neg_of_pos_of_neg hthr hx).trans_le (abs_nonneg _)⟩

omit [IsStrictOrderedRing R] in
/-- Finding: a frame without the label 0 among more than one row fails with a KeyError; so does the compressed
solution of a compressed solution, if it is passed on without a new index and a row was dropped. -/
theorem label_missing (cols : List C) (f : Frame C R) (thr minTimestep : R) (hlen : 2 < f.length)
    (h : f.loc 0 = none ∨ f.loc 1 = none) : compressSolution cols f thr minTimestep = .error .key := by
  have hne : f ≠ [] := by rintro rfl; simp at hlen
  obtain ⟨k, hk⟩ : ∃ k, f.length = k + 1 := ⟨f.length - 1, by omega⟩
  have hinner : ∀ minStep, innerLoop cols thr minStep f 0 (0 + 1) [] = .error .key := by
    intro minStep
    unfold innerLoop
    rw [if_neg (by omega)]
    rcases h with h | h
    · rw [h]; cases f.loc (0 + 1) <;> rfl
    · rw [show 0 + 1 = 1 from rfl, h]
  have houter : ∀ minStep, outerLoop cols thr minStep f f.length 0 [] = .error .key := by
    intro minStep
    rw [hk]
    unfold outerLoop
    rw [if_neg (by omega)]
    simp only [hinner]
  unfold compressSolution
  rw [List.getLast?_eq_getLast_of_ne_nil hne]
  simp only [houter]

end

/-! ### examples -/

/-- five rows with one column -/
def demoRows : List (Row Unit ℚ) :=
  [⟨0, fun _ => 1⟩, ⟨1, fun _ => 101 / 100⟩, ⟨2, fun _ => 102 / 100⟩, ⟨3, fun _ => 2⟩, ⟨4, fun _ => 2⟩]

example : (compressSolution [()] (mkFrame demoRows) (1 / 20) (1 / 1000)).map (List.map fun r => (r.1, r.2.t)) =
    .ok [(0, 0), (3, 3), (4, 4)] := by decide +kernel

/-- compressing again without a new index -/
example : ((compressSolution [()] (mkFrame demoRows) (1 / 20) (1 / 1000)).bind fun f =>
    (compressSolution [()] f (1 / 20) (1 / 1000)).map List.length) = .error .key := by decide +kernel

example : ∃ last, demoRows.getLast? = some last ∧ 0 < last.t * (1 / 1000) ∧
    demoRows.Pairwise fun a b => a.t ≤ b.t := by
  refine ⟨_, rfl, by norm_num, ?_⟩
  simp [demoRows]
  norm_num

end Verif.Fwork
