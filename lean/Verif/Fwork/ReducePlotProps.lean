/-
C96: what the figure that compares reductions shows.
-/
import Verif.Fwork.ReducePlot
import Mathlib.Order.Bounds.Basic
import Mathlib.Tactic.Linarith
import Mathlib.Tactic.NormNum

namespace Verif.Fwork.ReducePlot
open Verif.Plaschem Verif.Fwork.ReduceDisk

variable {R : Type} [Field R] [LinearOrder R]

/-! ### specification -/

/-- a row of a run with the error `e`, not above the maximal error `m` (in per cent) -/
def Within (m : R) (c : Cells R) (e : R) : Prop := c.success = true ∧ c.err = some e ∧ e ≤ m / 100

/-- a row of a run with the error `e`, above the maximal error `m` (in per cent) -/
def Beyond (m : R) (c : Cells R) (e : R) : Prop := c.success = true ∧ c.err = some e ∧ m / 100 < e

/-- `c0`, with the error `e0`, is the last row in `pre` that is not above the maximal error -/
def LastWithin (m : R) (pre : List (Cells R)) (c0 : Cells R) (e0 : R) : Prop :=
  ∃ a b, pre = a ++ c0 :: b ∧ Within m c0 e0 ∧ ∀ x ∈ b, ∀ e, ¬ Within m x e

/-- the rows that are not above the maximal error are, in this order, those of `l`, with their errors -/
inductive AllWithin (m : R) : List (Cells R) → List (Cells R × R) → Prop
  | nil : AllWithin m [] []
  | take {c e rows l} : Within m c e → AllWithin m rows l → AllWithin m (c :: rows) ((c, e) :: l)
  | skip {c rows l} : (∀ e, ¬ Within m c e) → AllWithin m rows l → AllWithin m (c :: rows) l

/-- number of removed species, and error in per cent -/
def at' (c : Cells R) (e : R) : R × R := ((c.removed : R), e * 100)

/-- the styles and the label that are used for the run number `i` -/
structure Used (o : Opts R) (runs : List (Run R)) (i : ℕ) (run : Run R) (ok bad label : Str) : Prop where
  run : runs[i]? = some run
  ok : (o.stylesOk.getD (styles (str!"-o")))[i]? = some ok
  bad : (o.stylesBad.getD (styles (str!":X")))[i]? = some bad
  label : (o.labels.getD (runs.map Run.name))[i]? = some label

/-! ### lemmas -/

section sel
variable {ok : R → Bool}

private def selFrom (ok : R → Bool) (k : ℕ) (rows : List (Cells R)) : List (ℕ × Cells R × R) :=
  (rows.zipIdx k).filterMap fun p =>
    match p.1.err with
    | some e => if p.1.success && ok e then some (p.2, p.1, e) else none
    | none => none

private def Sel (ok : R → Bool) (c : Cells R) (e : R) : Prop := c.success = true ∧ c.err = some e ∧ ok e = true

private theorem selFrom_nil (k : ℕ) : selFrom ok k [] = [] := rfl

private theorem selFrom_take {k : ℕ} {c : Cells R} {e : R} (h : Sel ok c e) (rows : List (Cells R)) :
    selFrom ok k (c :: rows) = (k, c, e) :: selFrom ok (k + 1) rows := by
  obtain ⟨h1, h2, h3⟩ := h
  unfold selFrom
  rw [List.zipIdx_cons, List.filterMap_cons]
  simp only [h2, h1, h3, Bool.and_self, if_true]

private theorem selFrom_skip {k : ℕ} {c : Cells R} (h : ∀ e, ¬ Sel ok c e) (rows : List (Cells R)) :
    selFrom ok k (c :: rows) = selFrom ok (k + 1) rows := by
  unfold selFrom
  rw [List.zipIdx_cons, List.filterMap_cons]
  cases hc : c.err with
  | none => rfl
  | some e =>
    have : (c.success && ok e) = false := by
      rw [Bool.eq_false_iff]
      intro hx
      rw [Bool.and_eq_true] at hx
      exact h e ⟨hx.1, hc, hx.2⟩
    simp only [this]
    rfl

private theorem selFrom_append (k : ℕ) (a b : List (Cells R)) :
    selFrom ok k (a ++ b) = selFrom ok k a ++ selFrom ok (k + a.length) b := by
  unfold selFrom
  rw [List.zipIdx_append, List.filterMap_append]

private theorem sel_dec (c : Cells R) : (∃ e, Sel ok c e) ∨ ∀ e, ¬ Sel ok c e := by
  by_cases h : ∃ e, Sel ok c e
  · exact .inl h
  · exact .inr fun e he => h ⟨e, he⟩

private theorem selFrom_bounds {k : ℕ} {rows : List (Cells R)} {x : ℕ × Cells R × R} (h : x ∈ selFrom ok k rows) :
    k ≤ x.1 ∧ x.1 < k + rows.length := by
  induction rows generalizing k with
  | nil => cases h
  | cons c rows ih =>
    rcases sel_dec (ok := ok) c with ⟨e, he⟩ | hn
    · rw [selFrom_take he, List.mem_cons] at h
      rcases h with rfl | h
      · exact ⟨le_refl _, by simp⟩
      · have := ih h
        simp only [List.length_cons]; omega
    · rw [selFrom_skip hn] at h
      have := ih h
      simp only [List.length_cons]; omega

private theorem mem_selFrom {k : ℕ} {rows : List (Cells R)} {i : ℕ} {c : Cells R} {e : R} :
    (i, c, e) ∈ selFrom ok k rows ↔ ∃ pre post, rows = pre ++ c :: post ∧ i = k + pre.length ∧ Sel ok c e := by
  constructor
  · intro h
    induction rows generalizing k with
    | nil => cases h
    | cons d rows ih =>
      rcases sel_dec (ok := ok) d with ⟨e', he⟩ | hn
      · rw [selFrom_take he, List.mem_cons] at h
        rcases h with h | h
        · cases h
          exact ⟨[], rows, rfl, rfl, he⟩
        · obtain ⟨pre, post, rfl, rfl, hs⟩ := ih h
          exact ⟨d :: pre, post, rfl, by simp only [List.length_cons]; omega, hs⟩
      · rw [selFrom_skip hn] at h
        obtain ⟨pre, post, rfl, rfl, hs⟩ := ih h
        exact ⟨d :: pre, post, rfl, by simp only [List.length_cons]; omega, hs⟩
  · rintro ⟨pre, post, rfl, rfl, hs⟩
    rw [selFrom_append, selFrom_take hs]
    exact List.mem_append_right _ (List.mem_cons_self)

private theorem selFrom_before (k : ℕ) (pre post : List (Cells R)) :
    (selFrom ok k (pre ++ post)).filter (fun y => decide (y.1 < k + pre.length)) = selFrom ok k pre := by
  rw [selFrom_append, List.filter_append]
  have h1 : (selFrom ok k pre).filter (fun y => decide (y.1 < k + pre.length)) = selFrom ok k pre :=
    List.filter_eq_self.2 fun x hx => by simpa using (selFrom_bounds hx).2
  have h2 : (selFrom ok (k + pre.length) post).filter (fun y => decide (y.1 < k + pre.length)) = [] :=
    List.filter_eq_nil_iff.2 fun x hx => by simpa using (selFrom_bounds hx).1
  rw [h1, h2, List.append_nil]

private theorem selFrom_eq_nil {k : ℕ} {rows : List (Cells R)} :
    selFrom ok k rows = [] ↔ ∀ c ∈ rows, ∀ e, ¬ Sel ok c e := by
  constructor
  · intro h c hc e he
    obtain ⟨pre, post, rfl⟩ := List.append_of_mem hc
    have : (k + pre.length, c, e) ∈ selFrom ok k (pre ++ c :: post) := mem_selFrom.2 ⟨pre, post, rfl, rfl, he⟩
    rw [h] at this
    cases this
  · intro h
    rw [List.eq_nil_iff_forall_not_mem]
    rintro ⟨i, c, e⟩ hx
    obtain ⟨pre, post, rfl, -, hs⟩ := mem_selFrom.1 hx
    exact h c (by simp) e hs

private theorem selFrom_getLast {k : ℕ} {rows : List (Cells R)} {i : ℕ} {c : Cells R} {e : R}
    (h : (selFrom ok k rows).getLast? = some (i, c, e)) :
    ∃ a b, rows = a ++ c :: b ∧ i = k + a.length ∧ Sel ok c e ∧ ∀ x ∈ b, ∀ e, ¬ Sel ok x e := by
  induction rows using List.reverseRecOn generalizing i c e with
  | nil => cases h
  | append_singleton rows d ih =>
    rw [selFrom_append] at h
    rcases sel_dec (ok := ok) d with ⟨e', he⟩ | hn
    · rw [selFrom_take he, selFrom_nil, List.getLast?_append] at h
      simp only [List.getLast?_singleton, Option.some_or, Option.some.injEq, Prod.mk.injEq] at h
      obtain ⟨rfl, rfl, rfl⟩ := h
      exact ⟨rows, [], rfl, rfl, he, fun x hx => by cases hx⟩
    · rw [selFrom_skip hn, selFrom_nil, List.append_nil] at h
      obtain ⟨a, b, rfl, hi, hs, hb⟩ := ih h
      refine ⟨a, b ++ [d], by simp, hi, hs, fun x hx => ?_⟩
      rw [List.mem_append, List.mem_singleton] at hx
      rcases hx with hx | rfl
      · exact hb x hx
      · exact hn

end sel

private theorem selected_eq (ok : R → Bool) (rows : List (Cells R)) : selected ok rows = selFrom ok 0 rows := rfl

private theorem sel_within {m : R} {c : Cells R} {e : R} : Sel (fun e => decide (e ≤ m / 100)) c e ↔ Within m c e := by
  unfold Sel Within
  simp

private theorem sel_beyond {m : R} {c : Cells R} {e : R} : Sel (fun e => decide (m / 100 < e)) c e ↔ Beyond m c e := by
  unfold Sel Beyond
  simp

private theorem allWithin_sel (m : R) (k : ℕ) (rows : List (Cells R)) :
    AllWithin m rows ((selFrom (fun e => decide (e ≤ m / 100)) k rows).map Prod.snd) := by
  induction rows generalizing k with
  | nil => exact .nil
  | cons c rows ih =>
    rcases sel_dec (ok := fun e => decide (e ≤ m / 100)) c with ⟨e, he⟩ | hn
    · rw [selFrom_take he]
      exact .take (sel_within.1 he) (ih _)
    · rw [selFrom_skip hn]
      exact .skip (fun e he => hn e (sel_within.2 he)) (ih _)

/-- the sequence is determined by the rows -/
theorem AllWithin.unique {m : R} {rows : List (Cells R)} {l l' : List (Cells R × R)} (h : AllWithin m rows l)
    (h' : AllWithin m rows l') : l = l' := by
  induction h generalizing l' with
  | nil => cases h'; rfl
  | take hw _ ih =>
    cases h' with
    | take hw' h' =>
      have := hw.2.1.symm.trans hw'.2.1
      cases this
      rw [ih h']
    | skip hn _ => exact absurd hw (hn _)
  | skip hn _ ih =>
    cases h' with
    | take hw' _ => exact absurd hw' (hn _)
    | skip _ h' => exact ih h'

section each
variable {α β γ : Type} {f : β → α → Except PErr β}

private theorem each_ok_iff {good : α → Prop} (h : ∀ b a, (∃ b', f b a = .ok b') ↔ good a) (b : β) (l : List α) :
    (∃ b', each f b l = .ok b') ↔ ∀ a ∈ l, good a := by
  induction l generalizing b with
  | nil => exact ⟨fun _ a ha => (by cases ha), fun _ => ⟨b, rfl⟩⟩
  | cons a l ih =>
    unfold each
    cases hf : f b a with
    | error e =>
      refine ⟨fun ⟨_, hx⟩ => (by cases hx), fun hx => ?_⟩
      obtain ⟨b', hb⟩ := (h b a).2 (hx a List.mem_cons_self)
      rw [hf] at hb
      cases hb
    | ok b1 =>
      simp only
      rw [ih b1]
      exact ⟨fun hx c hc => by
          rcases List.mem_cons.1 hc with rfl | hc
          · exact (h b c).1 ⟨b1, hf⟩
          · exact hx c hc,
        fun hx c hc => hx c (List.mem_cons_of_mem _ hc)⟩

private theorem each_out {out : β → List γ} {D : α → List γ} (h : ∀ b a b', f b a = .ok b' → out b' = out b ++ D a)
    {b b' : β} {l : List α} (hl : each f b l = .ok b') : out b' = out b ++ l.flatMap D := by
  induction l generalizing b with
  | nil => cases hl; simp
  | cons a l ih =>
    unfold each at hl
    cases hf : f b a with
    | error e => rw [hf] at hl; cases hl
    | ok b1 =>
      rw [hf] at hl
      rw [ih hl, h _ _ _ hf, List.flatMap_cons, List.append_assoc]

omit [Field R] in
/-- a maximum that is kept in a loop: it bounds what is in `U`, and is the initial value or in `A` -/
private theorem each_max {out : β → R} {U A : α → Set R} {l : List α}
    (h : ∀ b, ∀ a ∈ l, ∀ b', f b a = .ok b' → out b ≤ out b' ∧ (∀ s ∈ U a, s ≤ out b') ∧ (out b' = out b ∨ out b' ∈ A a))
    {b b' : β} (hl : each f b l = .ok b') :
    out b ≤ out b' ∧ (∀ a ∈ l, ∀ s ∈ U a, s ≤ out b') ∧ (out b' = out b ∨ ∃ a ∈ l, out b' ∈ A a) := by
  induction l generalizing b with
  | nil => cases hl; exact ⟨le_refl _, fun a ha => (by cases ha), .inl rfl⟩
  | cons a l ih =>
    unfold each at hl
    cases hf : f b a with
    | error e => rw [hf] at hl; cases hl
    | ok b1 =>
      rw [hf] at hl
      obtain ⟨h1, h2, h3⟩ := ih (fun b a ha => h b a (List.mem_cons_of_mem _ ha)) hl
      obtain ⟨g1, g2, g3⟩ := h _ _ List.mem_cons_self _ hf
      refine ⟨g1.trans h1, fun c hc s hs => ?_, ?_⟩
      · rcases List.mem_cons.1 hc with rfl | hc
        · exact (g2 s hs).trans h1
        · exact h2 c hc s hs
      · rcases h3 with h3 | ⟨c, hc, h3⟩
        · rcases g3 with g3 | g3
          · exact .inl (h3.trans g3)
          · exact .inr ⟨a, List.mem_cons_self, by rw [h3]; exact g3⟩
        · exact .inr ⟨c, List.mem_cons_of_mem _ hc, h3⟩

end each

/-! ### one dead end -/

private def noteDraws (o : Opts R) (style s : Str) (p : R × R) : List (Draw R) :=
  match o.annotate, style with
  | true, c :: _ => [.text s (textPos o p) c]
  | _, _ => []

omit [LinearOrder R] in
private theorem annotation_ok {o : Opts R} {style s : Str} {p : R × R} {t : List (Draw R)}
    (h : annotation o style s p = .ok t) : t = noteDraws o style s p := by
  unfold annotation at h
  unfold noteDraws
  cases ha : o.annotate with
  | false => rw [ha, if_neg (by decide)] at h; cases h; rfl
  | true =>
    rw [ha, if_pos rfl] at h
    cases style with
    | nil => cases h
    | cons c cs => cases h; rfl

omit [LinearOrder R] in
private theorem annotation_iff {o : Opts R} {style s : Str} {p : R × R} :
    (∃ t, annotation o style s p = .ok t) ↔ (o.annotate = true → style ≠ []) := by
  unfold annotation
  cases ha : o.annotate with
  | false => rw [if_neg (by decide)]; exact ⟨fun _ h => (by cases h), fun _ => ⟨_, rfl⟩⟩
  | true =>
    rw [if_pos rfl]
    cases style with
    | nil => exact ⟨fun ⟨_, h⟩ => (by cases h), fun h => absurd rfl (h rfl)⟩
    | cons c cs => exact ⟨fun _ _ => (by simp), fun _ => ⟨_, rfl⟩⟩

private def deadDraws (o : Opts R) (style : Str) (acc : List (ℕ × Cells R × R)) (x : ℕ × Cells R × R) : List (Draw R) :=
  match (acc.filter fun y => decide (y.1 < x.1)).getLast? with
  | none => []
  | some (_, c0, e0) =>
    [.line [point c0 e0, point x.2.1 x.2.2] style.dropLast none, .line [point x.2.1 x.2.2] style none] ++
      match x.2.1.species with
      | none => []
      | some s => noteDraws o style (pretty o s) (point x.2.1 x.2.2)

private theorem deadEnd_ok {o : Opts R} {style : Str} {acc : List (ℕ × Cells R × R)} {cv cv' : Canvas R}
    {x : ℕ × Cells R × R} (h : deadEnd o style acc cv x = .ok cv') :
    cv'.draws = cv.draws ++ deadDraws o style acc x ∧
      cv'.maxErr = (if x.2.2 * 100 > cv.maxErr then x.2.2 * 100 else cv.maxErr) ∧
      cv'.maxElim = (if (x.2.1.removed : R) > cv.maxElim then (x.2.1.removed : R) else cv.maxElim) := by
  obtain ⟨i, c, e⟩ := x
  unfold deadEnd at h
  unfold deadDraws
  simp only at h ⊢
  cases hp : (acc.filter fun y => decide (y.1 < i)).getLast? with
  | none => rw [hp] at h; cases h
  | some p =>
    obtain ⟨j, c0, e0⟩ := p
    rw [hp] at h
    simp only at h ⊢
    cases ha : o.annotate with
    | false =>
      rw [ha, if_neg (by decide)] at h
      cases h
      refine ⟨?_, rfl, rfl⟩
      cases c.species with
      | none => simp
      | some s => simp [noteDraws, ha]
    | true =>
      rw [ha, if_pos rfl] at h
      cases hs : c.species with
      | none => rw [hs] at h; cases h
      | some s =>
        rw [hs] at h
        simp only at h
        cases ht : annotation o style (pretty o s) (point c e) with
        | error e => rw [ht] at h; cases h
        | ok t =>
          rw [ht] at h
          cases h
          refine ⟨?_, rfl, rfl⟩
          simp [annotation_ok ht]

private theorem deadEnd_iff {o : Opts R} {style : Str} {acc : List (ℕ × Cells R × R)} {cv : Canvas R}
    {x : ℕ × Cells R × R} :
    (∃ cv', deadEnd o style acc cv x = .ok cv') ↔
      (acc.filter fun y => decide (y.1 < x.1)) ≠ [] ∧ (o.annotate = true → style ≠ [] ∧ x.2.1.species ≠ none) := by
  obtain ⟨i, c, e⟩ := x
  unfold deadEnd
  simp only
  cases hp : (acc.filter fun y => decide (y.1 < i)).getLast? with
  | none =>
    refine ⟨fun ⟨_, h⟩ => (by cases h), fun h => absurd (List.getLast?_eq_none_iff.1 hp) h.1⟩
  | some p =>
    obtain ⟨j, c0, e0⟩ := p
    have hne : (acc.filter fun y => decide (y.1 < i)) ≠ [] := by
      intro h0
      rw [h0] at hp
      cases hp
    simp only
    cases ha : o.annotate with
    | false =>
      rw [if_neg (by decide)]
      exact ⟨fun _ => ⟨hne, fun h => (by cases h)⟩, fun _ => ⟨_, rfl⟩⟩
    | true =>
      rw [if_pos rfl]
      cases hs : c.species with
      | none => exact ⟨fun ⟨_, h⟩ => (by cases h), fun h => absurd rfl (h.2 rfl).2⟩
      | some s =>
        simp only
        cases ht : annotation o style (pretty o s) (point c e) with
        | error x =>
          refine ⟨fun ⟨_, h⟩ => (by cases h), fun h => ?_⟩
          obtain ⟨t, h'⟩ := (annotation_iff (o := o) (s := pretty o s) (p := point c e)).2 fun _ => (h.2 trivial).1
          rw [ht] at h'
          cases h'
        | ok t =>
          exact ⟨fun _ => ⟨hne, fun _ => ⟨annotation_iff.1 ⟨t, ht⟩ ha, (by simp)⟩⟩, fun _ => ⟨_, rfl⟩⟩

/-! ### one run -/

private def runDraws (o : Opts R) (m : R) (x : Run R × Str × Str × Str) : List (Draw R) :=
  match (accOf m x.1.rows).getLast? with
  | none => []
  | some (_, cl, _) =>
    (if o.endpoints then [.vertical (cl.removed : R) x.2.2.1] else []) ++
    [.line ((accOf m x.1.rows).map fun y => point y.2.1 y.2.2) x.2.1 (some x.2.2.2)] ++
    (accOf m x.1.rows).flatMap (fun y => noteDraws o x.2.1 (pretty o (caption y.2.1)) (point y.2.1 y.2.2)) ++
    if o.deadEnds then (rejOf m x.1.rows).flatMap (deadDraws o x.2.2.1 (accOf m x.1.rows)) else []

omit [LinearOrder R] in
private theorem texts_ok {o : Opts R} {style : Str} {ds ds' : List (Draw R)} {y : ℕ × Cells R × R}
    (h : texts o style ds y = .ok ds') : ds' = ds ++ noteDraws o style (pretty o (caption y.2.1)) (point y.2.1 y.2.2) := by
  unfold texts at h
  cases ht : annotation o style (pretty o (caption y.2.1)) (point y.2.1 y.2.2) with
  | error e => rw [ht] at h; cases h
  | ok t => rw [ht] at h; cases h; rw [annotation_ok ht]

omit [LinearOrder R] in
private theorem texts_iff {o : Opts R} {style : Str} (ds : List (Draw R)) (y : ℕ × Cells R × R) :
    (∃ ds', texts o style ds y = .ok ds') ↔ (o.annotate = true → style ≠ []) := by
  unfold texts
  rw [← annotation_iff (s := pretty o (caption y.2.1)) (p := point y.2.1 y.2.2)]
  cases ht : annotation o style (pretty o (caption y.2.1)) (point y.2.1 y.2.2) with
  | error e => exact ⟨fun ⟨_, h⟩ => (by cases h), fun ⟨_, h⟩ => (by cases h)⟩
  | ok t => exact ⟨fun _ => ⟨_, rfl⟩, fun _ => ⟨_, rfl⟩⟩

/-- the steps of `plotRun` that succeed -/
private theorem plotRun_ok {o : Opts R} {m : R} {cv cv' : Canvas R} {x : Run R × Str × Str × Str}
    (h : plotRun o m cv x = .ok cv') :
    ∃ j cl el cv1, (accOf m x.1.rows).getLast? = some (j, cl, el) ∧
      cv1.maxErr = (if el * 100 > cv.maxErr then el * 100 else cv.maxErr) ∧
      cv1.maxElim = (if (cl.removed : R) > cv.maxElim then (cl.removed : R) else cv.maxElim) ∧
      cv'.draws = cv.draws ++ runDraws o m x ∧
      (o.deadEnds = true → each (deadEnd o x.2.2.1 (accOf m x.1.rows)) cv1 (rejOf m x.1.rows) = .ok cv') ∧
      (o.deadEnds = false → cv' = cv1) := by
  obtain ⟨run, so, sb, lab⟩ := x
  unfold plotRun at h
  unfold runDraws
  simp only at h ⊢
  cases hl : (accOf m run.rows).getLast? with
  | none => rw [hl] at h; cases h
  | some p =>
    obtain ⟨j, cl, el⟩ := p
    rw [hl] at h
    simp only at h ⊢
    cases ht : each (texts o so) [] (accOf m run.rows) with
    | error e => rw [ht] at h; cases h
    | ok ts =>
      rw [ht] at h
      simp only at h
      have hts := each_out (out := fun b : List (Draw R) => b)
        (D := fun y : ℕ × Cells R × R => noteDraws o so (pretty o (caption y.2.1)) (point y.2.1 y.2.2))
        (fun b a b' hb => texts_ok hb) ht
      simp only [List.nil_append] at hts
      cases hd : o.deadEnds with
      | false =>
        rw [hd, if_neg (by decide)] at h
        cases h
        refine ⟨j, cl, el, _, rfl, rfl, rfl, ?_, fun hx => (by cases hx), fun _ => rfl⟩
        simp [hts]
      | true =>
        rw [hd, if_pos rfl] at h
        refine ⟨j, cl, el, _, rfl, ?_, ?_, ?_, fun _ => h, fun hx => (by cases hx)⟩
        · rfl
        · rfl
        · rw [each_out (out := Canvas.draws) (D := deadDraws o sb (accOf m run.rows)) (fun b a b' hb => (deadEnd_ok hb).1) h]
          simp [hts]

/-- the conditions under which a run is plotted -/
private theorem plotRun_iff {o : Opts R} {m : R} {cv : Canvas R} {x : Run R × Str × Str × Str} :
    (∃ cv', plotRun o m cv x = .ok cv') ↔
      accOf m x.1.rows ≠ [] ∧ (o.annotate = true → x.2.1 ≠ []) ∧
      (o.deadEnds = true → ∀ y ∈ rejOf m x.1.rows, ((accOf m x.1.rows).filter fun z => decide (z.1 < y.1)) ≠ [] ∧
        (o.annotate = true → x.2.2.1 ≠ [] ∧ y.2.1.species ≠ none)) := by
  obtain ⟨run, so, sb, lab⟩ := x
  unfold plotRun
  simp only
  cases hl : (accOf m run.rows).getLast? with
  | none =>
    exact ⟨fun ⟨_, h⟩ => (by cases h), fun h => absurd (List.getLast?_eq_none_iff.1 hl) h.1⟩
  | some p =>
    obtain ⟨j, cl, el⟩ := p
    have hne : accOf m run.rows ≠ [] := by
      intro h0
      rw [h0] at hl
      cases hl
    obtain ⟨y0, hy0⟩ := List.exists_mem_of_ne_nil _ hne
    have htx := each_ok_iff (f := texts o so) (good := fun _ => o.annotate = true → so ≠ []) texts_iff []
      (accOf m run.rows)
    have htx' : (∃ ts, each (texts o so) [] (accOf m run.rows) = .ok ts) ↔ (o.annotate = true → so ≠ []) :=
      htx.trans ⟨fun h => h y0 hy0, fun h _ _ => h⟩
    simp only
    cases ht : each (texts o so) [] (accOf m run.rows) with
    | error e =>
      rw [ht] at htx'
      exact ⟨fun ⟨_, h⟩ => (by cases h), fun h => by obtain ⟨_, hx⟩ := htx'.2 h.2.1; cases hx⟩
    | ok ts =>
      rw [ht] at htx'
      have hso := htx'.1 ⟨ts, rfl⟩
      simp only
      cases hd : o.deadEnds with
      | false =>
        rw [if_neg (by decide)]
        exact ⟨fun _ => ⟨hne, hso, fun hx => (by cases hx)⟩, fun _ => ⟨_, rfl⟩⟩
      | true =>
        rw [if_pos rfl, each_ok_iff (f := deadEnd o sb (accOf m run.rows)) fun b a => deadEnd_iff]
        exact ⟨fun h => ⟨hne, hso, fun _ => h⟩, fun h => h.2.2 rfl⟩

/-! ### the figure -/

private abbrev zipped (o : Opts R) (runs : List (Run R)) : List (Run R × Str × Str × Str) :=
  runs.zip ((o.stylesOk.getD (styles (str!"-o"))).zip ((o.stylesBad.getD (styles (str!":X"))).zip
    (o.labels.getD (runs.map Run.name))))

omit [Field R] [LinearOrder R] in
private theorem mem_zipped {o : Opts R} {runs : List (Run R)} {run : Run R} {a b c : Str} :
    (run, a, b, c) ∈ zipped o runs ↔ ∃ i, Used o runs i run a b c := by
  rw [List.mem_iff_getElem?]
  constructor
  · rintro ⟨i, h⟩
    rw [List.getElem?_zip_eq_some, List.getElem?_zip_eq_some, List.getElem?_zip_eq_some] at h
    exact ⟨i, h.1, h.2.1, h.2.2.1, h.2.2.2⟩
  · rintro ⟨i, h⟩
    exact ⟨i, by rw [List.getElem?_zip_eq_some, List.getElem?_zip_eq_some, List.getElem?_zip_eq_some]
                 exact ⟨h.run, h.ok, h.bad, h.label⟩⟩

/-- there are enough styles and labels -/
def Enough (o : Opts R) (runs : List (Run R)) : Prop :=
  runs.length ≤ (o.stylesOk.getD (styles (str!"-o"))).length ∧ runs.length ≤ (o.stylesBad.getD (styles (str!":X"))).length ∧
  runs.length ≤ (o.labels.getD (runs.map Run.name)).length

omit [Field R] [LinearOrder R] in
private theorem used_of_mem {o : Opts R} {runs : List (Run R)} (he : Enough o runs) {run : Run R} (hr : run ∈ runs) :
    ∃ i a b c, Used o runs i run a b c := by
  obtain ⟨i, hi, rfl⟩ := List.mem_iff_getElem.1 hr
  exact ⟨i, _, _, _, List.getElem?_eq_getElem hi, List.getElem?_eq_getElem (lt_of_lt_of_le hi he.1),
    List.getElem?_eq_getElem (lt_of_lt_of_le hi he.2.1), List.getElem?_eq_getElem (lt_of_lt_of_le hi he.2.2)⟩

private theorem compare_ok {o : Opts R} {runs : List (Run R)} {fig : Figure R} (h : compare o runs = .ok fig) :
    Enough o runs ∧ ∃ m cv, runs ≠ [] ∧ (∀ r ∈ runs, r.maxError = m) ∧
      each (plotRun o m) ⟨[], 0, 0⟩ (zipped o runs) = .ok cv ∧
      fig.xlim = o.xlim.getD (-(5 / 10), cv.maxElim + 5 / 10) ∧ fig.ylim = o.ylim.getD (-(9 / 10), max cv.maxErr m + 9 / 10) ∧
      fig.draws = cv.draws ++
        if o.showMax then [.line [(fig.xlim.1, m), (fig.xlim.2, m)] (str!"r--") (some (str!"maximal allowed reduction error"))]
        else [] := by
  unfold compare at h
  simp only at h
  by_cases hlen : (o.stylesOk.getD (styles (str!"-o"))).length < runs.length ∨
      (o.stylesBad.getD (styles (str!":X"))).length < runs.length ∨ (o.labels.getD (runs.map Run.name)).length < runs.length
  · rw [if_pos hlen] at h; cases h
  rw [if_neg hlen] at h
  have henough : Enough o runs := by
    unfold Enough
    refine ⟨?_, ?_, ?_⟩ <;> by_contra hx
    · exact hlen (.inl (not_le.1 hx))
    · exact hlen (.inr (.inl (not_le.1 hx)))
    · exact hlen (.inr (.inr (not_le.1 hx)))
  refine ⟨henough, ?_⟩
  cases runs with
  | nil => cases h
  | cons r0 rest =>
    simp only at h
    by_cases hne : ∃ r ∈ rest, r0.maxError ≠ r.maxError
    · rw [if_pos hne] at h; cases h
    rw [if_neg hne] at h
    cases hcv : each (plotRun o r0.maxError) ⟨[], 0, 0⟩ (zipped o (r0 :: rest)) with
    | error e => rw [hcv] at h; cases h
    | ok cv =>
      rw [hcv] at h
      simp only [Except.ok.injEq] at h
      subst h
      refine ⟨r0.maxError, cv, by simp, fun r hr => ?_, hcv, rfl, rfl, rfl⟩
      rcases List.mem_cons.1 hr with rfl | hr
      · rfl
      · by_contra hx
        exact hne ⟨r, hr, fun h => hx h.symm⟩

private theorem compare_iff {o : Opts R} {runs : List (Run R)} {m : R} (hm : ∀ r ∈ runs, r.maxError = m) :
    (∃ fig, compare o runs = .ok fig) ↔ Enough o runs ∧ runs ≠ [] ∧ ∃ cv, each (plotRun o m) ⟨[], 0, 0⟩ (zipped o runs) = .ok cv := by
  constructor
  · rintro ⟨fig, h⟩
    obtain ⟨h1, m', cv, h2, h3, h4, -⟩ := compare_ok h
    obtain ⟨r, hr⟩ := List.exists_mem_of_ne_nil _ h2
    obtain rfl : m' = m := (h3 r hr).symm.trans (hm r hr)
    exact ⟨h1, h2, cv, h4⟩
  · rintro ⟨h1, h2, cv, h3⟩
    unfold compare
    simp only
    rw [if_neg (by rintro (hx | hx | hx); exacts [not_lt.2 h1.1 hx, not_lt.2 h1.2.1 hx, not_lt.2 h1.2.2 hx])]
    cases runs with
    | nil => exact absurd rfl h2
    | cons r0 rest =>
      simp only
      rw [if_neg (by
        rintro ⟨r, hr, hx⟩
        exact hx ((hm r0 List.mem_cons_self).trans (hm r (List.mem_cons_of_mem _ hr)).symm))]
      rw [hm r0 List.mem_cons_self, h3]
      exact ⟨_, rfl⟩

private theorem figure_draws {o : Opts R} {m : R} {runs : List (Run R)} {cv : Canvas R}
    (h : each (plotRun o m) ⟨[], 0, 0⟩ (zipped o runs) = .ok cv) : cv.draws = (zipped o runs).flatMap (runDraws o m) := by
  have := each_out (out := Canvas.draws) (D := runDraws o m)
    (fun b a b' hb => by obtain ⟨_, _, _, _, -, -, -, hx, -⟩ := plotRun_ok hb; exact hx) h
  simpa using this

private theorem mem_acc {m : R} {rows : List (Cells R)} {i : ℕ} {c : Cells R} {e : R} :
    (i, c, e) ∈ accOf m rows ↔ ∃ pre post, rows = pre ++ c :: post ∧ i = pre.length ∧ Within m c e := by
  unfold accOf
  rw [selected_eq, mem_selFrom]
  simp only [zero_add, sel_within]

private theorem mem_rej {m : R} {rows : List (Cells R)} {i : ℕ} {c : Cells R} {e : R} :
    (i, c, e) ∈ rejOf m rows ↔ ∃ pre post, rows = pre ++ c :: post ∧ i = pre.length ∧ Beyond m c e := by
  unfold rejOf
  rw [selected_eq, mem_selFrom]
  simp only [zero_add, sel_beyond]

private theorem acc_before (m : R) (pre post : List (Cells R)) :
    (accOf m (pre ++ post)).filter (fun z => decide (z.1 < pre.length)) = accOf m pre := by
  unfold accOf
  rw [selected_eq, selected_eq]
  have := selFrom_before (ok := fun e => decide (e ≤ m / 100)) 0 pre post
  rwa [zero_add] at this

private theorem acc_ne_nil {m : R} {rows : List (Cells R)} :
    accOf m rows ≠ [] ↔ ∃ c ∈ rows, ∃ e, Within m c e := by
  unfold accOf
  rw [selected_eq, ne_eq, selFrom_eq_nil]
  constructor
  · intro h
    by_contra hx
    exact h fun c hc e he => hx ⟨c, hc, e, sel_within.1 he⟩
  · rintro ⟨c, hc, e, he⟩ h
    exact h c hc e (sel_within.2 he)

private theorem acc_getLast {m : R} {rows : List (Cells R)} {i : ℕ} {c : Cells R} {e : R}
    (h : (accOf m rows).getLast? = some (i, c, e)) : LastWithin m rows c e := by
  unfold accOf at h
  rw [selected_eq] at h
  obtain ⟨a, b, h1, -, h3, h4⟩ := selFrom_getLast h
  exact ⟨a, b, h1, sel_within.1 h3, fun x hx e he => h4 x hx e (sel_within.2 he)⟩

/-- there is one last row -/
theorem LastWithin.unique {m : R} {rows : List (Cells R)} {c c' : Cells R} {e e' : R} (h : LastWithin m rows c e)
    (h' : LastWithin m rows c' e') : c = c' ∧ e = e' := by
  obtain ⟨a, b, rfl, hw, hb⟩ := h
  obtain ⟨a', b', he, hw', hb'⟩ := h'
  have key : c = c' := by
    rcases List.append_eq_append_iff.1 he with ⟨t, h1, h2⟩ | ⟨t, h1, h2⟩
    · cases t with
      | nil => simp only [List.nil_append, List.cons.injEq] at h2; exact h2.1
      | cons x t =>
        simp only [List.cons_append, List.cons.injEq] at h2
        exact absurd hw' (hb c' (by rw [h2.2]; simp) e')
    · cases t with
      | nil => simp only [List.nil_append, List.cons.injEq] at h2; exact h2.1.symm
      | cons x t =>
        simp only [List.cons_append, List.cons.injEq] at h2
        exact absurd hw (hb' c (by rw [h2.2]; simp) e)
  subst key
  exact ⟨rfl, Option.some.inj (hw.2.1.symm.trans hw'.2.1)⟩

private theorem acc_getLast_iff {m : R} {rows : List (Cells R)} {c : Cells R} {e : R} :
    (∃ i, (accOf m rows).getLast? = some (i, c, e)) ↔ LastWithin m rows c e := by
  refine ⟨fun ⟨i, h⟩ => acc_getLast h, fun h => ?_⟩
  cases hl : (accOf m rows).getLast? with
  | none =>
    obtain ⟨a, b, rfl, hw, -⟩ := h
    exact absurd (List.getLast?_eq_none_iff.1 hl) (acc_ne_nil.2 ⟨c, by simp, e, hw⟩)
  | some p =>
    obtain ⟨i, c', e'⟩ := p
    obtain ⟨rfl, rfl⟩ := (acc_getLast hl).unique h
    exact ⟨i, rfl⟩

/-! ### C96 -/

/-- **C96.** The figure is made exactly if there are reductions, styles and labels are enough, the maximal errors are the
same, every reduction has a row within it, and every dead end has such a row before it (and, for the annotations, styles are
not empty and dead ends have a species name). -/
theorem compare_succeeds_iff {o : Opts R} {runs : List (Run R)} :
    (∃ fig, compare o runs = .ok fig) ↔
      runs ≠ [] ∧ Enough o runs ∧ (∀ r ∈ runs, ∀ r' ∈ runs, r.maxError = r'.maxError) ∧
      ∀ i run so sb lab, Used o runs i run so sb lab →
        (∃ c ∈ run.rows, ∃ e, Within run.maxError c e) ∧ (o.annotate = true → so ≠ []) ∧
        (o.deadEnds = true → ∀ pre c post e, run.rows = pre ++ c :: post → Beyond run.maxError c e →
          (∃ c0 ∈ pre, ∃ e0, Within run.maxError c0 e0) ∧ (o.annotate = true → sb ≠ [] ∧ c.species ≠ none)) := by
  have key : ∀ m, (∀ r ∈ runs, r.maxError = m) → ((∃ cv, each (plotRun o m) ⟨[], 0, 0⟩ (zipped o runs) = .ok cv) ↔
      ∀ i run so sb lab, Used o runs i run so sb lab →
        (∃ c ∈ run.rows, ∃ e, Within run.maxError c e) ∧ (o.annotate = true → so ≠ []) ∧
        (o.deadEnds = true → ∀ pre c post e, run.rows = pre ++ c :: post → Beyond run.maxError c e →
          (∃ c0 ∈ pre, ∃ e0, Within run.maxError c0 e0) ∧ (o.annotate = true → sb ≠ [] ∧ c.species ≠ none))) := by
    intro m hm
    rw [each_ok_iff (f := plotRun o m) fun b a => plotRun_iff]
    constructor
    · intro h i run so sb lab hu
      obtain ⟨h1, h2, h3⟩ := h (run, so, sb, lab) (mem_zipped.2 ⟨i, hu⟩)
      have hmm : run.maxError = m := hm run (List.mem_of_getElem? hu.run)
      rw [hmm]
      refine ⟨acc_ne_nil.1 h1, h2, fun hd pre c post e hrow hb => ?_⟩
      have := h3 hd (pre.length, c, e) (mem_rej.2 ⟨pre, post, hrow, rfl, hb⟩)
      simp only at this
      rw [hrow, acc_before, acc_ne_nil] at this
      exact this
    · rintro h ⟨run, so, sb, lab⟩ hz
      obtain ⟨i, hu⟩ := mem_zipped.1 hz
      have hmm : run.maxError = m := hm run (List.mem_of_getElem? hu.run)
      have := h i run so sb lab hu
      rw [hmm] at this
      refine ⟨acc_ne_nil.2 this.1, this.2.1, ?_⟩
      rintro hd ⟨j, c, e⟩ hy
      obtain ⟨pre, post, hrow, rfl, hb⟩ := mem_rej.1 hy
      simp only
      simp only at hrow
      rw [hrow, acc_before, acc_ne_nil]
      exact this.2.2 hd pre c post e hrow hb
  constructor
  · rintro ⟨fig, h⟩
    obtain ⟨h1, m, cv, h2, h3, h4, -⟩ := compare_ok h
    exact ⟨h2, h1, fun r hr r' hr' => (h3 r hr).trans (h3 r' hr').symm, (key m h3).1 ⟨cv, h4⟩⟩
  · rintro ⟨h1, h2, h3, h4⟩
    obtain ⟨r0, hr0⟩ := List.exists_mem_of_ne_nil _ h1
    have hm : ∀ r ∈ runs, r.maxError = r0.maxError := fun r hr => h3 r hr r0 hr0
    exact (compare_iff hm).2 ⟨h2, h1, (key _ hm).2 h4⟩

/-- lines with a label: points, style, label -/
def Draw.labelled : Draw R → Option (List (R × R) × Str × Str)
  | .line pts st (some l) => some (pts, st, l)
  | _ => none

private theorem labelled_notes {o : Opts R} {st s : Str} {p : R × R} :
    (noteDraws o st s p).filterMap Draw.labelled = [] := by
  unfold noteDraws
  cases o.annotate <;> cases st <;> rfl

private theorem labelled_dead {o : Opts R} {st : Str} {acc : List (ℕ × Cells R × R)} {x : ℕ × Cells R × R} :
    (deadDraws o st acc x).filterMap Draw.labelled = [] := by
  unfold deadDraws
  cases (acc.filter fun y => decide (y.1 < x.1)).getLast? with
  | none => rfl
  | some p =>
    obtain ⟨_, c0, e0⟩ := p
    simp only [List.cons_append, List.nil_append]
    rw [List.filterMap_cons_none rfl, List.filterMap_cons_none rfl]
    cases x.2.1.species with
    | none => rfl
    | some s => exact labelled_notes

private theorem filterMap_flatMap_nil {α β γ : Type} {g : β → Option γ} {f : α → List β} (h : ∀ a, (f a).filterMap g = [])
    (l : List α) : (l.flatMap f).filterMap g = [] := by
  induction l with
  | nil => rfl
  | cons a l ih => rw [List.flatMap_cons, List.filterMap_append, h, ih]; rfl

private theorem labelled_run {o : Opts R} {m : R} {x : Run R × Str × Str × Str} (h : accOf m x.1.rows ≠ []) :
    (runDraws o m x).filterMap Draw.labelled =
      [((accOf m x.1.rows).map fun y => point y.2.1 y.2.2, x.2.1, x.2.2.2)] := by
  unfold runDraws
  cases hl : (accOf m x.1.rows).getLast? with
  | none => exact absurd (List.getLast?_eq_none_iff.1 hl) h
  | some p =>
    obtain ⟨j, cl, el⟩ := p
    simp only [List.filterMap_append]
    have h1 : (if o.endpoints = true then [Draw.vertical (cl.removed : R) x.2.2.1] else []).filterMap Draw.labelled = [] := by
      cases o.endpoints <;> rfl
    have h2 : (if o.deadEnds = true then (rejOf m x.1.rows).flatMap (deadDraws o x.2.2.1 (accOf m x.1.rows))
        else []).filterMap Draw.labelled = [] := by
      cases o.deadEnds
      · rfl
      · exact filterMap_flatMap_nil (fun _ => labelled_dead) _
    rw [h1, h2, filterMap_flatMap_nil fun _ => labelled_notes]
    rfl

private theorem filterMap_flatMap_one {α β γ : Type} {g : β → Option γ} {f : α → List β} {k : α → γ} {l : List α}
    (h : ∀ a ∈ l, (f a).filterMap g = [k a]) : (l.flatMap f).filterMap g = l.map k := by
  induction l with
  | nil => rfl
  | cons a l ih =>
    rw [List.flatMap_cons, List.filterMap_append, h a List.mem_cons_self,
      ih fun b hb => h b (List.mem_cons_of_mem _ hb)]
    rfl

/-- **C96.** The labelled lines are, in the order of the reductions, one curve through the rows within the maximal error of
each, with its style and its label, and then the line of the maximal error if it is asked for. -/
theorem curves {o : Opts R} {runs : List (Run R)} {fig : Figure R} (h : compare o runs = .ok fig) :
    ∃ m cs, (∀ r ∈ runs, r.maxError = m) ∧
      fig.draws.filterMap Draw.labelled = cs ++ (if o.showMax then
        [([(fig.xlim.1, m), (fig.xlim.2, m)], str!"r--", str!"maximal allowed reduction error")] else []) ∧
      cs.length = runs.length ∧
      ∀ i run so sb lab, Used o runs i run so sb lab →
        ∃ l, AllWithin m run.rows l ∧ cs[i]? = some (l.map fun p => at' p.1 p.2, so, lab) := by
  obtain ⟨h1, m, cv, h2, h3, h4, h5, h6, h7⟩ := compare_ok h
  have hgood := (each_ok_iff (f := plotRun o m) (fun b a => plotRun_iff) ⟨[], 0, 0⟩ (zipped o runs)).1 ⟨cv, h4⟩
  refine ⟨m, (zipped o runs).map fun x => ((accOf m x.1.rows).map fun y => point y.2.1 y.2.2, x.2.1, x.2.2.2), h3, ?_, ?_, ?_⟩
  · rw [h7, List.filterMap_append, figure_draws h4, filterMap_flatMap_one fun x hx => labelled_run (hgood x hx).1]
    cases o.showMax <;> rfl
  · rw [List.length_map, List.length_zip, List.length_zip, List.length_zip]
    obtain ⟨e1, e2, e3⟩ := h1
    omega
  · intro i run so sb lab hu
    refine ⟨(accOf m run.rows).map Prod.snd, allWithin_sel m 0 run.rows, ?_⟩
    have hz : (zipped o runs)[i]? = some (run, so, sb, lab) := by
      rw [List.getElem?_zip_eq_some, List.getElem?_zip_eq_some, List.getElem?_zip_eq_some]
      exact ⟨hu.run, hu.ok, hu.bad, hu.label⟩
    rw [List.getElem?_map, hz]
    simp only [Option.map_some, List.map_map]
    rfl

private theorem mem_figure {o : Opts R} {runs : List (Run R)} {fig : Figure R} (h : compare o runs = .ok fig) :
    ∃ m, (∀ r ∈ runs, r.maxError = m) ∧ ∀ d : Draw R, d.labelled = none → (d ∈ fig.draws ↔
      ∃ i run so sb lab, Used o runs i run so sb lab ∧ d ∈ runDraws o m (run, so, sb, lab)) := by
  obtain ⟨h1, m, cv, h2, h3, h4, h5, h6, h7⟩ := compare_ok h
  refine ⟨m, h3, fun d hd => ?_⟩
  rw [h7, List.mem_append, figure_draws h4, List.mem_flatMap]
  constructor
  · rintro (⟨⟨run, so, sb, lab⟩, hx, hm⟩ | hx)
    · obtain ⟨i, hu⟩ := mem_zipped.1 hx
      exact ⟨i, run, so, sb, lab, hu, hm⟩
    · cases hs : o.showMax with
      | false => rw [hs] at hx; cases hx
      | true =>
        rw [hs, if_pos rfl, List.mem_singleton] at hx
        subst hx
        cases hd
  · rintro ⟨i, run, so, sb, lab, hu, hm⟩
    exact .inl ⟨_, mem_zipped.2 ⟨i, hu⟩, hm⟩

private theorem mem_notes {o : Opts R} {st s : Str} {p : R × R} {d : Draw R} :
    d ∈ noteDraws o st s p ↔ o.annotate = true ∧ ∃ c, st.head? = some c ∧ d = .text s (textPos o p) c := by
  unfold noteDraws
  cases o.annotate <;> cases st <;> simp

private theorem mem_dead {o : Opts R} {st : Str} {m : R} {rows : List (Cells R)} {x : ℕ × Cells R × R}
    (hx : x ∈ rejOf m rows) {d : Draw R} :
    d ∈ deadDraws o st (accOf m rows) x ↔ ∃ pre post c0 e0, rows = pre ++ x.2.1 :: post ∧ x.1 = pre.length ∧
      LastWithin m pre c0 e0 ∧
      (d = .line [point c0 e0, point x.2.1 x.2.2] st.dropLast none ∨ d = .line [point x.2.1 x.2.2] st none ∨
       ∃ s, x.2.1.species = some s ∧ d ∈ noteDraws o st (pretty o s) (point x.2.1 x.2.2)) := by
  obtain ⟨i, c, e⟩ := x
  obtain ⟨pre, post, rfl, rfl, hb⟩ := mem_rej.1 hx
  unfold deadDraws
  simp only
  rw [acc_before]
  cases hl : (accOf m pre).getLast? with
  | none =>
    refine ⟨fun h => (by cases h), ?_⟩
    rintro ⟨pre', post', c0, e0, hrow, hlen, hlw, -⟩
    obtain ⟨rfl, -⟩ := List.append_inj hrow hlen
    obtain ⟨j, hj⟩ := acc_getLast_iff.2 hlw
    rw [hl] at hj
    cases hj
  | some p =>
    obtain ⟨j, c0, e0⟩ := p
    have hlw := acc_getLast hl
    simp only [List.mem_append, List.mem_cons, List.not_mem_nil, or_false]
    constructor
    · rintro ((h | h) | h)
      · exact ⟨pre, post, c0, e0, rfl, rfl, hlw, .inl h⟩
      · exact ⟨pre, post, c0, e0, rfl, rfl, hlw, .inr (.inl h)⟩
      · cases hs : c.species with
        | none => rw [hs] at h; cases h
        | some s => rw [hs] at h; exact ⟨pre, post, c0, e0, rfl, rfl, hlw, .inr (.inr ⟨s, rfl, h⟩)⟩
    · rintro ⟨pre', post', c0', e0', hrow, hlen, hlw', hd⟩
      obtain ⟨rfl, -⟩ := List.append_inj hrow hlen
      obtain ⟨rfl, rfl⟩ := hlw.unique hlw'
      rcases hd with hd | hd | ⟨s, hs, hd⟩
      · exact .inl (.inl hd)
      · exact .inl (.inr hd)
      · rw [hs]; exact .inr hd

private theorem mem_run {o : Opts R} {m : R} {run : Run R} {so sb lab : Str} {d : Draw R} (hd : d.labelled = none) :
    d ∈ runDraws o m (run, so, sb, lab) ↔ ∃ cl el, LastWithin m run.rows cl el ∧
      ((o.endpoints = true ∧ d = .vertical (cl.removed : R) sb) ∨
       (∃ c ∈ run.rows, ∃ e, Within m c e ∧ d ∈ noteDraws o so (pretty o (caption c)) (point c e)) ∨
       (o.deadEnds = true ∧ ∃ pre c post e c0 e0, run.rows = pre ++ c :: post ∧ Beyond m c e ∧ LastWithin m pre c0 e0 ∧
        (d = .line [point c0 e0, point c e] sb.dropLast none ∨ d = .line [point c e] sb none ∨
         ∃ s, c.species = some s ∧ d ∈ noteDraws o sb (pretty o s) (point c e)))) := by
  unfold runDraws
  cases hl : (accOf m run.rows).getLast? with
  | none =>
    refine ⟨fun h => (by cases h), ?_⟩
    rintro ⟨cl, el, hlw, -⟩
    obtain ⟨j, hj⟩ := acc_getLast_iff.2 hlw
    rw [hl] at hj
    cases hj
  | some p =>
    obtain ⟨j, cl, el⟩ := p
    have hlw := acc_getLast hl
    simp only [List.mem_append, List.mem_singleton]
    constructor
    · rintro (((h | h) | h) | h)
      · cases he : o.endpoints with
        | false => rw [he] at h; cases h
        | true =>
          rw [he, if_pos rfl, List.mem_singleton] at h
          exact ⟨cl, el, hlw, .inl ⟨rfl, h⟩⟩
      · rw [h] at hd; cases hd
      · obtain ⟨⟨i, c, e⟩, hx, hm⟩ := List.mem_flatMap.1 h
        obtain ⟨pre, post, hrow, -, hw⟩ := mem_acc.1 hx
        exact ⟨cl, el, hlw, .inr (.inl ⟨c, by rw [hrow]; simp, e, hw, hm⟩)⟩
      · cases he : o.deadEnds with
        | false => rw [he] at h; cases h
        | true =>
          rw [he, if_pos rfl] at h
          obtain ⟨⟨i, c, e⟩, hx, hm⟩ := List.mem_flatMap.1 h
          obtain ⟨-, -, -, -, hb⟩ := mem_rej.1 hx
          obtain ⟨pre, post, c0, e0, hrow, -, h1, h2⟩ := (mem_dead hx).1 hm
          exact ⟨cl, el, hlw, .inr (.inr ⟨rfl, pre, c, post, e, c0, e0, hrow, hb, h1, h2⟩)⟩
    · rintro ⟨cl', el', hlw', h⟩
      obtain ⟨rfl, rfl⟩ := hlw.unique hlw'
      rcases h with ⟨he, h⟩ | ⟨c, hc, e, hw, hm⟩ | ⟨he, pre, c, post, e, c0, e0, hrow, hb, h1, h2⟩
      · rw [he, if_pos rfl, List.mem_singleton]
        exact .inl (.inl (.inl h))
      · obtain ⟨pre, post, hrow⟩ := List.append_of_mem hc
        exact .inl (.inr (List.mem_flatMap.2 ⟨(pre.length, c, e), mem_acc.2 ⟨pre, post, hrow, rfl, hw⟩, hm⟩))
      · rw [he, if_pos rfl]
        have hx : (pre.length, c, e) ∈ rejOf m run.rows := mem_rej.2 ⟨pre, post, hrow, rfl, hb⟩
        exact .inr (List.mem_flatMap.2 ⟨_, hx, (mem_dead hx).2 ⟨pre, post, c0, e0, hrow, rfl, h1, h2⟩⟩)

/-- **C96.** The lines without label are the dead ends, if they are asked for: for every row above the maximal error, a line
from the last row within it before that row, and a mark. -/
theorem dead_ends {o : Opts R} {runs : List (Run R)} {fig : Figure R} (h : compare o runs = .ok fig) (pts : List (R × R))
    (st : Str) :
    Draw.line pts st none ∈ fig.draws ↔ o.deadEnds = true ∧
      ∃ i run so sb lab, Used o runs i run so sb lab ∧ ∃ pre c post e c0 e0, run.rows = pre ++ c :: post ∧
        Beyond run.maxError c e ∧ LastWithin run.maxError pre c0 e0 ∧
        (pts = [at' c0 e0, at' c e] ∧ st = sb.dropLast ∨ pts = [at' c e] ∧ st = sb) := by
  obtain ⟨m, hm, hmem⟩ := mem_figure h
  rw [hmem _ rfl]
  constructor
  · rintro ⟨i, run, so, sb, lab, hu, hd⟩
    have hmm : run.maxError = m := hm run (List.mem_of_getElem? hu.run)
    obtain ⟨cl, el, -, h⟩ := (mem_run rfl).1 hd
    rcases h with ⟨-, h⟩ | ⟨c, -, e, -, h⟩ | ⟨he, pre, c, post, e, c0, e0, hrow, hb, h1, h2⟩
    · cases h
    · obtain ⟨-, _, -, h⟩ := mem_notes.1 h; cases h
    · refine ⟨he, i, run, so, sb, lab, hu, pre, c, post, e, c0, e0, hrow, by rw [hmm]; exact hb, by rw [hmm]; exact h1, ?_⟩
      rcases h2 with h2 | h2 | ⟨_, -, h2⟩
      · cases h2; exact .inl ⟨rfl, rfl⟩
      · cases h2; exact .inr ⟨rfl, rfl⟩
      · obtain ⟨-, _, -, h2⟩ := mem_notes.1 h2; cases h2
  · rintro ⟨he, i, run, so, sb, lab, hu, pre, c, post, e, c0, e0, hrow, hb, h1, h2⟩
    have hmm : run.maxError = m := hm run (List.mem_of_getElem? hu.run)
    rw [hmm] at hb h1
    obtain ⟨a, b, hpre, hw, -⟩ := id h1
    obtain ⟨cl, el, hlw⟩ : ∃ cl el, LastWithin m run.rows cl el := by
      have : accOf m run.rows ≠ [] := acc_ne_nil.2 ⟨c0, by rw [hrow, hpre]; simp, e0, hw⟩
      cases hl : (accOf m run.rows).getLast? with
      | none => exact absurd (List.getLast?_eq_none_iff.1 hl) this
      | some p => exact ⟨_, _, acc_getLast hl⟩
    refine ⟨i, run, so, sb, lab, hu, (mem_run rfl).2 ⟨cl, el, hlw, .inr (.inr ⟨he, pre, c, post, e, c0, e0, hrow, hb, h1, ?_⟩)⟩⟩
    rcases h2 with ⟨rfl, rfl⟩ | ⟨rfl, rfl⟩
    · exact .inl rfl
    · exact .inr (.inl rfl)

/-- **C96.** The vertical lines are at the last row within the maximal error of every reduction, if they are asked for. -/
theorem endpoints {o : Opts R} {runs : List (Run R)} {fig : Figure R} (h : compare o runs = .ok fig) (x : R) (st : Str) :
    Draw.vertical x st ∈ fig.draws ↔ o.endpoints = true ∧
      ∃ i run so sb lab c e, Used o runs i run so sb lab ∧ LastWithin run.maxError run.rows c e ∧ x = (c.removed : R) ∧
        st = sb := by
  obtain ⟨m, hm, hmem⟩ := mem_figure h
  rw [hmem _ rfl]
  constructor
  · rintro ⟨i, run, so, sb, lab, hu, hd⟩
    have hmm : run.maxError = m := hm run (List.mem_of_getElem? hu.run)
    obtain ⟨cl, el, hlw, h⟩ := (mem_run rfl).1 hd
    rcases h with ⟨he, h⟩ | ⟨c, -, e, -, h⟩ | ⟨-, pre, c, post, e, c0, e0, -, -, -, h2 | h2 | ⟨_, -, h2⟩⟩
    · cases h
      exact ⟨he, i, run, so, st, lab, cl, el, hu, by rw [hmm]; exact hlw, rfl, rfl⟩
    · obtain ⟨-, _, -, h⟩ := mem_notes.1 h; cases h
    · cases h2
    · cases h2
    · obtain ⟨-, _, -, h2⟩ := mem_notes.1 h2; cases h2
  · rintro ⟨he, i, run, so, sb, lab, c, e, hu, hlw, rfl, rfl⟩
    have hmm : run.maxError = m := hm run (List.mem_of_getElem? hu.run)
    rw [hmm] at hlw
    exact ⟨i, run, so, _, lab, hu, (mem_run rfl).2 ⟨c, e, hlw, .inl ⟨he, rfl⟩⟩⟩

/-- **C96.** The texts, if they are asked for, are beside the points of the curves (all removed species) and beside the dead
ends (the species that was tried), in the colours of their styles. -/
theorem annotations {o : Opts R} {runs : List (Run R)} {fig : Figure R} (h : compare o runs = .ok fig) (s : Str) (pos : R × R)
    (col : Char) :
    Draw.text s pos col ∈ fig.draws ↔ o.annotate = true ∧
      ∃ i run so sb lab, Used o runs i run so sb lab ∧ ∃ pre c post e, run.rows = pre ++ c :: post ∧ pos = textPos o (at' c e) ∧
        (Within run.maxError c e ∧ s = pretty o (caption c) ∧ so.head? = some col ∨
         o.deadEnds = true ∧ Beyond run.maxError c e ∧ (∃ sp, c.species = some sp ∧ s = pretty o sp) ∧ sb.head? = some col) := by
  obtain ⟨m, hm, hmem⟩ := mem_figure h
  have hok := (compare_succeeds_iff.1 ⟨fig, h⟩).2.2.2
  rw [hmem _ rfl]
  constructor
  · rintro ⟨i, run, so, sb, lab, hu, hd⟩
    have hmm : run.maxError = m := hm run (List.mem_of_getElem? hu.run)
    obtain ⟨cl, el, hlw, h⟩ := (mem_run rfl).1 hd
    rw [← hmm] at h
    rcases h with ⟨-, h⟩ | ⟨c, hc, e, hw, h⟩ | ⟨he, pre, c, post, e, c0, e0, hrow, hb, -, h2 | h2 | ⟨sp, hs, h2⟩⟩
    · cases h
    · obtain ⟨pre, post, hrow⟩ := List.append_of_mem hc
      obtain ⟨ha, c', hc', h⟩ := mem_notes.1 h
      cases h
      exact ⟨ha, i, run, so, sb, lab, hu, pre, c, post, e, hrow, rfl, .inl ⟨hw, rfl, hc'⟩⟩
    · cases h2
    · cases h2
    · obtain ⟨ha, c', hc', h2⟩ := mem_notes.1 h2
      cases h2
      exact ⟨ha, i, run, so, sb, lab, hu, pre, c, post, e, hrow, rfl, .inr ⟨he, hb, ⟨sp, hs, rfl⟩, hc'⟩⟩
  · rintro ⟨ha, i, run, so, sb, lab, hu, pre, c, post, e, hrow, rfl, h⟩
    have hmm : run.maxError = m := hm run (List.mem_of_getElem? hu.run)
    obtain ⟨hne, -, hdead⟩ := hok i run so sb lab hu
    rw [hmm] at h hne hdead
    have last : ∀ rows : List (Cells R), (∃ c ∈ rows, ∃ e, Within m c e) → ∃ cl el, LastWithin m rows cl el := by
      intro rows hx
      cases hl : (accOf m rows).getLast? with
      | none => exact absurd (List.getLast?_eq_none_iff.1 hl) (acc_ne_nil.2 hx)
      | some p => exact ⟨_, _, acc_getLast hl⟩
    obtain ⟨cl, el, hlw⟩ := last _ hne
    refine ⟨i, run, so, sb, lab, hu, (mem_run rfl).2 ⟨cl, el, hlw, ?_⟩⟩
    rcases h with ⟨hw, rfl, hc⟩ | ⟨he, hb, ⟨sp, hs, rfl⟩, hc⟩
    · exact .inr (.inl ⟨c, by rw [hrow]; simp, e, hw, mem_notes.2 ⟨ha, col, hc, rfl⟩⟩)
    · obtain ⟨c0, e0, h0⟩ := last _ (hdead he pre c post e hrow hb).1
      exact .inr (.inr ⟨he, pre, c, post, e, c0, e0, hrow, hb, h0, .inr (.inr ⟨sp, hs, mem_notes.2 ⟨ha, col, hc, rfl⟩⟩)⟩)

/-! ### the limits of the axes -/

/-- the table of a reduction: the first row is the base case; the number of removed species is larger in every successful row
than in the last row within the maximal error before it; errors are not negative -/
structure Descends (m : R) (rows : List (Cells R)) : Prop where
  base : ∃ c rest, rows = c :: rest ∧ Within m c 0 ∧ c.removed = 0
  step : ∀ pre c post, rows = pre ++ c :: post → pre ≠ [] → c.success = true →
    ∃ c0 e0, LastWithin m pre c0 e0 ∧ c0.removed < c.removed
  nonneg : ∀ c ∈ rows, ∀ e, c.err = some e → 0 ≤ e

/-- the points of the curves and, if they are asked for, of the dead ends -/
def Shown (o : Opts R) (runs : List (Run R)) (p : R × R) : Prop :=
  ∃ run ∈ runs, ∃ c ∈ run.rows, ∃ e, p = at' c e ∧
    (Within run.maxError c e ∨ o.deadEnds = true ∧ Beyond run.maxError c e)

private theorem lastWithin_snoc {m : R} {pre : List (Cells R)} {c c0 : Cells R} {e0 : R}
    (h : LastWithin m (pre ++ [c]) c0 e0) : c0 = c ∧ Within m c e0 ∨ LastWithin m pre c0 e0 ∧ ∀ e, ¬ Within m c e := by
  obtain ⟨a, b, he, hw, hb⟩ := h
  rcases List.eq_nil_or_concat b with rfl | ⟨b, d, rfl⟩
  · obtain ⟨-, h2⟩ := List.append_inj' he rfl
    cases h2
    exact .inl ⟨rfl, hw⟩
  · have : pre ++ [c] = (a ++ c0 :: b) ++ [d] := by rw [he]; simp
    obtain ⟨h1, h2⟩ := List.append_inj' this rfl
    cases h2
    exact .inr ⟨⟨a, b, h1, hw, fun x hx => hb x (by simp [hx])⟩, hb c (by simp)⟩

private theorem exists_last {m : R} {rows : List (Cells R)} (h : ∃ c ∈ rows, ∃ e, Within m c e) :
    ∃ c e, LastWithin m rows c e := by
  cases hl : (accOf m rows).getLast? with
  | none => exact absurd (List.getLast?_eq_none_iff.1 hl) (acc_ne_nil.2 h)
  | some p => exact ⟨_, _, acc_getLast hl⟩

/-- in the table of a reduction, the last row within the maximal error has the most removed species of those -/
private theorem Descends.last_max {m : R} {rows : List (Cells R)} (h : Descends m rows) :
    ∀ pre post, rows = pre ++ post → ∀ c ∈ pre, ∀ e, Within m c e → ∀ c0 e0, LastWithin m pre c0 e0 →
      c.removed ≤ c0.removed := by
  intro pre
  induction pre using List.reverseRecOn with
  | nil => intro post _ c hc; cases hc
  | append_singleton pre d ih =>
    intro post hrow c hc e hw c0 e0 hl
    have hrow' : rows = pre ++ d :: post := by rw [hrow]; simp
    rw [List.mem_append, List.mem_singleton] at hc
    rcases lastWithin_snoc hl with ⟨rfl, hwd⟩ | ⟨hl', hn⟩
    · rcases hc with hc | rfl
      · obtain ⟨c1, e1, hl1, hlt⟩ := h.step pre c0 post hrow' (by rintro rfl; cases hc) hwd.1
        exact (ih _ hrow' c hc e hw c1 e1 hl1).trans hlt.le
      · exact le_refl _
    · rcases hc with hc | rfl
      · exact ih _ hrow' c hc e hw c0 e0 hl'
      · exact absurd hw (hn e)

/-- every row of a run in the table of a reduction has at least as many removed species as the base case -/
private theorem Descends.removed_nonneg {m : R} {rows : List (Cells R)} (h : Descends m rows) :
    ∀ c ∈ rows, c.success = true → 0 ≤ c.removed := by
  obtain ⟨b, rest, hb, hbw, hb0⟩ := h.base
  intro c hc hs
  obtain ⟨pre, post, hrow⟩ := List.append_of_mem hc
  cases pre with
  | nil =>
    rw [hb] at hrow
    simp only [List.nil_append, List.cons.injEq] at hrow
    rw [← hrow.1, hb0]
  | cons x pre =>
    obtain ⟨c0, e0, hl, hlt⟩ := h.step (x :: pre) c post hrow (by simp) hs
    have hx : b = x := by
      rw [hb] at hrow
      simp only [List.cons_append, List.cons.injEq] at hrow
      exact hrow.1
    subst hx
    have := h.last_max (b :: pre) (c :: post) hrow b List.mem_cons_self 0 hbw c0 e0 hl
    omega

private theorem ite_max (a b : R) : (if a > b then a else b) = max a b := by
  by_cases h : a > b
  · rw [if_pos h, max_eq_left h.le]
  · rw [if_neg h, max_eq_right (not_lt.1 h)]

private theorem plotRun_max [IsStrictOrderedRing R] {o : Opts R} {m : R} {cv cv' : Canvas R} {x : Run R × Str × Str × Str}
    (hde : Descends m x.1.rows) (h : plotRun o m cv x = .ok cv') :
    (cv.maxElim ≤ cv'.maxElim ∧
      (∀ s ∈ {s : R | ∃ c ∈ x.1.rows, ∃ e, s = (c.removed : R) ∧ (Within m c e ∨ o.deadEnds = true ∧ Beyond m c e)},
        s ≤ cv'.maxElim) ∧
      (cv'.maxElim = cv.maxElim ∨
        cv'.maxElim ∈ {s : R | ∃ c ∈ x.1.rows, ∃ e, s = (c.removed : R) ∧ (Within m c e ∨ o.deadEnds = true ∧ Beyond m c e)})) ∧
    (cv.maxErr ≤ cv'.maxErr ∧
      (∀ s ∈ {s : R | ∃ c ∈ x.1.rows, ∃ e, s = e * 100 ∧ o.deadEnds = true ∧ Beyond m c e}, s ≤ cv'.maxErr) ∧
      (cv'.maxErr = cv.maxErr ∨
        cv'.maxErr ∈ {s : R | ∃ c ∈ x.1.rows, ∃ e, s = e * 100 ∧ (Within m c e ∨ o.deadEnds = true ∧ Beyond m c e)})) := by
  obtain ⟨j, cl, el, cv1, hl, he1, hn1, -, hdead, hnot⟩ := plotRun_ok h
  have hlw := acc_getLast hl
  obtain ⟨a, b, hrow, hw, -⟩ := id hlw
  have hmem : cl ∈ x.1.rows := by rw [hrow]; simp
  rw [ite_max] at he1 hn1
  have hup : ∀ c ∈ x.1.rows, ∀ e, Within m c e → (c.removed : R) ≤ cv1.maxElim := by
    intro c hc e hw'
    have := hde.last_max x.1.rows [] (by simp) c hc e hw' cl el hlw
    rw [hn1]
    exact (Int.cast_le.2 this).trans (le_max_left _ _)
  have hat1 : cv1.maxElim = cv.maxElim ∨ cv1.maxElim = (cl.removed : R) := by
    rw [hn1]
    rcases max_choice (cl.removed : R) cv.maxElim with h | h
    · exact .inr h
    · exact .inl h
  have hat2 : cv1.maxErr = cv.maxErr ∨ cv1.maxErr = el * 100 := by
    rw [he1]
    rcases max_choice (el * 100) cv.maxErr with h | h
    · exact .inr h
    · exact .inl h
  cases hd : o.deadEnds with
  | false =>
    have := hnot hd
    subst this
    refine ⟨⟨by rw [hn1]; exact le_max_right _ _, ?_, ?_⟩, by rw [he1]; exact le_max_right _ _, ?_, ?_⟩
    · rintro s ⟨c, hc, e, rfl, hw' | ⟨hx, -⟩⟩
      · exact hup c hc e hw'
      · cases hx
    · rcases hat1 with h | h
      · exact .inl h
      · exact .inr ⟨cl, hmem, el, h, .inl hw⟩
    · rintro s ⟨c, hc, e, rfl, hx, -⟩
      cases hx
    · rcases hat2 with h | h
      · exact .inl h
      · exact .inr ⟨cl, hmem, el, h, .inl hw⟩
  | true =>
    have he := hdead hd
    have k1 := each_max (out := Canvas.maxElim) (U := fun y : ℕ × Cells R × R => {(y.2.1.removed : R)})
      (A := fun y : ℕ × Cells R × R => {(y.2.1.removed : R)}) (fun b y _ b' hb => by
        obtain ⟨-, -, h3⟩ := deadEnd_ok hb
        rw [ite_max] at h3
        rw [h3]
        refine ⟨le_max_right _ _, fun s hs => ?_, ?_⟩
        · rw [Set.mem_singleton_iff] at hs; rw [hs]; exact le_max_left _ _
        · rcases max_choice (y.2.1.removed : R) b.maxElim with h | h
          · exact .inr h
          · exact .inl h) he
    have k2 := each_max (out := Canvas.maxErr) (U := fun y : ℕ × Cells R × R => {y.2.2 * 100})
      (A := fun y : ℕ × Cells R × R => {y.2.2 * 100}) (fun b y _ b' hb => by
        obtain ⟨-, h2, -⟩ := deadEnd_ok hb
        rw [ite_max] at h2
        rw [h2]
        refine ⟨le_max_right _ _, fun s hs => ?_, ?_⟩
        · rw [Set.mem_singleton_iff] at hs; rw [hs]; exact le_max_left _ _
        · rcases max_choice (y.2.2 * 100) b.maxErr with h | h
          · exact .inr h
          · exact .inl h) he
    obtain ⟨p1, p2, p3⟩ := k1
    obtain ⟨q1, q2, q3⟩ := k2
    refine ⟨⟨le_trans (by rw [hn1]; exact le_max_right _ _) p1, ?_, ?_⟩, le_trans (by rw [he1]; exact le_max_right _ _) q1, ?_, ?_⟩
    · rintro s ⟨c, hc, e, rfl, hw' | ⟨-, hb⟩⟩
      · exact (hup c hc e hw').trans p1
      · obtain ⟨pre, post, hr⟩ := List.append_of_mem hc
        exact p2 (pre.length, c, e) (mem_rej.2 ⟨pre, post, hr, rfl, hb⟩) _ rfl
    · rcases p3 with p3 | ⟨⟨i, c, e⟩, hy, p3⟩
      · rw [p3]
        rcases hat1 with h | h
        · exact .inl h
        · exact .inr ⟨cl, hmem, el, h, .inl hw⟩
      · obtain ⟨pre, post, hr, -, hb⟩ := mem_rej.1 hy
        exact .inr ⟨c, by rw [hr]; simp, e, p3, .inr ⟨rfl, hb⟩⟩
    · rintro s ⟨c, hc, e, rfl, -, hb⟩
      obtain ⟨pre, post, hr⟩ := List.append_of_mem hc
      exact q2 (pre.length, c, e) (mem_rej.2 ⟨pre, post, hr, rfl, hb⟩) _ rfl
    · rcases q3 with q3 | ⟨⟨i, c, e⟩, hy, q3⟩
      · rw [q3]
        rcases hat2 with h | h
        · exact .inl h
        · exact .inr ⟨cl, hmem, el, h, .inl hw⟩
      · obtain ⟨pre, post, hr, -, hb⟩ := mem_rej.1 hy
        exact .inr ⟨c, by rw [hr]; simp, e, q3, .inr ⟨rfl, hb⟩⟩

/-- **C96.** Axis limits that are not given leave half a species, or 0.9 %, around all points that are shown and the maximal
error, if the tables are those of reductions. -/
theorem axis_limits [IsStrictOrderedRing R] {o : Opts R} {runs : List (Run R)} {fig : Figure R}
    (h : compare o runs = .ok fig) (hde : ∀ run ∈ runs, Descends run.maxError run.rows) :
    (o.xlim = none → (∀ p, Shown o runs p → 0 ≤ p.1) ∧ ∃ M, IsGreatest {x | ∃ p, Shown o runs p ∧ x = p.1} M ∧
      fig.xlim = (-(1 / 2), M + 1 / 2)) ∧
    (o.ylim = none → (∀ p, Shown o runs p → 0 ≤ p.2) ∧
      ∃ N, IsGreatest {y | (∃ p, Shown o runs p ∧ y = p.2) ∨ ∃ run ∈ runs, y = run.maxError} N ∧
      fig.ylim = (-(9 / 10), N + 9 / 10)) := by
  obtain ⟨h1, m, cv, h2, h3, h4, h5, h6, -⟩ := compare_ok h
  obtain ⟨r0, hr0⟩ := List.exists_mem_of_ne_nil _ h2
  have hde' : ∀ x ∈ zipped o runs, x.1 ∈ runs ∧ Descends m x.1.rows := by
    rintro ⟨run, so, sb, lab⟩ hx
    obtain ⟨i, hu⟩ := mem_zipped.1 hx
    have hr := List.mem_of_getElem? hu.run
    exact ⟨hr, by have := hde run hr; rwa [h3 run hr] at this⟩
  obtain ⟨b0, rest0, hb1, hb2, hb3⟩ := (hde r0 hr0).base
  have hshow0 : Shown o runs (at' b0 0) := ⟨r0, hr0, b0, by rw [hb1]; exact List.mem_cons_self, 0, rfl, .inl hb2⟩
  have hm0 : 0 ≤ m := by
    have := hb2.2.2
    rw [h3 r0 hr0] at this
    by_contra hx
    exact absurd this (not_le.2 (div_neg_of_neg_of_pos (not_le.1 hx) (by norm_num)))
  have k1 := each_max (out := Canvas.maxElim) (fun b y hy b' hb => (plotRun_max (hde' y hy).2 hb).1) h4
  have k2 := each_max (out := Canvas.maxErr) (fun b y hy b' hb => (plotRun_max (hde' y hy).2 hb).2) h4
  have inz : ∀ run ∈ runs, ∃ x ∈ zipped o runs, x.1 = run := by
    intro run hr
    obtain ⟨i, a, b, c, hu⟩ := used_of_mem h1 hr
    exact ⟨(run, a, b, c), mem_zipped.2 ⟨i, hu⟩, rfl⟩
  constructor
  · intro hx
    refine ⟨?_, cv.maxElim, ⟨?_, ?_⟩, ?_⟩
    · rintro p ⟨run, hr, c, hc, e, rfl, hw⟩
      have := (hde run hr).removed_nonneg c hc (by rcases hw with hw | ⟨-, hw⟩ <;> exact hw.1)
      exact Int.cast_nonneg this
    · rcases k1.2.2 with hk | ⟨x, hx, c, hc, e, hk, hw⟩
      · exact ⟨_, hshow0, by rw [hk]; simp [at', hb3]⟩
      · have hr := (hde' x hx).1
        refine ⟨at' c e, ⟨x.1, hr, c, hc, e, rfl, ?_⟩, hk⟩
        rw [h3 _ hr]
        exact hw
    · rintro _ ⟨p, ⟨run, hr, c, hc, e, rfl, hw⟩, rfl⟩
      rw [h3 _ hr] at hw
      obtain ⟨x, hx, rfl⟩ := inz run hr
      exact k1.2.1 x hx _ ⟨c, hc, e, rfl, hw⟩
    · rw [h5, hx]
      simp only [Option.getD_none]
      norm_num
  · intro hy
    refine ⟨?_, max cv.maxErr m, ⟨?_, ?_⟩, ?_⟩
    · rintro p ⟨run, hr, c, hc, e, rfl, hw⟩
      have := (hde run hr).nonneg c hc e (by rcases hw with hw | ⟨-, hw⟩ <;> exact hw.2.1)
      exact mul_nonneg this (by norm_num)
    · rcases max_choice cv.maxErr m with hk | hk
      · rw [hk]
        rcases k2.2.2 with hk2 | ⟨x, hx, c, hc, e, hk2, hw⟩
        · exact .inl ⟨_, hshow0, by rw [hk2]; simp [at']⟩
        · have hr := (hde' x hx).1
          refine .inl ⟨at' c e, ⟨x.1, hr, c, hc, e, rfl, ?_⟩, hk2⟩
          rw [h3 _ hr]
          exact hw
      · exact .inr ⟨r0, hr0, by rw [hk, h3 r0 hr0]⟩
    · rintro _ (⟨p, ⟨run, hr, c, hc, e, rfl, hw⟩, rfl⟩ | ⟨run, hr, rfl⟩)
      · rw [h3 _ hr] at hw
        obtain ⟨x, hx, rfl⟩ := inz run hr
        rcases hw with hw | ⟨hd, hb⟩
        · have : e * 100 ≤ m := by
            have h100 : (0 : R) < 100 := by norm_num
            exact (le_div_iff₀ h100).1 hw.2.2
          exact this.trans (le_max_right _ _)
        · exact (k2.2.1 x hx _ ⟨c, hc, e, rfl, hd, hb⟩).trans (le_max_left _ _)
      · rw [h3 _ hr]
        exact le_max_right _ _
    · rw [h6, hy]
      rfl

/-- **C96.** In the table of a reduction the curve starts at the origin and goes strictly to the right, never above the
maximal error. -/
theorem Descends.curve {m : R} {rows : List (Cells R)} (h : Descends m rows) {l : List (Cells R × R)}
    (hl : AllWithin m rows l) :
    (∃ c rest, l = (c, 0) :: rest ∧ c.removed = 0) ∧ l.Pairwise (fun a b => a.1.removed < b.1.removed) ∧
      ∀ p ∈ l, 0 ≤ p.2 ∧ p.2 ≤ m / 100 := by
  have mem_of : ∀ {rows : List (Cells R)} {l : List (Cells R × R)}, AllWithin m rows l → ∀ p ∈ l, p.1 ∈ rows ∧ Within m p.1 p.2 := by
    intro rows l hl
    induction hl with
    | nil => intro p hp; cases hp
    | take hw _ ih =>
      intro p hp
      rcases List.mem_cons.1 hp with rfl | hp
      · exact ⟨List.mem_cons_self, hw⟩
      · exact ⟨List.mem_cons_of_mem _ (ih p hp).1, (ih p hp).2⟩
    | skip _ _ ih => exact fun p hp => ⟨List.mem_cons_of_mem _ (ih p hp).1, (ih p hp).2⟩
  refine ⟨?_, ?_, fun p hp => ?_⟩
  · obtain ⟨c, rest, rfl, hw, h0⟩ := h.base
    cases hl with
    | take hw' hl =>
      have := hw.2.1.symm.trans hw'.2.1
      cases this
      exact ⟨c, _, rfl, h0⟩
    | skip hn _ => exact absurd hw (hn _)
  · -- a row within the maximal error has more removed species than any such row before it
    have key : ∀ pre c post, rows = pre ++ c :: post → ∀ e, Within m c e → ∀ d ∈ pre, ∀ e', Within m d e' →
        d.removed < c.removed := by
      intro pre c post hrow e hw d hd e' hw'
      obtain ⟨c0, e0, hlast, hlt⟩ := h.step pre c post hrow (by rintro rfl; cases hd) hw.1
      exact lt_of_le_of_lt (h.last_max pre _ hrow d hd e' hw' c0 e0 hlast) hlt
    have aux : ∀ rows' l, AllWithin m rows' l → ∀ pre, rows = pre ++ rows' →
        l.Pairwise (fun a b => a.1.removed < b.1.removed) := by
      intro rows' l hl
      induction hl with
      | nil => exact fun _ _ => .nil
      | @take c e rows' l hw hl ih =>
        intro pre hrow
        refine .cons (fun p hp => ?_) (ih (pre ++ [c]) (by rw [hrow]; simp))
        obtain ⟨hp1, hp2⟩ := mem_of hl p hp
        obtain ⟨x, y, hxy⟩ := List.append_of_mem hp1
        exact key (pre ++ c :: x) p.1 y (by rw [hrow, hxy]; simp) p.2 hp2 c (by simp) e hw
      | @skip c rows' l _ _ ih => exact fun pre hrow => ih (pre ++ [c]) (by rw [hrow]; simp)
    exact aux rows l hl [] rfl
  · obtain ⟨h1, h2⟩ := mem_of hl p hp
    exact ⟨h.nonneg _ h1 _ h2.2.1, h2.2.2⟩

/-- **C96.** Without options: no species names and no vertical lines, but dead ends and the line of the maximal error. -/
theorem default_figure {runs : List (Run R)} {fig : Figure R} (h : compare {} runs = .ok fig) :
    (∀ s pos col, Draw.text s pos col ∉ fig.draws) ∧ (∀ x st, Draw.vertical x st ∉ fig.draws) ∧
    (∃ m st, (∀ r ∈ runs, r.maxError = m) ∧
      Draw.line [(fig.xlim.1, m), (fig.xlim.2, m)] st (some str!"maximal allowed reduction error") ∈ fig.draws) ∧
    ∀ i run so sb lab, Used {} runs i run so sb lab → ∀ pre c post e c0 e0, run.rows = pre ++ c :: post →
      Beyond run.maxError c e → LastWithin run.maxError pre c0 e0 → Draw.line [at' c0 e0, at' c e] sb.dropLast none ∈ fig.draws := by
  refine ⟨fun s pos col hx => ?_, fun x st hx => ?_, ?_, fun i run so sb lab hu pre c post e c0 e0 h1 h2 h3 => ?_⟩
  · exact absurd ((annotations h s pos col).1 hx).1 (by simp)
  · exact absurd ((endpoints h x st).1 hx).1 (by simp)
  · obtain ⟨m, cs, h1, h2, -⟩ := curves h
    refine ⟨m, str!"r--", h1, ?_⟩
    have : ([(fig.xlim.1, m), (fig.xlim.2, m)], str!"r--", str!"maximal allowed reduction error") ∈
        fig.draws.filterMap Draw.labelled := by rw [h2]; simp
    obtain ⟨d, hd, he⟩ := List.mem_filterMap.1 this
    cases d with
    | line p st l =>
      cases l with
      | none => cases he
      | some l => cases he; exact hd
    | vertical => cases he
    | text => cases he
  · exact (dead_ends h _ _).2 ⟨rfl, i, run, so, sb, lab, hu, pre, c, post, e, c0, e0, h1, h2, h3, .inl ⟨rfl, rfl⟩⟩

/-- **C96.** Without options, up to 70 reductions can be drawn: each in a colour of its own, in turns of seven, which is also
the colour of its dead ends, and with its name. -/
theorem default_styles (runs : List (Run R)) (i : Nat) (run : Run R) (so sb lab : Str) :
    Used {} runs i run so sb lab ↔ runs[i]? = some run ∧ i < 70 ∧ lab = run.name ∧
      ∃ c, ['b', 'g', 'r', 'c', 'm', 'y', 'k'][i % 7]? = some c ∧ so = [c, '-', 'o'] ∧ sb = [c, ':', 'X'] := by
  have key : ∀ suffix : Str, ∀ st, (styles suffix)[i]? = some st ↔
      i < 70 ∧ ∃ c, ['b', 'g', 'r', 'c', 'm', 'y', 'k'][i % 7]? = some c ∧ st = c :: suffix := by
    intro suffix st
    have h1 : ∀ j : Fin 70, (styles [])[j.1]? = (['b', 'g', 'r', 'c', 'm', 'y', 'k'][j.1 % 7]?).map fun c => [c] := by
      decide +kernel
    have h2 : styles suffix = (styles []).map (· ++ suffix) := by
      simp [styles]
    rw [h2, List.getElem?_map]
    by_cases hi : i < 70
    · rw [h1 ⟨i, hi⟩]
      cases ['b', 'g', 'r', 'c', 'm', 'y', 'k'][i % 7]? <;> simp [hi, eq_comm]
    · rw [List.getElem?_eq_none (by simpa [styles] using hi)]
      simp [hi]
  constructor
  · rintro ⟨h1, h2, h3, h4⟩
    obtain ⟨hi, c, hc, rfl⟩ := (key _ _).1 h2
    obtain ⟨-, c', hc', rfl⟩ := (key _ _).1 h3
    rw [hc] at hc'
    cases hc'
    refine ⟨h1, hi, ?_, c, hc, rfl, rfl⟩
    simp [h1] at h4
    exact h4.symm
  · rintro ⟨h1, hi, rfl, c, hc, rfl, rfl⟩
    exact ⟨h1, (key _ _).2 ⟨hi, c, hc, rfl⟩, (key _ _).2 ⟨hi, c, hc, rfl⟩, by simp [h1]⟩

end Verif.Fwork.ReducePlot
