/-
C96: concrete figures.
-/
import Verif.Fwork.ReducePlotRed

namespace Verif.Fwork.ReducePlot.Demo
open Verif.Plaschem Verif.Fwork.ReducePlot

/-- The base case; Ar* is removed; without Ar++ (and Ar+ and Ar with it) the error is too large; X could not be removed; O2+ is
removed. -/
def rows : List (Cells ℚ) :=
  [⟨none, true, none, 0, some 0⟩, ⟨some str!"Ar*", true, none, 1, some (1 / 100)⟩,
   ⟨some str!"Ar++", true, some str!"Ar+, Ar", 4, some (5 / 100)⟩, ⟨some str!"X", false, none, 1, none⟩,
   ⟨some str!"O2+", true, some str!"O2", 3, some (2 / 100)⟩]

def run : Run ℚ := ⟨str!"drg", rows, 3⟩

def opts : Opts ℚ := { annotate := true, endpoints := true }

/-- the whole figure -/
theorem figure : (compare opts [run]).toOption = some
    { draws :=
        [.vertical 3 (str!"b:X"), .line [(0, 0), (1, 1), (3, 2)] (str!"b-o") (some str!"drg"),
         .text [] (1 / 20, -(9 / 20)) 'b', .text (str!"Ar*") (21 / 20, 11 / 20) 'b',
         .text (str!"O$_{2}$$^{+}$, O$_{2}$") (61 / 20, 31 / 20) 'b',
         .line [(1, 1), (4, 5)] (str!"b:") none, .line [(4, 5)] (str!"b:X") none,
         .text (str!"Ar$^{+}$$^{+}$") (81 / 20, 91 / 20) 'b',
         .line [(-(1 / 2), 3), (9 / 2, 3)] (str!"r--") (some str!"maximal allowed reduction error")]
      xlim := (-(1 / 2), 9 / 2)
      ylim := (-(9 / 10), 59 / 10) } := by decide +kernel

/-- and without options -/
example : ∃ fig, compare {} [run] = .ok fig ∧ ∀ s pos col, Draw.text s pos col ∉ fig.draws := by
  have h : (compare {} [run]).toOption.isSome = true := by decide +kernel
  cases hx : compare {} [run] with
  | error e => rw [hx] at h; cases h
  | ok fig => exact ⟨fig, rfl, (default_figure hx).1⟩

def raised {α : Type} : Except PErr α → Option PErr
  | .error e => some e
  | .ok _ => none

/-- two reductions with different maximal errors -/
example : raised (compare opts [run, { run with maxError := 2 }]) = some .assertion := by decide +kernel

/-- a reduction before its base case -/
example : raised (compare opts [{ run with rows := [] }]) = some .index := by decide +kernel

/-- The tables of the theorems on limits: this one. -/
theorem rows_descend : Descends 3 rows := by
  refine ⟨⟨_, _, rfl, ⟨rfl, rfl, by norm_num⟩, rfl⟩, fun pre c post h hne hs => ?_, fun c hc e he => ?_⟩
  · match pre, h with
    | [], _ => exact absurd rfl hne
    | [a], h =>
      simp only [rows, List.cons_append, List.nil_append, List.cons.injEq] at h
      obtain ⟨rfl, rfl, rfl⟩ := h
      exact ⟨_, 0, ⟨[], [], rfl, ⟨rfl, rfl, by norm_num⟩, fun x hx => by cases hx⟩, by decide⟩
    | [a, b], h =>
      simp only [rows, List.cons_append, List.nil_append, List.cons.injEq] at h
      obtain ⟨rfl, rfl, rfl, rfl⟩ := h
      exact ⟨_, 1 / 100, ⟨[_], [], rfl, ⟨rfl, rfl, by norm_num⟩, fun x hx => by cases hx⟩, by decide⟩
    | [a, b, c'], h =>
      simp only [rows, List.cons_append, List.nil_append, List.cons.injEq] at h
      obtain ⟨rfl, rfl, rfl, rfl, rfl⟩ := h
      cases hs
    | [a, b, c', d], h =>
      simp only [rows, List.cons_append, List.nil_append, List.cons.injEq] at h
      obtain ⟨rfl, rfl, rfl, rfl, rfl, rfl⟩ := h
      refine ⟨_, 1 / 100, ⟨[_], [_, _], rfl, ⟨rfl, rfl, by norm_num⟩, fun x hx e he => ?_⟩, by decide⟩
      simp only [List.mem_cons, List.not_mem_nil, or_false] at hx
      rcases hx with rfl | rfl
      · obtain ⟨-, h1, h2⟩ := he
        cases h1
        norm_num at h2
      · cases he.1
    | a :: b :: c' :: d :: f :: l, h =>
      simp [rows] at h
  · simp only [rows, List.mem_cons, List.not_mem_nil, or_false] at hc
    rcases hc with rfl | rfl | rfl | rfl | rfl <;> cases he <;> norm_num

/-- the hypotheses of the theorems are met -/
example : ∃ fig, compare opts [run] = .ok fig ∧ (∀ r ∈ [run], Descends r.maxError r.rows) ∧
    Draw.line [(1, 1), (4, 5)] (str!"b:") none ∈ fig.draws ∧ Draw.vertical 3 (str!"b:X") ∈ fig.draws ∧
    Draw.text (str!"Ar$^{+}$$^{+}$") (81 / 20, 91 / 20) 'b' ∈ fig.draws := by
  have h := figure
  cases hc : compare opts [run] with
  | error e => rw [hc] at h; cases h
  | ok fig =>
    rw [hc] at h
    obtain rfl := Option.some.inj h
    refine ⟨_, rfl, fun r hr => ?_, by simp, by simp, by simp⟩
    rw [List.mem_singleton] at hr
    subst hr
    exact rows_descend

/-! ### a reduction -/

section
open Verif.Fwork.Reduce Verif.Plaschem.Demo

/-- the reduction of `Reduce.Demo` with rational errors -/
def cfg : Cfg ℕ ℚ where
  net := net
  path := none
  hash := fun _ => none
  backend := fun _ c => .solved (net.getSpeciesName c false false true).length
  err := fun a b => some (some (((a : ℤ) - b).natAbs / 100 : ℚ))
  important := [str!"Ar"]
  maxErr := 1 / 100

def loop : Option (Loop ℕ ℚ ℕ) :=
  match initRed cfg st0 with
  | .error _ => none
  | .ok red =>
    match startLoop cfg Reduce.Demo.ranking red with
    | .error _ => none
    | .ok l => (Reduce.Demo.go cfg Reduce.Demo.ranking 0 10 l).toOption

theorem loop_rows : (loop.map fun t => t.red.history.map fun r => (r.species, r.success, r.totalRemoved, r.errBase)) =
    some [(none, true, 0, some 0), (some str!"Ar*", true, 1, some (1 / 100)), (some str!"Ar++", true, 2, some (2 / 100))] := by
  decide +kernel

/-- `read_csv` reads 'NaN' as a missing value -/
def isNa (s : Str) : Bool := s == str!"NaN"

theorem visited : ∃ t, loop = some t ∧ Visited cfg Reduce.Demo.ranking (fun _ => true) 0 st0 t := by
  have h := loop_rows
  cases hl : loop with
  | none => rw [hl] at h; cases h
  | some t =>
    refine ⟨t, rfl, ?_⟩
    unfold loop at hl
    cases hi : initRed cfg st0 with
    | error e => rw [hi] at hl; cases hl
    | ok red =>
      rw [hi] at hl
      simp only at hl
      cases hs : startLoop cfg Reduce.Demo.ranking red with
      | error e => rw [hs] at hl; cases hl
      | ok l =>
        rw [hs] at hl
        simp only at hl
        cases hg : Reduce.Demo.go cfg Reduce.Demo.ranking 0 10 l with
        | error e => rw [hg] at hl; cases hl
        | ok t' =>
          rw [hg] at hl
          obtain rfl := Option.some.inj hl
          obtain ⟨s, h6, ⟨t2, ht, h7⟩ | ⟨e, he, -⟩⟩ := goes_of_runs (Reduce.Demo.runs_of_go hg (by intro h; cases h))
          · cases ht
            exact ⟨red, l, s, hi, hs, h6, .inr h7⟩
          · cases he

/-- Its table is one of those the theorems are about, and the figure of it, twice, can be made. -/
example : ∃ t, loop = some t ∧
    OfReduction isNa (fun _ => []) (⟨str!"a", (ReduceDisk.lines t.red.history).map (cells isNa fun _ => []), 1⟩ : Run ℚ) ∧
    ∃ fig, compare { annotate := true } [⟨str!"a", (ReduceDisk.lines t.red.history).map (cells isNa fun _ => []), 1⟩,
      (⟨str!"b", (ReduceDisk.lines t.red.history).map (cells isNa fun _ => []), 1⟩ : Run ℚ)] = .ok fig := by
  obtain ⟨t, h1, h2⟩ := visited
  have key : ∀ name, OfReduction isNa (fun _ => [])
      (⟨name, (ReduceDisk.lines t.red.history).map (cells isNa fun _ => []), 1⟩ : Run ℚ) := fun name =>
    OfReduction.mk (cfg := cfg) reach0 net_retClosed (by intro a _ i c b _ h; cases h)
      (by intro a b e h; cases h; positivity) (by norm_num [cfg]) rfl
      (by decide +kernel) h2
  refine ⟨t, h1, key _, reductions_compared (isNa := isNa) (order := fun _ => []) (by simp)
    ⟨(by decide +kernel : 2 ≤ (styles (str!"-o")).length), (by decide +kernel : 2 ≤ (styles (str!":X")).length), (by simp)⟩
    (fun r hr r' hr' => ?_) (fun r hr => ?_)
    (fun _ => by decide +kernel)⟩
  · simp only [List.mem_cons, List.not_mem_nil, or_false] at hr hr'
    rcases hr with rfl | rfl <;> rcases hr' with rfl | rfl <;> rfl
  · simp only [List.mem_cons, List.not_mem_nil, or_false] at hr
    rcases hr with rfl | rfl <;> exact key _

end

/-! ### findings -/

/-- the lines of a table about the species NaN (sodium nitride) -/
def sodium : List (ReduceDisk.Line ℚ) :=
  [⟨some str!"00_full_chemistry", none, true, ∅, 0, 3, some 0, some 0⟩,
   ⟨some str!"01_disabled_NaN", some str!"NaN", true, ∅, 1, 2, some (5 / 100), some (5 / 100)⟩]

/-- **C96** (finding). A species called NaN is read back as a missing value: its dead end makes the annotated figure raise an
`AttributeError`, and beside a point of the curve there is no name. -/
theorem nan_species (o : Opts ℚ) (ho : o = { annotate := true }) :
    raised (compare o [⟨str!"a", sodium.map (cells isNa fun _ => []), 1⟩]) = some .attribute ∧
    ((compare o [⟨str!"a", sodium.map (cells isNa fun _ => []), 6⟩]).toOption.map fun f =>
      f.draws.filterMap fun d => match d with | .text s _ _ => some s | _ => none) = some [[], []] := by
  subst ho
  exact ⟨by decide +kernel, by decide +kernel⟩

/-- **C96** (finding). A zero is not lowered with the other digits of a number. -/
theorem zero_not_lowered (o : Opts ℚ) (ho : o.names (str!"C10") = none) : pretty o (str!"C10") = str!"C$_{1}$0" := by
  rw [pretty_names, ho]
  decide +kernel

end Verif.Fwork.ReducePlot.Demo
