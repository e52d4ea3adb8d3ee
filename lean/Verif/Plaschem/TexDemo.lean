/-
C90: cases that meet the hypotheses, and cases outside them.
-/
import Verif.Plaschem.TexReactions

namespace Verif.Plaschem.DemoTex

open Tex LatexRate Xml

/-- two rows and two columns -/
def f : Frame Nat := ⟨[3, 5], [str!"name", str!"value"], fun i c =>
  if c = str!"name" then .text (if i = 3 then str!"Ar" else str!"Ar$^+$") else .other str!"1.5", by decide, by decide⟩

/-- the calls: numbers must be formatted by a decorator, and the last one given for a cell counts -/
def ops : List (Tex.Op Nat) :=
  [.caption str!"old", .decorate 3 str!"name" (noteDecorator [str!"z"]), .load f, .note str!"a" str!"first",
   .note str!"b" str!"second", .note str!"a" str!"third", .decorate 3 str!"value" (noteDecorator [str!"b"]),
   .decorate 3 str!"value" (noteDecorator [str!"a", str!"b"]), .decorate 5 str!"value" fun v => .ok (.text v.shown),
   .caption str!"new", .label str!"tab"]

def t (kind : Str) : Table Nat := ops.foldl Tex.Op.run { tableType := kind }

def g (i : Nat) (c : Str) : Str :=
  if c = str!"name" then (if i = 3 then str!"Ar" else str!"Ar$^+$")
  else if i = 3 then str!"1.5 $^\\mathrm{a,b}$" else str!"1.5"

/-- the hypotheses of `table_read` hold -/
theorem reads (long : Bool) : ∃ s, (t (if long then str!"longtable" else str!"table")).toStr = .ok s ∧
    Reads long (t (if long then str!"longtable" else str!"table")) g s := by
  refine table_read (by cases long <;> rfl) (by decide) ?_ (by cases long <;> decide) (by cases long <;> decide) ?_
  · cases long <;> exact ⟨by decide, by decide, by decide, by decide, by decide⟩
  have : ∀ i ∈ [3, 5], ∀ c ∈ [str!"name", str!"value"], ((t (if long then str!"longtable" else str!"table")).cellText i c).toOption =
      some (.text (g i c)) ∧ OneCell (g i c) := by
    cases long <;> decide +kernel
  intro i hi c hc
  obtain ⟨h1, h2⟩ := this i hi c hc
  refine ⟨?_, h2⟩
  generalize (t (if long then str!"longtable" else str!"table")).cellText i c = x at h1
  cases x with
  | error e => cases h1
  | ok v => exact congrArg Except.ok (Option.some.inj h1)

/-- and those of `table_balanced` -/
example : ∃ s, (t str!"table").toStr = .ok s ∧ Tex.Balanced s := by
  refine table_balanced (g := g) (.inl rfl) (by decide) ⟨by rfl, ?_, by rfl, by rfl, by decide, ?_⟩ ?_
  · intro n hn
    have : ∀ n ∈ (t str!"table").notes, nest false 0 n.1 = some 0 ∧ nest false 0 n.2 = some 0 := by decide +kernel
    exact this n hn
  · intro c hc
    have : ∀ c ∈ [str!"name", str!"value"], nest false 0 c = some 0 := by decide +kernel
    exact this c hc
  · have : ∀ i ∈ [3, 5], ∀ c ∈ [str!"name", str!"value"], ((t str!"table").cellText i c).toOption = some (.text (g i c)) ∧
        nest false 0 (g i c) = some 0 := by decide +kernel
    intro i hi c hc
    obtain ⟨h1, h2⟩ := this i hi c hc
    refine ⟨?_, h2⟩
    generalize (t str!"table").cellText i c = x at h1
    cases x with
    | error e => cases h1
    | ok v => exact congrArg Except.ok (Option.some.inj h1)

/-- the rows read, and the notes as they stand -/
example : ((t str!"table").toStr.toOption.map fun s => bodyOf false (linesOf s)) =
    some [[str!"Ar", str!"1.5 $^\\mathrm{a,b}$"], [str!"Ar$^+$", str!"1.5"]] ∧
    (t str!"table").notes = [(str!"a", str!"third"), (str!"b", str!"second")] := by decide +kernel

/-- Without a decorator a number is a `TypeError`. -/
theorem number_refused : ((Table.loadDataframe { tableType := str!"table" } f).toStr.toOption) = none := by decide +kernel

/-- A separator in a text makes two cells of it. -/
theorem separator_splits :
    ((Table.loadDataframe { tableType := str!"table" }
      (⟨[0], [str!"a", str!"b"], fun _ c => .text (if c = str!"a" then str!"J. Phys. D & B" else str!"x"), by decide,
        by decide⟩ : Frame Nat)).toStr.toOption.map fun s => bodyOf false (linesOf s)) =
      some [[str!"J. Phys. D", str!"B", str!"x"]] := by decide +kernel

/-! ### reactions -/

/-- integers as numbers -/
def N : NumFmt Int where
  val x := x
  abs x := x.natAbs
  sci x := showInt x ++ str!".00E+00"
  round2 x := showInt x ++ str!".0"

theorem N_oneCell (x : Int) : OneCell (N.sci x) ∧ OneCell (N.round2 x) :=
  ⟨(oneCell_int x).append (by decide), (oneCell_int x).append (by decide)⟩

theorem ids : ([DemoX.x].map Rx.id).Nodup := by decide +kernel

theorem known_distinct : known.Nodup := by decide +kernel

def T (s : Str) : Except Err Str := .ok (str!"\\mathrm{" ++ s ++ str!"}")

def table : Except Err (Table Nat) := reactionsTable N DemoX.C T [DemoX.x] known ids known_distinct

/-- the table read; a reaction without a source has the source `None` -/
theorem source_none : (table.toOption.bind fun t => t.toStr.toOption.map fun s => bodyOf true (linesOf s)) =
    some [[str!"7", str!"$\\mathrm{e} + \\mathrm{Ar} \\rightarrow 2 \\mathrm{e} + \\mathrm{Ar+}$",
      str!"$3 \\exp \\left( -15/T_\\mathrm{e} \\right)$", str!"16", str!"None"]] := by decide +kernel

/-- the hypotheses of `reactions_table_read` hold -/
example : ∃ t s, table = .ok t ∧ t.toStr = .ok s ∧
    List.Forall₂ (fun x row => List.Forall₂ (fun c cell => ∃ w, CellFor N DemoX.C T x c w ∧ cell = trim w) known row)
      [DemoX.x] (bodyOf true (linesOf s)) := by
  cases h : table with
  | error e =>
    have := source_none
    rw [h] at this
    cases this
  | ok t =>
    obtain ⟨s, h1, -, h2⟩ := reactions_table_read h (by decide) N_oneCell (by
      intro x hx s hs
      rw [List.mem_singleton] at hx
      subst hx
      have : ∀ s ∈ (DemoX.x.getLatex DemoX.C T).toOption, OneCell s := by decide +kernel
      exact this s (by rw [hs]; rfl)) (by
      intro x hx s hs
      rw [List.mem_singleton] at hx
      subst hx
      have : (DemoX.x.attr str!"doi").optText DemoX.C = none := by decide +kernel
      rw [this] at hs
      cases hs)
    exact ⟨t, s, rfl, h1, h2⟩

/-- An energy loss of 10 eV is shown as 1. -/
theorem loss_of_ten : CellFor N DemoX.C T
    { DemoX.x with attr := fun a => if a = str!"el_en_loss" then .float 10 else DemoX.x.attr a } str!"$\\Delta E_\\mathrm{e}$" str!"1" := by
  have : lossCell N 10 = str!"1" := by decide +kernel
  rw [← this]
  exact .loss rfl

end Verif.Plaschem.DemoTex
