/-
Model of plaschem/pretty_print.py: frames over ids of species and reactions, printed with labels and with disabled
rows and columns in red.
-/
import Verif.Plaschem.Chemistry
import Verif.Plaschem.ReactStr

namespace Verif.Plaschem.Pretty
open Verif.Plaschem

/-- the colours of `colorama.Fore` that are used -/
inductive Color
  | reset | red | blue | yellow | magenta
  deriving DecidableEq, Repr

/-- plaschem/pretty_print.py:5-29 `ColorValue` -/
structure CV (α : Type) where
  value : α
  color : Color := .reset
  deriving DecidableEq, Repr

/-- A `pandas.DataFrame` with ids of species or reactions as its rows and columns. Labels are unique. -/
structure Frame (V : Type) where
  index : List Nat
  columns : List Nat
  cell : Nat → Nat → V

/-- the two collections of a chemistry that can label an axis -/
inductive Axis
  | species | reactions
  deriving DecidableEq, Repr

variable {V : Type}

/-- `self.chemistry._species.index` resp. `self.chemistry._reactions.index` -/
def ids (net : Net) : Axis → List Nat
  | .species => net.species.map RP.id
  | .reactions => net.reactions.map Reaction.id

/-- plaschem/pretty_print.py:62-69: what an axis consists of; `none` if neither candidate fits. -/
def axisOf (net : Net) (l : List Nat) : Option Axis :=
  if l ⊆ ids net .species then some .species
  else if l ⊆ ids net .reactions then some .reactions
  else none

/-- plaschem/pretty_print.py:73-78: `str(a)` for all objects of an axis, by id -/
def labels (net : Net) : Axis → Dict Nat Str
  | .species => net.species.map fun s => (s.id, s.name)
  | .reactions => net.reactions.map fun r => (r.id, r.toStr)

/-- `get_disabled_species().index` resp. `get_disabled_reactions().index` -/
def disabledIds (net : Net) (st : State) : Axis → List Nat
  | .species => (net.getDisabledSpecies st).map RP.id
  | .reactions => (net.getDisabledReactions st).map Reaction.id

/-- A row or column of the frame being printed: `none` is the label `-1` of the annotations. -/
abbrev Line := Option Nat

/-- a printed cell: a value of the frame or a label -/
inductive Entry (V : Type)
  | val (v : V)
  | label (s : Str)
  deriving DecidableEq, Repr

/-- the frame while it is being built -/
structure Draft (V : Type) where
  index : List Line
  columns : List Line
  cell : Line → Line → CV (Entry V)

/-- plaschem/pretty_print.py:54-60: the values wrapped. -/
def wrap (f : Frame V) : Draft V where
  index := f.index.map some
  columns := f.columns.map some
  cell := fun i c => match i, c with
    | some i, some c => { value := .val (f.cell i c) }
    | _, _ => { value := .label [] }

/-- plaschem/pretty_print.py:71-81: a column of labels of the rows and a row of labels of the columns in front. A
label looked up is there, since the axis was determined by its ids being among those of the objects. -/
def annotate (net : Net) (ki kc : Axis) (d : Draft V) : Draft V where
  index := none :: d.index
  columns := none :: d.columns
  cell := fun i c => match i, c with
    | none, none => { value := .label [] }
    | some i, none => { value := .label (((labels net ki).get? i).getD []) }
    | none, some c => { value := .label (((labels net kc).get? c).getD []) }
    | some i, some c => d.cell (some i) (some c)

/-- plaschem/pretty_print.py:84-88: the row of a disabled object in red. -/
def redRow (d : Draft V) (i : Nat) : Draft V :=
  if some i ∈ d.index then
    { d with cell := fun k l => if k = some i ∧ l ∈ d.columns then { d.cell k l with color := .red } else d.cell k l }
  else d

/-- plaschem/pretty_print.py:89-93: the column of a disabled object in red. -/
def redColumn (d : Draft V) (c : Nat) : Draft V :=
  if some c ∈ d.columns then
    { d with cell := fun k l => if l = some c ∧ k ∈ d.index then { d.cell k l with color := .red } else d.cell k l }
  else d

/-- plaschem/pretty_print.py:96-97: the first heading becomes the empty string (`none`); a list of another length is
refused by pandas. -/
def blankFirst : List Line → Except Err (List Line)
  | [] => .error .valueError
  | _ :: l => .ok (none :: l)

/-- what is printed: headings of rows and columns (`none` is the empty string) and the cells in between -/
structure Printed (V : Type) where
  rowHeads : List Line
  columnHeads : List Line
  cells : List (List (CV (Entry V)))
  deriving DecidableEq

/-- plaschem/pretty_print.py:46-102 `_get_pretty_dataframe`. -/
def pretty (net : Net) (st : State) (f : Frame V) (annotation : Bool) : Except Err (Printed V) :=
  let d := wrap f
  match axisOf net f.index, axisOf net f.columns with
  | some ki, some kc =>
    let d := if annotation then annotate net ki kc d else d
    let d := (disabledIds net st ki).foldl redRow d
    let d := (disabledIds net st kc).foldl redColumn d
    match blankFirst d.index with
    | .error e => .error e
    | .ok rs =>
      match blankFirst d.columns with
      | .error e => .error e
      | .ok cs => .ok ⟨rs, cs, d.index.map fun i => d.columns.map fun c => d.cell i c⟩
  | _, _ => .error .keyError

/-! ### specification -/

/-- The list consists of ids of species, or of ids of reactions that are not all ids of species. -/
inductive Of (net : Net) (l : List Nat) : Axis → Prop
  | species : (∀ i ∈ l, ∃ s ∈ net.species, s.id = i) → Of net l .species
  | reactions : (∀ i ∈ l, ∃ r ∈ net.reactions, r.id = i) → (∃ i ∈ l, ∀ s ∈ net.species, s.id ≠ i) → Of net l .reactions

/-- is the object disabled -/
def Off (st : State) : Axis → Nat → Bool
  | .species, i => !st.enSp i
  | .reactions, i => !st.enR i

/-- The text that stands for an object: the name of a species, the equation of a reaction. -/
def Text (net : Net) : Axis → Nat → Str → Prop
  | .species, i, t => ∃ s ∈ net.species, s.id = i ∧ s.name = t
  | .reactions, i, t => ∃ r ∈ net.reactions, r.id = i ∧ r.toStr = t

/-- red or not -/
def shade (b : Bool) : Color := if b then .red else .reset

/-! ### proofs -/

theorem mem_ids {net : Net} {k : Axis} {i : Nat} :
    i ∈ ids net k ↔ match k with
      | .species => ∃ s ∈ net.species, s.id = i
      | .reactions => ∃ r ∈ net.reactions, r.id = i := by
  cases k <;> simp [ids]

theorem axisOf_eq {net : Net} {l : List Nat} {k : Axis} (h : Of net l k) : axisOf net l = some k := by
  cases h with
  | species h =>
    have hs : l ⊆ ids net .species := fun i hi => by simpa [ids] using h i hi
    unfold axisOf
    rw [if_pos hs]
  | reactions h h' =>
    obtain ⟨i, hi, hn⟩ := h'
    have hs : ¬ l ⊆ ids net .species := fun hs => by
      have := hs hi
      simp only [ids, List.mem_map] at this
      obtain ⟨s, hs, e⟩ := this
      exact hn s hs e
    have hr : l ⊆ ids net .reactions := fun i hi => by simpa [ids] using h i hi
    unfold axisOf
    rw [if_neg hs, if_pos hr]

theorem of_axisOf {net : Net} {l : List Nat} {k : Axis} (h : axisOf net l = some k) : Of net l k := by
  unfold axisOf at h
  split at h
  · rename_i hs
    obtain rfl := Option.some.inj h
    exact .species fun i hi => by simpa [ids] using hs hi
  · rename_i hs
    split at h
    · rename_i hr
      obtain rfl := Option.some.inj h
      refine .reactions (fun i hi => by simpa [ids] using hr hi) ?_
      by_contra hc
      apply hs
      intro i hi
      by_contra hn
      apply hc
      refine ⟨i, hi, fun s hs e => hn ?_⟩
      simp only [ids, List.mem_map]
      exact ⟨s, hs, e⟩
    · cases h

theorem mem_disabledIds {net : Net} {st : State} {k : Axis} {i : Nat} (h : i ∈ ids net k) :
    i ∈ disabledIds net st k ↔ Off st k i = true := by
  cases k
  · simp only [ids, List.mem_map] at h
    obtain ⟨s, hs, rfl⟩ := h
    simp only [disabledIds, Net.getDisabledSpecies, List.mem_map, List.mem_filter, Off]
    constructor
    · rintro ⟨t, ⟨-, h⟩, e⟩
      rw [← e]
      exact h
    · intro h
      exact ⟨s, ⟨hs, h⟩, rfl⟩
  · simp only [ids, List.mem_map] at h
    obtain ⟨s, hs, rfl⟩ := h
    simp only [disabledIds, Net.getDisabledReactions, List.mem_map, List.mem_filter, Off]
    constructor
    · rintro ⟨t, ⟨-, h⟩, e⟩
      rw [← e]
      exact h
    · intro h
      exact ⟨s, ⟨hs, h⟩, rfl⟩

theorem redRows (l : List Nat) : ∀ d : Draft V, (l.foldl redRow d).index = d.index ∧
    (l.foldl redRow d).columns = d.columns ∧ ∀ k ∈ d.index, ∀ c ∈ d.columns,
      (l.foldl redRow d).cell k c =
        { d.cell k c with color := if ∃ i ∈ l, k = some i then .red else (d.cell k c).color } := by
  induction l with
  | nil => intro d; simp
  | cons i l ih =>
    intro d
    have hi : (redRow d i).index = d.index ∧ (redRow d i).columns = d.columns := by
      unfold redRow
      split <;> simp
    obtain ⟨h1, h2, h3⟩ := ih (redRow d i)
    refine ⟨h1.trans hi.1, h2.trans hi.2, fun k hk c hc => ?_⟩
    rw [List.foldl_cons, h3 k (hi.1.symm ▸ hk) c (hi.2.symm ▸ hc)]
    have hcell : (redRow d i).cell k c = { d.cell k c with color := if k = some i then .red else (d.cell k c).color } := by
      unfold redRow
      by_cases e : k = some i
      · subst e
        rw [if_pos hk]
        simp [hc]
      · rw [if_neg e]
        split <;> simp [e]
    rw [hcell]
    have hl : (∃ j ∈ i :: l, k = some j) ↔ k = some i ∨ ∃ j ∈ l, k = some j := by
      simp [List.mem_cons, or_and_right, exists_or]
    by_cases e : k = some i
    · simp [e]
    · by_cases e' : ∃ j ∈ l, k = some j
      · simp only [hl, e', or_true, if_true]
      · simp only [hl, e, e', or_false, if_false]

theorem redColumns (l : List Nat) : ∀ d : Draft V, (l.foldl redColumn d).index = d.index ∧
    (l.foldl redColumn d).columns = d.columns ∧ ∀ k ∈ d.index, ∀ c ∈ d.columns,
      (l.foldl redColumn d).cell k c =
        { d.cell k c with color := if ∃ i ∈ l, c = some i then .red else (d.cell k c).color } := by
  induction l with
  | nil => intro d; simp
  | cons i l ih =>
    intro d
    have hi : (redColumn d i).index = d.index ∧ (redColumn d i).columns = d.columns := by
      unfold redColumn
      split <;> simp
    obtain ⟨h1, h2, h3⟩ := ih (redColumn d i)
    refine ⟨h1.trans hi.1, h2.trans hi.2, fun k hk c hc => ?_⟩
    rw [List.foldl_cons, h3 k (hi.1.symm ▸ hk) c (hi.2.symm ▸ hc)]
    have hcell : (redColumn d i).cell k c =
        { d.cell k c with color := if c = some i then .red else (d.cell k c).color } := by
      unfold redColumn
      by_cases e : c = some i
      · subst e
        rw [if_pos hc]
        simp [hk]
      · rw [if_neg e]
        split <;> simp [e]
    rw [hcell]
    have hl : (∃ j ∈ i :: l, c = some j) ↔ c = some i ∨ ∃ j ∈ l, c = some j := by
      simp [List.mem_cons, or_and_right, exists_or]
    by_cases e : c = some i
    · simp [e]
    · by_cases e' : ∃ j ∈ l, c = some j
      · simp only [hl, e', or_true, if_true]
      · simp only [hl, e, e', or_false, if_false]

theorem label_text {net : Net} {k : Axis} {i : Nat} (h : i ∈ ids net k) :
    Text net k i (((labels net k).get? i).getD []) := by
  cases k
  · simp only [ids, List.mem_map] at h
    obtain ⟨s, hs, rfl⟩ := h
    simp only [labels, Dict.get?, Text]
    cases hf : (net.species.map fun s => (s.id, s.name)).find? (fun e => e.1 == s.id) with
    | none =>
      have := List.find?_eq_none.1 hf (s.id, s.name) (List.mem_map_of_mem hs)
      simp at this
    | some p =>
      have h1 := List.find?_some hf
      have h2 := List.mem_of_find?_eq_some hf
      obtain ⟨t, ht, rfl⟩ := List.mem_map.1 h2
      exact ⟨t, ht, by simpa using h1, rfl⟩
  · simp only [ids, List.mem_map] at h
    obtain ⟨s, hs, rfl⟩ := h
    simp only [labels, Dict.get?, Text]
    cases hf : (net.reactions.map fun s => (s.id, s.toStr)).find? (fun e => e.1 == s.id) with
    | none =>
      have := List.find?_eq_none.1 hf (s.id, s.toStr) (List.mem_map_of_mem hs)
      simp at this
    | some p =>
      have h1 := List.find?_some hf
      have h2 := List.mem_of_find?_eq_some hf
      obtain ⟨t, ht, rfl⟩ := List.mem_map.1 h2
      exact ⟨t, ht, by simpa using h1, rfl⟩

theorem of_mem {net : Net} {l : List Nat} {k : Axis} (h : Of net l k) {i : Nat} (hi : i ∈ l) : i ∈ ids net k := by
  cases h with
  | species h => simpa [ids] using h i hi
  | reactions h _ => simpa [ids] using h i hi

/-- the cells of the finished frame -/
theorem painted {net : Net} {st : State} {ki kc : Axis} (d : Draft V) {i c : Line} (hi : i ∈ d.index) (hc : c ∈ d.columns) :
    ((disabledIds net st kc).foldl redColumn ((disabledIds net st ki).foldl redRow d)).cell i c =
      { d.cell i c with color := if ∃ x ∈ disabledIds net st kc, c = some x then .red
                                 else if ∃ x ∈ disabledIds net st ki, i = some x then .red else (d.cell i c).color } := by
  obtain ⟨h1, h2, h3⟩ := redRows (disabledIds net st ki) d
  obtain ⟨-, -, h6⟩ := redColumns (disabledIds net st kc) ((disabledIds net st ki).foldl redRow d)
  rw [h6 i (h1.symm ▸ hi) c (h2.symm ▸ hc), h3 i hi c hc]

theorem exists_some {l : List Nat} {i : Nat} : (∃ x ∈ l, (some i : Line) = some x) ↔ i ∈ l := by
  constructor
  · rintro ⟨x, hx, e⟩
    rwa [Option.some.inj e]
  · intro h
    exact ⟨i, h, rfl⟩

theorem not_exists_none {l : List Nat} : ¬ ∃ x ∈ l, (none : Line) = some x := by
  rintro ⟨x, -, e⟩
  cases e

theorem shade_or {net : Net} {st : State} {ki kc : Axis} {i c : Nat} (hi : i ∈ ids net ki) (hc : c ∈ ids net kc) :
    (if ∃ x ∈ disabledIds net st kc, (some c : Line) = some x then Color.red
      else if ∃ x ∈ disabledIds net st ki, (some i : Line) = some x then .red else .reset)
      = shade (Off st ki i || Off st kc c) := by
  simp only [exists_some, mem_disabledIds hi, mem_disabledIds hc, shade]
  cases Off st ki i <;> cases Off st kc c <;> rfl

/-- C87: what is printed with annotations. Each axis being a list of species, or of reactions not all of whose ids are
ids of species as well, the frame gets a row and a column of labels in front: the names of the species, the equations
of the reactions. All values are printed unchanged where they were. A cell is red exactly if the species or reaction of
its row or of its column is disabled, a label if the object it labels is. The headings are the ids, with the two
lines of labels left blank. -/
theorem pretty_annotated {net : Net} {st : State} {f : Frame V} {ki kc : Axis} (hi : Of net f.index ki)
    (hc : Of net f.columns kc) :
    ∃ li lc : Nat → Str, (∀ i ∈ f.index, Text net ki i (li i)) ∧ (∀ c ∈ f.columns, Text net kc c (lc c)) ∧
      pretty net st f true = .ok
        { rowHeads := none :: f.index.map some
          columnHeads := none :: f.columns.map some
          cells := (⟨.label [], .reset⟩ :: f.columns.map fun c => ⟨.label (lc c), shade (Off st kc c)⟩) ::
            f.index.map fun i => ⟨.label (li i), shade (Off st ki i)⟩ ::
              f.columns.map fun c => ⟨.val (f.cell i c), shade (Off st ki i || Off st kc c)⟩ } := by
  refine ⟨fun i => ((labels net ki).get? i).getD [], fun c => ((labels net kc).get? c).getD [],
    fun i h => label_text (of_mem hi h), fun c h => label_text (of_mem hc h), ?_⟩
  unfold pretty
  rw [axisOf_eq hi, axisOf_eq hc]
  simp only [if_true]
  obtain ⟨h1, h2, -⟩ := redRows (disabledIds net st ki) (annotate net ki kc (wrap f))
  obtain ⟨h4, h5, -⟩ := redColumns (disabledIds net st kc)
    ((disabledIds net st ki).foldl redRow (annotate net ki kc (wrap f)))
  have hI : (annotate net ki kc (wrap f)).index = none :: f.index.map some := rfl
  have hC : (annotate net ki kc (wrap f)).columns = none :: f.columns.map some := rfl
  rw [h4, h1, h5, h2, hI, hC]
  simp only [blankFirst]
  congr 2
  rw [List.map_cons]
  congr 1
  · rw [List.map_cons, List.map_map]
    congr 1
    · rw [painted _ (hI ▸ List.mem_cons_self) (hC ▸ List.mem_cons_self)]
      rw [if_neg not_exists_none, if_neg not_exists_none]
      rfl
    · apply List.map_congr_left
      intro c hcm
      rw [Function.comp_apply, painted _ (hI ▸ List.mem_cons_self)
        (hC ▸ List.mem_cons_of_mem _ (List.mem_map_of_mem hcm))]
      rw [if_neg (c := ∃ x ∈ disabledIds net st ki, (none : Line) = some x) not_exists_none]
      simp only [exists_some, mem_disabledIds (of_mem hc hcm)]
      rfl
  · rw [List.map_map]
    apply List.map_congr_left
    intro i him
    rw [Function.comp_apply, List.map_cons, List.map_map]
    have hmi : some i ∈ (annotate net ki kc (wrap f)).index :=
      hI ▸ List.mem_cons_of_mem _ (List.mem_map_of_mem him)
    congr 1
    · rw [painted _ hmi (hC ▸ List.mem_cons_self)]
      rw [if_neg (c := ∃ x ∈ disabledIds net st kc, (none : Line) = some x) not_exists_none]
      simp only [exists_some, mem_disabledIds (of_mem hi him)]
      rfl
    · apply List.map_congr_left
      intro c hcm
      rw [Function.comp_apply, painted _ hmi (hC ▸ List.mem_cons_of_mem _ (List.mem_map_of_mem hcm))]
      rw [← shade_or (of_mem hi him) (of_mem hc hcm)]
      rfl

/-- C87: what is printed without annotations: the same values with the same colours, but the first heading of the rows
and of the columns is blank although there are no labels. -/
theorem pretty_plain {net : Net} {st : State} {f : Frame V} {ki kc : Axis} (hi : Of net f.index ki)
    (hc : Of net f.columns kc) (h1 : f.index ≠ []) (h2 : f.columns ≠ []) :
    pretty net st f false = .ok
      { rowHeads := none :: f.index.tail.map some
        columnHeads := none :: f.columns.tail.map some
        cells := f.index.map fun i => f.columns.map fun c =>
          ⟨.val (f.cell i c), shade (Off st ki i || Off st kc c)⟩ } := by
  unfold pretty
  rw [axisOf_eq hi, axisOf_eq hc]
  simp only [Bool.false_eq_true, if_false]
  obtain ⟨h1', h2', -⟩ := redRows (disabledIds net st ki) (wrap f)
  obtain ⟨h4, h5, -⟩ := redColumns (disabledIds net st kc) ((disabledIds net st ki).foldl redRow (wrap f))
  have hI : (wrap f).index = f.index.map some := rfl
  have hC : (wrap f).columns = f.columns.map some := rfl
  rw [h4, h1', h5, h2', hI, hC]
  have hb : ∀ l : List Nat, l ≠ [] → blankFirst (l.map some) = .ok (none :: l.tail.map some) := by
    intro l hl
    cases l with
    | nil => exact absurd rfl hl
    | cons a l => rfl
  rw [hb _ h1, hb _ h2]
  simp only
  congr 2
  rw [List.map_map]
  apply List.map_congr_left
  intro i him
  rw [Function.comp_apply, List.map_map]
  apply List.map_congr_left
  intro c hcm
  rw [Function.comp_apply, painted _ (hI ▸ List.mem_map_of_mem him) (hC ▸ List.mem_map_of_mem hcm)]
  rw [← shade_or (of_mem hi him) (of_mem hc hcm)]
  rfl

/-- C87: a frame is refused with a `KeyError` exactly if an axis has ids that are neither all ids of species nor all
ids of reactions. -/
theorem pretty_refused {net : Net} {st : State} {f : Frame V} :
    pretty net st f true = .error .keyError ↔
      (∀ k, ¬ Of net f.index k) ∨ (∀ k, ¬ Of net f.columns k) := by
  constructor
  · intro h
    by_contra hc
    rw [not_or] at hc
    obtain ⟨h1, h2⟩ := hc
    obtain ⟨ki, h1⟩ := not_forall_not.1 h1
    obtain ⟨kc, h2⟩ := not_forall_not.1 h2
    obtain ⟨_, _, -, -, e⟩ := pretty_annotated (st := st) h1 h2
    rw [h] at e
    cases e
  · intro h
    unfold pretty
    rcases h with h | h
    · cases e : axisOf net f.index with
      | none => rfl
      | some k => exact absurd (of_axisOf e) (h k)
    · cases e : axisOf net f.columns with
      | none => cases axisOf net f.index <;> rfl
      | some k => exact absurd (of_axisOf e) (h k)

end Verif.Plaschem.Pretty
