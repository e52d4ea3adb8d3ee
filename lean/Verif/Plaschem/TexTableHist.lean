/-
C90: histories of a LaTeX table, and the table of reactions (plaschem/latex.py:333-370, class `ReactionsTable`).
-/
import Verif.Plaschem.TexTableNest
import Verif.Plaschem.LatexReaction
import Verif.Plaschem.LatexRate

namespace Verif.Plaschem.Tex

/-! ### Specification of histories -/

variable {ι : Type} [DecidableEq ι]

def captionOf : Op ι → Option Str
  | .caption s => some s
  | _ => none

def labelOf : Op ι → Option Str
  | .label s => some s
  | _ => none

def frameOf : Op ι → Option (Frame ι)
  | .load f => some f
  | _ => none

/-- the superscript and the text of a note -/
def noteOf : Op ι → Option (Str × Str)
  | .note k s => some (k, s)
  | _ => none

/-- the text of a note with the superscript `k` -/
def noteFor (k : Str) (o : Op ι) : Option Str := (noteOf o).bind fun n => if n.1 = k then some n.2 else none

/-- the decorator for a cell -/
def decoFor (i : ι) (c : Str) : Op ι → Option Deco
  | .decorate j d f => if j = i ∧ d = c then some f else none
  | _ => none

/-- what was called after the last frame was loaded -/
def sinceLoad (ops : List (Op ι)) : List (Op ι) := (ops.reverse.takeWhile fun o => (frameOf o).isNone).reverse

/-- each once, in the order of the first time -/
def firsts (l : List Str) : List Str := l.foldl (fun acc k => if k ∈ acc then acc else acc ++ [k]) []

/-! ### histories -/

variable (t : Table ι)

theorem last_concat {α β : Type} (f : α → Option β) (l : List α) (a : α) :
    ((l ++ [a]).filterMap f).getLast? = (f a).or (l.filterMap f).getLast? := by
  rw [List.filterMap_append]
  cases h : f a with
  | none => simp [h]
  | some b => simp [h]

/-- C90: what a table has after any calls: the last frame, caption and label; for each superscript the last note, in the
order in which they were first given; for each cell the last decorator given since the frame was loaded. -/
theorem history (ops : List (Op ι)) (hd : t.decorators = []) (hn : t.notes = []) :
    (ops.foldl Op.run t).caption = ((ops.filterMap captionOf).getLast?).getD t.caption ∧
    (ops.foldl Op.run t).label = ((ops.filterMap labelOf).getLast?).getD t.label ∧
    (ops.foldl Op.run t).frame = ((ops.filterMap frameOf).getLast?).getD t.frame ∧
    (ops.foldl Op.run t).notes.keys = firsts ((ops.filterMap noteOf).map Prod.fst) ∧
    (∀ k, (ops.foldl Op.run t).notes.get? k = (ops.filterMap (noteFor k)).getLast?) ∧
    (∀ i c, (ops.foldl Op.run t).cellText i c =
      (((sinceLoad ops).filterMap (decoFor i c)).getLast?.getD .ok) ((ops.foldl Op.run t).frame.cell i c)) ∧
    (ops.foldl Op.run t).tableType = t.tableType ∧ (ops.foldl Op.run t).spacing = t.spacing ∧
    (ops.foldl Op.run t).fontsize = t.fontsize := by
  have key : (ops.foldl Op.run t).caption = ((ops.filterMap captionOf).getLast?).getD t.caption ∧
      (ops.foldl Op.run t).label = ((ops.filterMap labelOf).getLast?).getD t.label ∧
      (ops.foldl Op.run t).frame = ((ops.filterMap frameOf).getLast?).getD t.frame ∧
      (ops.foldl Op.run t).notes.keys = firsts ((ops.filterMap noteOf).map Prod.fst) ∧
      (∀ k, (ops.foldl Op.run t).notes.get? k = (ops.filterMap (noteFor k)).getLast?) ∧
      (∀ i c, (ops.foldl Op.run t).decorators.get? (i, c) = ((sinceLoad ops).filterMap (decoFor i c)).getLast?) ∧
      (ops.foldl Op.run t).tableType = t.tableType ∧ (ops.foldl Op.run t).spacing = t.spacing ∧
      (ops.foldl Op.run t).fontsize = t.fontsize := by
    induction ops using List.reverseRecOn with
    | nil => simp [hd, hn, firsts, sinceLoad, Dict.keys, Dict.get?]
    | append_singleton ops o ih =>
      obtain ⟨h1, h2, h3, h4, h5, h6, h7, h8, h9⟩ := ih
      have since : ∀ o : Op ι, frameOf o = none → sinceLoad (ops ++ [o]) = sinceLoad ops ++ [o] := by
        intro o ho
        unfold sinceLoad
        rw [List.reverse_append, List.reverse_singleton, List.singleton_append, List.takeWhile_cons_of_pos (by simp [ho]),
          List.reverse_cons]
      simp only [List.foldl_append, List.foldl_cons, List.foldl_nil, last_concat]
      cases o with
      | load f =>
        refine ⟨h1, h2, rfl, ?_, h5, ?_, h7, h8, h9⟩
        · rw [List.filterMap_append, show List.filterMap noteOf [_] = [] from rfl, List.append_nil]
          exact h4
        · intro i c
          have : sinceLoad (ops ++ [Op.load f]) = [] := by
            unfold sinceLoad
            rw [List.reverse_append, List.reverse_singleton, List.singleton_append, List.takeWhile_cons_of_neg (by simp [frameOf])]
            rfl
          rw [this]
          rfl
      | label s =>
        refine ⟨h1, rfl, h3, ?_, h5, ?_, h7, h8, h9⟩
        · rw [List.filterMap_append, show List.filterMap noteOf [_] = [] from rfl, List.append_nil]
          exact h4
        · intro i c
          rw [since _ rfl, last_concat]
          exact h6 i c
      | caption s =>
        refine ⟨rfl, h2, h3, ?_, h5, ?_, h7, h8, h9⟩
        · rw [List.filterMap_append, show List.filterMap noteOf [_] = [] from rfl, List.append_nil]
          exact h4
        · intro i c
          rw [since _ rfl, last_concat]
          exact h6 i c
      | note k s =>
        refine ⟨h1, h2, h3, ?_, ?_, ?_, h7, h8, h9⟩
        · have e : ∀ l : List Str, firsts (l ++ [k]) = if k ∈ firsts l then firsts l else firsts l ++ [k] := by
            intro l
            rw [firsts, List.foldl_append]
            rfl
          rw [List.filterMap_append, List.map_append, show List.filterMap noteOf [Op.note (ι := ι) k s] = [(k, s)] from rfl,
            List.map_cons, List.map_nil, e, ← h4]
          refine (Dict.keys_set (ops.foldl Op.run t).notes k s).trans ?_
          by_cases hk : k ∈ (ops.foldl Op.run t).notes.keys
          · rw [if_pos hk, if_pos hk]
          · rw [if_neg hk, if_neg hk]
        · intro j
          change ((ops.foldl Op.run t).notes.set k s).get? j = _
          rw [Dict.get?_set, h5]
          simp only [noteFor, noteOf, Option.bind_some]
          by_cases hj : k = j
          · simp [hj]
          · simp [hj, Ne.symm hj]
        · intro i c
          rw [since _ rfl, last_concat]
          exact h6 i c
      | decorate i c f =>
        refine ⟨h1, h2, h3, ?_, h5, ?_, h7, h8, h9⟩
        · rw [List.filterMap_append, show List.filterMap noteOf [_] = [] from rfl, List.append_nil]
          exact h4
        · intro j d
          rw [since _ rfl, last_concat]
          change ((ops.foldl Op.run t).decorators.set (i, c) f).get? (j, d) = _
          rw [Dict.get?_set, h6]
          simp only [decoFor]
          by_cases hj : i = j ∧ c = d
          · simp [hj]
          · have : ¬ (j, d) = (i, c) := fun e => hj ⟨(congrArg Prod.fst e).symm, (congrArg Prod.snd e).symm⟩
            have h' : ¬ (i, c) = (j, d) := fun e => this e.symm
            simp [hj, this, h']
  obtain ⟨h1, h2, h3, h4, h5, h6, h7, h8, h9⟩ := key
  exact ⟨h1, h2, h3, h4, h5, fun i c => by rw [Table.cellText, h6], h7, h8, h9⟩

end Verif.Plaschem.Tex
