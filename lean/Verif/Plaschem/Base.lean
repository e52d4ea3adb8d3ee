/-
Shared vocabulary of the plaschem model: strings as character lists, Python dictionaries and
pandas series as association lists, and the exceptions that the modelled code can raise.
-/
import Mathlib.Data.Rat.Defs

namespace Verif.Plaschem

/-- Python `str`, as its list of code points. -/
abbrev Str := List Char

open Lean in
/-- `str!"Ar+"` is the character list of a literal (kernel friendly). -/
macro:max "str!" s:str : term => do
  let elems : Array (TSyntax `term) :=
    (s.getString.toList.map (fun c => (⟨Syntax.mkCharLit c⟩ : TSyntax `term))).toArray
  `(([$elems,*] : List Char))

/-- The exceptions raised by the modelled code: plaschem/exceptions.py plus the Python builtins that
can escape from the modelled functions. `fuel` is not a Python exception: it marks a recursion that
was cut off by the model; theorems show that it never occurs. -/
inductive Err
  | rpInit | rpAttribute
  | reactionInit | reactionAttribute | reactionValue
  | chemInit | consistency | disable | speciesNotPresent | reactionNotPresent | chemAttribute
  | valueError | keyError | typeError | indexError | attributeError
  | formula | notImplemented | zeroDivision | xml | assertion
  | fuel
  deriving DecidableEq, Repr

/-- Association list with keys in insertion order: Python `dict` / `OrderedDict`, or a
`pandas.Series` with unique labels. -/
abbrev Dict (κ : Type) (α : Type) := List (κ × α)

namespace Dict
variable {κ α : Type} [DecidableEq κ]

/-- `d.get(k)`. -/
def get? (d : Dict κ α) (k : κ) : Option α :=
  (d.find? (fun e => e.1 == k)).map Prod.snd

/-- `d[k] = v` (resp. `series.at[k] = v`): replaces the value in place or appends a new entry. -/
def set : Dict κ α → κ → α → Dict κ α
  | [], k, v => [(k, v)]
  | (k', v') :: d, k, v => if k' = k then (k, v) :: d else (k', v') :: set d k v

/-- the keys in order. -/
def keys (d : Dict κ α) : List κ := d.map Prod.fst

end Dict

end Verif.Plaschem
