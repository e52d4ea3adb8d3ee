/-
Model of plaschem/species.py (class RP).
-/
import Verif.Plaschem.Base

namespace Verif.Plaschem

/-- plaschem/species.py:11-166, class `RP`: the stored attributes of a species that has passed the
constructor.

Simplifications: values are stored after the conversion the getters perform (`int(...)`,
`float(...)`, exact rationals instead of floats), so malformed number strings are outside the model;
the purely informative attributes (h_form, Lennard-Jones data, qdb_id, comments, latex)
are modelled where they are used. `oid` stands for the identity of the Python object (used by `is`):
two records are the same object iff they are equal including `oid`. Attribute mutation after
construction is not modelled. -/
structure RP where
  oid : Nat
  id : Nat
  name : Str
  stateless : Option Str := none
  state : Option Str := none
  mass : Option ℚ := none
  charge : Option Int := none
  stickCoef : Option ℚ := none
  retCoefs : Option (Dict Str ℚ) := none
  hpemName : Option Str := none
  deriving DecidableEq, Repr

/-- plaschem/species.py:425-434 `strip_charge`, helper: Python's `\d` restricted to ASCII digits
(simplification: `\d` also matches other Unicode decimal digits). -/
def isDigit (c : Char) : Bool := '0' ≤ c ∧ c ≤ '9'

/-- plaschem/species.py:430-431: the character class `[+-]`. -/
def isSign (c : Char) : Bool := c = '+' ∨ c = '-'

/-- plaschem/species.py:430: does `[+-]+$` match the whole of `s`? (`$` is modelled as end of
string; Python's `$` also matches before a final newline, which species names do not contain.) -/
def matchSigns (s : Str) : Bool := s ≠ [] ∧ s.all isSign

/-- plaschem/species.py:431: does `[+-]\d+$` match the whole of `s`? -/
def matchSignDigits (s : Str) : Bool :=
  match s with
  | c :: d :: ds => isSign c && (d :: ds).all isDigit
  | _ => false

/-- plaschem/species.py:425-434 `RP.strip_charge`: `re.sub('(?:[+-]+$|[+-]\d+$)', '', name)`.
Both alternatives are anchored at the end of the string, so the leftmost match extends to the end;
after it only the empty rest remains, in which neither alternative matches. -/
def stripCharge : Str → Str
  | [] => []
  | c :: cs =>
    if matchSigns (c :: cs) || matchSignDigits (c :: cs) then [] else c :: stripCharge cs

namespace RP

/-- plaschem/species.py:171-172 `is_special`, names from line 54. -/
def isSpecial (s : RP) : Bool := s.name = str!"e" ∨ s.name = str!"M"

/-- plaschem/species.py:254-263 `get_state`. -/
def getState (s : RP) : Option Str :=
  if s.isSpecial then none else s.state

/-- plaschem/species.py:238-252 `get_stateless`. -/
def getStateless (s : RP) : Except Err Str :=
  if s.isSpecial then .ok s.name
  else match s.stateless with
    | some x => .ok x
    | none =>
      match s.getState with
      | some _ => .error .rpAttribute
      | none => .ok s.name

/-- plaschem/species.py:265-276 `get_mass`. -/
def getMass (s : RP) : Except Err (Option ℚ) :=
  if s.name = str!"M" then .ok none
  else match s.mass with
    | some m => .ok (some m)
    | none => .error .rpAttribute

/-- plaschem/species.py:278-288 `get_charge` (`None` for M, default 0). -/
def getCharge (s : RP) : Option Int :=
  if s.name = str!"M" then none
  else match s.charge with
    | some c => some c
    | none => some 0

/-- plaschem/species.py:343-358 `get_stick_coef`. -/
def getStickCoef (s : RP) : Option ℚ :=
  if s.isSpecial then none
  else match s.stickCoef with
    | some x => some x
    | none => if s.getState = none ∧ s.getCharge = some 0 then some 0 else some 1

/-- plaschem/species.py:360-383 `get_ret_coefs`. -/
def getRetCoefs (s : RP) : Except Err (Option (Dict Str ℚ)) :=
  if s.isSpecial then .ok none
  else match s.retCoefs with
    | some d => .ok (some d)
    | none =>
      if s.getState = none ∧ s.getCharge = some 0 then .ok (some [])
      else match s.getStateless with
        | .ok n => .ok (some [(stripCharge n, 1)])
        | .error e => .error e

/-- plaschem/species.py:180-190 `get_atoms`. The formula parser of the external package pyvalem is a
parameter `F` (`none` = parse error): atom counts are a function of the stateless neutral name. -/
def getAtoms (F : Str → Option (Dict Str Nat)) (s : RP) : Except Err (Dict Str Nat) :=
  if s.name = str!"e" then .ok []
  else if s.name = str!"M" then .ok [(str!"M", 1)]
  else match s.getStateless with
    | .error e => .error e
    | .ok n =>
      match F (stripCharge n) with
      | some d => .ok d
      | none => .error .formula

end RP

/-! ### Construction of a species (plaschem/species.py:76-166) -/

/-- The keyword arguments of the constructor that are relevant to the accept/reject decision: for each
attribute whether it was passed and with which (converted) value; `none` = not passed. The inner
`Option` is Python's `None` passed explicitly. -/
structure RPArgs where
  id : Int
  name : Option (Option Str) := none
  stateless : Option (Option Str) := none
  state : Option (Option Str) := none
  mass : Option (Option ℚ) := none
  charge : Option (Option Int) := none
  stickCoef : Option (Option ℚ) := none
  retCoefs : Option (Option (Dict Str ℚ)) := none
  hpemName : Option (Option Str) := none
  /-- names of passed attributes that the class does not know -/
  unknown : List Str := []

/-- plaschem/species.py:126-128: a non-empty state makes `stateless` mandatory. -/
def RPArgs.lacksStateless (a : RPArgs) : Bool :=
  match a.state with
  | some (some (_ :: _)) => a.stateless.isNone
  | _ => false

/-- plaschem/species.py:109-166 `RP.__init__`: id, mandatory attributes, name characters and unknown
attributes are checked in this order. Simplifications: units are outside this model (every unit of
`RP` has a single allowed value); `id` is an `int`; `name=None` makes `set(None)` raise `TypeError`. -/
def RP.init (oid : Nat) (a : RPArgs) : Except Err RP :=
  if a.id < 0 then .error .rpInit
  else if a.name = none then .error .rpAttribute
  else if a.lacksStateless then
    .error .rpAttribute
  else if a.name ≠ some (some str!"M") ∧ a.mass = none then .error .rpAttribute
  else match a.name with
    | none => .error .rpAttribute
    | some none => .error .typeError
    | some (some n) =>
      if n.any (fun c => c = '<' ∨ c = '>') then .error .rpAttribute
      else if a.unknown ≠ [] then .error .rpAttribute
      else .ok {
        oid := oid, id := a.id.toNat, name := n, stateless := a.stateless.join,
        state := a.state.join, mass := a.mass.join, charge := a.charge.join,
        stickCoef := a.stickCoef.join, retCoefs := a.retCoefs.join,
        hpemName := a.hpemName.join }

end Verif.Plaschem
