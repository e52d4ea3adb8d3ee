/-
Model of the string functions of plaschem/reactions.py: reaction strings, HPEM strings and the
order-independent reaction key.
-/
import Verif.Plaschem.Reaction

namespace Verif.Plaschem

/-- Python `sep.join(parts)`. -/
def joinStr (sep : Str) : List Str → Str
  | [] => []
  | [x] => x
  | x :: y :: l => x ++ sep ++ joinStr sep (y :: l)

/-- Python `s.split(sep)` for a non-empty `sep`: leftmost non-overlapping matches. `skip` counts the
characters of a match still to be passed over, `acc` is the current piece in reverse. -/
def splitAux (sep : Str) : Str → Nat → Str → List Str
  | [], _, acc => [acc.reverse]
  | _ :: cs, skip + 1, acc => splitAux sep cs skip acc
  | c :: cs, 0, acc =>
    if sep.isPrefixOf (c :: cs) then acc.reverse :: splitAux sep cs (sep.length - 1) []
    else splitAux sep cs 0 (c :: acc)

/-- Python `s.split(sep)`. -/
def splitStr (sep s : Str) : List Str := splitAux sep s 0 []

/-- whitespace removed by `str.strip()` (simplification: ASCII whitespace only). -/
def isSpace (c : Char) : Bool :=
  c = ' ' ∨ c = '\t' ∨ c = '\n' ∨ c = '\r' ∨ c = '\x0b' ∨ c = '\x0c'

/-- Python `s.strip()`. -/
def strip (s : Str) : Str := ((s.dropWhile isSpace).reverse.dropWhile isSpace).reverse

/-- Python `s <= t` on strings: lexicographic by code point. -/
def strLe : Str → Str → Bool
  | [], _ => true
  | _ :: _, [] => false
  | c :: cs, d :: ds => c.toNat < d.toNat || (c.toNat == d.toNat && strLe cs ds)

/-- Python `sorted(list_of_strings)`. -/
def sortStrs (l : List Str) : List Str := l.mergeSort strLe

/-- plaschem/reactions.py:219-229 `Reaction.unique_key`. Unpacking a list that has not exactly two
entries is a `ValueError`. -/
def uniqueKey (s : Str) : Except Err (List Str × List Str) :=
  match splitStr str!" > " s with
  | [lhs, rhs] =>
    .ok (sortStrs ((splitStr str!" + " lhs).map strip), sortStrs ((splitStr str!" + " rhs).map strip))
  | _ => .error .valueError

/-- the string built in plaschem/reactions.py:175-178 and 330-345 from the two lists of names. -/
def sidesStr (lhs rhs : List Str) : Str :=
  joinStr str!" + " lhs ++ str!" > " ++ joinStr str!" + " rhs

namespace Reaction

/-- plaschem/reactions.py:175-178 `__str__`. -/
def toStr (r : Reaction) : Str := sidesStr (r.reactants.map RP.name) (r.products.map RP.name)

/-- the names of one side; `' + '.join` raises `TypeError` if one of them is `None`. -/
def hpemNames : List RP → Except Err (List Str)
  | [] => .ok []
  | s :: ss =>
    match s.hpemName with
    | none => .error .typeError
    | some n =>
      match hpemNames ss with
      | .error e => .error e
      | .ok l => .ok (n :: l)

/-- plaschem/reactions.py:330-345 `get_hpem_string`. -/
def hpemString (r : Reaction) (backward : Bool) : Except Err Str :=
  match hpemNames r.reactants with
  | .error e => .error e
  | .ok lhs =>
    match hpemNames r.products with
    | .error e => .error e
    | .ok rhs => if backward then .ok (sidesStr rhs lhs) else .ok (sidesStr lhs rhs)

end Reaction

end Verif.Plaschem
