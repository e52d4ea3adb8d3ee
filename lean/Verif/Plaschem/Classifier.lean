/-
Model of plaschem/classification.py: the class `ReactionClassifier` with its memo tables: sorting of species and
reactions, the listing of reactions by class, and the strings with aligned columns.
-/
import Verif.Plaschem.Classify

namespace Verif.Plaschem.Classify
open Verif.Plaschem

/-! ### keys -/

/-- plaschem/classification.py:76-83 `elements_order` (with its misspelt `'SC'` and its second `'Ti'` in the place
of thallium). -/
def elementsOrder : List Str :=
  [str!"H", str!"He", str!"Li", str!"Be", str!"B", str!"C", str!"N", str!"O", str!"F", str!"Ne", str!"Na",
   str!"Mg", str!"Al", str!"Si", str!"P", str!"S", str!"Cl", str!"Ar", str!"K", str!"Ca",
   str!"SC", str!"Ti", str!"V", str!"Cr", str!"Mn", str!"Fe", str!"Co", str!"Ni", str!"Cu", str!"Zn",
   str!"Ga", str!"Ge", str!"As", str!"Se", str!"Br", str!"Kr", str!"Rb", str!"Sr", str!"Y",
   str!"Zr", str!"Nb", str!"Mo", str!"Tc", str!"Ru", str!"Rh", str!"Pd", str!"Ag", str!"Cd", str!"In",
   str!"Sn", str!"Sb", str!"Te", str!"I", str!"Xe", str!"Cs", str!"Ba", str!"La", str!"Ce",
   str!"Pr", str!"Nd", str!"Pm", str!"Sm", str!"Eu", str!"Gd", str!"Tb", str!"Dy", str!"Ho", str!"Er",
   str!"Tm", str!"Yb", str!"Lu", str!"Hf", str!"Ta", str!"W", str!"Re", str!"Os", str!"Ir",
   str!"Pt", str!"Au", str!"Hg", str!"Ti", str!"Pb", str!"Bi", str!"Po", str!"At", str!"Rn", str!"Fr",
   str!"Ra", str!"Ac", str!"Th", str!"Pa", str!"U", str!"Np", str!"Pu", str!"Am", str!"Cm",
   str!"Bk", str!"Cf", str!"M"]

/-- `self.elements_order.index(x) + 1`; `list.index` raises `ValueError`. -/
def elementNumber (x : Str) : Except Err Nat :=
  if x ∈ elementsOrder then .ok (elementsOrder.idxOf x + 1) else .error .valueError

/-- plaschem/classification.py:159-198: the contribution of an element and its count to the score, with `w` the
weight of a count. -/
def elementBits (w : Int) (el : Str × Nat) : Except Err Int :=
  match elementNumber el.1 with
  | .error e => .error e
  | .ok z => .ok ((w * 10 - 1 - w * el.2) + (w * 1000 - 1 - w * 10 * z))

/-- plaschem/classification.py:159-198: the contributions of the elements. -/
def elementScore : Dict Str Nat → Except Err Int
  | [] => .ok 0
  | [a] => elementBits 1000000000 a
  | [a, b] =>
    match elementBits 1000000 b with
    | .error e => .error e
    | .ok y =>
      match elementBits 1000000000 a with
      | .error e => .error e
      | .ok x => .ok (y + x)
  | [a, b, c] =>
    match elementBits 1000 c with
    | .error e => .error e
    | .ok z =>
      match elementBits 1000000 b with
      | .error e => .error e
      | .ok y =>
        match elementBits 1000000000 a with
        | .error e => .error e
        | .ok x => .ok (z + y + x)
  | _ => .error .notImplemented

/-- plaschem/classification.py:121-207: the score of a species other than M. All terms are integers far below
`2 ** 53`, so the floats of the code are exact here. -/
def score (F : Str → Option (Dict Str Nat)) (s : RP) : Except Err Int :=
  match s.getCharge with
  | none => .error .typeError
  | some q =>
    let pos : Int := 10 - 1 - (if 0 < q then q else 0)
    let neg : Int := 100 - 1 + (if q < 0 then 10 * q else 0)
    let exc : Int := 1000 - 1 - (if s.getState ≠ none then 100 else 0)
    match s.getAtoms F with
    | .error e => .error e
    | .ok atoms =>
      match elementScore atoms with
      | .error e => .error e
      | .ok el => .ok (pos + neg + exc + el + (10000000000000 - 1 - 1000000000000 * atoms.length))

/-- plaschem/classification.py:121-209 `_get_species_sort_key`: M gets `1 / 0.1`. Division of rationals in
place of floats. -/
def speciesKey (F : Str → Option (Dict Str Nat)) (s : RP) : Except Err ℚ :=
  if s.name = str!"M" then .ok 10
  else match score F s with
    | .error e => .error e
    | .ok v => if v = 0 then .error .zeroDivision else .ok (1 / (v : ℚ))

/-- insertion before the first entry that is not smaller -/
def insertBy {α : Type} (le : α → α → Bool) (a : α) : List α → List α
  | [] => [a]
  | b :: l => if le a b then a :: b :: l else b :: insertBy le a l

/-- Python's sort is stable; which algorithm does it makes no difference to the result. -/
def stableSort {α : Type} (le : α → α → Bool) : List α → List α
  | [] => []
  | a :: l => insertBy le a (stableSort le l)

/-- Python `list.sort(key=...)` resp. `sorted`: the keys are computed first, then a stable sort. -/
def sortPairs {κ α : Type} (le : κ → κ → Bool) (ps : List (κ × α)) : List α :=
  (stableSort (fun a b => le a.1 b.1) ps).map Prod.snd

/-- comparison of tuples of ints -/
def lexLe : List Nat → List Nat → Bool
  | [], _ => true
  | _ :: _, [] => false
  | a :: as, b :: bs => decide (a < b) || (decide (a = b) && lexLe as bs)

/-- comparison of the nested tuples of plaschem/classification.py:233-247 -/
def keyLe (a b : List Nat × List Nat) : Bool :=
  if a.1 = b.1 then lexLe a.2 b.2 else lexLe a.1 b.1

/-! ### state -/

abbrev Listing := List (Typ × List (Cat × List Reaction))

/-- plaschem/classification.py:84-103: the fields of a `ReactionClassifier`. `_alignments` is nested in the code
and keyed by the pair here. -/
structure Clf where
  species : List RP
  reactions : List Reaction
  listing : Listing := []
  align : Dict Class (List Nat × List Nat) := []
  idx : Dict Nat Nat := []
  cls : Dict Nat Class := []
  names : Dict Nat (List Str × List Str) := []

namespace Clf

/-- plaschem/classification.py:84-119 `__init__` and `set_new_chemistry`. -/
def new (species : List RP) (reactions : List Reaction) : Clf := { species, reactions }

/-- plaschem/classification.py:211-219 `sort_species`. A key that raises leaves the list as it is. -/
def sortSpecies (F : Str → Option (Dict Str Nat)) (c : Clf) : Except Err Unit × Clf :=
  match collect (speciesKey F) c.species with
  | .error e => (.error e, c)
  | .ok ks =>
    (.ok (), { c with
      species := sortPairs (fun a b => decide (a ≤ b)) (ks.zip c.species), listing := [], idx := [] })

/-- plaschem/classification.py:221-231 `_species_index`; species are compared as objects. -/
def speciesIndex (c : Clf) (s : RP) : Except Err Nat × Clf :=
  match c.idx.get? s.id with
  | some i => (.ok i, c)
  | none =>
    if s ∈ c.species then
      (.ok (c.species.idxOf s), { c with idx := c.idx.set s.id (c.species.idxOf s) })
    else (.error .valueError, c)

/-- the keys of a list of species, in order -/
def withIndex (c : Clf) : List RP → Except Err (List (Nat × RP)) × Clf
  | [] => (.ok [], c)
  | s :: l =>
    match c.speciesIndex s with
    | (.error e, c) => (.error e, c)
    | (.ok i, c) =>
      match c.withIndex l with
      | (.error e, c) => (.error e, c)
      | (.ok ps, c) => (.ok ((i, s) :: ps), c)

/-- `sorted(species, key=self._species_index)`, plaschem/classification.py:242-243 and 523-524. -/
def sorted (c : Clf) (l : List RP) : Except Err (List RP) × Clf :=
  match c.withIndex l with
  | (.error e, c) => (.error e, c)
  | (.ok ps, c) => (.ok (sortPairs (fun a b => decide (a ≤ b)) ps), c)

/-- plaschem/classification.py:233-247 `_get_reaction_sort_key`. -/
def reactionKey (c : Clf) (r : Reaction) : Except Err (List Nat × List Nat) × Clf :=
  match c.sorted r.reactants with
  | (.error e, c) => (.error e, c)
  | (.ok rs, c) =>
    match c.sorted r.products with
    | (.error e, c) => (.error e, c)
    | (.ok ps, c) =>
      let c := { c with names := c.names.set r.id (rs.map RP.name, ps.map RP.name) }
      match c.withIndex rs with
      | (.error e, c) => (.error e, c)
      | (.ok is, c) =>
        match c.withIndex ps with
        | (.error e, c) => (.error e, c)
        | (.ok js, c) => (.ok (is.map Prod.fst, js.map Prod.fst), c)

/-- the keys of a list of reactions, in order -/
def withKey (c : Clf) : List Reaction → Except Err (List ((List Nat × List Nat) × Reaction)) × Clf
  | [] => (.ok [], c)
  | r :: l =>
    match c.reactionKey r with
    | (.error e, c) => (.error e, c)
    | (.ok k, c) =>
      match c.withKey l with
      | (.error e, c) => (.error e, c)
      | (.ok ps, c) => (.ok ((k, r) :: ps), c)

/-- plaschem/classification.py:249-256 `sort_reactions`. -/
def sortReactions (c : Clf) : Except Err Unit × Clf :=
  match c.withKey c.reactions with
  | (.error e, c) => (.error e, c)
  | (.ok ps, c) => (.ok (), { c with reactions := sortPairs keyLe ps, listing := [] })

/-- plaschem/classification.py:268-466 `_classify` with its memo table. -/
def classifyM (c : Clf) (r : Reaction) : Except Err Class × Clf :=
  match c.cls.get? r.id with
  | some k => (.ok k, c)
  | none =>
    match classify r with
    | .error e => (.error e, c)
    | .ok k => (.ok k, { c with cls := c.cls.set r.id k })

/-- plaschem/classification.py:258-266 `_init_classified_reactions_dict`. -/
def emptyListing : Listing := scheme.map (fun p => (p.1, p.2.map (fun k => (k, []))))

/-- `self._classified_reactions[t][c].append(r)`. -/
def append (L : Listing) (k : Class) (r : Reaction) : Except Err Listing :=
  match Dict.get? L k.1 with
  | none => .error .keyError
  | some d =>
    match Dict.get? d k.2 with
    | none => .error .keyError
    | some rs => .ok (Dict.set L k.1 (Dict.set d k.2 (rs ++ [r])))

/-- plaschem/classification.py:484-486: the loop that fills the listing. -/
def fill (c : Clf) : List Reaction → Except Err Unit × Clf
  | [] => (.ok (), c)
  | r :: l =>
    match c.classifyM r with
    | (.error e, c) => (.error e, c)
    | (.ok k, c) =>
      match append c.listing k r with
      | .error e => (.error e, c)
      | .ok L => ({ c with listing := L } : Clf).fill l

/-- plaschem/classification.py:488-502: empty categories and types are deleted. -/
def prune (L : Listing) : Listing :=
  (L.map (fun p => (p.1, p.2.filter (fun q => decide (q.2 ≠ []))))).filter (fun p => decide (p.2 ≠ []))

/-- plaschem/classification.py:468-503 `get_classified_reactions`. -/
def getClassified (c : Clf) : Except Err Listing × Clf :=
  match ({ c with listing := emptyListing } : Clf).fill c.reactions with
  | (.error e, c) => (.error e, c)
  | (.ok (), c) => (.ok (prune c.listing), { c with listing := prune c.listing })

/-! ### aligned strings -/

/-- plaschem/classification.py:529-540: column widths, enlarged by one row of names. -/
def widen : List Nat → List Str → List Nat
  | ws, [] => ws
  | [], n :: ns => n.length :: widen [] ns
  | w :: ws, n :: ns => (if w < n.length then n.length else w) :: widen ws ns

/-- plaschem/classification.py:519-540: the widths of all columns of a category. -/
def widths (c : Clf) (ws : List Nat × List Nat) : List Reaction → Except Err (List Nat × List Nat) × Clf
  | [] => (.ok ws, c)
  | r :: l =>
    match c.names.get? r.id with
    | some (a, b) => c.widths (widen ws.1 a, widen ws.2 b) l
    | none =>
      match c.sorted r.reactants with
      | (.error e, c) => (.error e, c)
      | (.ok rs, c) =>
        match c.sorted r.products with
        | (.error e, c) => (.error e, c)
        | (.ok ps, c) =>
          ({ c with names := c.names.set r.id (rs.map RP.name, ps.map RP.name) } : Clf).widths
            (widen ws.1 (rs.map RP.name), widen ws.2 (ps.map RP.name)) l

/-- `'{:<{}}'.format(s, w)` -/
def pad (s : Str) (w : Nat) : Str := s ++ List.replicate (w - s.length) ' '

/-- plaschem/classification.py:551-560: one side; names beyond the last column do not appear. -/
def side : List Str → List Nat → List Str
  | _, [] => []
  | [], w :: ws => pad [] w :: side [] ws
  | n :: ns, w :: ws => pad n w :: side ns ws

/-- `sep.join(parts)` -/
def joinWith (sep : Str) : List Str → Str
  | [] => []
  | [x] => x
  | x :: y :: l => x ++ sep ++ joinWith sep (y :: l)

/-- plaschem/classification.py:551-563: the string of a reaction. -/
def render (names : List Str × List Str) (ws : List Nat × List Nat) : Str :=
  joinWith str!" > " [joinWith str!" + " (side names.1 ws.1), joinWith str!" + " (side names.2 ws.2)]

/-- plaschem/classification.py:505-563 `get_aligned_reaction_string`. -/
def aligned (c : Clf) (r : Reaction) : Except Err Str × Clf :=
  match c.classifyM r with
  | (.error e, c) => (.error e, c)
  | (.ok k, c) =>
    match (match c.align.get? k with
      | some ws => ((.ok ws, c) : Except Err (List Nat × List Nat) × Clf)
      | none =>
        match (Dict.get? c.listing k.1).bind (fun d => Dict.get? d k.2) with
        | none => (.error .keyError, c)
        | some rs =>
          match c.widths ([], []) rs with
          | (.error e, c) => (.error e, c)
          | (.ok ws, c) => (.ok ws, { c with align := c.align.set k ws })) with
    | (.error e, c) => (.error e, c)
    | (.ok ws, c) =>
      match c.names.get? r.id with
      | none => (.error .keyError, c)
      | some ns => (.ok (render ns ws), c)

/-! ### histories -/

/-- the public methods -/
inductive Op
  | sortSpecies | sortReactions | getClassified
  | aligned (r : Reaction)

/-- the state after a call (an exception is caught by the caller) -/
def apply (F : Str → Option (Dict Str Nat)) (c : Clf) : Op → Clf
  | .sortSpecies => (c.sortSpecies F).2
  | .sortReactions => c.sortReactions.2
  | .getClassified => c.getClassified.2
  | .aligned r => (c.aligned r).2

/-- the state after a sequence of calls -/
def run (F : Str → Option (Dict Str Nat)) (c : Clf) (ops : List Op) : Clf := ops.foldl (apply F) c

end Clf

end Verif.Plaschem.Classify
