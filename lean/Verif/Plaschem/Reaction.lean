/-
Model of plaschem/reactions.py (class Reaction).
-/
import Verif.Plaschem.Species

namespace Verif.Plaschem

/-- plaschem/reactions.py:7-173, class `Reaction`: the stored attributes after construction.

Simplifications: numeric values are exact rationals after the conversion done by the getters; the
informative attributes (gas_heat_contrib, qdb ids, doi, comments, latex) are left out. -/
structure Reaction where
  id : Nat
  reactants : List RP
  products : List RP
  arrhA : Option ℚ := none
  arrhAUnit : Option Str := none
  arrhB : Option ℚ := none
  arrhC : Option ℚ := none
  arrhCUnit : Option Str := none
  elastic : Option Bool := none
  elEnLoss : Option ℚ := none
  specialNumber : Option Int := none
  deriving DecidableEq, Repr

/-- the `method` argument of several getters: 'lhs', 'rhs', 'net'/'all'; anything else is `other`. -/
inductive Method
  | lhs | rhs | net | all | other
  deriving DecidableEq, Repr

/-- Python's `tuple(sorted(set(xs), key=lambda x: xs.index(x)))`: the distinct values in order of
first occurrence. (`set` iteration order is irrelevant since the sort keys are pairwise distinct.) -/
def orderedSet {α : Type} [DecidableEq α] : List α → List α
  | [] => []
  | x :: xs => x :: (orderedSet xs).filter (fun y => y ≠ x)

namespace Reaction

/-- plaschem/reactions.py:347-375: all reactant and product objects, in order. -/
def rps (r : Reaction) : List RP := r.reactants ++ r.products

/-- plaschem/reactions.py:286-306 `get_rp_ids_set`. -/
def getRpIdsSet (r : Reaction) : Method → Except Err (List Nat)
  | .lhs => .ok (orderedSet (r.reactants.map RP.id))
  | .rhs => .ok (orderedSet (r.products.map RP.id))
  | .all => .ok (orderedSet (r.reactants.map RP.id ++ r.products.map RP.id))
  | _ => .error .reactionValue

/-- plaschem/reactions.py:264-284 `get_rp_names_set`. -/
def getRpNamesSet (r : Reaction) : Method → Except Err (List Str)
  | .lhs => .ok (orderedSet (r.reactants.map RP.name))
  | .rhs => .ok (orderedSet (r.products.map RP.name))
  | .all => .ok (orderedSet (r.reactants.map RP.name ++ r.products.map RP.name))
  | _ => .error .reactionValue

/-- `d[k] += δ` on an existing key (a missing key would be a `KeyError`). -/
def bump (d : Dict Nat Int) (k : Nat) (δ : Int) : Except Err (Dict Nat Int) :=
  match d.get? k with
  | some v => .ok (d.set k (v + δ))
  | none => .error .keyError

/-- plaschem/reactions.py:246-257: `for sp in side: d[sp.id] += δ`. -/
def bumpAll (δ : Int) : List RP → Dict Nat Int → Except Err (Dict Nat Int)
  | [], d => .ok d
  | s :: ss, d =>
    match bump d s.id δ with
    | .ok d' => bumpAll δ ss d'
    | .error e => .error e

/-- plaschem/reactions.py:231-261 `get_stoich_coefs`. -/
def getStoichCoefs (r : Reaction) : Method → Except Err (Dict Nat Int)
  | .lhs =>
    match r.getRpIdsSet .lhs with
    | .ok ids => bumpAll 1 r.reactants (ids.map (fun i => (i, 0)))
    | .error e => .error e
  | .rhs =>
    match r.getRpIdsSet .rhs with
    | .ok ids => bumpAll 1 r.products (ids.map (fun i => (i, 0)))
    | .error e => .error e
  | .net =>
    match r.getRpIdsSet .all with
    | .ok ids =>
      match bumpAll 1 r.products (ids.map (fun i => (i, 0))) with
      | .ok d => bumpAll (-1) r.reactants d
      | .error e => .error e
    | .error e => .error e
  | _ => .error .reactionValue

/-- plaschem/reactions.py:308-313 `is_electron_process`. -/
def isElectronProcess (r : Reaction) : Bool := r.reactants.any (fun s => s.name = str!"e")

/-- plaschem/reactions.py:353-354: `sum([r.get_charge() for r in side if not r.get_name() == 'M'])`. The
getter never returns `None` for a species other than M. -/
def chargeSum (side : List RP) : Int :=
  ((side.filter (fun s => s.name ≠ str!"M")).map (fun s => s.getCharge.getD 0)).sum

/-- plaschem/reactions.py:361-366: `try: d[atom] += n  except KeyError: d[atom] = n`. -/
def addAtom (d : Dict Str Nat) (a : Str) (n : Nat) : Dict Str Nat :=
  match d.get? a with
  | some v => d.set a (v + n)
  | none => d.set a n

/-- plaschem/reactions.py:359-373: accumulation of the atom counts of one side. -/
def countAtoms (F : Str → Option (Dict Str Nat)) : List RP → Dict Str Nat → Except Err (Dict Str Nat)
  | [], d => .ok d
  | s :: ss, d =>
    match s.getAtoms F with
    | .error e => .error e
    | .ok as => countAtoms F ss (as.foldl (fun d e => addAtom d e.1 e.2) d)

/-- Python `==` on dictionaries: same keys with the same values, order irrelevant. -/
def dictEq (d e : Dict Str Nat) : Bool :=
  d.all (fun p => e.get? p.1 = some p.2) && e.all (fun p => d.get? p.1 = some p.2)

/-- plaschem/reactions.py:347-375 `assert_consistency`. -/
def assertConsistency (F : Str → Option (Dict Str Nat)) (r : Reaction) : Except Err Unit :=
  if chargeSum r.reactants ≠ chargeSum r.products then .error .reactionValue
  else match countAtoms F r.reactants [] with
    | .error e => .error e
    | .ok lhs =>
      match countAtoms F r.products [] with
      | .error e => .error e
      | .ok rhs => if dictEq lhs rhs then .ok () else .error .reactionValue

/-- plaschem/reactions.py:518-531 `get_elastic`. -/
def getElastic (r : Reaction) : Bool :=
  match r.elastic with
  | some b => b
  | none =>
    (r.reactants.map RP.name).all (fun n => n ∈ r.products.map RP.name) &&
    (r.products.map RP.name).all (fun n => n ∈ r.reactants.map RP.name)

/-- plaschem/reactions.py:65-71 `si_conversion_factors['arrh_a']`. -/
def siFactors : Dict Str ℚ :=
  [(str!"s-1", 1), (str!"m3.s-1", 1), (str!"m6.s-1", 1),
   (str!"cm3.s-1", 1 / 1000000), (str!"cm6.s-1", 1 / 1000000000000)]

/-- plaschem/reactions.py:59 `allowed_unit_values['arrh_a']` without `None`. -/
def allowedUnitsA : List Str :=
  [str!"s-1", str!"cm3.s-1", str!"m3.s-1", str!"cm6.s-1", str!"m6.s-1"]

/-- plaschem/reactions.py:60 `allowed_unit_values['arrh_c']` without `None`. -/
def allowedUnitsC : List Str := [str!"eV", str!"K"]

/-- Python `s.endswith(t)`. -/
def endsWith (s t : Str) : Bool := t.reverse.isPrefixOf s.reverse

/-- plaschem/reactions.py:418-471 `set_reaction_attribute('arrh_a', value, unit)`: the checks made when
`value` is not `None`, in order. -/
def checkArrhA (nReactants : Nat) (value : ℚ) (unit : Option Str) : Except Err Unit :=
  match unit with
  | none => .error .reactionAttribute
  | some u =>
    if u ∉ allowedUnitsA then .error .reactionAttribute
    else if nReactants = 1 ∧ u ≠ str!"s-1" then .error .reactionAttribute
    else if nReactants = 2 ∧ ¬ endsWith u str!"3.s-1" then .error .reactionAttribute
    else if nReactants = 3 ∧ ¬ endsWith u str!"6.s-1" then .error .reactionAttribute
    else if nReactants > 3 then .error .reactionInit
    else if value < 0 then .error .reactionAttribute
    else .ok ()

/-- plaschem/reactions.py:418-471 `set_reaction_attribute('arrh_c', value, unit)`, value not `None`. -/
def checkArrhC (electron : Bool) (unit : Option Str) : Except Err Unit :=
  match unit with
  | none => .error .reactionAttribute
  | some u =>
    if u ∉ allowedUnitsC then .error .reactionAttribute
    else if electron ∧ u ≠ str!"eV" then .error .reactionAttribute
    else if ¬ electron ∧ u ≠ str!"K" then .error .reactionAttribute
    else .ok ()

end Reaction

/-- The arguments of the `Reaction` constructor relevant to the accept/reject decision. The outer
`Option` says whether the attribute was passed, the inner one is an explicit `None`. Units: the `units`
dictionary restricted to the two attributes that have a choice of unit. -/
structure ReactionArgs where
  id : Int
  reactants : List RP
  products : List RP
  arrhA : Option (Option ℚ) := none
  arrhB : Option (Option ℚ) := none
  arrhC : Option (Option ℚ) := none
  elastic : Option (Option Bool) := none
  elEnLoss : Option (Option ℚ) := none
  specialNumber : Option (Option Int) := none
  unitA : Option Str := none
  unitC : Option Str := none
  /-- names of passed attributes the class does not know -/
  unknown : List Str := []

/-- plaschem/reactions.py:107-173 `Reaction.__init__`. `id` is an `int`; a unit passed as `None`
explicitly is not distinguished from a unit that is not passed. -/
def Reaction.init (F : Str → Option (Dict Str Nat)) (a : ReactionArgs) : Except Err Reaction :=
  if a.id ≤ 0 then .error .reactionInit
  else if a.reactants.length < 1 ∨ a.products.length < 1 then .error .reactionInit
  else if a.reactants.length > 3 then .error .reactionInit
  else if a.specialNumber = none ∧ a.arrhA = none then .error .reactionAttribute
  else if a.unknown ≠ [] then .error .reactionAttribute
  else if (a.unitA.isSome ∧ a.arrhA = none) ∨ (a.unitC.isSome ∧ a.arrhC = none) then
    .error .reactionAttribute
  else if (a.arrhA.isSome ∧ a.unitA = none) ∨ (a.arrhC.isSome ∧ a.unitC = none) then
    .error .reactionAttribute
  else
    let r : Reaction := {
      id := a.id.toNat, reactants := a.reactants, products := a.products,
      arrhA := a.arrhA.join, arrhAUnit := a.unitA, arrhB := a.arrhB.join,
      arrhC := a.arrhC.join, arrhCUnit := a.unitC, elastic := a.elastic.join,
      elEnLoss := a.elEnLoss.join, specialNumber := a.specialNumber.join }
    match (match r.arrhA with
           | some v => Reaction.checkArrhA r.reactants.length v r.arrhAUnit
           | none => .ok ()) with
    | .error e => .error e
    | .ok () =>
      match (match r.arrhC with
             | some _ => Reaction.checkArrhC r.isElectronProcess r.arrhCUnit
             | none => .ok ()) with
      | .error e => .error e
      | .ok () =>
        match r.assertConsistency F with
        | .error e => .error e
        | .ok () => .ok r

namespace Reaction

/-- plaschem/reactions.py:641-652 `get_unit('arrh_a')`: no default unit. -/
def getUnitA (r : Reaction) : Option Str := r.arrhAUnit

/-- plaschem/reactions.py:475-488 `get_arrh_a`. A missing conversion factor is a `KeyError`. -/
def getArrhA (r : Reaction) (si : Bool) : Except Err (Option ℚ) :=
  match r.arrhA with
  | none => .ok none
  | some a =>
    if si then
      match r.getUnitA with
      | none => .error .keyError
      | some u =>
        match siFactors.get? u with
        | some f => .ok (some (a * f))
        | none => .error .keyError
    else .ok (some a)

/-- plaschem/reactions.py:490-501 `get_arrh_b` (for a reaction whose `get_arrh_a` does not fail). -/
def getArrhB (r : Reaction) : Option ℚ :=
  match r.arrhB with
  | some b => some b
  | none => if r.arrhA.isSome then some 0 else none

/-- plaschem/reactions.py:503-516 `get_arrh_c`. -/
def getArrhC (r : Reaction) : Option ℚ :=
  match r.arrhC with
  | some c => some c
  | none => if r.arrhA.isSome then some 0 else none

/-- plaschem/reactions.py:533-543 `get_el_en_loss`. -/
def getElEnLoss (r : Reaction) : ℚ := r.elEnLoss.getD 0

/-- plaschem/reactions.py:557-571 `get_special_number`. -/
def getSpecialNumber (r : Reaction) : Int :=
  match r.specialNumber with
  | some n => n
  | none => if r.isElectronProcess then 10 else 20

/-- plaschem/reactions.py:399-414 `get_electron_collision_partner`. -/
def getElectronCollisionPartner (r : Reaction) : Except Err RP :=
  if ¬ r.isElectronProcess then .error .reactionValue
  else match r.reactants.find? (fun s => ¬ s.isSpecial) with
    | some s => .ok s
    | none => .error .reactionValue

/-- plaschem/reactions.py:193-210 `get_rp` for a name. -/
def getRpByName (r : Reaction) (n : Str) : Except Err RP :=
  if n ∈ r.rps.map RP.name then
    match r.rps.find? (fun s => s.name = n) with
    | some s => .ok s
    | none => .error .valueError
  else .error .valueError

/-- plaschem/reactions.py:193-210 `get_rp` for an id (an int is never among the names). -/
def getRpById (r : Reaction) (i : Nat) : Except Err RP :=
  if i ∈ r.rps.map RP.id then
    match r.rps.find? (fun s => s.id = i) with
    | some s => .ok s
    | none => .error .valueError
  else .error .valueError

end Reaction

end Verif.Plaschem
