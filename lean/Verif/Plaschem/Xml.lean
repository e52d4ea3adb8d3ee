/-
Model of the parts of plaschem/species.py and plaschem/reactions.py that deal with attributes as they are passed
(strings, numbers, `None`), and of plaschem/xml_inputs.py: building XML input files and parsing them.
-/
import Verif.Plaschem.Classifier
import Verif.Plaschem.ReactStr

namespace Verif.Plaschem.Xml
open Verif.Plaschem

/-! ### values -/

/-- Python's conversions between numbers and strings for a type `F` of floats: `str(x)`, `float(s)`, `str(n)`,
`int(s)`, `float(n)` (`none` where the conversion raises), the value of a float literal of the source, the exact value
of a float, and the product of a float with the conversion factor of a unit (plaschem/reactions.py:65-71). -/
structure Codec (F : Type) where
  showF : F → Str
  readF : Str → Option F
  showI : Int → Str
  readI : Str → Option Int
  ofInt : Int → Option F
  lit : ℚ → F
  val : F → ℚ
  scale : Str → F → F

/-- The properties of Python's conversions that are relied on: what `str` writes is read back exactly, and a float is
obtained from an integer directly or through its digits alike, and the empty string is not a number. -/
structure Codec.Lawful {F : Type} (C : Codec F) : Prop where
  float : ∀ x, C.readF (C.showF x) = some x
  int : ∀ n, C.readI (C.showI n) = some n
  intFloat : ∀ n x, C.ofInt n = some x → C.readF (C.showI n) = some x
  floatText : ∀ x, C.showF x ≠ []
  intText : ∀ n, C.showI n ≠ []
  empty : C.readF [] = none

/-- A value passed for an attribute: `None`, `str`, `int`, `float` (also `np.float64`) or `bool`. -/
inductive Val (F : Type)
  | null
  | str (s : Str)
  | int (n : Int)
  | float (x : F)
  | bool (b : Bool)
  deriving DecidableEq

variable {F : Type}

/-- `str(v)` -/
def Val.text (C : Codec F) : Val F → Str
  | .null => str!"None"
  | .str s => s
  | .int n => C.showI n
  | .float x => C.showF x
  | .bool true => str!"True"
  | .bool false => str!"False"

/-- `float(v)` -/
def Val.toFloat (C : Codec F) : Val F → Except Err F
  | .null => .error .typeError
  | .str s => match C.readF s with
    | some x => .ok x
    | none => .error .valueError
  | .int n => match C.ofInt n with
    | some x => .ok x
    | none => .error .valueError
  | .float x => .ok x
  | .bool b => .ok (C.lit (if b then 1 else 0))

/-- `int(v)`; floats are not converted in the modelled code (the attributes concerned do not accept them). -/
def Val.toInt (C : Codec F) : Val F → Except Err Int
  | .null => .error .typeError
  | .str s => match C.readI s with
    | some x => .ok x
    | none => .error .valueError
  | .int n => .ok n
  | .float _ => .error .valueError
  | .bool b => .ok (if b then 1 else 0)

/-- `v is not None` -/
def Val.isSome : Val F → Bool
  | .null => false
  | _ => true

/-- `v == s` for a string `s` -/
def Val.isStr (s : Str) : Val F → Bool
  | .str t => t = s
  | _ => false

/-- truth value -/
def Val.truthy (C : Codec F) : Val F → Bool
  | .null => false
  | .str s => s ≠ []
  | .int n => n ≠ 0
  | .float x => C.val x ≠ 0
  | .bool b => b

/-- `None if v is None else str(v)` -/
def Val.optText (C : Codec F) : Val F → Option Str
  | .null => none
  | v => some (v.text C)

/-- `None if v is None else float(v)`, with the default `d` in place of `None` -/
def Val.floatOr (C : Codec F) (d : Option F) : Val F → Except Err (Option F)
  | .null => .ok d
  | v => match v.toFloat C with
    | .ok x => .ok (some x)
    | .error e => .error e

/-- the same with `int(v)` -/
def Val.intOr (C : Codec F) (d : Option Int) : Val F → Except Err (Option Int)
  | .null => .ok d
  | v => match v.toInt C with
    | .ok x => .ok (some x)
    | .error e => .error e

/-- the lists of types in plaschem/species.py:39-54 and plaschem/reactions.py:38-51: text `[str, None]`, number
`[float, np.float64, str, int, None]`, integer `[int, str, None]`, flag `[bool, str, None]` -/
inductive Kind
  | text | number | integer | flag
  deriving DecidableEq

/-- `type(value) in allowed_attribute_types[attribute]` -/
def Val.fits : Val F → Kind → Bool
  | .null, _ => true
  | .str _, _ => true
  | .int _, .number | .int _, .integer => true
  | .float _, .number => true
  | .bool _, .flag => true
  | _, _ => false

/-! ### species -/

/-- plaschem/species.py:21-36: the attributes in order. -/
def rpAttributes : List Str :=
  [str!"name", str!"stateless", str!"state", str!"mass", str!"charge", str!"h_form", str!"lj_epsilon",
   str!"lj_sigma", str!"hpem_name", str!"qdb_id", str!"stick_coef", str!"ret_coefs", str!"comments", str!"latex"]

/-- plaschem/species.py:39-54, without `ret_coefs` -/
def rpKinds : Dict Str Kind :=
  [(str!"name", .text), (str!"stateless", .text), (str!"state", .text), (str!"mass", .number),
   (str!"charge", .integer), (str!"h_form", .number), (str!"lj_epsilon", .number), (str!"lj_sigma", .number),
   (str!"hpem_name", .text), (str!"qdb_id", .integer), (str!"stick_coef", .number), (str!"comments", .text),
   (str!"latex", .text)]

/-- plaschem/species.py:60-74: the default unit of an attribute, which is also the only one allowed. -/
def rpUnits : Dict Str Str :=
  [(str!"mass", str!"amu"), (str!"charge", str!"e"), (str!"h_form", str!"eV"), (str!"lj_epsilon", str!"K"),
   (str!"lj_sigma", str!"A")]

/-- plaschem/species.py:76-166: an instance of `RP` with its private attributes as they were passed, `ret_coefs`
apart from the others since its value is a dictionary. Attributes that do not exist have the value `None` here. -/
structure Rp (F : Type) where
  id : Nat
  attr : Str → Val F
  ret : Option (Dict Str (Val F))
  unit : Str → Option Str

/-- the private attributes before any is set -/
def Rp.blank (id : Nat) : Rp F := { id, attr := fun _ => .null, ret := none, unit := fun _ => none }

/-- plaschem/species.py:194-224 `set_species_attribute` for attributes other than `ret_coefs`. -/
def Rp.set (rp : Rp F) (a : Str) (v : Val F) (u : Option Str) : Except Err (Rp F) :=
  if v.isSome = true ∧ u ≠ none ∧ rpUnits.get? a ≠ u then .error .rpAttribute
  else match rpKinds.get? a with
    | none => .error .rpAttribute
    | some k =>
      if v.fits k then
        .ok { rp with attr := Function.update rp.attr a v, unit := Function.update rp.unit a u }
      else .error .rpAttribute

/-- plaschem/species.py:194-224 `set_species_attribute('ret_coefs', value, unit)` -/
def Rp.setRet (rp : Rp F) (d : Option (Dict Str (Val F))) (u : Option Str) : Except Err (Rp F) :=
  if d ≠ none ∧ u ≠ none then .error .rpAttribute
  else .ok { rp with ret := d, unit := Function.update rp.unit str!"ret_coefs" u }

/-- the value passed for an attribute, `None` if it was not passed -/
def given (attrs : Dict Str (Val F)) (a : Str) : Val F := (attrs.get? a).getD .null

/-- plaschem/species.py:159-166: the loop over all attributes. -/
def Rp.setAll (attrs : Dict Str (Val F)) (ret : Option (Dict Str (Val F))) (units : Dict Str Str) :
    List Str → Rp F → Except Err (Rp F)
  | [], rp => .ok rp
  | a :: l, rp =>
    match (if a = str!"ret_coefs" then rp.setRet ret (units.get? a) else rp.set a (given attrs a) (units.get? a)) with
    | .error e => .error e
    | .ok rp => Rp.setAll attrs ret units l rp

/-- plaschem/species.py:76-166 `RP.__init__`. `attrs` are the attributes passed other than `ret_coefs`; `ret` is `none`
if `ret_coefs` was not passed, and `some none` if it was passed as `None`. Units are strings. -/
def Rp.init (C : Codec F) (id : Int) (attrs : Dict Str (Val F)) (ret : Option (Option (Dict Str (Val F))))
    (units : Dict Str Str) : Except Err (Rp F) :=
  if id < 0 then .error .rpInit
  else if (attrs.get? str!"name").isNone ∨
      ((given attrs str!"state").truthy C ∧ (attrs.get? str!"stateless").isNone) ∨
      (¬ (given attrs str!"name").isStr str!"M" ∧ (attrs.get? str!"mass").isNone) then .error .rpAttribute
  else match given attrs str!"name" with
    | .str n =>
      if '<' ∈ n ∨ '>' ∈ n then .error .rpAttribute
      else if ∃ a ∈ attrs.keys, a ∉ rpAttributes then .error .rpAttribute
      else if ∃ a ∈ units.keys, a ∉ rpUnits.keys ∨ a ∉ attrs.keys then .error .rpAttribute
      else Rp.setAll attrs (ret.getD none) units rpAttributes (Rp.blank id.toNat)
    | _ => .error .typeError

namespace Rp

/-- plaschem/species.py:228-236 `get_name` -/
def getName (C : Codec F) (rp : Rp F) : Except Err Str :=
  match rp.attr str!"name" with
  | .null => .error .rpAttribute
  | v => .ok (v.text C)

/-- plaschem/species.py:174-175 `is_special` -/
def isSpecial (C : Codec F) (rp : Rp F) : Except Err Bool := do
  let n ← rp.getName C
  return n = str!"e" ∨ n = str!"M"

/-- plaschem/species.py:254-263 `get_state` -/
def getState (C : Codec F) (rp : Rp F) : Except Err (Option Str) := do
  if ← rp.isSpecial C then return none
  return (rp.attr str!"state").optText C

/-- plaschem/species.py:238-252 `get_stateless` -/
def getStateless (C : Codec F) (rp : Rp F) : Except Err Str := do
  if ← rp.isSpecial C then return ← rp.getName C
  match (rp.attr str!"stateless").optText C with
  | some s => return s
  | none =>
    match ← rp.getState C with
    | some _ => throw .rpAttribute
    | none => rp.getName C

/-- plaschem/species.py:265-276 `get_mass` -/
def getMass (C : Codec F) (rp : Rp F) : Except Err (Option F) := do
  if (← rp.getName C) = str!"M" then return none
  match ← (rp.attr str!"mass").floatOr C none with
  | some x => return some x
  | none => throw .rpAttribute

/-- plaschem/species.py:278-288 `get_charge` -/
def getCharge (C : Codec F) (rp : Rp F) : Except Err (Option Int) := do
  if (← rp.getName C) = str!"M" then return none
  (rp.attr str!"charge").intOr C (some 0)

/-- plaschem/species.py:290-327 `get_h_form`, `get_lj_epsilon`, `get_lj_sigma`: a float attribute with its default. -/
def getFloat (C : Codec F) (rp : Rp F) (a : Str) (d : ℚ) : Except Err (Option F) := do
  if ← rp.isSpecial C then return none
  (rp.attr a).floatOr C (some (C.lit d))

/-- plaschem/species.py:329-336, 385-392 `get_hpem_name`, `get_comments` -/
def getText (C : Codec F) (rp : Rp F) (a : Str) : Except Err (Option Str) := .ok ((rp.attr a).optText C)

/-- plaschem/species.py:338-345 `get_qdb_id` -/
def getQdbId (C : Codec F) (rp : Rp F) : Except Err (Option Int) := (rp.attr str!"qdb_id").intOr C none

/-- plaschem/species.py:355-358, 380-383: is the species a neutral in its ground state, as the default sticking and
return coefficients see it -/
def isGround (C : Codec F) (rp : Rp F) : Except Err Bool := do
  match ← rp.getState C with
  | some _ => return false
  | none => return (← rp.getCharge C) = some 0

/-- plaschem/species.py:343-358 `get_stick_coef` -/
def getStick (C : Codec F) (rp : Rp F) : Except Err (Option F) := do
  if ← rp.isSpecial C then return none
  match ← (rp.attr str!"stick_coef").floatOr C none with
  | some x => return some x
  | none => if ← rp.isGround C then return some (C.lit 0) else return some (C.lit 1)

/-- plaschem/species.py:360-383 `get_ret_coefs` -/
def getRet (C : Codec F) (rp : Rp F) : Except Err (Option (Dict Str F)) := do
  if ← rp.isSpecial C then return none
  match rp.ret with
  | some d =>
    return some (← Classify.collect (fun p : Str × Val F => do return (p.1, ← p.2.toFloat C)) d)
  | none => if ← rp.isGround C then return some [] else return some [(stripCharge (← rp.getStateless C), C.lit 1)]

/-- plaschem/species.py:394-405 `get_latex`; `texify` is `Texify.texify_species` of plaschem/latex.py. -/
def getLatex (C : Codec F) (texify : Str → Except Err Str) (rp : Rp F) : Except Err Str :=
  match (rp.attr str!"latex").optText C with
  | some s => .ok s
  | none => do texify (← rp.getName C)

/-- plaschem/species.py:409-422 `get_unit` -/
def getUnit (rp : Rp F) (a : Str) : Except Err Str :=
  match rpUnits.get? a with
  | none => .error .rpAttribute
  | some d => .ok ((rp.unit a).getD d)

/-- The species as the rest of the model sees it (Species.lean), with the conversions of the getters applied: what
the atom counts, the charge and the classification of a reaction depend on. `oid` is the identity of the object. -/
def core (C : Codec F) (oid : Nat) (rp : Rp F) : Except Err RP := do
  let name ← rp.getName C
  let charge ← (if name = str!"M" then .ok none else (rp.attr str!"charge").intOr C none : Except Err (Option Int))
  return { oid, id := rp.id, name, stateless := (rp.attr str!"stateless").optText C,
           state := (rp.attr str!"state").optText C, charge }

/-- plaschem/species.py:180-190 `get_atoms` -/
def getAtoms (C : Codec F) (A : Str → Option (Dict Str Nat)) (rp : Rp F) : Except Err (Dict Str Nat) := do
  let n ← rp.getName C
  if n = str!"e" then return []
  if n = str!"M" then return [(str!"M", 1)]
  match A (stripCharge (← rp.getStateless C)) with
  | some d => return d
  | none => throw .formula

end Rp

/-! ### reactions -/

/-- plaschem/reactions.py:17-30: the attributes in order. -/
def rxAttributes : List Str :=
  [str!"arrh_a", str!"arrh_b", str!"arrh_c", str!"elastic", str!"el_en_loss", str!"gas_heat_contrib",
   str!"special_number", str!"qdb_r_id", str!"qdb_ds_id", str!"doi", str!"comments", str!"latex"]

/-- plaschem/reactions.py:37-50 -/
def rxKinds : Dict Str Kind :=
  [(str!"arrh_a", .number), (str!"arrh_b", .number), (str!"arrh_c", .number), (str!"elastic", .flag),
   (str!"el_en_loss", .number), (str!"gas_heat_contrib", .number), (str!"special_number", .integer),
   (str!"qdb_r_id", .integer), (str!"qdb_ds_id", .integer), (str!"doi", .text), (str!"comments", .text),
   (str!"latex", .text)]

/-- plaschem/reactions.py:53-58: attributes with units and the default unit -/
def rxUnits : Dict Str (Option Str) :=
  [(str!"arrh_a", none), (str!"arrh_c", none), (str!"el_en_loss", some str!"eV"),
   (str!"gas_heat_contrib", some str!"eV")]

/-- plaschem/reactions.py:59-64: allowed units, without `None` -/
def rxAllowed : Dict Str (List Str) :=
  [(str!"arrh_a", Reaction.allowedUnitsA), (str!"arrh_c", Reaction.allowedUnitsC), (str!"el_en_loss", [str!"eV"]),
   (str!"gas_heat_contrib", [str!"eV"])]

/-- plaschem/reactions.py:52 -/
def rxMandatory : List Str := [str!"arrh_a", str!"arrh_c"]

/-- plaschem/reactions.py:32-34: allowed values of `elastic` -/
def elasticOk : Val F → Bool
  | .null | .bool _ => true
  | .str s => s ∈ [str!"true", str!"True", str!"TRUE", str!"false", str!"False", str!"FALSE"]
  | _ => false

/-- plaschem/reactions.py:73-173: an instance of `Reaction` with its private attributes as they were passed. -/
structure Rx (F : Type) where
  id : Nat
  reactants : List (Rp F)
  products : List (Rp F)
  attr : Str → Val F
  unit : Str → Option Str

namespace Rx

/-- plaschem/reactions.py:308-313 `is_electron_process` -/
def isElectron (C : Codec F) (x : Rx F) : Except Err Bool := do
  return str!"e" ∈ (← Classify.collect (·.getName C) x.reactants)

/-- plaschem/reactions.py:429-451: the checks of the unit. -/
def checkUnit (C : Codec F) (x : Rx F) (a : Str) (u : Option Str) : Except Err Unit := do
  match u with
  | some w => if w ∉ (rxAllowed.get? a).getD [] then throw .reactionAttribute
  | none => if a ∈ rxMandatory then throw .reactionAttribute
  if a = str!"arrh_c" then
    if ← x.isElectron C then
      if u ≠ some str!"eV" then throw .reactionAttribute
    else if u ≠ some str!"K" then throw .reactionAttribute
  if a = str!"arrh_a" then
    let w := u.getD []
    if x.reactants.length = 1 ∧ w ≠ str!"s-1" then throw .reactionAttribute
    if x.reactants.length = 2 ∧ ¬ Reaction.endsWith w str!"3.s-1" then throw .reactionAttribute
    if x.reactants.length = 3 ∧ ¬ Reaction.endsWith w str!"6.s-1" then throw .reactionAttribute
    if x.reactants.length > 3 then throw .reactionInit

/-- plaschem/reactions.py:418-471 `set_reaction_attribute` -/
def set (C : Codec F) (x : Rx F) (a : Str) (v : Val F) (u : Option Str) : Except Err (Rx F) :=
  match (if v.isSome then x.checkUnit C a u else .ok () : Except Err Unit) with
  | .error e => .error e
  | .ok () =>
    match rxKinds.get? a with
    | none => .error .reactionAttribute
    | some k =>
      if (a = str!"elastic" ∧ ¬ elasticOk v) ∨ ¬ v.fits k then .error .reactionAttribute
      else match (if a = str!"arrh_a" then v.floatOr C none else .ok none) with
        | .error e => .error e
        | .ok f =>
          if ∃ y ∈ f, C.val y < 0 then .error .reactionAttribute
          else .ok { x with attr := Function.update x.attr a v, unit := Function.update x.unit a u }

/-- plaschem/reactions.py:164-170: the loop over all attributes. -/
def setAll (C : Codec F) (attrs : Dict Str (Val F)) (units : Dict Str Str) : List Str → Rx F → Except Err (Rx F)
  | [], x => .ok x
  | a :: l, x =>
    match x.set C a (given attrs a) (units.get? a) with
    | .error e => .error e
    | .ok x => setAll C attrs units l x

/-- plaschem/reactions.py:347-375 `assert_consistency`, on the converted species. -/
def consistent (C : Codec F) (A : Str → Option (Dict Str Nat)) (reactants products : List (Rp F)) :
    Except Err Unit := do
  let rs ← Classify.collect (Rp.core C 0) reactants
  let ps ← Classify.collect (Rp.core C 0) products
  Reaction.assertConsistency A { id := 0, reactants := rs, products := ps }

/-- plaschem/reactions.py:73-173 `Reaction.__init__` -/
def init (C : Codec F) (A : Str → Option (Dict Str Nat)) (id : Int) (reactants products : List (Rp F))
    (attrs : Dict Str (Val F)) (units : Dict Str Str) : Except Err (Rx F) :=
  if id ≤ 0 then .error .reactionInit
  else if reactants.length < 1 ∨ products.length < 1 then .error .reactionInit
  else if reactants.length > 3 then .error .reactionInit
  else if (attrs.get? str!"special_number").isNone ∧ (attrs.get? str!"arrh_a").isNone then .error .reactionAttribute
  else if ∃ a ∈ attrs.keys, a ∉ rxAttributes then .error .reactionAttribute
  else if ∃ a ∈ units.keys, a ∉ rxUnits.keys ∨ a ∉ attrs.keys then .error .reactionAttribute
  else if ∃ a ∈ rxMandatory, a ∈ attrs.keys ∧ a ∉ units.keys then .error .reactionAttribute
  else match setAll C attrs units rxAttributes
      { id := id.toNat, reactants, products, attr := fun _ => .null, unit := fun _ => none } with
    | .error e => .error e
    | .ok x =>
      match consistent C A reactants products with
      | .error e => .error e
      | .ok () => .ok x

/-- plaschem/reactions.py:641-652 `get_unit` -/
def getUnit (x : Rx F) (a : Str) : Except Err (Option Str) :=
  match rxUnits.get? a with
  | none => .error .reactionAttribute
  | some d => .ok ((x.unit a).or d)

/-- plaschem/reactions.py:475-488 `get_arrh_a` -/
def getArrhA (C : Codec F) (x : Rx F) (si : Bool) : Except Err (Option F) := do
  match ← (x.attr str!"arrh_a").floatOr C none with
  | none => return none
  | some y =>
    if si then
      match ← x.getUnit str!"arrh_a" with
      | some u => if u ∈ Reaction.siFactors.keys then return some (C.scale u y) else throw .keyError
      | none => throw .keyError
    else return some y

/-- plaschem/reactions.py:490-516 `get_arrh_b`, `get_arrh_c` -/
def getArrh (C : Codec F) (x : Rx F) (a : Str) : Except Err (Option F) := do
  match ← (x.attr a).floatOr C none with
  | some y => return some y
  | none =>
    match ← x.getArrhA C true with
    | some _ => return some (C.lit 0)
    | none => return none

/-- plaschem/reactions.py:518-533 `get_elastic` -/
def getElastic (C : Codec F) (x : Rx F) : Except Err Bool :=
  match x.attr str!"elastic" with
  | .null => do
    let l ← Classify.collect (·.getName C) x.reactants
    let r ← Classify.collect (·.getName C) x.products
    return l.all (· ∈ r) && r.all (· ∈ l)
  | .bool b => .ok b
  | .str s => .ok (decide (s ∈ [str!"true", str!"True", str!"TRUE"]))
  | _ => .ok false

/-- plaschem/reactions.py:535-557 `get_el_en_loss`, `get_gas_heat_contrib` -/
def getFloat (C : Codec F) (x : Rx F) (a : Str) : Except Err (Option F) := (x.attr a).floatOr C (some (C.lit 0))

/-- plaschem/reactions.py:559-573 `get_special_number` -/
def getSpecial (C : Codec F) (x : Rx F) : Except Err (Option Int) := do
  match ← (x.attr str!"special_number").intOr C none with
  | some n => return some n
  | none => if ← x.isElectron C then return some 10 else return some 20

/-- plaschem/reactions.py:575-595 `get_qdb_r_id`, `get_qdb_ds_id` -/
def getInt (C : Codec F) (x : Rx F) (a : Str) : Except Err (Option Int) := (x.attr a).intOr C none

/-- plaschem/reactions.py:597-613 `get_doi`, `get_comments` -/
def getText (C : Codec F) (x : Rx F) (a : Str) : Except Err (Option Str) := .ok ((x.attr a).optText C)

/-- the names of a side -/
def names (C : Codec F) (side : List (Rp F)) : Except Err (List Str) := Classify.collect (·.getName C) side

/-- The reaction as the classifier sees it, on species that are already converted. -/
def core (C : Codec F) (x : Rx F) (reactants products : List RP) : Except Err Reaction := do
  let elastic ← x.getElastic C
  let loss ← x.getFloat C str!"el_en_loss"
  return { id := x.id, reactants, products, elastic := some elastic, elEnLoss := loss.map C.val }

end Rx

/-! ### elements -/

/-- A sub-element: tag, `unit` attribute, text, and for `ret_coefs` the `r` elements with their `rp` attribute and
their text. -/
structure Sub where
  tag : Str
  unit : Option Str := none
  text : Option Str := none
  rs : List (Str × Option Str) := []
  deriving DecidableEq

/-- An `rp` or a `reaction` element: its `id` attribute and its sub-elements. Other attributes and deeper elements do
not occur in files written by the builder. -/
structure Elem where
  id : Str
  subs : List Sub
  deriving DecidableEq

/-- Writing text to a file and reading it again: an element without text and one with an empty text are not
distinguished. Simplification: escaping, encoding and the normalisation of line ends by the XML library, and the
formatting by `minidom` (white space between elements), are not modelled. -/
def fileText : Option Str → Option Str
  | some [] => none
  | t => t

/-- plaschem/xml_inputs.py:648-676 `dump_xml` followed by `ElementTree.parse`: one element. -/
def Elem.file (e : Elem) : Elem :=
  { e with subs := e.subs.map fun s =>
      { s with text := fileText s.text, rs := s.rs.map fun p => (p.1, fileText p.2) } }

/-- `not in [None, '']` -/
def Val.present : Val F → Bool
  | .null => false
  | .str s => s ≠ []
  | _ => true

/-- plaschem/xml_inputs.py:128-143: the element of a species; `ret_coefs` that are `None` or not passed are `none`. -/
def rpElem (C : Codec F) (id : Int) (attrs : Dict Str (Val F)) (ret : Option (Dict Str (Val F)))
    (units : Dict Str Str) : Elem :=
  { id := C.showI id
    subs := rpAttributes.filterMap fun a =>
      if a = str!"ret_coefs" then
        ret.map fun d => { tag := a, rs := d.map fun p => (p.1, some (p.2.text C)) }
      else if (given attrs a).present then
        some { tag := a, unit := units.get? a, text := some ((given attrs a).text C) }
      else none }

/-- plaschem/xml_inputs.py:243-259: the element of a reaction. -/
def rxElem (C : Codec F) (reactants products : List Str) (id : Int) (attrs : Dict Str (Val F))
    (units : Dict Str Str) : Elem :=
  { id := C.showI id
    subs := { tag := str!"reactants", text := some (joinStr str!", " reactants) } ::
      { tag := str!"products", text := some (joinStr str!", " products) } ::
      rxAttributes.filterMap fun a =>
        if (given attrs a).present then
          some { tag := a, unit := units.get? a, text := some ((given attrs a).text C) }
        else none }

/-- `xml.find(tag)` -/
def Elem.find (e : Elem) (tag : Str) : Option Sub := e.subs.find? (fun s => s.tag = tag)

/-- the value of a text: `None` or a string -/
def textVal : Option Str → Val F
  | none => .null
  | some s => .str s

/-- the dictionary of the texts of the sub-elements with a tag not in `skip` (a later sub-element wins) -/
def Elem.texts (e : Elem) (skip : List Str) : Dict Str (Val F) :=
  (e.subs.filter (fun s => s.tag ∉ skip)).foldl (fun d s => d.set s.tag (textVal s.text)) []

/-- the dictionary of the units of the sub-elements -/
def Elem.units (e : Elem) : Dict Str Str :=
  e.subs.foldl (fun d s => s.unit.elim d (d.set s.tag)) []

/-! ### parsing -/

/-- plaschem/xml_inputs.py:711-732: one `rp` element. -/
def parseRp (C : Codec F) (e : Elem) : Except Err (Rp F) :=
  match C.readI e.id with
  | none => .error .valueError
  | some id =>
    Rp.init C id (e.texts [str!"ret_coefs"])
      ((e.find str!"ret_coefs").map fun s => some (s.rs.foldl (fun d p => d.set p.1 (textVal p.2)) []))
      e.units

/-- plaschem/xml_inputs.py:708-734: all `rp` elements, with the dictionary of species by name. -/
def parseSpecies (C : Codec F) : List Elem → Dict Str (Rp F) → Except Err (List (Rp F) × Dict Str (Rp F))
  | [], d => .ok ([], d)
  | e :: l, d => do
    let rp ← parseRp C e
    let n ← rp.getName C
    let (rps, d) ← parseSpecies C l (d.set n rp)
    return (rp :: rps, d)

/-- `species_dict[sp_name]` -/
def lookupRp (d : Dict Str (Rp F)) (n : Str) : Except Err (Rp F) :=
  match d.get? n with
  | some rp => .ok rp
  | none => .error .keyError

/-- plaschem/xml_inputs.py:749-752: the species of a side. -/
def parseSide (d : Dict Str (Rp F)) (e : Elem) (tag : Str) : Except Err (List (Rp F)) :=
  match (e.find tag).bind Sub.text with
  | none => .error .attributeError
  | some t => Classify.collect (fun n => lookupRp d (strip n)) (splitStr str!"," t)

/-- plaschem/xml_inputs.py:739-758: one `reaction` element. -/
def parseRx (C : Codec F) (A : Str → Option (Dict Str Nat)) (d : Dict Str (Rp F)) (e : Elem) : Except Err (Rx F) :=
  match C.readI e.id with
  | none => .error .valueError
  | some id => do
    let rs ← parseSide d e str!"reactants"
    let ps ← parseSide d e str!"products"
    Rx.init C A id rs ps (e.texts [str!"reactants", str!"products"]) e.units

/-- plaschem/xml_inputs.py:697-760 `get_species_and_reactions_from_xml_elements` -/
def parse (C : Codec F) (A : Str → Option (Dict Str Nat)) (species reactions : List Elem) :
    Except Err (List (Rp F) × List (Rx F)) := do
  let (rps, d) ← parseSpecies C species []
  let rxs ← Classify.collect (parseRx C A d) reactions
  return (rps, rxs)

/-! ### building -/

/-- plaschem/xml_inputs.py:41-47: the builder. Of `species_dict` only the keys are used. -/
structure Builder (F : Type) where
  species : List Elem := []
  names : List (Val F) := []
  reactions : List Elem := []

/-- plaschem/xml_inputs.py:105-148 `add_rp_from_attributes`. Simplification: `ret_coefs` is a dictionary or `None`. -/
def Builder.addRp (C : Codec F) [DecidableEq F] (b : Builder F) (id : Option Int) (attrs : Dict Str (Val F))
    (ret : Option (Dict Str (Val F))) (units : Dict Str Str) : Except Err (Builder F) :=
  match attrs.get? str!"name" with
  | none => .error .keyError
  | some n =>
    if n ∈ b.names then .error .xml
    else .ok { b with species := b.species ++ [rpElem C (id.getD 999) attrs ret units], names := b.names ++ [n] }

/-- plaschem/xml_inputs.py:157-162: the attributes of an instance -/
def Rp.attrs (rp : Rp F) : Dict Str (Val F) := rpKinds.map fun p => (p.1, rp.attr p.1)

/-- plaschem/xml_inputs.py:163-168: the units of an instance -/
def Rp.units (rp : Rp F) : Dict Str Str := rpUnits.map fun p => (p.1, (rp.unit p.1).getD p.2)

/-- plaschem/xml_inputs.py:150-168 `add_rp_from_instance` -/
def Builder.addRpInstance (C : Codec F) [DecidableEq F] (b : Builder F) (rp : Rp F) : Except Err (Builder F) :=
  b.addRp C (some rp.id) rp.attrs rp.ret rp.units

/-- plaschem/xml_inputs.py:215-261 `add_reaction_from_attributes`. Names are strings. -/
def Builder.addRx (C : Codec F) [DecidableEq F] (b : Builder F) (reactants products : List Str) (id : Option Int)
    (attrs : Dict Str (Val F)) (units : Dict Str Str) : Except Err (Builder F) :=
  if ∃ n ∈ reactants ++ products, Val.str n ∉ b.names then .error .xml
  else .ok { b with reactions := b.reactions ++ [rxElem C reactants products (id.getD 999) attrs units] }

/-- the attributes of a reaction -/
def Rx.attrs (x : Rx F) : Dict Str (Val F) := rxKinds.map fun p => (p.1, x.attr p.1)

/-- The units of a reaction. A unit that is `None` is written only for a value that is not `None`, which has one. -/
def Rx.units (x : Rx F) : Dict Str Str := rxUnits.filterMap fun p => ((x.unit p.1).or p.2).map fun u => (p.1, u)

/-- plaschem/xml_inputs.py:271-275: species that are not there yet are added. -/
def Builder.addMissing (C : Codec F) [DecidableEq F] (b : Builder F) : List (Rp F) → Except Err Unit × Builder F
  | [] => (.ok (), b)
  | rp :: l =>
    match rp.getName C with
    | .error e => (.error e, b)
    | .ok n =>
      if .str n ∈ b.names then b.addMissing C l
      else match b.addRpInstance C rp with
        | .error e => (.error e, b)
        | .ok b => b.addMissing C l

/-- plaschem/xml_inputs.py:263-293 `add_reaction_from_instance`. Species stay added if an exception follows. -/
def Builder.addRxInstance (C : Codec F) [DecidableEq F] (b : Builder F) (x : Rx F) : Except Err Unit × Builder F :=
  match b.addMissing C (x.reactants ++ x.products) with
  | (.error e, b) => (.error e, b)
  | (.ok (), b) =>
    match Rx.names C x.reactants, Rx.names C x.products with
    | .ok rs, .ok ps =>
      match b.addRx C rs ps (some x.id) x.attrs x.units with
      | .error e => (.error e, b)
      | .ok b => (.ok (), b)
    | .error e, _ => (.error e, b)
    | _, .error e => (.error e, b)

/-- all reactions in turn -/
def Builder.addRxs (C : Codec F) [DecidableEq F] (b : Builder F) : List (Rx F) → Except Err Unit × Builder F
  | [] => (.ok (), b)
  | x :: l =>
    match b.addRxInstance C x with
    | (.error e, b) => (.error e, b)
    | (.ok (), b) => b.addRxs C l

/-- the sort key `ids.index(int(x.attrib['id']))` -/
def idKey (C : Codec F) (ids : List Nat) (e : Elem) : Except Err Nat :=
  match C.readI e.id with
  | none => .error .valueError
  | some i => if 0 ≤ i ∧ i.toNat ∈ ids then .ok (ids.idxOf i.toNat) else .error .valueError

/-- plaschem/xml_inputs.py:434-446 `add_chemistry_from_instance`: `ids` are the ids of the enabled species of the
chemistry, special ones included, in its order, and `rxs` its enabled reactions. -/
def Builder.addChemistry (C : Codec F) [DecidableEq F] (b : Builder F) (ids : List Nat) (rxs : List (Rx F)) :
    Except Err Unit × Builder F :=
  match b.addRxs C rxs with
  | (.error e, b) => (.error e, b)
  | (.ok (), b) =>
    match Classify.collect (idKey C ids) b.species with
    | .error e => (.error e, b)
    | .ok ks =>
      (.ok (), { b with species := Classify.sortPairs (fun i j => decide (i ≤ j)) (ks.zip b.species) })

/-- plaschem/xml_inputs.py:458-462: the species of a file -/
def Builder.addSpeciesXml [DecidableEq F] (b : Builder F) : List Elem → Except Err Unit × Builder F
  | [] => (.ok (), b)
  | e :: l =>
    match e.find str!"name" with
    | none => (.error .attributeError, b)
    | some s =>
      if textVal s.text ∈ b.names then b.addSpeciesXml l
      else ({ b with species := b.species ++ [e], names := b.names ++ [textVal s.text] } : Builder F).addSpeciesXml l

/-- plaschem/xml_inputs.py:448-465 `add_chemistry_from_xml` on the elements of a file. -/
def Builder.addXml [DecidableEq F] (b : Builder F) (species reactions : List Elem) : Except Err Unit × Builder F :=
  match b.addSpeciesXml species with
  | (.error e, b) => (.error e, b)
  | (.ok (), b) => (.ok (), { b with reactions := b.reactions ++ reactions })

/-- plaschem/xml_inputs.py:613-628: new ids from `next` on -/
def assignFrom (C : Codec F) : Nat → List Elem → Except Err Unit × List Elem
  | _, [] => (.ok (), [])
  | next, e :: l =>
    match e.find str!"name" with
    | none => (.error .attributeError, e :: l)
    | some s =>
      if s.text = some str!"e" then
        let q := assignFrom C next l
        (q.1, { e with id := C.showI 0 } :: q.2)
      else if s.text = some str!"M" then
        let q := assignFrom C next l
        (q.1, { e with id := C.showI 999 } :: q.2)
      else
        let q := assignFrom C (next + 1) l
        (q.1, { e with id := C.showI next } :: q.2)

/-- plaschem/xml_inputs.py:613-628 `assign_species_ids` -/
def Builder.assignSpecies (C : Codec F) (b : Builder F) : Except Err Unit × Builder F :=
  let q := assignFrom C 1 b.species
  (q.1, { b with species := q.2 })

/-- plaschem/xml_inputs.py:630-637: new ids from `next` on -/
def assignRxFrom (C : Codec F) : Nat → List Elem → List Elem
  | _, [] => []
  | next, e :: l => { e with id := C.showI next } :: assignRxFrom C (next + 1) l

/-- plaschem/xml_inputs.py:630-637 `assign_reactions_ids` -/
def Builder.assignReactions (C : Codec F) (b : Builder F) : Builder F :=
  { b with reactions := assignRxFrom C 1 b.reactions }

/-- plaschem/xml_inputs.py:639-646 `assign_ids` -/
def Builder.assign (C : Codec F) (b : Builder F) : Except Err Unit × Builder F :=
  match b.assignSpecies C with
  | (.error e, b) => (.error e, b)
  | (.ok (), b) => (.ok (), b.assignReactions C)

/-- the species and reactions of a file as the classifier sees them: species are distinct objects, and a reaction
refers to the last species of a name -/
def cores (C : Codec F) (rps : List (Rp F)) (rxs : List (Rx F)) : Except Err (List RP × List Reaction) := do
  let sps ← Classify.collect (fun p : Rp F × Nat => p.1.core C p.2) rps.zipIdx
  let find (rp : Rp F) : Except Err RP := do
    let n ← rp.getName C
    match sps.reverse.find? (fun s => s.name = n) with
    | some s => return s
    | none => throw .keyError
  let rs ← Classify.collect (fun x : Rx F => do
    x.core C (← Classify.collect find x.reactants) (← Classify.collect find x.products)) rxs
  return (sps, rs)

/-- the sort key `ids.index(x.attrib['id'])` with ids as strings -/
def strKey (ids : List Str) (e : Elem) : Except Err Nat :=
  if e.id ∈ ids then .ok (ids.idxOf e.id) else .error .valueError

/-- `l.sort(key=...)` with `strKey`; a key that raises leaves the list as it is -/
def sortByIds (ids : List Str) (l : List Elem) : Except Err (List Elem) :=
  match Classify.collect (strKey ids) l with
  | .error e => .error e
  | .ok ks => .ok (Classify.sortPairs (fun i j => decide (i ≤ j)) (ks.zip l))

/-- plaschem/xml_inputs.py:588-602: the ids of species and reactions in the order of the classifier. -/
def sortedIds (C : Codec F) (A : Str → Option (Dict Str Nat)) (species reactions : List Elem) :
    Except Err (List Str × List Str) := do
  let (rps, rxs) ← parse C A species reactions
  let (sps, rs) ← cores C rps rxs
  let c := Classify.Clf.new sps rs
  match c.sortSpecies A with
  | (.error e, _) => throw e
  | (.ok (), c) =>
    match c.sortReactions with
    | (.error e, _) => throw e
    | (.ok (), c1) =>
      match c1.getClassified with
      | (.error e, _) => throw e
      | (.ok L, _) =>
        return (c.species.map (fun s => C.showI s.id),
          (L.flatMap fun p => p.2.flatMap Prod.snd).map (fun r => C.showI r.id))

/-- plaschem/xml_inputs.py:567-611 `sort_elements` -/
def Builder.sort (C : Codec F) (A : Str → Option (Dict Str Nat)) (b : Builder F) : Except Err Unit × Builder F :=
  let ds := !(b.species.map Elem.id).Nodup
  let dr := !(b.reactions.map Elem.id).Nodup
  match (if ds then b.assignSpecies C else (.ok (), b) : Except Err Unit × Builder F) with
  | (.error e, b) => (.error e, b)
  | (.ok (), b) =>
    let b := if dr then b.assignReactions C else b
    match sortedIds C A b.species b.reactions with
    | .error e => (.error e, b)
    | .ok (is, js) =>
      match sortByIds is b.species with
      | .error e => (.error e, b)
      | .ok sp =>
        let b := { b with species := sp }
        match sortByIds js b.reactions with
        | .error e => (.error e, b)
        | .ok rx =>
          let b := { b with reactions := rx }
          match (if ds then b.assignSpecies C else (.ok (), b) : Except Err Unit × Builder F) with
          | (.error e, b) => (.error e, b)
          | (.ok (), b) => (.ok (), if dr then b.assignReactions C else b)

end Verif.Plaschem.Xml
