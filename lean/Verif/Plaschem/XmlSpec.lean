/-
What it means that a species or a reaction comes back from an XML file: the questions a user can ask an instance, and
the instances that can be written.
-/
import Verif.Plaschem.Xml

namespace Verif.Plaschem.Xml
open Verif.Plaschem

variable {F : Type}

/-! ### what can be asked -/

/-- the getters of a species -/
inductive RpGet
  | name | stateless | state | mass | charge | hForm | ljEpsilon | ljSigma | hpemName | qdbId | stickCoef | retCoefs
  | comments | latex | atoms | special

/-- their answers -/
inductive Ans (F : Type)
  | text (t : Option Str) | int (n : Option Int) | float (x : Option F) | coefs (d : Option (Dict Str F))
  | atoms (d : Dict Str Nat) | flag (b : Bool) | names (l : List Str)

/-- `A` is the formula parser, `T` the default LaTeX representation of a name. -/
def Rp.ask (C : Codec F) (A : Str → Option (Dict Str Nat)) (T : Str → Except Err Str) (rp : Rp F) :
    RpGet → Except Err (Ans F)
  | .name => (rp.getName C).map fun s => .text (some s)
  | .stateless => (rp.getStateless C).map fun s => .text (some s)
  | .state => (rp.getState C).map .text
  | .mass => (rp.getMass C).map .float
  | .charge => (rp.getCharge C).map .int
  | .hForm => (rp.getFloat C str!"h_form" 0).map .float
  | .ljEpsilon => (rp.getFloat C str!"lj_epsilon" 0).map .float
  | .ljSigma => (rp.getFloat C str!"lj_sigma" 3).map .float
  | .hpemName => (rp.getText C str!"hpem_name").map .text
  | .qdbId => (rp.getQdbId C).map .int
  | .stickCoef => (rp.getStick C).map .float
  | .retCoefs => (rp.getRet C).map .coefs
  | .comments => (rp.getText C str!"comments").map .text
  | .latex => (rp.getLatex C T).map fun s => .text (some s)
  | .atoms => (rp.getAtoms C A).map .atoms
  | .special => (rp.isSpecial C).map .flag

/-- Two instances represent the same species: same id, every question that has an answer for the first has the same
answer for the second, and so has the unit of every attribute that has a value. -/
structure SameRp (C : Codec F) (A : Str → Option (Dict Str Nat)) (T : Str → Except Err Str) (rp rp' : Rp F) :
    Prop where
  id : rp'.id = rp.id
  get : ∀ q v, rp.ask C A T q = .ok v → rp'.ask C A T q = .ok v
  unit : ∀ a, (rp.attr a).isSome = true → rp'.getUnit a = rp.getUnit a

/-- plaschem/reactions.py:622-634: the LaTeX form of one side; `all` are all species of the reaction. -/
def latexSide (C : Codec F) (T : Str → Except Err Str) (all side : List (Rp F)) :
    List Nat → Dict Str Str → Except Err Str
  | [], d => .ok (joinStr str!" + " (d.map fun p => p.2 ++ p.1))
  | i :: l, d =>
    match all.find? (fun rp => rp.id = i) with
    | none => .error .reactionValue
    | some rp => do
      let s ← rp.getLatex C T
      let n := (side.map Rp.id).count i
      latexSide C T all side l (d.set s (if n = 1 then [] else C.showI n ++ str!" "))

/-- plaschem/reactions.py:615-637 `get_latex` of a reaction. -/
def Rx.getLatex (C : Codec F) (T : Str → Except Err Str) (x : Rx F) : Except Err Str :=
  match (x.attr str!"latex").optText C with
  | some s => .ok s
  | none => do
    let l ← latexSide C T (x.reactants ++ x.products) x.reactants (orderedSet (x.reactants.map Rp.id)) []
    let r ← latexSide C T (x.reactants ++ x.products) x.products (orderedSet (x.products.map Rp.id)) []
    return l ++ str!" \\rightarrow " ++ r

/-- the getters of a reaction -/
inductive RxGet
  | reactants | products | arrhA (si : Bool) | arrhB | arrhC | elastic | elEnLoss | gasHeat | specialNumber | qdbRId
  | qdbDsId | doi | comments | latex | electronProcess

def Rx.ask (C : Codec F) (T : Str → Except Err Str) (x : Rx F) : RxGet → Except Err (Ans F)
  | .reactants => (Rx.names C x.reactants).map .names
  | .products => (Rx.names C x.products).map .names
  | .arrhA si => (x.getArrhA C si).map .float
  | .arrhB => (x.getArrh C str!"arrh_b").map .float
  | .arrhC => (x.getArrh C str!"arrh_c").map .float
  | .elastic => (x.getElastic C).map .flag
  | .elEnLoss => (x.getFloat C str!"el_en_loss").map .float
  | .gasHeat => (x.getFloat C str!"gas_heat_contrib").map .float
  | .specialNumber => (x.getSpecial C).map .int
  | .qdbRId => (x.getInt C str!"qdb_r_id").map .int
  | .qdbDsId => (x.getInt C str!"qdb_ds_id").map .int
  | .doi => (x.getText C str!"doi").map .text
  | .comments => (x.getText C str!"comments").map .text
  | .latex => (x.getLatex C T).map fun s => .text (some s)
  | .electronProcess => (x.isElectron C).map .flag

/-- Two instances represent the same reaction. -/
structure SameRx (C : Codec F) (A : Str → Option (Dict Str Nat)) (T : Str → Except Err Str) (x x' : Rx F) : Prop where
  id : x'.id = x.id
  reactants : List.Forall₂ (SameRp C A T) x.reactants x'.reactants
  products : List.Forall₂ (SameRp C A T) x.products x'.products
  get : ∀ q v, x.ask C T q = .ok v → x'.ask C T q = .ok v
  unit : ∀ a, (x.attr a).isSome = true → x'.getUnit a = x.getUnit a

/-! ### instances -/

/-- the keys of a dictionary are distinct -/
def IsDict {κ α : Type} [DecidableEq κ] (d : Dict κ α) : Prop := (Dict.keys d).Nodup

/-- Species instances as a program can obtain them: constructed, then changed with `set_species_attribute`. -/
inductive RpReach (C : Codec F) : Rp F → Prop
  | new {id attrs ret units rp} : (∀ d, ret = some (some d) → IsDict d) → Rp.init C id attrs ret units = .ok rp →
      RpReach C rp
  | set {rp rp' a v u} : RpReach C rp → rp.set a v u = .ok rp' → RpReach C rp'
  | setRet {rp rp' d u} : RpReach C rp → (∀ e, d = some e → IsDict e) → rp.setRet d u = .ok rp' → RpReach C rp'

/-- Species that can be written without loss: a name without angle brackets, a mass unless it is M, a stateless name
if it has a state, no attribute that is an empty string, and no `bool` among the return coefficients. -/
structure Writable (C : Codec F) (rp : Rp F) : Prop where
  name : ∃ n, rp.attr str!"name" = .str n ∧ '<' ∉ n ∧ '>' ∉ n
  filled : ∀ a, rp.attr a ≠ .str []
  mass : rp.attr str!"name" = .str str!"M" ∨ rp.attr str!"mass" ≠ .null
  stateless : rp.attr str!"state" = .null ∨ rp.attr str!"stateless" ≠ .null
  coefs : ∀ d, rp.ret = some d → ∀ p ∈ d, ∀ b, p.2 ≠ .bool b

/-- Reaction instances: constructed, then changed with `set_reaction_attribute` (while their species stay as they
are). -/
inductive RxReach (C : Codec F) (A : Str → Option (Dict Str Nat)) : Rx F → Prop
  | new {id rs ps attrs units x} : Rx.init C A id rs ps attrs units = .ok x → RxReach C A x
  | set {x x' a v u} : RxReach C A x → x.set C a v u = .ok x' → RxReach C A x'

/-- Reactions that can be written without loss: no attribute that is an empty string, and a rate or a special
number. -/
structure WritableRx (x : Rx F) : Prop where
  filled : ∀ a, x.attr a ≠ .str []
  rate : x.attr str!"special_number" ≠ .null ∨ x.attr str!"arrh_a" ≠ .null

/-- names that survive being joined with commas -/
def Plain (C : Codec F) (rp : Rp F) : Prop := ∃ n, rp.getName C = .ok n ∧ ',' ∉ n ∧ strip n = n

end Verif.Plaschem.Xml
