/-
Model of `Chemistry.species_attributes` of plaschem/chemistry.py: the table of all attributes of the species, with
values that differ from what was passed in blue and disabled species in red.
-/
import Verif.Plaschem.Pretty
import Verif.Plaschem.Xml

namespace Verif.Plaschem.Table
open Verif.Plaschem Pretty Xml

variable {F : Type}

/-! ### values -/

/-- A value in a table: what a getter returned, possibly converted by pandas. The floats of `F` are finite; `nan` is
apart from them. -/
inductive Shown (F : Type)
  | null
  | nan
  | str (s : Str)
  | int (n : Int)
  | float (x : F)
  | bool (b : Bool)
  | dict (d : Dict Str F)

/-- a value passed for an attribute: a dictionary for `ret_coefs` -/
inductive Stored (F : Type)
  | val (v : Val F)
  | ret (d : Option (Dict Str (Val F)))

/-- `a == b` for two numbers or strings as they can occur in one column -/
def valEq (C : Codec F) : Val F → Shown F → Bool
  | .null, .null => true
  | .str s, .str t => s = t
  | .int n, .int m => n = m
  | .int n, .float y => C.val y = n
  | .float x, .int m => C.val x = m
  | .float x, .float y => C.val x = C.val y
  | .bool b, .bool c => b = c
  | _, _ => false

/-- `d == e` for two dictionaries, whatever the order of their keys -/
def dictEq {α β : Type} (eq : α → β → Bool) (d : Dict Str α) (e : Dict Str β) : Bool :=
  d.keys.all (fun k => match d.get? k, e.get? k with
    | some a, some b => eq a b
    | _, _ => false) && e.keys.all (· ∈ d.keys)

/-- `saved_attrib == returned_attrib` -/
def storedEq (C : Codec F) : Stored F → Shown F → Bool
  | .val v, w => valEq C v w
  | .ret none, .null => true
  | .ret (some d), .dict e => dictEq (fun a x => valEq C a (.float x)) d e
  | _, _ => false

/-- `saved_attrib is None` -/
def Stored.isNone : Stored F → Bool
  | .val .null | .ret none => true
  | _ => false

/-- `np.isnan(v)`, which raises a `TypeError` for anything but numbers -/
def Shown.isnan : Shown F → Except Err Bool
  | .nan => .ok true
  | .int _ | .float _ | .bool _ => .ok false
  | .null | .str _ | .dict _ => .error .typeError

/-- `float(saved_attrib)` -/
def Stored.toFloat (C : Codec F) : Stored F → Except Err F
  | .val v => v.toFloat C
  | .ret _ => .error .typeError

/-- `float(returned_attrib)`; `none` is `nan` -/
def Shown.toFloat (C : Codec F) : Shown F → Except Err (Option F)
  | .null | .dict _ => .error .typeError
  | .nan => .ok none
  | .str s => match C.readF s with
    | some x => .ok (some x)
    | none => .error .valueError
  | .int n => match C.ofInt n with
    | some x => .ok (some x)
    | none => .error .valueError
  | .float x => .ok (some x)
  | .bool b => .ok (some (C.lit (if b then 1 else 0)))

/-- `try: equal = … except TypeError: pass`, where `equal` was false before -/
def catchType (e : Except Err Bool) : Except Err Bool :=
  match e with
  | .error .typeError => .ok false
  | e => e

/-- `float(saved_attrib) == float(returned_attrib)` -/
def floatsEqual (C : Codec F) (saved : Stored F) (w : Shown F) : Except Err Bool := do
  let x ← saved.toFloat C
  match ← w.toFloat C with
  | some y => return C.val x = C.val y
  | none => return false

/-- `{key: float(saved_attrib[key]) for key in saved_attrib}` -/
def floats (C : Codec F) (d : Dict Str (Val F)) : Except Err (Dict Str F) :=
  Classify.collect (fun p : Str × Val F => do return (p.1, ← p.2.toFloat C)) d

/-- `d == returned_attrib` for a dictionary of floats -/
def dictIs (C : Codec F) (d : Dict Str F) : Shown F → Bool
  | .dict e => dictEq (fun x y => decide (C.val x = C.val y)) d e
  | _ => false

/-- `{key: float(saved_attrib[key]) for key in saved_attrib} == returned_attrib` -/
def dictsEqual (C : Codec F) (saved : Stored F) (w : Shown F) : Except Err Bool :=
  match saved with
  | .ret (some d) => match floats C d with
    | .error e => .error e
    | .ok d' => .ok (dictIs C d' w)
  | _ => .error .typeError

/-- plaschem/chemistry.py:1003-1022: does the value returned equal the one passed; `ret` tells the column
`ret_coefs`. -/
def same (C : Codec F) (ret : Bool) (saved : Stored F) (w : Shown F) : Except Err Bool := do
  let equal := storedEq C saved w
  let equal ← if !equal then catchType (if saved.isNone then w.isnan else .ok false) else .ok equal
  let equal ← if !equal then catchType (floatsEqual C saved w) else .ok equal
  if !equal && ret then catchType (dictsEqual C saved w) else .ok equal

/-- plaschem/chemistry.py:1035-1046: `None` and `nan` are replaced by three dots. -/
def dots : Shown F → Shown F
  | .null => .str str!"..."
  | w => match w.isnan with
    | .ok true => .str str!"..."
    | _ => w

/-- plaschem/chemistry.py:997-1046: one cell with an attribute. -/
def paint (C : Codec F) (enabled ret : Bool) (saved : Stored F) (w : Shown F) : Except Err (CV (Shown F)) :=
  if !enabled then .ok ⟨dots w, .red⟩
  else match same C ret saved w with
    | .error e => .error e
    | .ok b => .ok ⟨dots w, if b then .reset else .blue⟩

/-- plaschem/chemistry.py:997-1046: one cell with a unit; `none` is `None`. -/
def paintUnit (enabled : Bool) (saved returned : Option Str) : CV (Shown F) :=
  let w : Shown F := match returned with
    | some u => .str u
    | none => .null
  if !enabled then ⟨dots w, .red⟩
  else ⟨dots w, if saved = returned then .reset else .blue⟩

/-! ### columns -/

/-- What the getters of the chemistry return for the sticking and return coefficients, by id (modelled in
Chemistry.lean: ad-hoc values, collapse with a vanishing sticking coefficient, removal of disabled species). -/
structure Surface (F : Type) where
  stick : Nat → Option F
  ret : Nat → Option (Dict Str F)

def ofText : Option Str → Shown F
  | some s => .str s
  | none => .null

def ofInt : Option Int → Shown F
  | some s => .int s
  | none => .null

def ofFloat : Option F → Shown F
  | some s => .float s
  | none => .null

def ofDict : Option (Dict Str F) → Shown F
  | some d => .dict d
  | none => .null

/-- plaschem/chemistry.py:970-980: the value of an attribute of a species. There are getters of the chemistry for
`name`, `charge`, `mass`, `h_form`, `lj_epsilon`, `lj_sigma`, `stick_coef` and `ret_coefs`; the others are taken from
the species. All but the two of `Surface` agree with the getters of the species, and these two call them. -/
def returned (C : Codec F) (texify : Str → Except Err Str) (S : Surface F) (a : Str) (rp : Rp F) :
    Except Err (Shown F) :=
  if a = str!"name" then do return .str (← rp.getName C)
  else if a = str!"stateless" then do return .str (← rp.getStateless C)
  else if a = str!"state" then do return ofText (← rp.getState C)
  else if a = str!"mass" then do return ofFloat (← rp.getMass C)
  else if a = str!"charge" then do return ofInt (← rp.getCharge C)
  else if a = str!"h_form" ∨ a = str!"lj_epsilon" then do return ofFloat (← rp.getFloat C a 0)
  else if a = str!"lj_sigma" then do return ofFloat (← rp.getFloat C a 3)
  else if a = str!"qdb_id" then do return ofInt (← rp.getQdbId C)
  else if a = str!"stick_coef" then do
    let _ ← rp.getStick C
    return ofFloat (S.stick rp.id)
  else if a = str!"ret_coefs" then do
    let _ ← rp.getRet C
    return ofDict (S.ret rp.id)
  else if a = str!"latex" then do return .str (← rp.getLatex C texify)
  else do return ofText (← rp.getText C a)

def Shown.isNull : Shown F → Bool
  | .null => true
  | _ => false

def Shown.isNumber : Shown F → Bool
  | .int _ | .float _ => true
  | _ => false

/-- `pd.Series(l)`: a list of numbers with some `None` among them becomes a series of floats with `nan`. -/
def floaty (l : List (Shown F)) : Bool :=
  l.all (fun w => w.isNull || w.isNumber) && l.any Shown.isNull && l.any Shown.isNumber

/-- one value of a series of floats -/
def toSeries (C : Codec F) : Shown F → Shown F
  | .null => .nan
  | .int n => match C.ofInt n with
    | some x => .float x
    | none => .int n
  | w => w

/-- `pd.Series(l)` -/
def series (C : Codec F) (l : List (Shown F)) : List (Shown F) := if floaty l then l.map (toSeries C) else l

/-- the column of the table: an attribute or the units of one -/
inductive Col
  | attr (a : Str)
  | unit (a : Str)
  deriving DecidableEq, Repr

/-- the attribute passed -/
def savedOf (rp : Rp F) (a : Str) : Stored F := if a = str!"ret_coefs" then .ret rp.ret else .val (rp.attr a)

/-- a column with its values, in the order of the species -/
abbrev Column (F : Type) := Col × List (Shown F)

/-- plaschem/chemistry.py:970-987: the columns of the table in order. Units are left out if the attribute has none. -/
def columns (C : Codec F) (texify : Str → Except Err Str) (S : Surface F) (units : Bool) (sel : List (Rp F)) :
    List Str → Except Err (List (Column F))
  | [] => .ok []
  | a :: l => do
    let vs ← Classify.collect (returned C texify S a) sel
    let us := match (if units then Classify.collect (fun rp : Rp F => rp.getUnit a) sel else .error .rpAttribute) with
      | .ok us => [(Col.unit a, us.map Shown.str)]
      | .error _ => []
    let rest ← columns C texify S units sel l
    return (Col.attr a, series C vs) :: us ++ rest

/-- the arguments of `species_attributes` -/
structure Opts where
  disabled : Bool := true
  special : Bool := true
  pretty : Bool := true
  sort : Bool := false
  units : Bool := false
  ignored : List Str := [str!"latex"]

/-- a finished table; without colours all cells have the colour `reset` -/
structure Out (F : Type) where
  rows : List Nat
  cols : List Col
  cells : List (List (CV (Shown F)))

/-- plaschem/chemistry.py:631-639 `get_species(protected=True)` -/
def select (C : Codec F) (en : Nat → Bool) (o : Opts) (species : List (Rp F)) : List (Rp F) :=
  species.filter fun rp => (o.disabled || en rp.id) && (o.special || (rp.isSpecial C).toOption ≠ some true)

/-- plaschem/chemistry.py:989-993: the order of the rows. -/
def ordered {α : Type} (key : α → Except Err ℚ) (sort : Bool) (rows : List α) : Except Err (List α) :=
  if sort then do
    let ks ← Classify.collect key rows
    return Classify.sortPairs (fun a b => decide (a ≤ b)) (ks.zip rows)
  else .ok rows

/-- plaschem/classification.py:121-209: the key by which species are sorted -/
def key (C : Codec F) (A : Str → Option (Dict Str Nat)) (rp : Rp F) : Except Err ℚ := do
  Classify.speciesKey A (← rp.core C 0)

/-- a row of the table: the species and its value in each column -/
abbrev Row (F : Type) := Rp F × List (Col × Shown F)

/-- the rows of a frame given by its columns -/
def rowsOf (sel : List (Rp F)) (cols : List (Column F)) : List (Row F) :=
  sel.zipIdx.map fun p => (p.1, cols.map fun c => (c.1, (c.2[p.2]?).getD .null))

/-- plaschem/chemistry.py:995-1046: a cell. -/
def cell (C : Codec F) (en : Nat → Bool) (pretty : Bool) (rp : Rp F) (c : Col × Shown F) : Except Err (CV (Shown F)) :=
  if !pretty then .ok ⟨c.2, .reset⟩
  else match c.1 with
    | .attr a => paint C (en rp.id) (a = str!"ret_coefs") (savedOf rp a) c.2
    | .unit a => .ok (paintUnit (en rp.id) (rp.unit a) (match c.2 with
      | .str u => some u
      | _ => none))

/-- plaschem/chemistry.py:947-1058 `species_attributes`, without the printing itself. -/
def speciesAttributes (C : Codec F) (A : Str → Option (Dict Str Nat)) (texify : Str → Except Err Str)
    (S : Surface F) (en : Nat → Bool) (o : Opts) (species : List (Rp F)) : Except Err (Out F) := do
  let sel := select C en o species
  let cols ← columns C texify S o.units sel (rpAttributes.filter (· ∉ o.ignored))
  let rows ← ordered (fun r : Row F => key C A r.1) o.sort (rowsOf sel cols)
  let cells ← Classify.collect (fun r : Row F => Classify.collect (cell C en o.pretty r.1) r.2) rows
  return { rows := rows.map (·.1.id), cols := cols.map Prod.fst, cells }

end Verif.Plaschem.Table
