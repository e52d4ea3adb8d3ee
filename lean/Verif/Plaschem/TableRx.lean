/-
Model of `Chemistry.reactions_attributes` of plaschem/chemistry.py: the table of all attributes of the reactions,
optionally sorted and with headings for the types and categories of the classifier.
-/
import Verif.Plaschem.Table
import Verif.Plaschem.XmlSpec
import Verif.Plaschem.Classifier
import Verif.Plaschem.ReactStr

namespace Verif.Plaschem.TableRx
open Verif.Plaschem Pretty Xml Classify Table

variable {F : Type}

/-! ### the first column and the order of the rows -/

/-- The label of a row: `(Ci)` of a type, `(Ci.j)` of a category, or the id of a reaction. -/
inductive Label
  | typ (i : Nat)
  | cat (i j : Nat)
  | rx (id : Nat)
  deriving DecidableEq, Repr

/-- plaschem/chemistry.py:1116-1127: the rows of a type in the order of `sorted_index`; the rows of categories and
reactions from category `j` on. The category `'None'` has a number but no heading. -/
def catRows (i : Nat) : Nat → List (Cat × List Reaction) → List (Label × Option (Cat ⊕ Typ))
  | _, [] => []
  | j, (k, rs) :: d =>
    (if k = .noCat then [] else [(.cat i j, some (.inl k))]) ++ rs.map (fun r => (.rx r.id, none)) ++ catRows i (j + 1) d

/-- plaschem/chemistry.py:1116-1127: `sorted_index`, with what each heading is the heading of. -/
def layout : Nat → Listing → List (Label × Option (Cat ⊕ Typ))
  | _, [] => []
  | i, (t, d) :: L => (.typ i, some (.inr t)) :: catRows i 1 d ++ layout (i + 1) L

/-- plaschem/chemistry.py:1115-1126: the width of the headings -/
def headWidth (L : Listing) : Nat :=
  L.foldl (fun w p => p.2.foldl (fun w q =>
    if q.1 ≠ .noCat ∧ w < q.1.label.length then q.1.label.length else w)
    (if w < p.1.label.length then p.1.label.length else w)) 0

/-- plaschem/chemistry.py:1129-1133: the strings of the reactions, each padded to the width of what came before. -/
def alignAll (c : Clf) (w : Nat) : List Reaction → Except Err (Dict Nat Str × Nat) × Clf
  | [] => (.ok ([], w), c)
  | r :: l =>
    match c.aligned r with
    | (.error e, c) => (.error e, c)
    | (.ok s, c) =>
      match alignAll c (if w < s.length then s.length else w) l with
      | (.error e, c) => (.error e, c)
      | (.ok (d, w'), c) => (.ok ((r.id, Clf.pad s w) :: d, w'), c)

/-- one row: its label and its first column -/
abbrev Lined := Label × Str

/-- plaschem/chemistry.py:1121-1138: the first column. -/
def firstColumn (strs : Dict Nat Str) (w : Nat) : Label × Option (Cat ⊕ Typ) → Lined
  | (l, some (.inr t)) => (l, t.label)
  | (l, some (.inl k)) => (l, Clf.pad k.label w)
  | (.rx i, none) => (.rx i, (strs.get? i).getD [])
  | (l, none) => (l, [])

/-- plaschem/chemistry.py:1106-1112: the classifier, with everything sorted if asked for. -/
def prepare (A : Str → Option (Dict Str Nat)) (sort : Bool) (S : List RP) (R : List Reaction) :
    Except Err Unit × Clf :=
  let c := Clf.new S R
  if sort then
    match c.sortSpecies A with
    | (.error e, c) => (.error e, c)
    | (.ok (), c) => c.sortReactions
  else (.ok (), c)

/-- plaschem/chemistry.py:1106-1142: the labels of the rows in order, with the first column. `S` and `R` are the
species and reactions selected, as the classifier sees them; `shown` are their strings. -/
def sheet (A : Str → Option (Dict Str Nat)) (sort classify : Bool) (S : List RP) (R : List Reaction) :
    Except Err (List Lined) :=
  if sort || classify then
    match prepare A sort S R with
    | (.error e, _) => .error e
    | (.ok (), c) =>
      if classify then
        match c.getClassified with
        | (.error e, _) => .error e
        | (.ok L, c) =>
          match alignAll c (headWidth L) R with
          | (.error e, _) => .error e
          | (.ok (strs, w), _) => .ok ((layout 1 L).map (firstColumn strs w))
      else .ok (c.reactions.map fun r => (.rx r.id, r.toStr))
  else .ok (R.map fun r => (.rx r.id, r.toStr))

/-! ### attributes -/

/-- plaschem/chemistry.py:1087-1097: the value of an attribute of a reaction; `adA` are the ad-hoc values of `arrh_a`
(chemistry.py:777-793). The other getters of the chemistry, where there are any, return what those of the reaction do. -/
def returned (C : Codec F) (T : Str → Except Err Str) (adA : Nat → Option F) (a : Str) (x : Rx F) :
    Except Err (Shown F) :=
  if a = str!"arrh_a" then do
    let v ← x.getArrhA C false
    return ofFloat ((adA x.id).or v)
  else if a = str!"arrh_b" ∨ a = str!"arrh_c" then do return ofFloat (← x.getArrh C a)
  else if a = str!"elastic" then do return .bool (← x.getElastic C)
  else if a = str!"el_en_loss" ∨ a = str!"gas_heat_contrib" then do return ofFloat (← x.getFloat C a)
  else if a = str!"special_number" then do return Table.ofInt (← x.getSpecial C)
  else if a = str!"qdb_r_id" ∨ a = str!"qdb_ds_id" then do return Table.ofInt (← x.getInt C a)
  else if a = str!"latex" then do return .str (← x.getLatex C T)
  else do return ofText (← x.getText C a)

/-- the texts for the truth values -/
def flagText : Val F → Option Bool
  | .str s =>
    if s ∈ [str!"True", str!"true", str!"TRUE"] then some true
    else if s ∈ [str!"False", str!"false", str!"FALSE"] then some false
    else none
  | _ => none

/-- plaschem/chemistry.py:1158-1178: does the value returned equal the one passed? `boxed` tells if the truth values
in the table are those of Python: the rows with headings turn the columns into columns of objects, while without them
a column of truth values has the type of numpy, whose values are not the objects `True` and `False`. -/
def same (C : Codec F) (boxed : Bool) (saved : Val F) (w : Shown F) : Except Err Bool := do
  let equal := valEq C saved w
  let equal ← if !equal then catchType (if (Stored.val saved).isNone then w.isnan else .ok false) else .ok equal
  if !equal then
    match flagText saved with
    | some b => .ok (match w with
      | .bool b' => boxed && (b == b')
      | _ => false)
    | none => catchType (floatsEqual C (.val saved) w)
  else .ok equal

/-- plaschem/chemistry.py:1153-1199: one cell with an attribute. -/
def paint (C : Codec F) (enabled boxed : Bool) (saved : Val F) (w : Shown F) : Except Err (CV (Shown F)) :=
  if !enabled then .ok ⟨dots w, .red⟩
  else match same C boxed saved w with
    | .error e => .error e
    | .ok b => .ok ⟨dots w, if b then .reset else .blue⟩

/-- plaschem/chemistry.py:1085-1104: the columns of attributes, with those of the units. -/
def columns (C : Codec F) (T : Str → Except Err Str) (adA : Nat → Option F) (units : Bool) (sel : List (Rx F)) :
    List Str → Except Err (List (Column F))
  | [] => .ok []
  | a :: l => do
    let vs ← Classify.collect (returned C T adA a) sel
    let us := match (if units then Classify.collect (fun x : Rx F => x.getUnit a) sel
        else .error .reactionAttribute : Except Err (List (Option Str))) with
      | .ok us => [(Col.unit a, us.map ofText)]
      | .error _ => []
    let rest ← columns C T adA units sel l
    return (Col.attr a, series C vs) :: us ++ rest

/-- the arguments of `reactions_attributes` -/
structure Opts where
  disabled : Bool := true
  pretty : Bool := true
  sort : Bool := false
  classify : Bool := false
  units : Bool := false
  ignored : List Str := [str!"latex"]

/-- a finished table: the columns after the first, and for every row the label, the first column and the others -/
structure Out (F : Type) where
  cols : List Col
  rows : List (Label × CV Str × List (CV (Shown F)))

/-- a reaction and its values -/
abbrev Row (F : Type) := Rx F × List (Col × Shown F)

/-- the rows of a frame given by its columns -/
def rowsOf (sel : List (Rx F)) (cols : List (Column F)) : List (Row F) :=
  sel.zipIdx.map fun p => (p.1, cols.map fun c => (c.1, (c.2[p.2]?).getD .null))

/-- plaschem/chemistry.py:1144-1199: a cell. -/
def cell (C : Codec F) (en : Nat → Bool) (o : Opts) (x : Rx F) (c : Col × Shown F) : Except Err (CV (Shown F)) :=
  if !o.pretty then .ok ⟨c.2, .reset⟩
  else match c.1 with
    | .attr a => paint C (en x.id) o.classify (x.attr a) c.2
    | .unit a => .ok (paintUnit (en x.id) (x.unit a) (match c.2 with
      | .str u => some u
      | _ => none))

/-- plaschem/chemistry.py:1117-1127 and 1153-1208: the colour of the first column. -/
def firstColor (en : Nat → Bool) (pretty : Bool) : Label → Color
  | .typ _ => if pretty then .yellow else .reset
  | .cat _ _ => if pretty then .magenta else .reset
  | .rx i => if pretty && !en i then .red else .reset

/-- one row of the finished table: rows with headings have empty strings in all but the first column -/
def finish (C : Codec F) (en : Nat → Bool) (o : Opts) (cols : List (Column F)) (rows : List (Row F)) (l : Lined) :
    Except Err (Label × CV Str × List (CV (Shown F))) :=
  match l.1 with
  | .rx i =>
    match rows.find? (fun r => r.1.id = i) with
    | none => .error .keyError
    | some r => do
      let cs ← Classify.collect (cell C en o r.1) r.2
      return (l.1, ⟨l.2, firstColor en o.pretty l.1⟩, cs)
  | _ => .ok (l.1, ⟨l.2, firstColor en o.pretty l.1⟩, cols.map fun _ => ⟨.str [], .reset⟩)

/-- plaschem/chemistry.py:769-775 `get_reactions` -/
def select (en : Nat → Bool) (o : Opts) (rxs : List (Rx F)) : List (Rx F) := rxs.filter fun x => o.disabled || en x.id

/-- plaschem/chemistry.py:1060-1224 `reactions_attributes`, without the printing itself. `S` and `R` are the selected
species and reactions as the classifier sees them (`Rx.core`), in the same order. -/
def reactionsAttributes (C : Codec F) (A : Str → Option (Dict Str Nat)) (T : Str → Except Err Str)
    (adA : Nat → Option F) (en : Nat → Bool) (o : Opts) (rxs : List (Rx F)) (S : List RP) (R : List Reaction) :
    Except Err (Out F) := do
  let sel := select en o rxs
  let cols ← columns C T adA o.units sel (rxAttributes.filter (· ∉ o.ignored))
  let lines ← sheet A o.sort o.classify S R
  let rows ← Classify.collect (finish C en o cols (rowsOf sel cols)) lines
  return { cols := cols.map Prod.fst, rows }

end Verif.Plaschem.TableRx
