/-
Model of pygmo_fwork/optichem/reduction.py:386-512 `compare_reduction_runs` (C96): the figure that compares reductions, made
from their tables (`ReduceDisk.Line`) and the maximal errors in their meta data.

The figure is the list of what is drawn, with the limits of the axes. Not modelled: its size, the line width, the grid, the
axis labels, the legend, showing or saving it. Percentages and sums are exact. No reductions at all (then the limits are
computed from `None`) counts as an error, also where limits are given.
-/
import Verif.Fwork.ReduceDisk
import Mathlib.Algebra.Order.Field.Basic

namespace Verif.Fwork.ReducePlot
open Verif.Plaschem Verif.Fwork.ReduceDisk

variable {R : Type} [Field R] [LinearOrder R]

inductive PErr
  | assertion
  | index
  | attribute
  | type
  /-- a missing, incomplete or different file -/
  | file
deriving DecidableEq

/-- what `read_csv` makes of a line (reduction.py:411); missing values are `none` -/
structure Cells (R : Type) where
  species : Option Str
  success : Bool
  additional : Option Str
  removed : ℤ
  err : Option R

/-- reduction.py:251, 283-286, 411: writing a line and reading it back. `isNa` are the strings `read_csv` takes for missing
values ('NA', 'NaN', 'null', ...), `order` is the order in which the additional species are joined. -/
def cells (isNa : Str → Bool) (order : Finset Str → List Str) (l : Line R) : Cells R :=
  { species := l.species.filter fun s => !isNa s
    success := l.success
    additional :=
      if l.additional = ∅ then none
      else (some (List.intercalate (str!", ") (order l.additional))).filter fun s => !isNa s
    removed := l.totalRemoved
    err := l.errBase }

/-- one of the reductions: the last part of its path, its table and its `max_error` -/
structure Run (R : Type) where
  name : Str
  rows : List (Cells R)
  maxError : R

/-- reduction.py:410-414: the files of a reduction; `maxOf` is `max_error` of the meta data -/
def readRun {Sol M : Type} (maxOf : M → R) (isNa : Str → Bool) (order : Finset Str → List Str) (fs : Log.FS (Doc Sol R M))
    (parent : Log.Path) (name : Str) : Except PErr (Run R) :=
  match fs (parent ++ [name] ++ [historyName]), fs (parent ++ [name] ++ [metaName]) with
  | some (.file (some (.history l))), some (.file (some (.info m))) => .ok ⟨name, l.map (cells isNa order), maxOf m⟩
  | _, _ => .error .file

/-- reduction.py:386-391: the arguments. `names` is the dictionary `spcs_annotations`. -/
structure Opts (R : Type) where
  stylesOk : Option (List Str) := none
  stylesBad : Option (List Str) := none
  labels : Option (List Str) := none
  annotate : Bool := false
  deadEnds : Bool := true
  endpoints : Bool := false
  showMax : Bool := true
  xlim : Option (R × R) := none
  ylim : Option (R × R) := none
  names : Str → Option Str := fun _ => none
  shift : Option (R × R) := none

/-- what is drawn -/
inductive Draw (R : Type)
  | line (points : List (R × R)) (style : Str) (label : Option Str)
  /-- a line from -1e10 to 1e10 -/
  | vertical (x : R) (style : Str)
  | text (s : Str) (pos : R × R) (colour : Char)
deriving DecidableEq

structure Figure (R : Type) where
  draws : List (Draw R)
  xlim : R × R
  ylim : R × R
deriving DecidableEq

/-- `name.replace(c, new)` -/
def replaceChar (c : Char) (new s : Str) : Str := s.flatMap fun x => if x = c then new else [x]

/-- reduction.py:420-428 `prettify_species_name` -/
def pretty (o : Opts R) (raw : Str) : Str :=
  match o.names raw with
  | some s => s
  | none =>
    let s := (str!"+-").foldl (fun s c => replaceChar c (str!"$^{" ++ [c] ++ str!"}$") s) raw
    (str!"123456789").foldl (fun s c => replaceChar c (str!"$_{" ++ [c] ++ str!"}$") s) s

/-- reduction.py:430-432 `get_text_pos`, with the default of 401-402 -/
def textPos (o : Opts R) (p : R × R) : R × R :=
  let sh := o.shift.getD (5 / 100, -(45 / 100))
  (p.1 + sh.1, p.2 + sh.2)

/-- reduction.py:442, 472: the rows with `rm_success` and an error with `ok`, each with its index and its error; comparisons
with nan are false -/
def selected (ok : R → Bool) (rows : List (Cells R)) : List (ℕ × Cells R × R) :=
  rows.zipIdx.filterMap fun p =>
    match p.1.err with
    | some e => if p.1.success && ok e then some (p.2, p.1, e) else none
    | none => none

/-- reduction.py:442 `mask` -/
def accOf (m : R) (rows : List (Cells R)) : List (ℕ × Cells R × R) := selected (fun e => decide (e ≤ m / 100)) rows

/-- reduction.py:472 `mask_unsuccess` -/
def rejOf (m : R) (rows : List (Cells R)) : List (ℕ × Cells R × R) := selected (fun e => decide (m / 100 < e)) rows

/-- the point of a row -/
def point (c : Cells R) (e : R) : R × R := ((c.removed : R), e * 100)

/-- reduction.py:453-460 -/
def caption (c : Cells R) : Str :=
  match c.species, c.additional with
  | none, _ => []
  | some s, none => s
  | some s, some a => s ++ str!", " ++ a

/-- `ax.annotate` with the first character of the style as colour -/
def annotation (o : Opts R) (style s : Str) (p : R × R) : Except PErr (List (Draw R)) :=
  if o.annotate then
    match style with
    | [] => .error .index
    | c :: _ => .ok [.text s (textPos o p) c]
  else .ok []

/-- what has been drawn so far, `max_error`, `max_eliminated` -/
structure Canvas (R : Type) where
  draws : List (Draw R)
  maxErr : R
  maxElim : R

/-- reduction.py:473-493: one dead end -/
def deadEnd (o : Opts R) (style : Str) (acc : List (ℕ × Cells R × R)) (cv : Canvas R) (x : ℕ × Cells R × R) :
    Except PErr (Canvas R) :=
  let (i, c, e) := x
  let maxErr := if e * 100 > cv.maxErr then e * 100 else cv.maxErr
  let maxElim := if (c.removed : R) > cv.maxElim then (c.removed : R) else cv.maxElim
  match (acc.filter fun y => y.1 < i).getLast? with
  | none => .error .index
  | some (_, c0, e0) =>
    let lines := [.line [point c0 e0, point c e] style.dropLast none, .line [point c e] style none]
    if o.annotate then
      match c.species with
      | none => .error .attribute
      | some s =>
        match annotation o style (pretty o s) (point c e) with
        | .error x => .error x
        | .ok t => .ok ⟨cv.draws ++ lines ++ t, maxErr, maxElim⟩
    else .ok ⟨cv.draws ++ lines, maxErr, maxElim⟩

/-- `for x in l: ...` with exceptions -/
def each {α β : Type} (f : β → α → Except PErr β) : β → List α → Except PErr β
  | b, [] => .ok b
  | b, a :: l =>
    match f b a with
    | .error e => .error e
    | .ok b' => each f b' l

/-- reduction.py:464-467: the name beside a point of the curve -/
def texts (o : Opts R) (style : Str) (ds : List (Draw R)) (y : ℕ × Cells R × R) : Except PErr (List (Draw R)) :=
  match annotation o style (pretty o (caption y.2.1)) (point y.2.1 y.2.2) with
  | .error e => .error e
  | .ok t => .ok (ds ++ t)

/-- reduction.py:439-493: one of the reductions; `m` is `max_allowed_error` -/
def plotRun (o : Opts R) (m : R) (cv : Canvas R) (x : Run R × Str × Str × Str) : Except PErr (Canvas R) :=
  let (run, styleOk, styleBad, label) := x
  let acc := accOf m run.rows
  match acc.getLast? with
  | none => .error .index
  | some (_, cl, el) =>
    let maxErr := if el * 100 > cv.maxErr then el * 100 else cv.maxErr
    let ends := if o.endpoints then [.vertical (cl.removed : R) styleBad] else []
    let maxElim := if (cl.removed : R) > cv.maxElim then (cl.removed : R) else cv.maxElim
    let curve := .line (acc.map fun y => point y.2.1 y.2.2) styleOk (some label)
    match each (texts o styleOk) [] acc with
    | .error e => .error e
    | .ok ts =>
      let cv' : Canvas R := ⟨cv.draws ++ ends ++ [curve] ++ ts, maxErr, maxElim⟩
      if o.deadEnds then each (deadEnd o styleBad acc) cv' (rejOf m run.rows) else .ok cv'

/-- reduction.py:392-395 -/
def styles (suffix : Str) : List Str :=
  (List.replicate 10 ((str!"bgrcmyk").map fun c => c :: suffix)).flatten

/-- reduction.py:386-512 `compare_reduction_runs` -/
def compare (o : Opts R) (runs : List (Run R)) : Except PErr (Figure R) :=
  let so := o.stylesOk.getD (styles (str!"-o"))
  let sb := o.stylesBad.getD (styles (str!":X"))
  let labels := o.labels.getD (runs.map Run.name)
  if so.length < runs.length ∨ sb.length < runs.length ∨ labels.length < runs.length then .error .assertion
  else
    match runs with
    | [] => .error .type
    | r0 :: rest =>
      if ∃ r ∈ rest, r0.maxError ≠ r.maxError then .error .assertion
      else
        let m := r0.maxError
        match each (plotRun o m) ⟨[], 0, 0⟩ (runs.zip (so.zip (sb.zip labels))) with
        | .error e => .error e
        | .ok cv =>
          let xlim := o.xlim.getD (-(5 / 10), cv.maxElim + 5 / 10)
          let ylim := o.ylim.getD (-(9 / 10), max cv.maxErr m + 9 / 10)
          let bound :=
            if o.showMax then [.line [(xlim.1, m), (xlim.2, m)] (str!"r--") (some (str!"maximal allowed reduction error"))]
            else []
          .ok ⟨cv.draws ++ bound, xlim, ylim⟩

end Verif.Fwork.ReducePlot
