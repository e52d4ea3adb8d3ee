/-
LaTeX tables: plaschem/latex.py:148-330, class `TexTable`.

Frames have distinct row and column labels here; pandas allows repeated ones, for which `at` returns a series and the
table cannot be written. The frame handed over is taken by value: changes made to it later by the caller, which the
code would show, are not modelled.
-/
import Verif.Plaschem.Base
import Verif.Plaschem.DictLemmas

namespace Verif.Plaschem.Tex

/-- A value in a cell: a text, or something else with the text it is formatted as. -/
inductive Val
  | text (s : Str)
  | other (shown : Str)
  deriving DecidableEq

/-- `'{}'.format(v)` -/
def Val.shown : Val → Str
  | .text s => s
  | .other s => s

/-- a function for decorating a cell -/
abbrev Deco := Val → Except Err Val

/-- plaschem/latex.py:332-338 `get_note_decorator` -/
def noteDecorator (superscripts : List Str) : Deco := fun v =>
  .ok (.text (v.shown ++ str!" $^\\mathrm{" ++ [','].intercalate superscripts ++ str!"}$"))

/-- a pandas frame with texts as column labels -/
structure Frame (ι : Type) where
  index : List ι
  columns : List Str
  cell : ι → Str → Val
  rows_distinct : index.Nodup
  columns_distinct : columns.Nodup

/-- plaschem/latex.py:154-162: the attributes of a table. The frame of decorators, which `load_dataframe` fills with the
identity, is the dictionary of the cells that were given another function. -/
structure Table (ι : Type) where
  frame : Frame ι := ⟨[], [], fun _ _ => .text [], .nil, .nil⟩
  decorators : Dict (ι × Str) Deco := []
  notes : Dict Str Str := []
  caption : Str := []
  tableType : Str
  label : Str := []
  spacing : Str := str!"1.5"
  fontsize : Str := str!"tiny"

variable {ι : Type} [DecidableEq ι]

/-- plaschem/latex.py:164-166 -/
def Table.loadDataframe (t : Table ι) (f : Frame ι) : Table ι := { t with frame := f, decorators := [] }

/-- plaschem/latex.py:168-169 -/
def Table.addLabel (t : Table ι) (s : Str) : Table ι := { t with label := s }

/-- plaschem/latex.py:171-172: an ordered dictionary keeps the place of a key that is set again. -/
def Table.addNote (t : Table ι) (superscript note : Str) : Table ι := { t with notes := t.notes.set superscript note }

/-- plaschem/latex.py:174-175 -/
def Table.addCaption (t : Table ι) (s : Str) : Table ι := { t with caption := s }

/-- plaschem/latex.py:177-178. Setting a cell outside the frame enlarges the frame of decorators, which has no effect on
what is written. -/
def Table.addDecorator (t : Table ι) (i : ι) (c : Str) (d : Deco) : Table ι :=
  { t with decorators := t.decorators.set (i, c) d }

/-- plaschem/latex.py:181-186 `_get_caption_lines` -/
def Table.captionLines (t : Table ι) : List Str :=
  (t.caption ++ str!" \\\\") :: t.notes.map fun n => str!"$^\\mathrm{" ++ n.1 ++ str!"}$ " ++ n.2 ++ str!" \\\\"

/-- plaschem/latex.py:188-197 `_get_header_line` -/
def Table.headerLine (t : Table ι) : Except Err Str :=
  if t.tableType = str!"table" then
    .ok (str!" & ".intercalate (t.frame.columns.map fun c => str!"\\textbf{" ++ c ++ str!"}") ++ str!" \\\\")
  else if t.tableType = str!"longtable" then
    .ok (str!" & ".intercalate (t.frame.columns.map fun c =>
      str!"\\multicolumn{1}{l}{\\textbf{" ++ c ++ str!"}}") ++ str!" \\\\")
  else .error .valueError

/-- plaschem/latex.py:204: what a decorator makes of a cell; `join` wants texts. -/
def Table.cellText (t : Table ι) (i : ι) (c : Str) : Except Err Val :=
  ((t.decorators.get? (i, c)).getD .ok) (t.frame.cell i c)

/-- `' & '.join(cells)` -/
def join : List Val → Except Err (List Str)
  | [] => .ok []
  | .text s :: vs => do return s :: (← join vs)
  | .other _ :: _ => .error .typeError

/-- plaschem/latex.py:202-206: one line. All decorators are applied before the cells are joined. -/
def Table.bodyLine (t : Table ι) (i : ι) : Except Err Str := do
  let vals ← t.frame.columns.mapM (t.cellText i)
  let texts ← join vals
  return str!" & ".intercalate texts ++ str!" \\\\"

/-- plaschem/latex.py:199-207 `_get_body_lines` -/
def Table.bodyLines (t : Table ι) : Except Err (List Str) := t.frame.index.mapM t.bodyLine

/-- plaschem/latex.py:209-215 `_get_sep_lines` -/
def sepLines : List Str := [str!"\\noalign{\\vskip 1mm}", str!"\\hline", str!"\\noalign{\\vskip 1mm}"]

/-- plaschem/latex.py:217-263 `_str_table`, as the list of its lines -/
def Table.tableLines (t : Table ι) (tab : Str) : Except Err (List Str) := do
  let header ← t.headerLine
  let body ← t.bodyLines
  return [str!"\\begin{table}[!htb]", tab ++ str!"\\centering", tab ++ str!"\\caption{"] ++
    t.captionLines.map (fun l => tab ++ tab ++ l) ++
    [tab ++ str!"}", tab ++ str!"\\label{" ++ t.label ++ str!"}", str!"\\begingroup",
     str!"\\renewcommand{\\arraystretch}{" ++ t.spacing ++ str!"}", tab ++ str!"\\resizebox{\\textwidth}{!}{%",
     tab ++ str!"\\begin{tabular}{" ++ List.replicate t.frame.columns.length 'l' ++ str!"}", tab ++ tab ++ header] ++
    sepLines.map (fun l => tab ++ tab ++ l) ++ body.map (fun l => tab ++ tab ++ l) ++
    sepLines.map (fun l => tab ++ tab ++ l) ++
    [tab ++ str!"\\end{tabular}", tab ++ str!"}", tab ++ str!"\\endgroup", str!"\\end{table}"]

/-- `'{}'.format(n)` -/
def showNat (n : Nat) : Str := Nat.toDigits 10 n

/-- plaschem/latex.py:265-312 `_str_longtable`, as the list of its lines -/
def Table.longLines (t : Table ι) (tab : Str) : Except Err (List Str) := do
  let header ← t.headerLine
  let body ← t.bodyLines
  let cols := t.frame.columns.length
  let sep := sepLines.map (tab ++ ·)
  return ['\\' :: t.fontsize, str!"\\begin{longtable}{" ++ List.replicate cols 'l' ++ str!"}", tab ++ str!"\\caption{"] ++
    t.captionLines.map (fun l => tab ++ tab ++ l) ++
    [tab ++ str!"}", tab ++ str!"\\label{" ++ t.label ++ str!"} \\\\", tab ++ header] ++ sep ++
    [tab ++ str!"\\endfirsthead", [],
     tab ++ str!"\\multicolumn{" ++ showNat cols ++ str!"}{c}{{\\tablename\\ \\thetable{} (\\textit{Continued})}} \\\\",
     tab ++ header] ++ sep ++ [tab ++ str!"\\endhead", []] ++ sep ++
    [tab ++ str!"\\multicolumn{" ++ showNat cols ++ str!"}{r}{\\textit{Continued on next page}} \\\\",
     tab ++ str!"\\endfoot", []] ++ sep ++ [tab ++ str!"\\endlastfoot", []] ++
    body.map (tab ++ ·) ++ [str!"\\end{longtable}", str!"\\normalsize"]

/-- plaschem/latex.py:314-320 `__str__`. If a table can neither have a header nor a body, the header is asked for first. -/
def Table.toStr (t : Table ι) (tab : Str := str!"    ") : Except Err Str :=
  if t.tableType = str!"table" then do return ['\n'].intercalate (← t.tableLines tab)
  else if t.tableType = str!"longtable" then do return ['\n'].intercalate (← t.longLines tab)
  else .error .valueError

/-- the methods that change a table -/
inductive Op (ι : Type)
  | load (f : Frame ι)
  | label (s : Str)
  | note (superscript note : Str)
  | caption (s : Str)
  | decorate (i : ι) (c : Str) (d : Deco)

def Op.run (t : Table ι) : Op ι → Table ι
  | .load f => t.loadDataframe f
  | .label s => t.addLabel s
  | .note k s => t.addNote k s
  | .caption s => t.addCaption s
  | .decorate i c d => t.addDecorator i c d

end Verif.Plaschem.Tex
