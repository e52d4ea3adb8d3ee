/-
Logging the results of a run into a directory and reading them back: `GlobalModel.log_results`
(pygmo_fwork/global_model.py:230-280), `PyGMol.dump_logs` (pygmo_fwork/pygmol/model.py:346-356) and the `fetch`
methods of `ResultsParser` (pygmo_fwork/results.py:60-71, 141-235). The execution of a call is a sequence of
single file system operations; it may stop after any of them (crash of the process, an exception of the
operating system or of one of the writers). Properties C76-C78.
-/
import Verif.Plaschem.Base

namespace Verif.Fwork.Log
open Verif.Plaschem

/-- an absolute path without symbolic links: the components -/
abbrev Path := List Str

/-- an entry of the file system; the content of a file is `none` while it is incomplete (from opening it, which
truncates it, until the last byte is written) -/
inductive Node (δ : Type)
  | dir
  | file (c : Option δ)

/-- a file system: what there is at each path -/
abbrev FS (δ : Type) := Path → Option (Node δ)

variable {δ : Type}

def FS.put (fs : FS δ) (p : Path) (n : Option (Node δ)) : FS δ := fun q => if q = p then n else fs q

/-- `os.path.isdir` -/
def FS.isDir (fs : FS δ) (p : Path) : Bool :=
  match fs p with
  | some .dir => true
  | _ => false

/-- the root is a directory and what exists is in a directory -/
structure FS.WF (fs : FS δ) : Prop where
  root : fs.isDir [] = true
  parent : ∀ p c, fs (p ++ [c]) ≠ none → fs.isDir p = true

/-- the parts of a string between slashes -/
def splitSlash : Str → List Str
  | [] => [[]]
  | c :: s =>
    if c = '/' then [] :: splitSlash s
    else match splitSlash s with
      | [] => [[c]]
      | p :: ps => (c :: p) :: ps

/-- the components of a path string; several slashes count as one -/
def comps (s : Str) : List Str := (splitSlash s).filter (fun p => p ≠ [])

/-- resolution of a path by the operating system: every component is looked up in an existing directory -/
def walk (fs : FS δ) : Path → List Str → Option Path
  | cur, [] => some cur
  | cur, c :: cs =>
    if fs.isDir cur then
      walk fs (if c = str!"." then cur else if c = str!".." then cur.dropLast else cur ++ [c]) cs
    else none

/-- where the resolution of `os.path.join(dir, s)` begins: an absolute `s` replaces the directory -/
def base (R : Path) (s : Str) : Path := if s.head? = some '/' then [] else R

/-- `os.path.join(results_dir, run_id)` (global_model.py:247, results.py:71), resolved. The results directory
itself is given as an absolute path. -/
def locate (fs : FS δ) (R : Path) (runId : Str) : Option Path := walk fs (base R runId) (comps runId)

/-- the logged files, in the order of writing (global_model.py:257-280, model.py:355, config.py:110-124) -/
def fileNames : List Str :=
  [str!"solution.csv", str!"rates.csv", str!"wall_fluxes.csv", str!"chemistry_attributes.yaml",
   str!"model_attributes.yaml", str!"solver_log.yaml"]

def fileName (i : Fin 6) : Str := fileNames[i]

/-- an accepted call: the path as given, the directory of the run it stands for, whether the path string ends
in a way that the system refuses to remove (`.`, `..` or the root), and the contents to write -/
structure Job (δ : Type) where
  base : Path
  path : List Str
  target : Path
  stuck : Bool
  docs : Fin 6 → δ

/-- where the process is -/
inductive Pc (δ : Type)
  | idle
  /-- inside `shutil.rmtree` (global_model.py:250) -/
  | removing (j : Job δ)
  /-- before `os.mkdir` (global_model.py:253), after the removal -/
  | making (j : Job δ)
  /-- `k` files are complete; the next one may be open -/
  | writing (j : Job δ) (k : Nat) (opened : Bool)

structure Sys (δ : Type) where
  fs : FS δ
  pc : Pc δ

inductive LErr
  | invalidDir | exists | os
  deriving DecidableEq, Repr

/-- global_model.py:243-253 `log_results` up to the first change: which error is raised, or how it goes on.
`self.assert_success()` has passed. `mkdir` of a path that cannot be resolved or is a file raises an OSError. -/
def start (fs : FS δ) (R : Path) (runId : Str) (overwrite : Bool) (docs : Fin 6 → δ) :
    Except LErr (Sys δ) :=
  if fs.isDir R then
    match locate fs R runId with
    | none => .error .os
    | some t =>
      let j : Job δ := ⟨base R runId, comps runId, t, (comps runId).getLast? = some str!"." || (comps runId).getLast? = some str!".."
        || t = [], docs⟩
      if fs.isDir t then
        if overwrite then .ok ⟨fs, .removing j⟩ else .error .exists
      else if (fs t).isSome then .error .os
      else .ok ⟨fs.put t (some .dir), .writing j 0 false⟩
  else .error .invalidDir

inductive Label (δ : Type)
  | call (R : Path) (runId : Str) (overwrite : Bool) (docs : Fin 6 → δ)
  | act
  | done
  | stop

/-- `q` is strictly below `t` -/
def Below (t q : Path) : Prop := t <+: q ∧ q ≠ t

/-- One operation. `rmtree` removes files and empty directories in any order, then the directory itself; files
are opened (which truncates them) and then filled. Where no operation is possible an exception is raised
(`stop`). -/
inductive Step : Sys δ → Label δ → Sys δ → Prop
  | refused {fs : FS δ} {R id ow docs e} (h : start fs R id ow docs = .error e) :
      Step ⟨fs, .idle⟩ (.call R id ow docs) ⟨fs, .idle⟩
  | started {fs : FS δ} {R id ow docs s} (h : start fs R id ow docs = .ok s) :
      Step ⟨fs, .idle⟩ (.call R id ow docs) s
  | remove {fs : FS δ} {j : Job δ} {q : Path} (hq : Below j.target q) (he : fs q ≠ none)
      (hleaf : ∀ r, Below q r → fs r = none) :
      Step ⟨fs, .removing j⟩ .act ⟨fs.put q none, .removing j⟩
  | removed {fs : FS δ} {j : Job δ} (hempty : ∀ q, Below j.target q → fs q = none) (hs : j.stuck = false) :
      Step ⟨fs, .removing j⟩ .act ⟨fs.put j.target none, .making j⟩
  | make {fs : FS δ} {j : Job δ} (hw : walk fs j.base j.path = some j.target) :
      Step ⟨fs, .making j⟩ .act ⟨fs.put j.target (some .dir), .writing j 0 false⟩
  | opened {fs : FS δ} {j : Job δ} (k : Fin 6) :
      Step ⟨fs, .writing j k false⟩ .act
        ⟨fs.put (j.target ++ [fileName k]) (some (.file none)), .writing j k true⟩
  | filled {fs : FS δ} {j : Job δ} (k : Fin 6) :
      Step ⟨fs, .writing j k true⟩ .act
        ⟨fs.put (j.target ++ [fileName k]) (some (.file (some (j.docs k)))), .writing j (k + 1) false⟩
  | done {fs : FS δ} {j : Job δ} : Step ⟨fs, .writing j 6 false⟩ .done ⟨fs, .idle⟩
  | stop {fs : FS δ} {pc : Pc δ} : Step ⟨fs, pc⟩ .stop ⟨fs, .idle⟩

/-- a history: calls one after the other, each with its operations, stopped anywhere -/
inductive Steps : Sys δ → List (Label δ) → Sys δ → Prop
  | nil {s} : Steps s [] s
  | snoc {s s' s'' ls l} (h : Steps s ls s') (hl : Step s' l s'') : Steps s (ls ++ [l]) s''

/-- a call of `log_results` that returns normally -/
inductive Exec (fs : FS δ) (R : Path) (id : Str) (ow : Bool) (docs : Fin 6 → δ) (fs' : FS δ) : Prop
  | mk (s : Sys δ) (acts : List (Label δ)) (s' : Sys δ) (h0 : start fs R id ow docs = .ok s)
      (hacts : ∀ l ∈ acts, l = .act) (h1 : Steps s acts s') (h2 : Step s' .done ⟨fs', .idle⟩)

/-- results.py:141-235 `fetch_solution`, `fetch_rates`, `fetch_wall_fluxes`, `_fetch_model_attributes`: the
content of the file `os.path.join(run_dir, file_name)`, or `none` for `ResultsNotFoundError`. The content of an
incomplete file is `some none`. -/
def fetch (fs : FS δ) (R : Path) (runId fname : Str) : Option (Option δ) :=
  match (if fname.head? = some '/' then walk fs [] (comps fname)
    else walk fs (base R runId) (comps runId ++ comps fname)) with
  | none => none
  | some p => match fs p with
    | some (.file c) => some c
    | _ => none

/-- a run id that is the name of a directory: not empty, no slash, not `.` or `..` -/
structure Plain (s : Str) : Prop where
  nonempty : s ≠ []
  noSlash : '/' ∉ s
  notDot : s ≠ str!"."
  notDots : s ≠ str!".."

end Verif.Fwork.Log
