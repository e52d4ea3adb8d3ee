/-
The configuration and the directories of the workspace (pygmo_fwork/config.py), which are made when they are asked for:
`Path.mkdir(parents=True, exist_ok=True)` operation by operation, with other processes in between. Property C105.
-/
import Verif.Fwork.LogProps
import Verif.Fwork.MorrisRuns

namespace Verif.Fwork.Config
open Verif.Plaschem
open Verif.Fwork.Log (Path FS Node comps)

variable {δ : Type}

/-! ### making a directory with its parents -/

inductive OsErr
  /-- FileNotFoundError -/
  | noEntry
  /-- NotADirectoryError -/
  | notDir
  /-- FileExistsError -/
  | exists
  deriving DecidableEq, Repr

/-- resolution of a path whose components are all to be directories -/
def enter (fs : FS δ) : Path → List Str → Except OsErr Unit
  | cur, cs =>
    match fs cur with
    | none => .error .noEntry
    | some (.file _) => .error .notDir
    | some .dir =>
      match cs with
      | [] => .ok ()
      | c :: cs => enter fs (cur ++ [c]) cs

/-- `os.mkdir`: an atomic operation. Permissions, quotas and such are not modelled. -/
def osMkdir (fs : FS δ) (p : Path) : Except OsErr (FS δ) :=
  if p = [] then .error .exists
  else match enter fs [] p.dropLast with
    | .error e => .error e
    | .ok () => if (fs p).isSome then .error .exists else .ok (fs.put p (some .dir))

/-- where the call `p.mkdir(parents=True, exist_ok=True)` is -/
inductive Pc
  /-- before `os.mkdir(p)`; the paths that are to be made afterwards, without their parents -/
  | make (p : Path) (parents : Bool) (later : List Path)
  /-- `os.mkdir(p)` has raised an OSError other than FileNotFoundError; before `p.is_dir()` -/
  | check (p : Path) (later : List Path)
  | done
  | raised

/-- the call for `p` has returned -/
def Pc.next : List Path → Pc
  | [] => .done
  | p :: later => .make p false later

/-- one operation of `Path.mkdir` (pathlib, with `parents=True, exist_ok=True` as in config.py:70, 84, 95, 106; the
recursive calls are `self.parent.mkdir(parents=True, exist_ok=True)` and `self.mkdir(parents=False, exist_ok=True)`) -/
def act (fs : FS δ) : Pc → FS δ × Pc
  | .make p parents later =>
    match osMkdir fs p with
    | .ok fs' => (fs', .next later)
    | .error .noEntry => if parents = true ∧ p ≠ [] then (fs, .make p.dropLast true (p :: later)) else (fs, .raised)
    | .error _ => (fs, .check p later)
  | .check p later => if fs.isDir p then (fs, .next later) else (fs, .raised)
  | .done => (fs, .done)
  | .raised => (fs, .raised)

/-- the whole call if nobody else is there; it takes at most `3 * n + 3` operations (theorem `mkdirs_step_bound`) -/
def mkdirs (fs : FS δ) (p : Path) : FS δ × Pc :=
  (fun s => act s.1 s.2)^[3 * p.length + 3] (fs, .make p true [])

/-! ### the configuration -/

/-- a value in the configuration file -/
inductive Val
  | text (s : Str)
  /-- a number, list, ...: `Path(...)` raises a TypeError -/
  | other

/-- what the file contains: text that is not YAML, a value from which `dict` cannot be made, or a dictionary (of which only
keys that are strings matter) -/
inductive Content
  | malformed
  | noDict
  | dict (d : Str → Option Val)

inductive Err
  | config | attribute | type | os | yaml
  deriving DecidableEq, Repr

/-- config.py:21-38 `Config.__init__`; `none` if there is no such file. Errors of the YAML parser are not ValueErrors. -/
def load : Option Content → Except Err (Str → Option Val)
  | none => .error .config
  | some .malformed => .error .yaml
  | some .noDict => .error .config
  | some (.dict d) => .ok d

/-- config.py:40-46 `__getitem__` -/
def getItem (cfg : Str → Option Val) (key : Str) : Except Err Val :=
  match cfg key with
  | none => .error .config
  | some v => .ok v

/-- `Path(v)`, seen from the working directory `cwd`: empty components and `.` are dropped. Values with the component `..`
are not modelled (it is kept as if it were a name), nor are symbolic links. -/
def toPath (cwd : Path) : Val → Except Err Path
  | .text s => .ok ((if s.head? = some '/' then [] else cwd) ++ (comps s).filter (· ≠ str!"."))
  | .other => .error .type

/-- the queries of a user: config.py:57-72, 73-86, 87-96, 98-107 -/
inductive Query
  | results (backend : Str)
  | stage
  | morris
  | reduction
  deriving DecidableEq

/-- config.py:50-55 `_get_results_root` -/
def root (cfg : Str → Option Val) (cwd : Path) : Except Err Path :=
  match getItem cfg (str!"workspace") with
  | .error e => .error e
  | .ok v => match toPath cwd v with
    | .error e => .error e
    | .ok w => .ok (w ++ [str!"results"])

/-- the directory that a query is about, before it is made -/
def target (cfg : Str → Option Val) (cwd : Path) (fs : FS δ) : Query → Except Err Path
  | .results b =>
    let b := MorrisRuns.lower b
    if [str!"pygmol", str!"pygkin"].contains b then
      match root cfg cwd with
      | .error e => .error e
      | .ok r => .ok (r ++ [b])
    else .error .attribute
  | .stage =>
    match getItem cfg (str!"globalkin_bin") with
    | .error e => .error e
    | .ok v => match toPath cwd v with
      | .error e => .error e
      | .ok bin => match fs bin with
        | some (.file _) =>
          match getItem cfg (str!"workspace") with
          | .error e => .error e
          | .ok v => match toPath cwd v with
            | .error e => .error e
            | .ok w => .ok (w ++ [str!"globalkin_stage"])
        | _ => .error .config
  | .morris =>
    match root cfg cwd with
    | .error e => .error e
    | .ok r => .ok (r ++ [str!"morris_sensitivity"])
  | .reduction =>
    match root cfg cwd with
    | .error e => .error e
    | .ok r => .ok (r ++ [str!"reduction"])

/-- a query, if nobody else is there -/
def query (cfg : Str → Option Val) (cwd : Path) (fs : FS δ) (q : Query) : FS δ × Except Err Path :=
  match target cfg cwd fs q with
  | .error e => (fs, .error e)
  | .ok p => match mkdirs fs p with
    | (fs', .done) => (fs', .ok p)
    | (fs', _) => (fs', .error .os)

/-- queries one after the other; the caller goes on after an exception -/
def queries (cfg : Str → Option Val) (cwd : Path) (fs : FS δ) : List Query → FS δ
  | [] => fs
  | q :: qs => queries cfg cwd (query cfg cwd fs q).1 qs

/-- config.py:113-124 `default_log_name`: `none` for the AssertionError -/
def logName (log : Str) : Option Str :=
  if log ∈ [str!"solution", str!"rates", str!"wall_fluxes"] then some (log ++ str!".csv")
  else if log ∈ [str!"model_attributes", str!"chemistry_attributes", str!"solver_log"] then some (log ++ str!".yaml")
  else none

end Verif.Fwork.Config
