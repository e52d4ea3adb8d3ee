/-
Model of pygmo_fwork/optichem/reduction.py, class ReductionIterator: the iterative species reduction.

The chemistry is the chemistry model of Verif.Plaschem (disabling with its cascades, dumping, loading). Everything the
iterator asks of the global model and of the error measure is an oracle: `backend` (which may answer differently every
time it is run), `err` (which may raise, or return nan) and the ranking function.

Not modelled: the state left behind by an exception that leaves the method, the printed and the logged text, the RMS
errors (they are computed and logged, never read). The file of a run is kept in its row; `ReduceDisk` has the file system.
-/
import Verif.Plaschem.Restore
import Mathlib.Data.Finset.Card
import Mathlib.Order.Basic
import Mathlib.Order.Lattice

namespace Verif.Fwork.Reduce
open Verif.Plaschem
open Verif.Plaschem.Net

/-- exceptions that leave the iterator -/
inductive RErr where
  /-- `ReductionInitError` -/
  | init
  /-- `ReductionRunError` -/
  | run
  | assertion
  /-- `KeyError` of `set.remove` -/
  | key
  /-- `IndexError` of `.iloc[-1]` on an empty selection -/
  | index
  /-- raised by the chemistry (other than `ChemistryDisableError`) -/
  | chem (e : Err)
  /-- raised by the backend, the error measure or the ranking function -/
  | external
deriving DecidableEq

/-- what one run of the backend can do -/
inductive Outcome (Sol : Type) where
  | solved (sol : Sol)
  /-- `ModelSolutionError` or `KeyboardInterrupt` -/
  | failed
  /-- any other exception; also an unsuccessful run that raises nothing, as its results are then missing -/
  | raised

/-- reduction.py:29-95: what is fixed during a reduction. `maxErr` is `max_error / 100`. `err a b` is `none` if the
error measure raises, `some none` if it is nan. -/
structure Cfg (Sol R : Type) where
  net : Net
  path : Option Str
  hash : Str → Option Str
  backend : ℕ → State → Outcome Sol
  err : Sol → Sol → Option (Option R)
  important : List Str
  maxErr : R

/-- one line of `reduction_history` (reduction.py:77-82); `run` holds the chemistry the run was made with, the content
of its chemistry_attributes.yaml and its solution, and stands for `run_id`. -/
structure Row (Sol R : Type) where
  species : Option Str
  success : Bool
  additional : Finset Str
  totalRemoved : ℤ
  totalLeft : ℕ
  run : Option (State × Attrs × Sol)
  /-- `error_base_max`, nan is `none` -/
  errBase : Option R
  /-- `error_last_max` -/
  errLast : Option R

/-- the mutable attributes of the iterator, with the chemistry of its model -/
structure Red (Sol R : Type) where
  chem : State
  all : Finset Str
  attempted : Finset Str
  left : Finset Str
  history : List (Row Sol R)
  solBase : Option Sol
  solLast : Option Sol

variable {Sol R : Type} [LinearOrder R] [Zero R]

/-- `set(chemistry.get_species_name())` -/
def names (net : Net) (st : State) : Finset Str := (net.getSpeciesName st false false true).toFinset

/-- reduction.py:66-89 `__init__` -/
def initRed (cfg : Cfg Sol R) (chem : State) : Except RErr (Red Sol R) :=
  let eligible := (cfg.net.getSpeciesName chem false false false).toFinset.filter (· ∉ cfg.important)
  if eligible = ∅ then .error .init
  else if (names cfg.net chem).card ≠ (cfg.net.getSpecies chem false false true).length then .error .assertion
  else .ok { chem := chem, all := names cfg.net chem, attempted := ∅, left := eligible, history := [],
             solBase := none, solLast := none }

/-- result of `_run_model` -/
inductive RunRes (Sol : Type) where
  | solved (sol : Sol) (file : Attrs)
  | failed
  | error (e : RErr)

/-- reduction.py:120-140 `_run_model` (with global_model.py:170-228 and 262-264: a successful run dumps the attributes
of the chemistry) -/
def runModel (cfg : Cfg Sol R) (i : ℕ) (chem : State) : RunRes Sol :=
  match cfg.backend i chem with
  | .failed => .failed
  | .raised => .error .external
  | .solved sol =>
    match cfg.net.dump cfg.path cfg.hash chem with
    | .error e => .error (.chem e)
    | .ok file => .solved sol file

/-- reduction.py:142-168 `run_base_case` -/
def runBase (cfg : Cfg Sol R) (s : Red Sol R) : Except RErr (Red Sol R) :=
  if s.history ≠ [] then .error .run
  else if s.attempted ≠ ∅ ∨ s.solBase.isSome ∨ s.solLast.isSome then .error .assertion
  else
    match runModel cfg 0 s.chem with
    | .failed => .error .external
    | .error e => .error e
    | .solved sol file =>
      .ok { s with
        history := [{ species := none, success := true, additional := ∅, totalRemoved := 0, totalLeft := s.all.card,
                      run := some (s.chem, file, sol), errBase := some 0, errLast := some 0 }]
        solBase := some sol, solLast := some sol }

/-- reduction.py:205-208: may the chemistry be restored to this row? Comparisons with nan are false. -/
def restorable (cfg : Cfg Sol R) (backtrack : Bool) (r : Row Sol R) : Bool :=
  r.success && (!backtrack || match r.errBase with | some e => decide (e ≤ cfg.maxErr) | none => false)

/-- reduction.py:205-210: the file to restore the chemistry from -/
def restoreFile (cfg : Cfg Sol R) (backtrack : Bool) (h : List (Row Sol R)) : Option Attrs :=
  (((h.filter (restorable cfg backtrack)).filterMap Row.run).getLast?).map (fun p => p.2.1)

/-- `load_chemistry_attributes(restore_chem_attrib_path)` -/
def restore (cfg : Cfg Sol R) (file : Attrs) (cur : State) : Except RErr State :=
  match cfg.net.load cfg.path cfg.hash cur file true with
  | (st, none) => .ok st
  | (_, some e) => .error (.chem e)

/-- reduction.py:217-236: disable the species and run the model. Returns the chemistry left and, if the species was
removed, the solution and the file of the run. -/
def attempt (cfg : Cfg Sol R) (i : ℕ) (file : Attrs) (chem : State) (sp : Str) :
    Except RErr (State × Option (Sol × Attrs)) :=
  match cfg.net.disable chem [.name sp] [] with
  | (c, some .disable) => .ok (c, none)
  | (_, some e) => .error (.chem e)
  | (c, none) =>
    match runModel cfg i c with
    | .solved sol f => .ok (c, some (sol, f))
    | .error e => .error e
    | .failed =>
      match restore cfg file c with
      | .error e => .error e
      | .ok c' => .ok (c', none)

/-- reduction.py:265: `error_base_max > max_error / 100`, false for nan -/
def tooLarge (cfg : Cfg Sol R) (e : Option R) : Bool :=
  match e with
  | some e => decide (cfg.maxErr < e)
  | none => false

/-- reduction.py:238-273 for a species that was removed: `c` is the reduced chemistry. -/
def record (cfg : Cfg Sol R) (s : Red Sol R) (sp : Str) (backtrack : Bool) (file : Attrs) (c : State) (sol : Sol)
    (f : Attrs) : Except RErr (Red Sol R) :=
  let now := names cfg.net c
  let removed := names cfg.net s.chem \ now
  if sp ∉ removed then .error .assertion
  else
    let implicit := removed.erase sp
    if ¬ implicit ⊆ s.left.erase sp then .error .key
    else
      match s.solBase, s.solLast with
      | some base, some last =>
        match cfg.err base sol, cfg.err last sol with
        | some eb, some el =>
          let row : Row Sol R :=
            { species := some sp, success := true, additional := implicit,
              totalRemoved := (s.all.card : ℤ) - now.card, totalLeft := now.card, run := some (c, f, sol),
              errBase := eb, errLast := el }
          if backtrack && tooLarge cfg eb then
            match restore cfg file c with
            | .error e => .error e
            | .ok c' =>
              .ok { s with
                chem := c', attempted := insert sp s.attempted, history := s.history ++ [row]
                left := insert sp (s.left.erase sp \ implicit) ∪ implicit }
          else
            .ok { s with
              chem := c, attempted := insert sp s.attempted, history := s.history ++ [row]
              left := s.left.erase sp \ implicit, solLast := some sol }
        | _, _ => .error .external
      | _, _ => .error .external

/-- reduction.py:170-277 `remove_one_species_and_run` -/
def removeOne (cfg : Cfg Sol R) (s : Red Sol R) (sp : Str) (backtrack : Bool) : Except RErr (Red Sol R) :=
  if s.history = [] then .error .run
  else if sp ∉ s.left then .error .run
  else if sp ∈ s.attempted then .error .assertion
  else if (insert sp s.attempted).card ≠ s.history.length then .error .assertion
  else
    match restoreFile cfg backtrack s.history with
    | none => .error .index
    | some file =>
      match attempt cfg s.history.length file s.chem sp with
      | .error e => .error e
      | .ok (c, none) =>
        let now := names cfg.net c
        let row : Row Sol R :=
          { species := some sp, success := false, additional := ∅,
            totalRemoved := (s.all.card : ℤ) - now.card, totalLeft := now.card, run := none,
            errBase := none, errLast := none }
        .ok { s with chem := c, attempted := insert sp s.attempted, history := s.history ++ [row] }
      | .ok (c, some (sol, f)) => record cfg s sp backtrack file c sol f

/-! ### the reduction loop -/

/-- reduction.py:288-318: a fixed ranking, or a function of the solved model (which may raise and may answer
differently every time) -/
inductive Ranking (Score : Type) where
  | fixed (l : List (Str × Score))
  | dynamic (f : ℕ → State → Option (List (Str × Score)))

/-- the local variables of `run_reduction` -/
structure Loop (Sol R Score : Type) where
  red : Red Sol R
  ranking : List (Str × Score)
  streak : ℕ

/-- what `Series.pop(sp)` leaves -/
def dropLabel {Score : Type} (sp : Str) (l : List (Str × Score)) : List (Str × Score) :=
  l.filter (fun e => e.1 ≠ sp)

/-- reduction.py:341-352: pop the first species that has not been tried, `none` if there is none left -/
def popNext {Score : Type} (attempted : Finset Str) : List (Str × Score) → Option (Str × List (Str × Score))
  | [] => none
  | (sp, _) :: l =>
    if sp ∈ attempted then popNext attempted (dropLabel sp l)
    else some (sp, dropLabel sp l)
termination_by l => l.length
decreasing_by
  have := List.length_filter_le (fun e : Str × Score => decide (e.1 ≠ sp)) l
  unfold dropLabel
  simp only [List.length_cons]
  omega

/-- result of one pass of the loop: go on, leave the loop, or an exception -/
inductive Pass (A : Type) where
  | next (a : A)
  | done (a : A)
  | raise (e : RErr)

/-- reduction.py:336-370: one pass of the `while` loop. `sorted` decides the assertion that the ranking is sorted (an
oracle, as it depends on how nan is stored). -/
def pass {Score : Type} (cfg : Cfg Sol R) (ranking : Ranking Score) (sorted : List (Str × Score) → Bool)
    (maxStreak : ℕ) (s : Loop Sol R Score) : Pass (Loop Sol R Score) :=
  if s.ranking = [] then .done s
  else if ¬ sorted s.ranking then .raise .assertion
  else
    match popNext s.red.attempted s.ranking with
    | none => .done { s with ranking := [] }
    | some (sp, rest) =>
      if sp ∉ s.red.left then .next { s with ranking := rest }
      else
        match removeOne cfg s.red sp true with
        | .error e => .raise e
        | .ok red =>
          match red.history.getLast? with
          | none => .raise .index
          | some row =>
            match row.errBase with
            | none =>
              let s' : Loop Sol R Score := { red := red, ranking := rest, streak := s.streak }
              if s'.streak > maxStreak ∨ red.left = ∅ then .done s' else .next s'
            | some e =>
              if cfg.maxErr < e then
                let s' : Loop Sol R Score := { red := red, ranking := rest, streak := s.streak + 1 }
                if s'.streak > maxStreak ∨ red.left = ∅ then .done s' else .next s'
              else
                match ranking with
                | .fixed _ =>
                  let s' : Loop Sol R Score := { red := red, ranking := rest, streak := 0 }
                  if s'.streak > maxStreak ∨ red.left = ∅ then .done s' else .next s'
                | .dynamic f =>
                  match f red.history.length red.chem with
                  | none => .raise .external
                  | some l =>
                    let s' : Loop Sol R Score := { red := red, ranking := l, streak := 0 }
                    if s'.streak > maxStreak ∨ red.left = ∅ then .done s' else .next s'

/-- reduction.py:319-335: everything before the loop -/
def startLoop {Score : Type} (cfg : Cfg Sol R) (ranking : Ranking Score) (s : Red Sol R) :
    Except RErr (Loop Sol R Score) :=
  if cfg.net.getDisabledSpecies s.chem ≠ [] ∨ cfg.net.getDisabledReactions s.chem ≠ [] then .error .assertion
  else
    match runBase cfg s with
    | .error e => .error e
    | .ok red =>
      match ranking with
      | .fixed l => .ok { red := red, ranking := l, streak := 0 }
      | .dynamic f =>
        match f red.history.length red.chem with
        | none => .error .external
        | some l => .ok { red := red, ranking := l, streak := 0 }

/-- the loop as a whole: `Runs s r` if it ends with `r` when started with `s` -/
inductive Runs {Score : Type} (cfg : Cfg Sol R) (ranking : Ranking Score) (sorted : List (Str × Score) → Bool)
    (maxStreak : ℕ) : Loop Sol R Score → Except RErr (Loop Sol R Score) → Prop
  | done {s s' : Loop Sol R Score} : pass cfg ranking sorted maxStreak s = .done s' →
      Runs cfg ranking sorted maxStreak s (.ok s')
  | raise {s : Loop Sol R Score} {e : RErr} : pass cfg ranking sorted maxStreak s = .raise e →
      Runs cfg ranking sorted maxStreak s (.error e)
  | next {s s' : Loop Sol R Score} {r : Except RErr (Loop Sol R Score)} :
      pass cfg ranking sorted maxStreak s = .next s' →
      Runs cfg ranking sorted maxStreak s' r → Runs cfg ranking sorted maxStreak s r

/-- reduction.py:375: the chemistry is reset at the end -/
def finish {Score : Type} (s : Loop Sol R Score) : Red Sol R := { s.red with chem := reset s.red.chem }

/-- reduction.py:288-375 `run_reduction` -/
def RunsReduction {Score : Type} (cfg : Cfg Sol R) (ranking : Ranking Score) (sorted : List (Str × Score) → Bool)
    (maxStreak : ℕ) (s : Red Sol R) (r : Except RErr (Red Sol R)) : Prop :=
  match startLoop cfg ranking s with
  | .error e => r = .error e
  | .ok l => ∃ x, Runs cfg ranking sorted maxStreak l x ∧ r = x.map finish

end Verif.Fwork.Reduce
