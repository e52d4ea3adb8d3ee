/-
Model of pygmo_fwork/optichem/reduction.py, class ReductionIterator, with its files (C93): the directory of the reduction run
(105-118), the directory of every model run with the file the chemistry is restored from (120-140, 205-236, 265-269), the table
of the history (279-286), and the loop (288-377). The computations are those of `Reduce`; every method is given here as a list
of single file operations and a result, so that a crash is a prefix of the list.

Simplifications: one process; the reduction run id is the name of a directory; the content of a file is whole or incomplete
(from opening it until the last byte is written), and what is read is what was written; solution.csv holds the solution or its
compressed form, the other tables and logs are one content.
-/
import Verif.Fwork.Reduce
import Verif.Fwork.LogProps

namespace Verif.Fwork.ReduceDisk
open Verif.Plaschem Verif.Plaschem.Net Verif.Fwork.Reduce
open Verif.Fwork.Log (Path FS Node fileName locate fetch)

/-- one line of reduction_history.csv (reduction.py:77-82), without scores and RMS errors -/
structure Line (R : Type) where
  runId : Option Str
  species : Option Str
  success : Bool
  additional : Finset Str
  totalRemoved : ℤ
  totalLeft : ℕ
  errBase : Option R
  errLast : Option R

/-- contents of files; `M` is the type of the dictionary `self.meta` -/
inductive Doc (Sol R M : Type)
  | info (m : M)
  | solution (s : Sol) (compressed : Bool)
  | attrs (a : Attrs)
  | history (l : List (Line R))
  | other

/-- file operations -/
inductive Op (δ : Type)
  | mkdir (p : Path)
  /-- `open(p, 'w')` -/
  | opened (p : Path)
  | filled (p : Path) (d : δ)
  | remove (p : Path)

def Op.path {δ : Type} : Op δ → Path
  | .mkdir p => p
  | .opened p => p
  | .filled p _ => p
  | .remove p => p

def Op.apply {δ : Type} (fs : FS δ) : Op δ → FS δ
  | .mkdir p => fs.put p (some .dir)
  | .opened p => fs.put p (some (.file none))
  | .filled p d => fs.put p (some (.file (some d)))
  | .remove p => fs.put p none

/-- the file system after the operations -/
def after {δ : Type} (fs : FS δ) (ops : List (Op δ)) : FS δ := ops.foldl Op.apply fs

/-- writing a file -/
def write {δ : Type} (p : Path) (d : δ) : List (Op δ) := [.opened p, .filled p d]

/-- exceptions: those of `Reduce`, `GlobalModelLogError`, and `OSError` with its subclasses -/
inductive DErr
  | red (e : RErr)
  | log
  | os
deriving DecidableEq

def lift {α : Type} : Except RErr α → Except DErr α
  | .ok a => .ok a
  | .error e => .error (.red e)

/-- reduction.py:29-64: what is fixed during a reduction. `same m m'` is `m == yaml.load(yaml.dump(m'))`. If `cut i` is
`some k`, the user interrupts the `i`-th model run after `k` file operations (at the end of its file operations if there are
fewer). -/
structure Env (Sol R M : Type) where
  cfg : Cfg Sol R
  parent : Path
  id : Str
  info : M
  same : M → M → Bool
  cut : ℕ → Option ℕ

variable {Sol R M : Type} [LinearOrder R] [Zero R]

/-- reduction.py:62 -/
def Env.dir (E : Env Sol R M) : Path := E.parent ++ [E.id]

/-- reduction.py:27 -/
def metaName : Str := str!"meta.yaml"
/-- reduction.py:26 -/
def historyName : Str := str!"reduction_history.csv"

/-- `'{:02d}'.format(i)` -/
def pad2 (i : ℕ) : Str := List.replicate (2 - (Nat.toDigits 10 i).length) '0' ++ Nat.toDigits 10 i

/-- reduction.py:24-25, 213: the run id of the base case, or of the removal of a species -/
def runName (i : ℕ) : Option Str → Str
  | none => pad2 0 ++ str!"_full_chemistry"
  | some sp => pad2 i ++ str!"_disabled_" ++ sp

/-- reduction.py:256, 159: the `run_id` of a row, nan where the species was not removed -/
def rowName (i : ℕ) (r : Row Sol R) : Option Str := if r.run.isSome then some (runName i r.species) else none

/-- the rows as logged -/
def lines (h : List (Row Sol R)) : List (Line R) :=
  h.mapIdx fun i r => ⟨rowName i r, r.species, r.success, r.additional, r.totalRemoved, r.totalLeft, r.errBase, r.errLast⟩

open Classical in
/-- reduction.py:105-118 `make_dir_structure_if_clear` -/
noncomputable def makeDir (E : Env Sol R M) (fs : FS (Doc Sol R M)) : List (Op (Doc Sol R M)) × Except DErr Unit :=
  if fs.isDir E.parent then
    match fs E.dir with
    | none => (.mkdir E.dir :: write (E.dir ++ [metaName]) (.info E.info), .ok ())
    | some (.file _) => ([], .error .os)
    | some .dir => if ∃ n, fs (E.dir ++ [n]) ≠ none then ([], .error (.red .init)) else ([], .ok ())
  else ([], .error (.red .init))

/-- reduction.py:29-95 `__init__` -/
noncomputable def init (E : Env Sol R M) (fs : FS (Doc Sol R M)) (chem : State) :
    List (Op (Doc Sol R M)) × Except DErr (Red Sol R) :=
  match makeDir E fs with
  | (ops, .error e) => (ops, .error e)
  | (ops, .ok ()) => (ops, lift (initRed E.cfg chem))

/-- result of `_run_model` -/
inductive Ran (Sol : Type) where
  | solved (sol : Sol) (file : Attrs)
  | failed
  | error (e : DErr)

/-- global_model.py:251-261: the directory and the tables -/
def tables (t : Path) (sol : Sol) : List (Op (Doc Sol R M)) :=
  .mkdir t :: (write (t ++ [fileName 0]) (.solution sol false) ++ write (t ++ [fileName 1]) .other ++
    write (t ++ [fileName 2]) .other)

/-- global_model.py:262-280 and reduction.py:127-140: the other logs, then compression of the solution and removal of rates and
fluxes -/
def logs (t : Path) (sol : Sol) (file : Attrs) : List (Op (Doc Sol R M)) :=
  write (t ++ [fileName 3]) (.attrs file) ++ write (t ++ [fileName 4]) .other ++ write (t ++ [fileName 5]) .other ++
    write (t ++ [fileName 0]) (.solution sol true) ++ [.remove (t ++ [fileName 1]), .remove (t ++ [fileName 2])]

/-- reduction.py:120-140 `_run_model`, with global_model.py:170-228 `run` and 230-280 `log_results`, not interrupted -/
def runWhole (E : Env Sol R M) (fs : FS (Doc Sol R M)) (i : ℕ) (chem : State) (name : Str) :
    List (Op (Doc Sol R M)) × Ran Sol :=
  if fs.isDir E.dir then
    match E.cfg.backend i chem with
    | .failed => ([], .failed)
    | .raised => ([], .error (.red .external))
    | .solved sol =>
      match locate fs E.dir name with
      | none => ([], .error .os)
      | some t =>
        match fs t with
        | some .dir => ([], .error .log)
        | some (.file _) => ([], .error .os)
        | none =>
          match E.cfg.net.dump E.cfg.path E.cfg.hash chem with
          | .error e => (tables t sol, .error (.red (.chem e)))
          | .ok file => (tables t sol ++ logs t sol file, .solved sol file)
  else ([], .error .log)

/-- reduction.py:220-223: `_run_model` with interrupts, which count as a failed run -/
def runModel (E : Env Sol R M) (fs : FS (Doc Sol R M)) (i : ℕ) (chem : State) (name : Str) :
    List (Op (Doc Sol R M)) × Ran Sol :=
  match E.cut i with
  | none => runWhole E fs i chem name
  | some k => ((runWhole E fs i chem name).1.take k, .failed)

/-- reduction.py:279-286 `log` -/
def logHistory (E : Env Sol R M) (h : List (Row Sol R)) : List (Op (Doc Sol R M)) :=
  write (E.dir ++ [historyName]) (.history (lines h))

/-- reduction.py:142-168 `run_base_case` -/
def runBase (E : Env Sol R M) (fs : FS (Doc Sol R M)) (s : Red Sol R) :
    List (Op (Doc Sol R M)) × Except DErr (Red Sol R) :=
  if s.history ≠ [] then ([], .error (.red .run))
  else if s.attempted ≠ ∅ ∨ s.solBase.isSome ∨ s.solLast.isSome then ([], .error (.red .assertion))
  else
    match runModel E fs 0 s.chem (runName 0 none) with
    | (ops, .failed) => (ops, .error (.red .external))
    | (ops, .error e) => (ops, .error e)
    | (ops, .solved sol file) =>
      let s' : Red Sol R := { s with
        history := [{ species := none, success := true, additional := ∅, totalRemoved := 0, totalLeft := s.all.card,
                      run := some (s.chem, file, sol), errBase := some 0, errLast := some 0 }]
        solBase := some sol, solLast := some sol }
      (ops ++ logHistory E s'.history, .ok s')

/-- reduction.py:205-209: the run to restore the chemistry from -/
def restoreName (cfg : Cfg Sol R) (backtrack : Bool) (h : List (Row Sol R)) : Option Str :=
  ((h.zipIdx.filter fun p => restorable cfg backtrack p.1).filterMap fun p => rowName p.2 p.1).getLast?

/-- reduction.py:210, 229, 267: `load_chemistry_attributes` of the file of that run -/
def restore (E : Env Sol R M) (fs : FS (Doc Sol R M)) (name : Str) (cur : State) : Except DErr State :=
  match fetch fs E.dir name (fileName 3) with
  | some (some (.attrs a)) => lift (Reduce.restore E.cfg a cur)
  | some _ => .error (.red .external)
  | none => .error .os

/-- reduction.py:216-236 -/
def attempt (E : Env Sol R M) (fs : FS (Doc Sol R M)) (i : ℕ) (name : Str) (chem : State) (sp : Str) :
    List (Op (Doc Sol R M)) × Except DErr (State × Option (Sol × Attrs)) :=
  match E.cfg.net.disable chem [.name sp] [] with
  | (c, some .disable) => ([], .ok (c, none))
  | (_, some e) => ([], .error (.red (.chem e)))
  | (c, none) =>
    match runModel E fs i c (runName i (some sp)) with
    | (ops, .solved sol f) => (ops, .ok (c, some (sol, f)))
    | (ops, .error e) => (ops, .error e)
    | (ops, .failed) =>
      match restore E (after fs ops) name c with
      | .error e => (ops, .error e)
      | .ok c' => (ops, .ok (c', none))

/-- reduction.py:238-273 for a species that was removed -/
def record (E : Env Sol R M) (fs : FS (Doc Sol R M)) (s : Red Sol R) (sp : Str) (backtrack : Bool) (name : Str) (c : State)
    (sol : Sol) (f : Attrs) : Except DErr (Red Sol R) :=
  let now := names E.cfg.net c
  let removed := names E.cfg.net s.chem \ now
  if sp ∉ removed then .error (.red .assertion)
  else
    let implicit := removed.erase sp
    if ¬ implicit ⊆ s.left.erase sp then .error (.red .key)
    else
      match s.solBase, s.solLast with
      | some base, some last =>
        match E.cfg.err base sol, E.cfg.err last sol with
        | some eb, some el =>
          let row : Row Sol R :=
            { species := some sp, success := true, additional := implicit,
              totalRemoved := (s.all.card : ℤ) - now.card, totalLeft := now.card, run := some (c, f, sol),
              errBase := eb, errLast := el }
          if backtrack && tooLarge E.cfg eb then
            match restore E fs name c with
            | .error e => .error e
            | .ok c' =>
              .ok { s with
                chem := c', attempted := insert sp s.attempted, history := s.history ++ [row]
                left := insert sp (s.left.erase sp \ implicit) ∪ implicit }
          else
            .ok { s with
              chem := c, attempted := insert sp s.attempted, history := s.history ++ [row]
              left := s.left.erase sp \ implicit, solLast := some sol }
        | _, _ => .error (.red .external)
      | _, _ => .error (.red .external)

/-- reduction.py:170-277 `remove_one_species_and_run` -/
def removeOne (E : Env Sol R M) (fs : FS (Doc Sol R M)) (s : Red Sol R) (sp : Str) (backtrack : Bool) :
    List (Op (Doc Sol R M)) × Except DErr (Red Sol R) :=
  if s.history = [] then ([], .error (.red .run))
  else if sp ∉ s.left then ([], .error (.red .run))
  else if sp ∈ s.attempted then ([], .error (.red .assertion))
  else
    match fs (E.dir ++ [metaName]) with
    | some (.file (some (.info m))) =>
      if ¬ E.same E.info m then ([], .error (.red .assertion))
      else if (insert sp s.attempted).card ≠ s.history.length then ([], .error (.red .assertion))
      else
        match restoreName E.cfg backtrack s.history with
        | none => ([], .error (.red .index))
        | some name =>
          match attempt E fs s.history.length name s.chem sp with
          | (ops, .error e) => (ops, .error e)
          | (ops, .ok (c, none)) =>
            let now := names E.cfg.net c
            let row : Row Sol R :=
              { species := some sp, success := false, additional := ∅,
                totalRemoved := (s.all.card : ℤ) - now.card, totalLeft := now.card, run := none,
                errBase := none, errLast := none }
            let s' : Red Sol R := { s with chem := c, attempted := insert sp s.attempted, history := s.history ++ [row] }
            (ops ++ logHistory E s'.history, .ok s')
          | (ops, .ok (c, some (sol, f))) =>
            match record E (after fs ops) s sp backtrack name c sol f with
            | .error e => (ops, .error e)
            | .ok s' => (ops ++ logHistory E s'.history, .ok s')
    -- a file that is no dictionary like `self.meta`
    | some (.file _) => ([], .error (.red .external))
    | _ => ([], .error .os)

/-! ### the loop -/

/-- result of one pass -/
inductive Pass (A : Type) where
  | next (a : A)
  | done (a : A)
  | raise (e : DErr)

/-- reduction.py:336-370 -/
def pass {Score : Type} (E : Env Sol R M) (ranking : Ranking Score) (sorted : List (Str × Score) → Bool) (maxStreak : ℕ)
    (fs : FS (Doc Sol R M)) (s : Loop Sol R Score) : List (Op (Doc Sol R M)) × Pass (Loop Sol R Score) :=
  if s.ranking = [] then ([], .done s)
  else if ¬ sorted s.ranking then ([], .raise (.red .assertion))
  else
    match popNext s.red.attempted s.ranking with
    | none => ([], .done { s with ranking := [] })
    | some (sp, rest) =>
      if sp ∉ s.red.left then ([], .next { s with ranking := rest })
      else
        match removeOne E fs s.red sp true with
        | (ops, .error e) => (ops, .raise e)
        | (ops, .ok red) =>
          (ops,
          match red.history.getLast? with
          | none => .raise (.red .index)
          | some row =>
            match row.errBase with
            | none =>
              let s' : Loop Sol R Score := { red := red, ranking := rest, streak := s.streak }
              if s'.streak > maxStreak ∨ red.left = ∅ then .done s' else .next s'
            | some e =>
              if E.cfg.maxErr < e then
                let s' : Loop Sol R Score := { red := red, ranking := rest, streak := s.streak + 1 }
                if s'.streak > maxStreak ∨ red.left = ∅ then .done s' else .next s'
              else
                match ranking with
                | .fixed _ =>
                  let s' : Loop Sol R Score := { red := red, ranking := rest, streak := 0 }
                  if s'.streak > maxStreak ∨ red.left = ∅ then .done s' else .next s'
                | .dynamic f =>
                  match f red.history.length red.chem with
                  | none => .raise (.red .external)
                  | some l =>
                    let s' : Loop Sol R Score := { red := red, ranking := l, streak := 0 }
                    if s'.streak > maxStreak ∨ red.left = ∅ then .done s' else .next s')

/-- reduction.py:319-335 -/
def startLoop {Score : Type} (E : Env Sol R M) (ranking : Ranking Score) (fs : FS (Doc Sol R M)) (s : Red Sol R) :
    List (Op (Doc Sol R M)) × Except DErr (Loop Sol R Score) :=
  if E.cfg.net.getDisabledSpecies s.chem ≠ [] ∨ E.cfg.net.getDisabledReactions s.chem ≠ [] then
    ([], .error (.red .assertion))
  else
    match runBase E fs s with
    | (ops, .error e) => (ops, .error e)
    | (ops, .ok red) =>
      (ops,
      match ranking with
      | .fixed l => .ok { red := red, ranking := l, streak := 0 }
      | .dynamic f =>
        match f red.history.length red.chem with
        | none => .error (.red .external)
        | some l => .ok { red := red, ranking := l, streak := 0 })

/-- the loop as a whole, with all its file operations -/
inductive Runs {Score : Type} (E : Env Sol R M) (ranking : Ranking Score) (sorted : List (Str × Score) → Bool)
    (maxStreak : ℕ) : FS (Doc Sol R M) → Loop Sol R Score → List (Op (Doc Sol R M)) →
      Except DErr (Loop Sol R Score) → Prop
  | done {fs s ops s'} : pass E ranking sorted maxStreak fs s = (ops, .done s') →
      Runs E ranking sorted maxStreak fs s ops (.ok s')
  | raise {fs s ops e} : pass E ranking sorted maxStreak fs s = (ops, .raise e) →
      Runs E ranking sorted maxStreak fs s ops (.error e)
  | next {fs s ops s' ops' r} : pass E ranking sorted maxStreak fs s = (ops, .next s') →
      Runs E ranking sorted maxStreak (after fs ops) s' ops' r → Runs E ranking sorted maxStreak fs s (ops ++ ops') r

/-- reduction.py:288-377 `run_reduction` -/
def RunsReduction {Score : Type} (E : Env Sol R M) (ranking : Ranking Score) (sorted : List (Str × Score) → Bool)
    (maxStreak : ℕ) (fs : FS (Doc Sol R M)) (s : Red Sol R) (ops : List (Op (Doc Sol R M)))
    (r : Except DErr (Red Sol R)) : Prop :=
  match startLoop E ranking fs s with
  | (o, .error e) => ops = o ∧ r = .error e
  | (o, .ok l) => ∃ o' x, Runs E ranking sorted maxStreak (after fs o) l o' x ∧ ops = o ++ o' ∧ r = x.map finish

end Verif.Fwork.ReduceDisk
