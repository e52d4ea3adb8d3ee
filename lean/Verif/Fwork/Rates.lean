/-
The contributions to the time derivative of one species, as the results parser reports them:
`ResultsParser.get_volumetric_rates`, `get_surface_rates` and the lists printed by
`print_production_processes` / `print_consumption_processes` (pygmo_fwork/results.py:293-478).
-/
import Verif.Pygmol.EqnsChem

namespace Verif.Fwork.Rates
open Verif.Plaschem Verif.Plaschem.Net

/-- exceptions raised here: those of the chemistry, a failed `assert`, a missing label -/
inductive RErr
  | chem (e : Err) | assertion | keyError
  deriving DecidableEq, Repr

/-- labels of one row of the rates log: the time stamp, a reaction id or another string -/
inductive Lab
  | t | id (i : Nat) | name (n : Str)
  deriving DecidableEq, Repr

/-- one row of the rates log, as a labelled series -/
abbrev RateFrame := Dict Lab ℝ
/-- one row of the wall fluxes log: labels are species names and possibly 't' -/
abbrev FluxFrame := Dict Str ℝ

/-- `Series.sort_values` (quicksort, not stable): some rearrangement ordered by the given relation. -/
structure Sorter (α : Type) (rel : ℝ → ℝ → Prop) where
  sort : List (α × ℝ) → List (α × ℝ)
  perm : ∀ l, (sort l).Perm l
  ordered : ∀ l, (sort l).Pairwise (fun a b => rel a.2 b.2)

/-- `set(a) == set(b)` -/
def sameSet {α : Type} [DecidableEq α] (a b : List α) : Prop := a ⊆ b ∧ b ⊆ a

instance {α : Type} [DecidableEq α] (a b : List α) : Decidable (sameSet a b) :=
  inferInstanceAs (Decidable (_ ∧ _))

/-- results.py:340: `stoichiovector * rates_frame.loc[stoichiovector.index]`. -/
noncomputable def timesRates (f : RateFrame) : List (Nat × Int) → Except RErr (List (Nat × ℝ))
  | [] => .ok []
  | (i, c) :: rest =>
    match f.get? (.id i) with
    | none => .error .keyError
    | some v =>
      match timesRates f rest with
      | .error e => .error e
      | .ok l => .ok ((i, (c : ℝ) * v) :: l)

/-- results.py:319-349 `get_volumetric_rates(annotate=False)`, including the checks of 303-313. The labels
of the frame are assumed to be distinct where that matters. -/
noncomputable def volumetric (so : Sorter Nat (· ≥ ·)) (net : Net) (st : State) (x : SpIdent)
    (f : RateFrame) : Except RErr (List (Nat × ℝ)) :=
  match net.getRp x with
  | .error e => .error (.chem e)
  | .ok s =>
    if sameSet ((net.getReactions st false).map (fun r => Lab.id r.id)) (f.keys.filter (· ≠ .t)) then
      match net.stoichiomatrix st false true .net with
      | .error e => .error (.chem e)
      | .ok M =>
        if s.id ∈ (net.getSpecies st false true true).map RP.id then
          match timesRates f ((M.map (fun e => (e.1, (e.2.get? s.id).getD 0))).filter (·.2 ≠ 0)) with
          | .error e => .error e
          | .ok l => .ok (so.sort l)
        else .error .keyError
    else .error .assertion

/-- results.py:383: species names replaced by ids. -/
def toIds (net : Net) : FluxFrame → Except RErr (List (Nat × ℝ))
  | [] => .ok []
  | (n, v) :: rest =>
    match net.getRp (.name n) with
    | .error e => .error (.chem e)
    | .ok s =>
      match toIds net rest with
      | .error e => .error e
      | .ok l => .ok ((s.id, v) :: l)

/-- results.py:352-412 `get_surface_rates(annotate=False)`, including the checks of 303-317. -/
noncomputable def surface (net : Net) (st : State) (radius length : ℝ) (x : SpIdent) (f : FluxFrame) :
    Except RErr (List (Nat × ℝ)) :=
  match net.getRp x with
  | .error e => .error (.chem e)
  | .ok s =>
    if sameSet (net.getSpeciesName st false false true) (f.keys.filter (· ≠ str!"t")) then
      if s.isSpecial then .ok []
      else
        match net.getReturnMatrix st false with
        | .error e => .error (.chem e)
        | .ok M =>
          let area := 2 * Real.pi * radius * (radius + length)
          let volume := Real.pi * radius ^ 2 * length
          match toIds net (f.filter (·.1 ≠ str!"t")) with
          | .error e => .error e
          | .ok w =>
            if w.map Prod.fst = M.rows ∧ M.rows = M.cols then
              if s.id ∈ M.rows then
                .ok ((w.map (fun p => (p.1, (if p.1 = s.id then p.2 * area / volume else 0)
                  + -((M.entry s.id p.1 : ℝ) * (p.2 * area / volume))))).filter (·.2 ≠ 0))
              else .error .keyError
            else .error .assertion
    else .error .assertion

/-- labels of the printed processes, `R<id> ...` or `S<id> ...` (results.py:342-345, 402-410) -/
inductive Proc
  | vol (reaction : Nat) | surf (species : Nat)
  deriving DecidableEq, Repr

/-- results.py:433, 466: `volumetric_rates.append(surface_rates)`. -/
def allRates (vol surf : List (Nat × ℝ)) : List (Proc × ℝ) :=
  vol.map (fun p => (.vol p.1, p.2)) ++ surf.map (fun p => (.surf p.1, p.2))

/-- results.py:434-443 the series printed by `print_production_processes`; `factor` is the unit conversion
factor (1 or 1e-6). -/
noncomputable def production (so : Sorter Proc (· ≥ ·)) (n : Option Nat) (factor : ℝ)
    (vol surf : List (Nat × ℝ)) : List (Proc × ℝ) :=
  let rates := (allRates vol surf).filter (fun p => p.2 > 0)
  ((so.sort rates).take (n.getD rates.length)).map (fun p => (p.1, p.2 * factor))

/-- results.py:467-476 the series printed by `print_consumption_processes`. -/
noncomputable def consumption (so : Sorter Proc (· ≤ ·)) (n : Option Nat) (factor : ℝ)
    (vol surf : List (Nat × ℝ)) : List (Proc × ℝ) :=
  let rates := (allRates vol surf).filter (fun p => p.2 < 0)
  ((so.sort rates).take (n.getD rates.length)).map (fun p => (p.1, p.2 * factor))

end Verif.Fwork.Rates
