/-
Model of pygmo_fwork/optichem/graph.py, part: `ChemistryGraph.__init__` (298-339) and `assert_input_consistency` (341-379), on
the chemistry model of C01-C22 (C92).

Simplifications: the row labels of the two frames are distinct (the docstring calls them irrelevant, the code selects rows by
them); radius and length are numbers. `sticks` (line 317) is never used afterwards and left out.
-/
import Verif.Fwork.RatesProps
import Verif.Fwork.Ranking

namespace Verif.Fwork.CoupleInit
open Verif.Plaschem Verif.Plaschem.Net Verif.Fwork.Rates

/-! ### the return matrix with special species -/

/-- plaschem/chemistry.py:855-864 with `special=True, disabled=False`, before line 865 -/
def returnCells (net : Net) (st : State) : Except Err RetMat :=
  match net.getSpeciesRetCoefs st false true true with
  | .error e => .error e
  | .ok d => net.putCols { rows := d.keys, cols := d.keys, cells := [] } d

/-- plaschem/chemistry.py:867-869: whether the row or column of this label is overwritten by NaN. (`.at` with a boolean series
falls back to `.loc`, which aligns the series by its labels.) -/
def specialId (net : Net) (i : Nat) : Bool := net.species.any fun s => s.id = i ∧ s.isSpecial

/-- plaschem/chemistry.py:865-869 and `fillna(0.)` of graph.py:318: an entry of the array -/
def returnEntry (net : Net) (M : RetMat) (i j : Nat) : ℚ :=
  if specialId net i || specialId net j then 0 else M.entry i j

/-! ### the constructor -/

/-- A data frame: column labels, and rows as functions of the label. -/
structure Frame (L : Type) where
  cols : List L
  rows : List (L → ℝ)

/-- exceptions of the constructor; `GraphInitError` by its message -/
inductive InitErr
  | chem (e : Err)
  | key
  | times
  | stoich
  | rates
  | fluxes
  | ret
deriving DecidableEq

/-- `list(frame['t'])` -/
noncomputable def Frame.times {L : Type} [DecidableEq L] (F : Frame L) (t : L) : Except InitErr (List ℝ) :=
  if t ∈ F.cols then .ok (F.rows.map fun r => r t) else .error .key

/-- plaschem/chemistry.py:748-755, 835-840 -/
def ids (net : Net) (st : State) : List Nat := (net.getSpecies st false true true).map RP.id

/-- graph.py:343-379; the stick coefficients (378) are indexed by the species by construction -/
noncomputable def check (net : Net) (st : State) (F : Frame Lab) (W : Frame Str) : Except InitErr Unit :=
  match net.stoichiomatrix st false true .lhs, net.stoichiomatrix st false true .rhs with
  | .error e, _ => .error (.chem e)
  | .ok _, .error e => .error (.chem e)
  | .ok L, .ok R =>
    match F.times .t, W.times str!"t" with
    | .error e, _ => .error e
    | .ok _, .error e => .error e
    | .ok a, .ok b =>
      open Classical in
      if a ≠ b then .error .times
      -- the columns of the matrix are those it was created with, plaschem/chemistry.py:886
      else if L.any (fun e => e.2.keys ≠ ids net st) || R.any (fun e => e.2.keys ≠ ids net st) then .error .stoich
      else if L.keys ≠ (net.getReactions st false).map Reaction.id ∨
          R.keys ≠ (net.getReactions st false).map Reaction.id then .error .stoich
      else if F.cols ≠ .t :: (net.getReactions st false).map (fun r => Lab.id r.id) then .error .rates
      else if W.cols ≠ str!"t" :: net.getSpeciesName st false false true then .error .fluxes
      else
        match returnCells net st with
        | .error e => .error (.chem e)
        | .ok M => if M.rows ≠ ids net st ∨ M.cols ≠ ids net st then .error .ret else .ok ()

/-- `.values` of a frame of integers: the cell by position -/
def cell (M : Dict Nat (Dict Nat Int)) (j i : ℕ) : ℕ :=
  match M[j]? with
  | none => 0
  | some e =>
    match e.2[i]? with
    | none => 0
    | some p => p.2.toNat

/-- graph.py:298-339 -/
noncomputable def init (net : Net) (st : State) (radius length : ℝ) (F : Frame Lab) (W : Frame Str) :
    Except InitErr (ChemGraph Str ℝ (net.getSpecies st false true true).length (net.getReactions st false).length
      F.rows.length) :=
  match check net st F W with
  | .error e => .error e
  | .ok () =>
    match net.stoichiomatrix st false true .lhs, net.stoichiomatrix st false true .rhs, returnCells net st with
    | .ok L, .ok R, .ok M =>
      .ok
        { species := fun i => (net.getSpecies st false true true)[i].name
          special := (net.species.filter RP.isSpecial).map RP.name
          lhs := fun j i => cell L j i
          rhs := fun j i => cell R j i
          -- line 321: by position
          rates := fun t j => F.rows[t] ((F.cols.filter (· ≠ .t)).getD j .t)
          -- lines 323-326: by label, zero where the frame has no such column
          fluxes := fun t i =>
            let n := (net.getSpecies st false true true)[i].name
            if n ∈ W.cols then (W.rows.getD t fun _ => 0) n else 0
          ret := fun a b => (returnEntry net M (M.rows.getD a 0) (M.cols.getD b 0) : ℝ)
          area := 2 * Real.pi * radius * (radius + length)
          vol := Real.pi * radius ^ 2 * length }
    | .error e, _, _ => .error (.chem e)
    | .ok _, .error e, _ => .error (.chem e)
    | .ok _, .ok _, .error e => .error (.chem e)

end Verif.Fwork.CoupleInit
