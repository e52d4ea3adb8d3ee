/-
Model of plaschem/chemistry.py (class Chemistry): construction, consistency check, enabling and
disabling, protection, ad-hoc attributes.
-/
import Verif.Plaschem.Reaction

namespace Verif.Plaschem

/-- plaschem/chemistry.py:27, 57-60: the part of a `Chemistry` that never changes after construction:
the species and reactions (pandas series keyed by id, here lists in construction order) and the class
attribute `requires_charge` (`False` in the subclass `NeutralChemistry`). -/
structure Net where
  requiresCharge : Bool := true
  species : List RP
  reactions : List Reaction
  deriving DecidableEq, Repr

/-- plaschem/chemistry.py:62-83: the mutable part of a `Chemistry`. The boolean pandas series
`_enabled_sp`, `_protected_sp`, `_adhoc_protected_sp`, `_enabled_r` are functions of the id (only their
values at ids of the chemistry are ever read); the ad-hoc attribute series are association lists. -/
structure State where
  enSp : Nat → Bool
  protSp : Nat → Bool
  adhocSp : Nat → Bool
  enR : Nat → Bool
  adStick : Dict Nat ℚ
  adRet : Dict Nat (Dict Str ℚ)
  adArrhA : Dict Nat ℚ

/-- A pandas mask update `series[ids] = b`. -/
def setMask (f : Nat → Bool) (ids : List Nat) (b : Bool) : Nat → Bool :=
  fun i => if i ∈ ids then b else f i

/-- plaschem/chemistry.py:62-83: the masks and ad-hoc tables right after construction. -/
def State.fresh : State where
  enSp := fun _ => true
  protSp := fun _ => false
  adhocSp := fun _ => false
  enR := fun _ => true
  adStick := []
  adRet := []
  adArrhA := []

namespace Net

/-! ### Getters -/

/-- plaschem/chemistry.py:614-629 `get_species_mask`, for one species. -/
def speciesMask (st : State) (disabled special protect : Bool) (s : RP) : Bool :=
  (disabled || st.enSp s.id) && (special || !s.isSpecial)
    && (protect || !(st.protSp s.id || st.adhocSp s.id))

/-- plaschem/chemistry.py:631-639 `get_species`. -/
def getSpecies (net : Net) (st : State) (disabled special protect : Bool) : List RP :=
  net.species.filter (speciesMask st disabled special protect)

/-- plaschem/chemistry.py:769-775 `get_reactions` with the mask of 759-767. -/
def getReactions (net : Net) (st : State) (disabled : Bool) : List Reaction :=
  net.reactions.filter (fun r => disabled || st.enR r.id)

/-- plaschem/chemistry.py:641-649 `get_species_name`, values only. -/
def getSpeciesName (net : Net) (st : State) (disabled special protect : Bool) : List Str :=
  (net.getSpecies st disabled special protect).map RP.name

/-- `charge > 0` for one entry of `get_species_charge()` (plaschem/chemistry.py:651-659). The getter is
only used on non-special species, whose charge is never `None`. -/
def isPos (s : RP) : Bool :=
  match s.getCharge with
  | some c => decide (0 < c)
  | none => false

/-- the enabled non-special species with a positive charge, plaschem/chemistry.py:88, 135, 256-262. -/
def positiveIons (net : Net) (st : State) : List RP :=
  (net.getSpecies st false false true).filter isPos

/-- plaschem/chemistry.py:323-327 `get_protected_species`, ids. -/
def protectedIds (net : Net) (st : State) : List Nat :=
  (net.species.filter (fun s => st.protSp s.id || st.adhocSp s.id)).map RP.id

/-- plaschem/chemistry.py:336-340 `get_disabled_species`. -/
def getDisabledSpecies (net : Net) (st : State) : List RP :=
  net.species.filter (fun s => !st.enSp s.id)

/-- plaschem/chemistry.py:342-346 `get_disabled_reactions`. -/
def getDisabledReactions (net : Net) (st : State) : List Reaction :=
  net.reactions.filter (fun r => !st.enR r.id)

/-- plaschem/chemistry.py:701-711 `get_species_stick_coef` with index. Ad-hoc values are numbers
(simplification: ad-hoc values given as `str` or `None` are outside the model). -/
def getSpeciesStickCoef (net : Net) (st : State) (disabled special protect : Bool) :
    Dict Nat (Option ℚ) :=
  (net.getSpecies st disabled special protect).map
    (fun s => (s.id, match st.adStick.get? s.id with
                     | some v => some v
                     | none => s.getStickCoef))

/-- plaschem/chemistry.py:723: the nominal return coefficients of the selected species. -/
def nominalRet : List RP → Except Err (Dict Nat (Option (Dict Str ℚ)))
  | [] => .ok []
  | s :: ss =>
    match s.getRetCoefs with
    | .error e => .error e
    | .ok d =>
      match nominalRet ss with
      | .error e => .error e
      | .ok rest => .ok ((s.id, d) :: rest)

/-- plaschem/chemistry.py:725-726: `.at[sp_id] = ...` for every ad-hoc entry (an unknown label enlarges
the series). -/
def applyAdhocRet (d : Dict Nat (Option (Dict Str ℚ))) (ad : Dict Nat (Dict Str ℚ)) :
    Dict Nat (Option (Dict Str ℚ)) :=
  ad.foldl (fun d e => d.set e.1 (some e.2)) d

/-- plaschem/chemistry.py:729-731: `{}` for species with zero sticking coefficient. -/
def applyZeroStick (d : Dict Nat (Option (Dict Str ℚ))) (sticks : Dict Nat (Option ℚ)) :
    Dict Nat (Option (Dict Str ℚ)) :=
  sticks.foldl (fun d e => if e.2 = some 0 then d.set e.1 (some []) else d) d

/-- plaschem/chemistry.py:737-745: removal of return species that are not enabled. -/
def purge (pool : List Str) (d : Dict Nat (Option (Dict Str ℚ))) : Dict Nat (Option (Dict Str ℚ)) :=
  d.map (fun e => (e.1, e.2.map (fun c => c.filter (fun p => p.1 ∈ pool))))

/-- plaschem/chemistry.py:734: `sum(~self._enabled_sp.values) > 0`. -/
def anyDisabled (net : Net) (st : State) : Bool := net.species.any (fun s => !st.enSp s.id)

/-- plaschem/chemistry.py:713-746 `get_species_ret_coefs`. Note that the call of
`get_species_stick_coef` in line 728 does not pass on `protected`. -/
def getSpeciesRetCoefs (net : Net) (st : State) (disabled special protect : Bool) :
    Except Err (Dict Nat (Option (Dict Str ℚ))) :=
  match nominalRet (net.getSpecies st disabled special protect) with
  | .error e => .error e
  | .ok d0 =>
    let d1 := applyAdhocRet d0 st.adRet
    let d2 := applyZeroStick d1 (net.getSpeciesStickCoef st disabled special true)
    if net.anyDisabled st then
      .ok (purge (net.getSpeciesName st false true true) d2)
    else .ok d2

/-! ### Consistency -/

/-- plaschem/chemistry.py:150-161: every species object of every enabled reaction is (identically) one
of the enabled species. -/
def reactionSpeciesPresent (net : Net) (st : State) : Bool :=
  (net.getReactions st false).all (fun r =>
    r.rps.all (fun p => (net.getSpecies st false true true).any (fun s => p = s)))

/-- plaschem/chemistry.py:149-158: the names collected in `confirmed` (a set). -/
def confirmed (net : Net) (st : State) : List Str :=
  orderedSet ((net.getReactions st false).flatMap (fun r => r.rps.map RP.name))

/-- plaschem/chemistry.py:164-169: the return species names of all selected species. -/
def retNames (d : Dict Nat (Option (Dict Str ℚ))) : List Str :=
  d.flatMap (fun e => match e.2 with
    | some c => c.map Prod.fst
    | none => [])

/-- plaschem/chemistry.py:121-172 `assert_consistency`. -/
def assertConsistency (net : Net) (st : State) : Except Err Unit :=
  let sp := net.getSpecies st false true true
  if net.requiresCharge ∧ ¬ (str!"e" ∈ sp.map RP.name) then .error .consistency
  else if net.requiresCharge ∧ net.positiveIons st = [] then .error .consistency
  else if ¬ (sp.map RP.name).Nodup then .error .consistency
  else if ¬ (sp.map RP.id).Nodup then .error .consistency
  else if ¬ net.reactionSpeciesPresent st then .error .consistency
  else if sp.length ≠ (net.confirmed st).length then .error .consistency
  else match net.getSpeciesRetCoefs st false true true with
    | .error e => .error e
    | .ok d =>
      if (retNames d).all (fun n => n ∈ sp.map RP.name) then .ok () else .error .consistency

/-! ### Look-up -/

/-- a species identifier accepted by the API: id, name or the species object. -/
inductive SpIdent
  | id (i : Nat)
  | name (n : Str)
  | obj (s : RP)
  deriving DecidableEq, Repr

/-- plaschem/chemistry.py:174-189 `get_rp`. -/
def getRp (net : Net) : SpIdent → Except Err RP
  | .id i =>
    match net.species.find? (fun s => s.id = i) with
    | some s => .ok s
    | none => .error .speciesNotPresent
  | .name n =>
    match net.species.find? (fun s => s.name = n) with
    | some s => .ok s
    | none => .error .speciesNotPresent
  | .obj x =>
    match net.species.find? (fun s => s = x) with
    | some s => .ok s
    | none => .error .speciesNotPresent

/-- plaschem/chemistry.py:191-202 `get_reaction`. -/
def getReaction (net : Net) (i : Nat) : Except Err Reaction :=
  match net.reactions.find? (fun r => r.id = i) with
  | some r => .ok r
  | none => .error .reactionNotPresent

/-- `[self.get_rp(rp).id for rp in species]`, plaschem/chemistry.py:230, 297. -/
def resolveSpecies (net : Net) : List SpIdent → Except Err (List Nat)
  | [] => .ok []
  | x :: xs =>
    match net.getRp x with
    | .error e => .error e
    | .ok s =>
      match net.resolveSpecies xs with
      | .error e => .error e
      | .ok l => .ok (s.id :: l)

/-- `[self.get_reaction(r).id for r in reactions]`, plaschem/chemistry.py:298. -/
def resolveReactions (net : Net) : List Nat → Except Err (List Nat)
  | [] => .ok []
  | x :: xs =>
    match net.getReaction x with
    | .error e => .error e
    | .ok s =>
      match net.resolveReactions xs with
      | .error e => .error e
      | .ok l => .ok (s.id :: l)

/-! ### Disabling -/

/-- entry of `get_stoichiomatrix(lhs) + get_stoichiomatrix(rhs)` (plaschem/chemistry.py:263-265,
873-893) for all reactions and species including disabled and special ones: the number of occurrences
of species `i` on either side. -/
def network (r : Reaction) (i : Nat) : Nat :=
  (r.reactants.map RP.id).count i + (r.products.map RP.id).count i

/-- plaschem/chemistry.py:267-268: enabled species whose column over the enabled reactions sums to
zero. -/
def disconnectedSpecies (net : Net) (st : State) : List Nat :=
  ((net.species.filter (fun s => st.enSp s.id)).filter (fun s =>
    ((net.reactions.filter (fun r => st.enR r.id)).map (fun r => network r s.id)).sum = 0)).map RP.id

/-- plaschem/chemistry.py:269-270: enabled reactions whose row over the disabled species sums to more
than zero. -/
def disconnectedReactions (net : Net) (st : State) : List Nat :=
  ((net.reactions.filter (fun r => st.enR r.id)).filter (fun r =>
    ((net.species.filter (fun s => !st.enSp s.id)).map (fun s => network r s.id)).sum > 0)).map
      Reaction.id

/-- plaschem/chemistry.py:252-261: the positive-ion check inside the cascade. On success the last
remaining positive ion gets the ad-hoc protection. -/
def chargeStep (net : Net) (st : State) : Except Err State :=
  if net.requiresCharge then
    match net.positiveIons st with
    | [] => .error .disable
    | [s] => .ok { st with adhocSp := setMask st.adhocSp [s.id] true }
    | _ => .ok st
  else .ok st

/-- plaschem/chemistry.py:234-278 `_disable_recursively`. The state is mutated in place, so the
function returns the (possibly half-way changed) state also when it raises. `fuel` bounds the recursion
depth; `disable` passes a bound that is shown to suffice. -/
def disableRec (net : Net) : Nat → State → List Nat → List Nat → State × Option Err
  | 0, st, _, _ => (st, some .fuel)
  | k + 1, st, sids, rids =>
    let dsp := sids.filter (fun i => st.enSp i)
    let drx := rids.filter (fun i => st.enR i)
    if dsp = [] ∧ drx = [] then (st, none)
    else if sids.any (fun i => i ∈ net.protectedIds st) then (st, some .disable)
    else
      let st1 := { st with enSp := setMask st.enSp dsp false, enR := setMask st.enR drx false }
      match net.chargeStep st1 with
      | .error e => (st1, some e)
      | .ok st2 =>
        let ds := net.disconnectedSpecies st2
        let dr := net.disconnectedReactions st2
        if ds = [] ∧ dr = [] then (st2, none)
        else disableRec net k st2 ds dr

/-- recursion bound used by `disable`. -/
def fuelBound (net : Net) : Nat := net.species.length + net.reactions.length + 1

/-- plaschem/chemistry.py:280-313 `disable`: on `ChemistryDisableError` the four masks are restored from
their backups and the error is re-raised; afterwards the consistency is asserted. -/
def disable (net : Net) (st : State) (species : List SpIdent) (reactions : List Nat) :
    State × Option Err :=
  match net.resolveSpecies species with
  | .error e => (st, some e)
  | .ok sids =>
    match net.resolveReactions reactions with
    | .error e => (st, some e)
    | .ok rids =>
      match net.disableRec net.fuelBound st sids rids with
      | (st', some .disable) =>
        ({ st' with enSp := st.enSp, enR := st.enR, protSp := st.protSp, adhocSp := st.adhocSp },
         some .disable)
      | (st', some e) => (st', some e)
      | (st', none) =>
        match net.assertConsistency st' with
        | .error e => (st', some e)
        | .ok () => (st', none)

/-- plaschem/chemistry.py:315-321 `reset`. -/
def reset (st : State) : State :=
  { st with enSp := fun _ => true, enR := fun _ => true, adhocSp := fun _ => false }

/-- plaschem/chemistry.py:218-232 `set_protected_species`. Assigning by a list that is not made of
known ids raises before any change, after which the arguments are resolved one by one. -/
def setProtected (net : Net) (st : State) (args : List SpIdent) : State × Option Err :=
  match net.resolveSpecies args with
  | .error e => (st, some e)
  | .ok ids => ({ st with protSp := setMask st.protSp ids true }, none)

/-! ### Ad-hoc attributes -/

/-- plaschem/chemistry.py:350-386 `set_adhoc_species_attributes('stick_coef', rp, value)`: the value is
stored before the consistency is asserted. -/
def setAdhocStick (net : Net) (st : State) (rp : SpIdent) (v : ℚ) : State × Option Err :=
  match net.getRp rp with
  | .error e => (st, some e)
  | .ok s =>
    let st' := { st with adStick := st.adStick.set s.id v }
    match net.assertConsistency st' with
    | .error e => (st', some e)
    | .ok () => (st', none)

/-- plaschem/chemistry.py:350-386 `set_adhoc_species_attributes('ret_coefs', rp, value)`. -/
def setAdhocRet (net : Net) (st : State) (rp : SpIdent) (v : Dict Str ℚ) : State × Option Err :=
  match net.getRp rp with
  | .error e => (st, some e)
  | .ok s =>
    if ¬ (v.all (fun p => p.1 ∈ net.getSpeciesName st false true true)) then (st, some .consistency)
    else
      let st' := { st with adRet := st.adRet.set s.id v }
      match net.assertConsistency st' with
      | .error e => (st', some e)
      | .ok () => (st', none)

/-- plaschem/chemistry.py:388-401 `reset_adhoc_species_attributes`. -/
def resetAdhocSpecies (st : State) (stick ret : Bool) : State :=
  { st with adStick := if stick then [] else st.adStick, adRet := if ret then [] else st.adRet }

/-- plaschem/chemistry.py:403-428 `set_adhoc_reactions_attributes('arrh_a', r_id, value)`. -/
def setAdhocArrhA (net : Net) (st : State) (r : Nat) (v : ℚ) : State × Option Err :=
  if r ∈ net.reactions.map Reaction.id then
    ({ st with adArrhA := st.adArrhA.set r v }, none)
  else (st, some .reactionNotPresent)

/-- plaschem/chemistry.py:430-443 `reset_adhoc_reactions_attributes`. -/
def resetAdhocReactions (st : State) : State := { st with adArrhA := [] }

/-! ### Construction -/

/-- plaschem/chemistry.py:29-92 `__init__` with species and reactions passed explicitly. -/
def init (net : Net) : Except Err State :=
  if ¬ (net.species.map RP.id).Nodup ∨ ¬ (net.reactions.map Reaction.id).Nodup then
    .error .consistency
  else
    match net.assertConsistency State.fresh with
    | .error e => .error e
    | .ok () =>
      if net.requiresCharge then
        match net.setProtected State.fresh [.name str!"e"] with
        | (_, some e) => .error e
        | (st1, none) =>
          match net.positiveIons st1 with
          | [s] =>
            match net.setProtected st1 [.obj s] with
            | (_, some e) => .error e
            | (st2, none) => .ok st2
          | _ => .ok st1
      else .ok State.fresh

/-! ### Histories -/

/-- the state-changing calls of the API. -/
inductive Op
  | disable (species : List SpIdent) (reactions : List Nat)
  | reset
  | protect (species : List SpIdent)
  | adhocStick (rp : SpIdent) (v : ℚ)
  | adhocRet (rp : SpIdent) (v : Dict Str ℚ)
  | resetAdhocSpecies (stick ret : Bool)
  | adhocArrhA (r : Nat) (v : ℚ)
  | resetAdhocReactions

/-- one call: the state afterwards and the exception, if any. -/
def step (net : Net) (st : State) : Op → State × Option Err
  | .disable s r => net.disable st s r
  | .reset => (reset st, none)
  | .protect s => net.setProtected st s
  | .adhocStick p v => net.setAdhocStick st p v
  | .adhocRet p v => net.setAdhocRet st p v
  | .resetAdhocSpecies a b => (resetAdhocSpecies st a b, none)
  | .adhocArrhA r v => net.setAdhocArrhA st r v
  | .resetAdhocReactions => (resetAdhocReactions st, none)

/-- a history of calls; exceptions are caught by the caller and the history goes on. -/
def run (net : Net) (st : State) : List Op → State
  | [] => st
  | o :: os => net.run (net.step st o).1 os

end Net

end Verif.Plaschem
