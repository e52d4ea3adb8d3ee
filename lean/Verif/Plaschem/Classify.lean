/-
Model of plaschem/classification.py: the decision procedure `_classify` that assigns a type and a
category to a reaction.
-/
import Verif.Plaschem.Reaction

namespace Verif.Plaschem.Classify
open Verif.Plaschem

/-- The reaction types of plaschem/classification.py:10-74; their strings are `Typ.label`. -/
inductive Typ
  | electron | neutral | positive | negative | ionIon | three | decay | unclassified
  deriving DecidableEq, Repr

/-- The reaction categories of plaschem/classification.py:10-74; their strings are `Cat.label`. Several
of them occur under more than one type. -/
inductive Cat
  | noCat | elastic | excitation | dissExcitation | deexcitation
  | ionization | dissIonization | attachment | dissAttachment | threeAttachment
  | detachment | recombination | dissRecombination | threeRecombination | dissociation
  | otherLoss | unElectron | scattering | association | quenching
  | dissQuenching | transfer | assocIonization | penning | interchange
  | stripping | unNeutral | resonant | charge | dissCharge
  | unPositive | assocDetachment | unNegative | neutralization | dissNeutralization
  | unIonIon
  deriving DecidableEq, Repr

/-- plaschem/classification.py:11-71: the strings of the types. -/
def Typ.label : Typ → Str
  | .electron => str!"ELECTRON IMPACT COLLISIONS"
  | .neutral => str!"NEUTRAL - NEUTRAL COLLISIONS"
  | .positive => str!"POSITIVE ION - NEUTRAL COLLISIONS"
  | .negative => str!"NEGATIVE ION - NEUTRAL COLLISIONS"
  | .ionIon => str!"ION - ION COLLISIONS"
  | .three => str!"THREE BODY COLLISIONS"
  | .decay => str!"RADIATIVE DECAY"
  | .unclassified => str!"UNCLASSIFIED COLLISIONS"

/-- plaschem/classification.py:12-73: the strings of the categories. -/
def Cat.label : Cat → Str
  | .noCat => str!"None"
  | .elastic => str!"elastic and momentum transfer"
  | .excitation => str!"excitation"
  | .dissExcitation => str!"dissociative excitation"
  | .deexcitation => str!"deexcitation"
  | .ionization => str!"ionization"
  | .dissIonization => str!"dissociative ionization"
  | .attachment => str!"attachment"
  | .dissAttachment => str!"dissociative attachment"
  | .threeAttachment => str!"three body attachment"
  | .detachment => str!"detachment"
  | .recombination => str!"recombination"
  | .dissRecombination => str!"dissociative recombination"
  | .threeRecombination => str!"three body recombination"
  | .dissociation => str!"dissociation"
  | .otherLoss => str!"other electron energy loss channels"
  | .unElectron => str!"unclassified electron impact collisions"
  | .scattering => str!"elastic scattering"
  | .association => str!"association"
  | .quenching => str!"collisional quenching"
  | .dissQuenching => str!"dissociative quenching"
  | .transfer => str!"excitation transfer"
  | .assocIonization => str!"associative ionization"
  | .penning => str!"penning ionization"
  | .interchange => str!"interchange"
  | .stripping => str!"stripping"
  | .unNeutral => str!"unclassified neutral - neutral collisions"
  | .resonant => str!"resonant charge transfer"
  | .charge => str!"charge transfer"
  | .dissCharge => str!"dissociative charge transfer"
  | .unPositive => str!"unclassified positive ion - neutral collisions"
  | .assocDetachment => str!"associative detachment"
  | .unNegative => str!"unclassified negative ion - neutral collisions"
  | .neutralization => str!"neutralization"
  | .dissNeutralization => str!"dissociative neutralization"
  | .unIonIon => str!"unclassified ion - ion collisions"

/-- A type and a category, as in the keys of the classified listing. -/
abbrev Class := Typ × Cat

/-- plaschem/classification.py:10-74 `classification_scheme`. -/
def scheme : List (Typ × List Cat) :=
  [(.electron, [.elastic, .excitation, .dissExcitation, .deexcitation, .ionization, .dissIonization,
      .attachment, .dissAttachment, .threeAttachment, .detachment, .recombination,
      .dissRecombination, .threeRecombination, .dissociation, .otherLoss, .unElectron]),
   (.neutral, [.scattering, .association, .dissociation, .excitation, .dissExcitation, .quenching,
      .dissQuenching, .transfer, .ionization, .dissIonization, .assocIonization, .penning,
      .interchange, .stripping, .unNeutral]),
   (.positive, [.resonant, .charge, .dissCharge, .unPositive]),
   (.negative, [.resonant, .charge, .detachment, .assocDetachment, .unNegative]),
   (.ionIon, [.neutralization, .dissNeutralization, .unIonIon]),
   (.three, [.noCat]),
   (.decay, [.noCat]),
   (.unclassified, [.noCat])]

/-- plaschem/classification.py:287-288: the charge of a species, 0 for M. -/
def charge0 (s : RP) : Int := s.getCharge.getD 0

/-- plaschem/species.py:174-175 `is_stateless`. -/
def isStateless (s : RP) : Bool := s.getState.isNone

/-- plaschem/classification.py:290-294: net number of electrons produced, read off the
stoichiometric coefficients under the id of the first electron of the reaction. -/
def elStoich (r : Reaction) : Except Err Int :=
  match r.getStoichCoefs .net with
  | .error e => .error e
  | .ok d =>
    match r.rps.filter (fun s => s.name = str!"e") with
    | [] => .ok 0
    | s :: _ =>
      match d.get? s.id with
      | some v => .ok v
      | none => .error .keyError

/-- A list comprehension over a getter that may raise. -/
def collect {α β : Type} (f : α → Except Err β) : List α → Except Err (List β)
  | [] => .ok []
  | a :: as =>
    match f a with
    | .error e => .error e
    | .ok b =>
      match collect f as with
      | .error e => .error e
      | .ok bs => .ok (b :: bs)

/-- Python `s.strip(c)` for a single character `c`. -/
def stripChar (c : Char) (s : Str) : Str :=
  ((s.dropWhile (· == c)).reverse.dropWhile (· == c)).reverse

/-- plaschem/classification.py:299-300: the heavy species of a side. -/
def heavy (l : List RP) : List RP := l.filter (fun s => s.name ≠ str!"e")

/-- plaschem/classification.py:307-308, 312-315: sums of the defined charges. -/
def chargeTotal (l : List RP) : Int := (l.filterMap RP.getCharge).sum

/-- plaschem/classification.py:310-311: `strip_charge(get_stateless())`. -/
def ground (s : RP) : Except Err Str :=
  match s.getStateless with
  | .ok n => .ok (stripCharge n)
  | .error e => .error e

/-- plaschem/classification.py:306-316: electron collisions with two further partners. The list of
charges has no `None` in it (lines 307-308). -/
def classifyThreeBody (r : Reaction) : Except Err Cat :=
  match collect ground (heavy r.reactants) with
  | .error e => .error e
  | .ok gs =>
    match collect ground (heavy r.products) with
    | .error e => .error e
    | .ok hs =>
      if gs.all (fun g => g ∈ hs) then
        if chargeTotal (heavy r.reactants) > chargeTotal (heavy r.products) then
          if chargeTotal (heavy r.reactants) > 0 then .ok .threeRecombination
          else if chargeTotal (heavy r.products) < 0 then .ok .threeAttachment
          else .ok .unElectron
        else .ok .unElectron
      else .ok .unElectron

/-- Python `sp.get_charge() < 0` / `> 0`: comparing the `None` of M with a number is a `TypeError`. -/
def cmpCharge (p : Int → Bool) (s : RP) : Except Err Bool :=
  match s.getCharge with
  | some c => .ok (p c)
  | none => .error .typeError

/-- plaschem/classification.py:319-360: electron collisions with one partner `a`; `n` is the net
number of electrons produced. `col_partner == heavy_product` (line 342) compares objects. -/
def classifyTwoBody (r : Reaction) (n : Int) (a : RP) : Except Err Cat :=
  let k := (heavy r.reactants).length
  let hs := heavy r.products
  if n > 0 then
    if k = hs.length then
      if a.getCharge = some 0 then .ok .ionization
      else match cmpCharge (· < 0) a with
        | .error e => .error e
        | .ok b => .ok (if b then .detachment else .unElectron)
    else if k < hs.length then
      .ok (if a.getCharge = some 0 then .dissIonization else .unElectron)
    else .ok .unElectron
  else if n = 0 then
    if r.getElastic then .ok .elastic
    else if k = hs.length then
      match hs with
      | [] => .error .indexError
      | h :: _ =>
        if isStateless a && !isStateless h then .ok .excitation
        else if !isStateless a && isStateless h then .ok .deexcitation
        else if !isStateless a && !isStateless h then
          .ok (if r.getElEnLoss > 0 then .excitation else .deexcitation)
        else .ok (if a = h then .otherLoss else .unElectron)
    else if k < hs.length then
      .ok (if hs.any (fun s => !isStateless s) then .dissExcitation else .dissociation)
    else .ok .unElectron
  else
    if k = hs.length then
      if a.getCharge = some 0 then .ok .attachment
      else match cmpCharge (0 < ·) a with
        | .error e => .error e
        | .ok b => .ok (if b then .recombination else .unElectron)
    else if k < hs.length then
      if a.getCharge = some 0 then .ok .dissAttachment
      else match cmpCharge (0 < ·) a with
        | .error e => .error e
        | .ok b => .ok (if b then .dissRecombination else .unElectron)
    else .ok .unElectron

/-- plaschem/classification.py:296-360: electron processes. `col_partners[0]` is an `IndexError` when
all reactants are electrons. -/
def classifyElectron (r : Reaction) (n : Int) : Except Err Cat :=
  match heavy r.reactants with
  | [] => .error .indexError
  | a :: _ =>
    if r.reactants.length < 2 then .ok .unElectron
    else if r.reactants.length > 3 then .ok .unElectron
    else if r.reactants.length = 3 then classifyThreeBody r
    else classifyTwoBody r n a

/-- plaschem/classification.py:373-374: number of species with a state. -/
def stateful (l : List RP) : Nat := (l.filter (fun s => !isStateless s)).length

/-- Python `set(xs) == set(ys)`. -/
def sameSet (xs ys : List Str) : Bool := xs.all (fun x => x ∈ ys) && ys.all (fun y => y ∈ xs)

/-- plaschem/classification.py:370-414: two neutral reactants. The test for 'interchange' (lines
410-413) subtracts a set from itself and is always true; its two `get_stateless` calls can raise. -/
def classifyNeutral (r : Reaction) (n : Int) : Except Err Cat :=
  let k := r.reactants.length
  let m := r.products.length
  let i := stateful r.reactants
  let j := stateful r.products
  if r.getElastic then .ok .scattering
  else if k > m then .ok .association
  else if n > 0 then
    if (k : Int) = m - n then
      if i > 0 ∧ j = 0 then .ok .penning
      else if i = j ∧ j = 0 then .ok .ionization
      else .ok .unNeutral
    else if (k : Int) < m - n then .ok .dissIonization
    else .ok .assocIonization
  else if n = 0 ∧ k < m then
    if r.reactants.any (fun s => s.name ∈ r.products.map RP.name) then
      if r.products.all (fun s => charge0 s = 0) then
        if i = j then .ok .dissociation
        else if i < j then .ok .dissExcitation
        else .ok .dissQuenching
      else .ok .unNeutral
    else .ok .unNeutral
  else if k = m then
    if i < j then .ok .excitation
    else if i > j then .ok .quenching
    else if i > 0 then
      match collect RP.getStateless r.reactants with
      | .error e => .error e
      | .ok xs =>
        match collect RP.getStateless r.products with
        | .error e => .error e
        | .ok ys => .ok (if sameSet xs ys then .transfer else .unNeutral)
    else
      match collect RP.getStateless r.reactants with
      | .error e => .error e
      | .ok _ => .ok .interchange
  else .ok .unNeutral

/-- `species[np.where(p(charges))[0][0]]`: the first species whose charge satisfies `p`. -/
def firstWith (p : Int → Bool) (l : List RP) : Except Err RP :=
  match l.find? (fun s => p (charge0 s)) with
  | some s => .ok s
  | none => .error .indexError

/-- plaschem/classification.py:424-429 and 447-452: charge transfer between an ion and a neutral; `c` is
the sign character stripped from the names. -/
def transferCategory (c : Char) (un : Cat) (rIon rNeutral pIon pNeutral : RP) : Cat :=
  if stripChar c rIon.name = pNeutral.name ∧ rNeutral.name = stripChar c pIon.name then
    if rNeutral.name = pNeutral.name ∧ rIon.name = pIon.name then .resonant else .charge
  else un

/-- plaschem/classification.py:416-432: no negative reactant and at least one positive one. -/
def classifyPositive (r : Reaction) : Except Err Cat :=
  match firstWith (0 < ·) r.reactants with
  | .error e => .error e
  | .ok rIon =>
    match firstWith (· = 0) r.reactants with
    | .error e => .error e
    | .ok rNeutral =>
      if r.products.length = r.reactants.length then
        match firstWith (0 < ·) r.products with
        | .error e => .error e
        | .ok pIon =>
          match firstWith (· = 0) r.products with
          | .error e => .error e
          | .ok pNeutral => .ok (transferCategory '+' .unPositive rIon rNeutral pIon pNeutral)
      else if r.products.length > r.reactants.length then
        .ok (if rNeutral.name ++ str!"+" ∈ r.products.map RP.name then .dissCharge else .unPositive)
      else .ok .unPositive

/-- plaschem/classification.py:434-452: no positive reactant and at least one negative one. -/
def classifyNegative (r : Reaction) (n : Int) : Except Err Cat :=
  match firstWith (· < 0) r.reactants with
  | .error e => .error e
  | .ok rIon =>
    match firstWith (· = 0) r.reactants with
    | .error e => .error e
    | .ok rNeutral =>
      if n > 0 then
        if (r.reactants.length : Int) = r.products.length - n then .ok .detachment
        else if (r.reactants.length : Int) > r.products.length - n then .ok .assocDetachment
        else .ok .unNegative
      else if r.products.length = r.reactants.length then
        match firstWith (· < 0) r.products with
        | .error e => .error e
        | .ok pIon =>
          match firstWith (· = 0) r.products with
          | .error e => .error e
          | .ok pNeutral => .ok (transferCategory '-' .unNegative rIon rNeutral pIon pNeutral)
      else .ok .unNegative

/-- pairing a category with its type. -/
def under (t : Typ) : Except Err Cat → Except Err Class
  | .ok c => .ok (t, c)
  | .error e => .error e

/-- plaschem/classification.py:369-462: two heavy reactants. -/
def classifyHeavy (r : Reaction) (n : Int) : Except Err Class :=
  if r.reactants.all (fun s => charge0 s = 0) then under .neutral (classifyNeutral r n)
  else if r.reactants.all (fun s => 0 ≤ charge0 s) then under .positive (classifyPositive r)
  else if r.reactants.all (fun s => charge0 s ≤ 0) then under .negative (classifyNegative r n)
  else if r.reactants.all (fun s => charge0 s ≠ 0) then
    if r.products.all (fun s => charge0 s = 0) then
      if r.reactants.length = r.products.length then .ok (.ionIon, .neutralization)
      else if r.reactants.length < r.products.length then .ok (.ionIon, .dissNeutralization)
      else .ok (.ionIon, .unIonIon)
    else .ok (.unclassified, .noCat)
  else .ok (.unclassified, .noCat)

/-- plaschem/classification.py:268-466 `_classify` without the memo table. -/
def classify (r : Reaction) : Except Err Class :=
  match elStoich r with
  | .error e => .error e
  | .ok n =>
    if r.isElectronProcess then under .electron (classifyElectron r n)
    else if r.reactants.length = 3 then .ok (.three, .noCat)
    else if r.reactants.length = 1 then
      if r.products.length = 1 then .ok (.decay, .noCat) else .ok (.unclassified, .noCat)
    else if r.reactants.length = 2 then classifyHeavy r n
    else .ok (.unclassified, .noCat)

end Verif.Plaschem.Classify
