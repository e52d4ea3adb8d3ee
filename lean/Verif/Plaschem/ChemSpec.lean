/-
Independent specification vocabulary for the disabling of species and reactions.
-/
import Verif.Plaschem.Chemistry

namespace Verif.Plaschem

/-- A part of a reaction network: a set of species ids and a set of reaction ids. -/
structure Sub where
  sp : Nat → Prop
  rx : Nat → Prop

/-- The part that is enabled in a state. -/
def State.enabledPart (st : State) : Sub where
  sp := fun i => st.enSp i = true
  rx := fun i => st.enR i = true

/-- Species `i` takes part in reaction `r`. -/
def Occurs (i : Nat) (r : Reaction) : Prop := ∃ p ∈ r.reactants ++ r.products, p.id = i

/-- A part of the network is self-consistent: a kept reaction keeps all its species and a kept species
occurs in some kept reaction. -/
def Sub.Consistent (net : Net) (X : Sub) : Prop :=
  (∀ r ∈ net.reactions, X.rx r.id → ∀ i, Occurs i r → X.sp i) ∧
  (∀ s ∈ net.species, X.sp s.id → ∃ r ∈ net.reactions, X.rx r.id ∧ Occurs s.id r)

/-- `X` is contained in `Y` (as far as species and reactions of `net` are concerned). -/
def Sub.Le (net : Net) (X Y : Sub) : Prop :=
  (∀ s ∈ net.species, X.sp s.id → Y.sp s.id) ∧ (∀ r ∈ net.reactions, X.rx r.id → Y.rx r.id)

/-- `X` contains none of the given species and reactions. -/
def Sub.Avoids (X : Sub) (S R : Nat → Prop) : Prop :=
  (∀ i, S i → ¬ X.sp i) ∧ (∀ i, R i → ¬ X.rx i)

/-- The identifier `x` (id, name or object) designates the species with id `i`. -/
def Designates (net : Net) : Net.SpIdent → Nat → Prop
  | .id j, i => j = i ∧ ∃ s ∈ net.species, s.id = i
  | .name n, i => ∃ s ∈ net.species, s.name = n ∧ s.id = i
  | .obj x, i => x ∈ net.species ∧ x.id = i

/-- Species `i` is designated by one of the identifiers. -/
def Requested (net : Net) (xs : List Net.SpIdent) (i : Nat) : Prop := ∃ x ∈ xs, Designates net x i

/-- Every identifier designates a species and every reaction id exists. -/
def Known (net : Net) (xs : List Net.SpIdent) (rs : List Nat) : Prop :=
  (∀ x ∈ xs, ∃ i, Designates net x i) ∧ (∀ i ∈ rs, ∃ r ∈ net.reactions, r.id = i)

/-! The least set of removals forced by a request: requested items that are enabled; a reaction
losing one of its species; a species all of whose enabled reactions are removed. -/
mutual
/-- species whose removal is forced by removing the species in `S` and the reactions in `R` -/
inductive ForcedS (net : Net) (st : State) (S R : Nat → Prop) : Nat → Prop
  | requested {i : Nat} : S i → st.enSp i = true → ForcedS net st S R i
  | isolated {s : RP} : s ∈ net.species → st.enSp s.id = true →
      (∀ r ∈ net.reactions, st.enR r.id = true → Occurs s.id r → ForcedR net st S R r.id) →
      ForcedS net st S R s.id
/-- reactions whose removal is forced -/
inductive ForcedR (net : Net) (st : State) (S R : Nat → Prop) : Nat → Prop
  | requested {i : Nat} : R i → st.enR i = true → ForcedR net st S R i
  | incomplete {r : Reaction} {i : Nat} : r ∈ net.reactions → st.enR r.id = true → Occurs i r →
      ForcedS net st S R i → ForcedR net st S R r.id
end

/-- A positive ion of the chemistry: neither electron nor M, with positive charge. -/
def PositiveIon (s : RP) : Prop := s.name ≠ str!"e" ∧ s.name ≠ str!"M" ∧ 0 < s.charge.getD 0

/-- Species `i` is protected, by the user or automatically. -/
def State.Protected (st : State) (i : Nat) : Prop := st.protSp i = true ∨ st.adhocSp i = true

/-- `i` is the only enabled positive ion. -/
def OnlyIon (net : Net) (st : State) (i : Nat) : Prop :=
  ∃ s ∈ net.species, s.id = i ∧ PositiveIon s ∧ st.enSp i = true ∧
    ∀ t ∈ net.species, PositiveIon t → st.enSp t.id = true → t = s

/-- The return species named by the species themselves all exist in the chemistry. -/
def Net.RetClosed (net : Net) : Prop :=
  ∀ s ∈ net.species, ∀ d, s.getRetCoefs = .ok (some d) → ∀ p ∈ d, ∃ t ∈ net.species, t.name = p.1

/-- States reached from a freshly constructed chemistry by any history of API calls (calls that raise
are part of the history). -/
inductive Reachable (net : Net) : State → Prop
  | init {st : State} : net.init = .ok st → Reachable net st
  | step {st : State} (o : Net.Op) : Reachable net st → Reachable net (net.step st o).1

end Verif.Plaschem
