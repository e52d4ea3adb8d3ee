/-
C11, continued: the sets of names and ids of a reaction.
-/
import Verif.Plaschem.ChemLemmas

namespace Verif.Plaschem

/-- Specification: `l` has the values of `all`, each once, in the order in which they first occur there. -/
structure DistinctOf {α : Type} [DecidableEq α] (all l : List α) : Prop where
  mem : ∀ a, a ∈ l ↔ a ∈ all
  once : l.Nodup
  order : l.Pairwise fun a b => all.idxOf a < all.idxOf b

theorem distinctOf_orderedSet {α : Type} [DecidableEq α] (all : List α) : DistinctOf all (orderedSet all) := by
  refine ⟨mem_orderedSet all, nodup_orderedSet _, ?_⟩
  induction all with
  | nil => exact .nil
  | cons x xs ih =>
    unfold orderedSet
    refine List.pairwise_cons.2 ⟨fun a ha => ?_, ?_⟩
    · have hne : a ≠ x := by simpa using (List.mem_filter.1 ha).2
      rw [List.idxOf_cons_self, List.idxOf_cons_ne _ (Ne.symm hne)]
      omega
    · refine (ih.filter _).imp_of_mem fun {a b} ha hb hlt => ?_
      have h1 : a ≠ x := by simpa using (List.mem_filter.1 ha).2
      have h2 : b ≠ x := by simpa using (List.mem_filter.1 hb).2
      rw [List.idxOf_cons_ne _ (Ne.symm h1), List.idxOf_cons_ne _ (Ne.symm h2)]
      omega

/-- **C11.** `get_rp_names_set` and `get_rp_ids_set`: the names (ids) of the reactants, of the products or of both, each once, in
the order of reactants and products; any other method raises `ReactionValueError`. -/
theorem rp_sets (r : Reaction) :
    (∃ l, r.getRpNamesSet .lhs = .ok l ∧ DistinctOf (r.reactants.map RP.name) l) ∧
    (∃ l, r.getRpNamesSet .rhs = .ok l ∧ DistinctOf (r.products.map RP.name) l) ∧
    (∃ l, r.getRpNamesSet .all = .ok l ∧ DistinctOf ((r.reactants ++ r.products).map RP.name) l) ∧
    (∃ l, r.getRpIdsSet .lhs = .ok l ∧ DistinctOf (r.reactants.map RP.id) l) ∧
    (∃ l, r.getRpIdsSet .rhs = .ok l ∧ DistinctOf (r.products.map RP.id) l) ∧
    (∃ l, r.getRpIdsSet .all = .ok l ∧ DistinctOf ((r.reactants ++ r.products).map RP.id) l) ∧
    ∀ m, m ≠ .lhs → m ≠ .rhs → m ≠ .all →
      r.getRpNamesSet m = .error .reactionValue ∧ r.getRpIdsSet m = .error .reactionValue := by
  refine ⟨⟨_, rfl, distinctOf_orderedSet _⟩, ⟨_, rfl, distinctOf_orderedSet _⟩, ⟨_, rfl, ?_⟩, ⟨_, rfl, distinctOf_orderedSet _⟩,
    ⟨_, rfl, distinctOf_orderedSet _⟩, ⟨_, rfl, ?_⟩, ?_⟩
  · rw [List.map_append]; exact distinctOf_orderedSet _
  · rw [List.map_append]; exact distinctOf_orderedSet _
  · intro m h1 h2 h3
    cases m <;> first | contradiction | exact ⟨rfl, rfl⟩

end Verif.Plaschem
