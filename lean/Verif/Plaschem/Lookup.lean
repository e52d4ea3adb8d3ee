/-
C95: looking up species and reactions, in a chemistry and in a reaction.
-/
import Verif.Plaschem.ChemChar
import Verif.Plaschem.ChemProps

namespace Verif.Plaschem

namespace Net

/-- **C95.** `Chemistry.get_rp` returns the species designated by the identifier (an id, a name or the object); it does
not matter what is disabled. -/
theorem getRp_iff {net : Net} {st : State} (h : Reachable net st) (x : SpIdent) (s : RP) :
    net.getRp x = .ok s ↔ s ∈ net.species ∧ Designates net x s.id := by
  have hwf := (Net.reachable_inv h).1
  constructor
  · intro hg
    exact ⟨getRp_mem hg, (designates_of_getRp hwf hg s.id).2 rfl⟩
  · rintro ⟨hs, hd⟩
    obtain ⟨t, ht⟩ := getRp_of_designates hd
    have he := (designates_of_getRp hwf ht s.id).1 hd
    rw [ht, hwf.eq_of_id (getRp_mem ht) hs he.symm]

/-- **C95.** An identifier that designates nothing raises `ChemistrySpeciesNotPresentError`. -/
theorem getRp_error_iff {net : Net} {st : State} (h : Reachable net st) (x : SpIdent) (e : Err) :
    net.getRp x = .error e ↔ e = .speciesNotPresent ∧ ∀ i, ¬ Designates net x i := by
  have hwf := (Net.reachable_inv h).1
  constructor
  · intro hg
    have hn : ∀ i, ¬ Designates net x i := by
      intro i hi
      obtain ⟨t, ht⟩ := getRp_of_designates hi
      rw [hg] at ht; cases ht
    refine ⟨?_, hn⟩
    cases x <;> unfold getRp at hg <;> simp only at hg <;> split at hg <;> simp_all
  · rintro ⟨rfl, hn⟩
    cases hg : net.getRp x with
    | ok s => exact absurd ((designates_of_getRp hwf hg s.id).2 rfl) (hn _)
    | error e => cases x <;> unfold getRp at hg <;> simp only at hg <;> split at hg <;> simp_all

/-- **C95.** `Chemistry.get_reaction` returns the reaction with the id, whether enabled or not. -/
theorem getReaction_iff {net : Net} {st : State} (h : Reachable net st) (i : Nat) (r : Reaction) :
    net.getReaction i = .ok r ↔ r ∈ net.reactions ∧ r.id = i := by
  have hwf := (Net.reachable_inv h).1
  unfold getReaction
  cases hf : net.reactions.find? (fun r => decide (r.id = i)) with
  | none =>
    have := List.find?_eq_none.1 hf
    simp only [reduceCtorEq, false_iff]
    rintro ⟨hr, he⟩
    exact absurd (by simpa using he) (this r hr)
  | some t =>
    have ht := List.mem_of_find?_eq_some hf
    have hi : t.id = i := by simpa using List.find?_some hf
    simp only [Except.ok.injEq]
    constructor
    · rintro rfl; exact ⟨ht, hi⟩
    · rintro ⟨hr, he⟩
      exact List.inj_on_of_nodup_map hwf.rNodup ht hr (hi.trans he.symm)

/-- **C95.** An unknown reaction id raises `ChemistryReactionNotPresentError`. -/
theorem getReaction_error_iff {net : Net} (i : Nat) (e : Err) :
    net.getReaction i = .error e ↔ e = .reactionNotPresent ∧ ∀ r ∈ net.reactions, r.id ≠ i := by
  unfold getReaction
  cases hf : net.reactions.find? (fun r => decide (r.id = i)) with
  | none =>
    have := List.find?_eq_none.1 hf
    simp only [Except.error.injEq]
    constructor
    · rintro rfl; exact ⟨rfl, fun r hr he => this r hr (by simpa using he)⟩
    · rintro ⟨rfl, -⟩; rfl
  | some t =>
    simp only [reduceCtorEq, false_iff]
    rintro ⟨-, hn⟩
    exact hn t (List.mem_of_find?_eq_some hf) (by simpa using List.find?_some hf)

end Net

namespace Reaction

/-- **C95.** For a reaction of a chemistry `Reaction.get_rp` with a name returns the reactant or product of that name,
and with an id the one with that id. -/
theorem getRp_iff {net : Net} {st : State} (h : Reachable net st) {r : Reaction} (hr : r ∈ net.reactions) (s : RP) :
    (∀ n, r.getRpByName n = .ok s ↔ (s ∈ r.reactants ∨ s ∈ r.products) ∧ s.name = n) ∧
    (∀ i, r.getRpById i = .ok s ↔ (s ∈ r.reactants ∨ s ∈ r.products) ∧ s.id = i) := by
  have hwf := (Net.reachable_inv h).1
  have hm : (s ∈ r.reactants ∨ s ∈ r.products) ↔ s ∈ r.rps := by unfold rps; simp
  refine ⟨fun n => ?_, fun i => ?_⟩
  · rw [hm]
    unfold getRpByName
    by_cases hn : n ∈ r.rps.map RP.name
    · rw [if_pos hn]
      cases hf : r.rps.find? (fun s => decide (s.name = n)) with
      | none =>
        obtain ⟨t, ht, he⟩ := List.mem_map.1 hn
        exact absurd (by simpa using he) (List.find?_eq_none.1 hf t ht)
      | some t =>
        have ht := List.mem_of_find?_eq_some hf
        have hi : t.name = n := by simpa using List.find?_some hf
        simp only [Except.ok.injEq]
        constructor
        · rintro rfl; exact ⟨ht, hi⟩
        · rintro ⟨hs, he⟩
          exact hwf.eq_of_name (hwf.closed r hr t ht) (hwf.closed r hr s hs) (hi.trans he.symm)
    · rw [if_neg hn]
      simp only [reduceCtorEq, false_iff]
      rintro ⟨hs, he⟩
      exact hn (List.mem_map.2 ⟨s, hs, he⟩)
  · rw [hm]
    unfold getRpById
    by_cases hn : i ∈ r.rps.map RP.id
    · rw [if_pos hn]
      cases hf : r.rps.find? (fun s => decide (s.id = i)) with
      | none =>
        obtain ⟨t, ht, he⟩ := List.mem_map.1 hn
        exact absurd (by simpa using he) (List.find?_eq_none.1 hf t ht)
      | some t =>
        have ht := List.mem_of_find?_eq_some hf
        have hi : t.id = i := by simpa using List.find?_some hf
        simp only [Except.ok.injEq]
        constructor
        · rintro rfl; exact ⟨ht, hi⟩
        · rintro ⟨hs, he⟩
          exact hwf.eq_of_id (hwf.closed r hr t ht) (hwf.closed r hr s hs) (hi.trans he.symm)
    · rw [if_neg hn]
      simp only [reduceCtorEq, false_iff]
      rintro ⟨hs, he⟩
      exact hn (List.mem_map.2 ⟨s, hs, he⟩)

/-- **C95.** Anything else raises `ValueError`. -/
theorem getRp_error_iff (r : Reaction) (e : Err) :
    (∀ n, r.getRpByName n = .error e ↔ e = .valueError ∧ ∀ s, s ∈ r.reactants ∨ s ∈ r.products → s.name ≠ n) ∧
    (∀ i, r.getRpById i = .error e ↔ e = .valueError ∧ ∀ s, s ∈ r.reactants ∨ s ∈ r.products → s.id ≠ i) := by
  have hm : ∀ s, (s ∈ r.reactants ∨ s ∈ r.products) ↔ s ∈ r.rps := by intro s; unfold rps; simp
  refine ⟨fun n => ?_, fun i => ?_⟩
  · unfold getRpByName
    by_cases hn : n ∈ r.rps.map RP.name
    · obtain ⟨t, ht, he⟩ := List.mem_map.1 hn
      rw [if_pos hn]
      cases hf : r.rps.find? (fun s => decide (s.name = n)) with
      | none => exact absurd (by simpa using he) (List.find?_eq_none.1 hf t ht)
      | some u =>
        simp only [reduceCtorEq, false_iff]
        rintro ⟨-, h⟩
        exact h t ((hm t).2 ht) he
    · rw [if_neg hn]
      simp only [Except.error.injEq]
      constructor
      · rintro rfl
        exact ⟨rfl, fun s hs he => hn (List.mem_map.2 ⟨s, (hm s).1 hs, he⟩)⟩
      · rintro ⟨rfl, -⟩; rfl
  · unfold getRpById
    by_cases hn : i ∈ r.rps.map RP.id
    · obtain ⟨t, ht, he⟩ := List.mem_map.1 hn
      rw [if_pos hn]
      cases hf : r.rps.find? (fun s => decide (s.id = i)) with
      | none => exact absurd (by simpa using he) (List.find?_eq_none.1 hf t ht)
      | some u =>
        simp only [reduceCtorEq, false_iff]
        rintro ⟨-, h⟩
        exact h t ((hm t).2 ht) he
    · rw [if_neg hn]
      simp only [Except.error.injEq]
      constructor
      · rintro rfl
        exact ⟨rfl, fun s hs he => hn (List.mem_map.2 ⟨s, (hm s).1 hs, he⟩)⟩
      · rintro ⟨rfl, -⟩; rfl

end Reaction

/-- the metastable is found by its name although it has been disabled, and a name that does not occur is refused -/
example : ∃ st', Reachable Demo.net st' ∧ st'.enSp 4 = false ∧
    ((Demo.net.getRp (.name str!"Ar*")).toOption.map RP.id) = some 4 ∧
    (Demo.net.getRp (.name str!"Kr")).toOption = none ∧
    (Demo.net.getReaction 3).toOption.map Reaction.id = some 3 ∧
    (Demo.net.reactions.map (fun r => (r.getRpByName str!"Ar*").toOption.map RP.id)).filterMap id ≠ [] :=
  ⟨_, .step (.disable [.name str!"Ar*"] []) Demo.reach0, by decide +kernel, by decide +kernel, by decide +kernel,
    by decide +kernel, by decide +kernel⟩

end Verif.Plaschem
