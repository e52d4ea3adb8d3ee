import Verif.Plaschem.ReactProps2

/-!
# Kinds of processes and the collision partner of the electron

plaschem/reactions.py:308-320, 399-414, 557-571: `is_electron_process`, `is_ion_process`,
`get_electron_collision_partner`, `get_special_number`.
-/

namespace Verif.Plaschem
namespace Reaction

/-- plaschem/reactions.py:315-320 `is_ion_process`: `.any()` of the charges of the reactants that are not
special. -/
def isIonProcess (r : Reaction) : Bool :=
  ((r.reactants.filter (fun s => ¬ s.isSpecial)).map RP.getCharge).any (fun c => c ≠ some 0)

/-- **Specification.** a heavy species: neither the electron nor the arbitrary partner M -/
def Heavy (s : RP) : Prop := s.name ≠ str!"e" ∧ s.name ≠ str!"M"

private theorem heavy_iff (s : RP) : s.isSpecial = false ↔ Heavy s := Net.special_false_iff s

private theorem special_iff (s : RP) : s.isSpecial = true ↔ ¬ Heavy s := by
  rw [← heavy_iff]; simp

private theorem electron_iff (r : Reaction) :
    r.isElectronProcess = true ↔ ∃ s ∈ r.reactants, s.name = str!"e" := by
  simp [isElectronProcess]

/-- **The collision partner is the first heavy reactant of a process with an electron reactant.** -/
theorem partner_iff (r : Reaction) (s : RP) : r.getElectronCollisionPartner = .ok s ↔
    (∃ t ∈ r.reactants, t.name = str!"e") ∧ Heavy s ∧
      ∃ before after, r.reactants = before ++ s :: after ∧ ∀ t ∈ before, ¬ Heavy t := by
  unfold getElectronCollisionPartner
  rw [← electron_iff]
  by_cases he : r.isElectronProcess = true
  · rw [if_neg (not_not.2 he)]
    simp only [he, true_and]
    cases hf : r.reactants.find? (fun s => decide (¬ s.isSpecial = true)) with
    | none =>
      simp only [reduceCtorEq, false_iff, not_and, not_exists]
      rintro hs b a hba -
      have := List.find?_eq_none.1 hf s (by rw [hba]; simp)
      simp only [decide_eq_true_eq, not_not, special_iff] at this
      exact this hs
    | some t =>
      simp only [Except.ok.injEq]
      obtain ⟨h1, b, a, hba, hb⟩ := List.find?_eq_some_iff_append.1 hf
      simp only [decide_eq_true_eq, special_iff, not_not] at h1
      simp only [Bool.not_eq_true', decide_eq_false_iff_not, not_not, special_iff] at hb
      constructor
      · rintro rfl; exact ⟨h1, b, a, hba, hb⟩
      · rintro ⟨hs, b', a', hba', hb'⟩
        have hf' : r.reactants.find? (fun s => decide (¬ s.isSpecial = true)) = some s := by
          refine List.find?_eq_some_iff_append.2 ⟨?_, b', a', hba', fun u hu => ?_⟩
          · simp only [decide_eq_true_eq, special_iff, not_not]; exact hs
          · simp only [Bool.not_eq_true', decide_eq_false_iff_not, not_not, special_iff]
            exact hb' u hu
        rw [hf] at hf'; exact Option.some.inj hf'
  · rw [if_pos he]
    simp [he]

/-- **There is no collision partner exactly if there is no electron or nothing heavy to collide with**, and
then the call raises `ReactionValueError`. -/
theorem partner_error_iff (r : Reaction) (e : Err) : r.getElectronCollisionPartner = .error e ↔
    e = .reactionValue ∧ ((∀ t ∈ r.reactants, t.name ≠ str!"e") ∨ ∀ t ∈ r.reactants, ¬ Heavy t) := by
  have hall : (r.reactants.find? (fun s => decide (¬ s.isSpecial = true)) = none) ↔
      ∀ t ∈ r.reactants, ¬ Heavy t := by
    rw [List.find?_eq_none]
    simp only [decide_eq_true_eq, not_not, special_iff]
  have hel : r.isElectronProcess = false ↔ ∀ t ∈ r.reactants, t.name ≠ str!"e" := by
    rw [← Bool.not_eq_true, electron_iff]; simp
  rw [← hall, ← hel]
  unfold getElectronCollisionPartner
  by_cases he : r.isElectronProcess = true
  · rw [if_neg (not_not.2 he)]
    split
    · rename_i hf
      refine ⟨fun h => (by cases h), fun h => ?_⟩
      rcases h.2 with h | h
      · rw [he] at h; cases h
      · rw [hf] at h; cases h
    · rename_i hf
      exact ⟨fun h => (by cases h; exact ⟨rfl, .inr hf⟩), fun h => (by rw [h.1])⟩
  · rw [if_pos he]
    exact ⟨fun h => (by cases h; exact ⟨rfl, .inl (by simpa using he)⟩), fun h => (by rw [h.1])⟩

/-- **The partner of a process with a single heavy reactant does not depend on the order of the
reactants**, nor on anything else of the reaction. -/
theorem partner_perm {r r' : Reaction} (hp : r'.reactants.Perm r.reactants) {s : RP}
    (hu : ∀ t ∈ r.reactants, Heavy t → t = s) (h : r.getElectronCollisionPartner = .ok s) :
    r'.getElectronCollisionPartner = .ok s := by
  obtain ⟨⟨t, ht, hte⟩, hs, b, a, hba, -⟩ := (partner_iff r s).1 h
  have hmem : s ∈ r'.reactants := hp.mem_iff.2 (by rw [hba]; simp)
  cases hr : r'.getElectronCollisionPartner with
  | ok u =>
    obtain ⟨-, hh, b', a', hba', -⟩ := (partner_iff r' u).1 hr
    rw [hu u (hp.mem_iff.1 (by rw [hba']; simp)) hh]
  | error e =>
    obtain ⟨-, h1 | h1⟩ := (partner_error_iff r' e).1 hr
    · exact absurd hte (h1 t (hp.mem_iff.2 ht))
    · exact absurd hs (h1 s hmem)

/-- **An ion process is one with a charged heavy reactant.** -/
theorem ion_process_iff (r : Reaction) : r.isIonProcess = true ↔
    ∃ s ∈ r.reactants, Heavy s ∧ s.chargeOf ≠ 0 := by
  unfold isIonProcess
  simp only [List.any_map, List.any_eq_true, List.mem_filter, decide_eq_true_eq, special_iff, not_not,
    Function.comp_apply, and_assoc]
  constructor
  · rintro ⟨s, h1, h2, h3⟩
    refine ⟨s, h1, h2, fun hc => h3 ?_⟩
    unfold RP.chargeOf at hc
    unfold RP.getCharge at hc ⊢
    rw [if_neg h2.2] at hc ⊢
    cases hch : s.charge <;> simp_all
  · rintro ⟨s, h1, h2, h3⟩
    refine ⟨s, h1, h2, fun hc => h3 ?_⟩
    simp [RP.chargeOf, hc]

/-- **A process with neither electrons nor ions among its reactants creates no net charge.** -/
theorem neutral_process_products {F : Str → Option (Dict Str Nat)} (hF : GoodParser F) {a : ReactionArgs}
    {r : Reaction} (h : Reaction.init F a = .ok r) (he : r.isElectronProcess = false)
    (hi : r.isIonProcess = false) : (r.products.map RP.chargeOf).sum = 0 := by
  rw [← (reaction_init_balanced hF h).1.1]
  apply List.sum_eq_zero
  intro c hc
  obtain ⟨s, hs, rfl⟩ := List.mem_map.1 hc
  by_contra hne
  have hni : ¬ r.isIonProcess = true := by simp [hi]
  have hne' : ¬ r.isElectronProcess = true := by simp [he]
  rw [ion_process_iff] at hni
  rw [electron_iff] at hne'
  refine hni ⟨s, hs, ⟨fun hn => hne' ⟨s, hs, hn⟩, fun hn => hne ?_⟩, hne⟩
  simp [RP.chargeOf, RP.getCharge, hn]

/-- **The special number** is the one given, otherwise 10 for a process with an electron reactant and 20
for any other. -/
theorem special_number (r : Reaction) : (∀ n, r.specialNumber = some n → r.getSpecialNumber = n) ∧
    (r.specialNumber = none → (∃ s ∈ r.reactants, s.name = str!"e") → r.getSpecialNumber = 10) ∧
    (r.specialNumber = none → (∀ s ∈ r.reactants, s.name ≠ str!"e") → r.getSpecialNumber = 20) := by
  refine ⟨fun n h => by simp [getSpecialNumber, h], fun h he => ?_, fun h he => ?_⟩
  · simp [getSpecialNumber, h, (electron_iff r).2 he]
  · have : r.isElectronProcess = false := by rw [← Bool.not_eq_true, electron_iff]; simpa using he
    simp [getSpecialNumber, h, this]

/-- **Order does not matter** for the kind of a process. -/
theorem kind_perm {r r' : Reaction} (hp : r'.reactants.Perm r.reactants) :
    r'.isElectronProcess = r.isElectronProcess ∧ r'.isIonProcess = r.isIonProcess := by
  constructor <;> rw [Bool.eq_iff_iff]
  · simp only [electron_iff, hp.mem_iff]
  · simp only [ion_process_iff, hp.mem_iff]

/-! ### Concrete cases -/

/-- e + O2 > O + O + e: the partner is O2 and it is neither an ion process; the order of the reactants
does not matter -/
example : DemoR.r.getElectronCollisionPartner = .ok DemoR.O2 ∧ DemoR.r.isIonProcess = false ∧
    DemoR.r.getSpecialNumber = 10 ∧
    ({ DemoR.r with reactants := [DemoR.e, DemoR.O2] } : Reaction).getElectronCollisionPartner = .ok DemoR.O2 :=
  ⟨rfl, rfl, rfl, rfl⟩

/-- the hypotheses of `partner_perm` -/
example : ∀ t ∈ DemoR.r.reactants, Heavy t → t = DemoR.O2 := by
  simp [DemoR.r, DemoR.O2, DemoR.e, Heavy]

/-- O2- + M is an ion process without a partner for an electron; e + M has none either; an electron meeting
two heavy species is said to collide with the first one -/
example : ({ DemoR.r with reactants := [DemoR.O2m, DemoR.M] } : Reaction).isIonProcess = true ∧
    ({ DemoR.r with reactants := [DemoR.O2m, DemoR.M] } : Reaction).getElectronCollisionPartner =
      .error .reactionValue ∧
    ({ DemoR.r with reactants := [DemoR.e, DemoR.M] } : Reaction).getElectronCollisionPartner =
      .error .reactionValue ∧
    ({ DemoR.r with reactants := [DemoR.e, DemoR.O, DemoR.O2] } : Reaction).getElectronCollisionPartner =
      .ok DemoR.O ∧
    ({ DemoR.r with reactants := [DemoR.O2, DemoR.O, DemoR.e] } : Reaction).getElectronCollisionPartner =
      .ok DemoR.O2 := ⟨rfl, rfl, rfl, rfl, rfl⟩

/-- O2 + O2 > O2 + O2 is neither an electron nor an ion process -/
example : ∃ r, Reaction.init DemoR.F { DemoR.args with products := [DemoR.O2, DemoR.O2], reactants := [DemoR.O2, DemoR.O2] } = .ok r ∧
    r.isElectronProcess = false ∧ r.isIonProcess = false :=
  ⟨{ DemoR.r with products := [DemoR.O2, DemoR.O2], reactants := [DemoR.O2, DemoR.O2] }, rfl, rfl, rfl⟩

end Reaction
end Verif.Plaschem
