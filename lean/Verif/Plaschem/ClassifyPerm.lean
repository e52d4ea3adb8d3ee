/-
C51: collisions of electrons with two further partners, and the class of a reaction depends on nothing but the
species on both sides (in any order), the elastic flag and the energy loss.
-/
import Verif.Plaschem.ClassifyHeavy
import Mathlib.Data.List.Permutation
import Mathlib.Tactic.CongrExclamation

namespace Verif.Plaschem.Classify
open Verif.Plaschem

variable {F : Str → Option (Dict Str Nat)} {r r' : Reaction}

theorem chargeTotal_eq (l : List RP) : chargeTotal l = (l.map RP.chargeOf).sum := by
  induction l with
  | nil => rfl
  | cons s l ih =>
    unfold chargeTotal at ih ⊢
    cases h : s.getCharge with
    | none => simp [h, ih, RP.chargeOf]
    | some c => simp [h, ih, RP.chargeOf]

/-- every heavy reactant appears among the products, up to state and charge -/
def HeavyRecur (r : Reaction) : Prop :=
  ∀ s ∈ heavy r.reactants, ∃ t ∈ heavy r.products, ∃ g, ground s = .ok g ∧ ground t = .ok g

open Classical in
theorem threeBody_eq (hv : Valid F r) :
    classifyThreeBody r = .ok (
      if HeavyRecur r ∧ nE r.products < nE r.reactants then
        if 0 < ((heavy r.reactants).map RP.chargeOf).sum then .threeRecombination
        else if ((heavy r.products).map RP.chargeOf).sum < 0 then .threeAttachment
        else .unElectron
      else .unElectron) := by
  have hb := charge_balance hv
  have hgr : ∀ l : List RP, (∀ s ∈ l, s ∈ r.rps) → ∃ gs, collect ground (heavy l) = .ok gs := fun l hl =>
    collect_ok fun s hs => ground_ok (hv.parses s (hl s (mem_heavy.1 hs).1))
  obtain ⟨gs, hgs⟩ := hgr r.reactants (fun s hs => by simp [Reaction.rps, hs])
  obtain ⟨hs, hhs⟩ := hgr r.products (fun s hs => by simp [Reaction.rps, hs])
  have hrec : (gs.all fun g => decide (g ∈ hs)) = true ↔ HeavyRecur r := by
    simp only [List.all_eq_true, decide_eq_true_eq, collect_mem hgs, collect_mem hhs, HeavyRecur]
    constructor
    · intro h s hs'
      obtain ⟨g, hg⟩ := ground_ok (hv.parses s (by simp [Reaction.rps, (mem_heavy.1 hs').1]))
      obtain ⟨t, ht, htg⟩ := h g ⟨s, hs', hg⟩
      exact ⟨t, ht, g, hg, htg⟩
    · rintro h g ⟨s, hs', hg⟩
      obtain ⟨t, ht, g', h1, h2⟩ := h s hs'
      rw [hg] at h1
      cases h1
      exact ⟨t, ht, h2⟩
  unfold classifyThreeBody
  rw [hgs, hhs]
  simp only [chargeTotal_eq]
  by_cases h1 : HeavyRecur r
  · rw [if_pos (hrec.2 h1)]
    by_cases h2 : nE r.products < nE r.reactants
    · rw [if_pos (by omega), if_pos (And.intro h1 h2)]
      by_cases h3 : 0 < ((heavy r.reactants).map RP.chargeOf).sum
      · rw [if_pos h3, if_pos h3]
      rw [if_neg h3, if_neg h3]
      by_cases h4 : ((heavy r.products).map RP.chargeOf).sum < 0
      · rw [if_pos h4, if_pos h4]
      · rw [if_neg h4, if_neg h4]
    · rw [if_neg (by omega), if_neg (fun h => h2 h.2)]
  · rw [if_neg (fun h => h1 (hrec.1 h)), if_neg (fun h => h1 h.1)]

/-- an electron and two further partners, not all of them electrons -/
def ThreeWithElectron (r : Reaction) : Prop :=
  r.reactants.length = 3 ∧ 1 ≤ nE r.reactants ∧ nE r.reactants ≤ 2

theorem three_iff (hv : Valid F r) {c : Cat} (hc : c ∈ [Cat.threeAttachment, .threeRecombination]) :
    classify r = .ok (.electron, c) ↔ ThreeWithElectron r ∧ classifyThreeBody r = .ok c := by
  have hsum := nE_add_heavy r.reactants
  rw [classify_eq hv]
  constructor
  · intro h
    split at h
    · have h := (under_ok h).2
      unfold classifyElectron at h
      split at h
      · cases h
      rename_i A l hA
      rw [hA, List.length_cons] at hsum
      split at h
      · cases h; exact absurd hc (by decide)
      split at h
      · cases h; exact absurd hc (by decide)
      split at h
      · exact ⟨⟨by assumption, by omega, by omega⟩, h⟩
      · have h2 := two_cats h
        simp only [List.mem_cons, List.not_mem_nil, or_false] at hc
        rcases hc with rfl | rfl
        · exact absurd h2 (by decide)
        · exact absurd h2 (by decide)
    · split at h
      · cases h
      split at h
      · split at h <;> cases h
      split at h
      · unfold classifyHeavy at h
        repeat' split at h
        all_goals first | cases (under_ok h).1 | cases h
      · cases h
  · rintro ⟨⟨h3, h1, h2⟩, h⟩
    rw [if_pos (by omega)]
    unfold classifyElectron
    cases hA : heavy r.reactants with
    | nil => rw [hA] at hsum; simp at hsum; omega
    | cons A l =>
      simp only
      rw [if_neg (by omega), if_neg (by omega), if_pos h3, h]
      rfl

/-- **C51.** Three-body recombination: electrons are captured, the heavy reactants carry positive charge
in total, and each of them recurs among the products up to state and charge. -/
theorem three_body_recombination_iff (hv : Valid F r) :
    classify r = .ok (.electron, .threeRecombination) ↔
      ThreeWithElectron r ∧ HeavyRecur r ∧ nE r.products < nE r.reactants ∧
        0 < ((heavy r.reactants).map RP.chargeOf).sum := by
  rw [three_iff hv (by decide), threeBody_eq hv]
  refine and_congr_right fun _ => ?_
  constructor
  · intro h
    repeat' split at h
    all_goals first | (cases h; done) | skip
    rename_i h1 h2
    exact ⟨h1.1, h1.2, h2⟩
  · rintro ⟨h1, h2, h3⟩
    rw [if_pos (And.intro h1 h2), if_pos h3]

/-- **C51.** Three-body attachment: electrons are captured, the heavy reactants carry no positive charge in
total and the heavy products a negative one, and each heavy reactant recurs among the products. -/
theorem three_body_attachment_iff (hv : Valid F r) :
    classify r = .ok (.electron, .threeAttachment) ↔
      ThreeWithElectron r ∧ HeavyRecur r ∧ nE r.products < nE r.reactants ∧
        ((heavy r.reactants).map RP.chargeOf).sum ≤ 0 ∧ ((heavy r.products).map RP.chargeOf).sum < 0 := by
  rw [three_iff hv (by decide), threeBody_eq hv]
  refine and_congr_right fun _ => ?_
  constructor
  · intro h
    repeat' split at h
    all_goals first | (cases h; done) | skip
    rename_i h1 h2 h3
    exact ⟨h1.1, h1.2, by omega, h3⟩
  · rintro ⟨h1, h2, h3, h4⟩
    rw [if_pos (And.intro h1 h2), if_neg (by omega), if_pos h4]

/-! ### the order of reactants and products does not matter -/

theorem nE_perm {l l' : List RP} (h : l.Perm l') : nE l = nE l' := h.countP_eq _

theorem nX_perm {l l' : List RP} (h : l.Perm l') : nX l = nX l' := h.countP_eq _

theorem heavy_perm {l l' : List RP} (h : l.Perm l') : (heavy l).Perm (heavy l') := h.filter _

theorem all_perm {l l' : List RP} (h : l.Perm l') (p : RP → Bool) : l.all p = l'.all p := by
  rw [Bool.eq_iff_iff, List.all_eq_true, List.all_eq_true]
  exact ⟨fun a s hs => a s (h.mem_iff.2 hs), fun a s hs => a s (h.mem_iff.1 hs)⟩

/-- the same species on both sides, the same elastic flag and energy loss -/
structure Similar (r r' : Reaction) : Prop where
  reactants : r.reactants.Perm r'.reactants
  products : r.products.Perm r'.products
  elastic : r.elastic = r'.elastic
  loss : r.getElEnLoss = r'.getElEnLoss

theorem Similar.rps (h : Similar r r') : ∀ s, s ∈ r'.rps ↔ s ∈ r.rps := by
  intro s
  simp [Reaction.rps, h.reactants.mem_iff, h.products.mem_iff]

theorem Similar.valid (h : Similar r r') (hv : Valid F r) : Valid F r' where
  parses := fun s hs => hv.parses s ((h.rps s).1 hs)
  balanced := by
    have := hv.balanced
    refine ⟨?_, fun a => ?_⟩
    · rw [← (h.reactants.map RP.chargeOf).sum_eq, ← (h.products.map RP.chargeOf).sum_eq]; exact this.1
    · rw [← (h.reactants.map _).sum_eq, ← (h.products.map _).sum_eq]; exact this.2 a
  short := by
    rw [← h.reactants.length_eq, ← h.products.length_eq]; exact hv.short
  idname := fun s hs t ht => hv.idname s ((h.rps s).1 hs) t ((h.rps t).1 ht)
  electron := fun s hs => hv.electron s ((h.rps s).1 hs)

theorem Similar.getElastic (h : Similar r r') : r.getElastic = r'.getElastic := by
  unfold Reaction.getElastic
  rw [h.elastic]
  cases r'.elastic with
  | some b => rfl
  | none =>
    simp only
    rw [Bool.eq_iff_iff]
    simp [h.reactants.mem_iff, h.products.mem_iff]

theorem Similar.symm (h : Similar r r') : Similar r' r :=
  ⟨h.reactants.symm, h.products.symm, h.elastic.symm, h.loss.symm⟩

theorem Similar.heavyRecur (h : Similar r r') (hc : HeavyRecur r) : HeavyRecur r' := by
  intro s hs
  obtain ⟨t, ht, hg⟩ := hc s ((heavy_perm h.reactants).mem_iff.2 hs)
  exact ⟨t, (heavy_perm h.products).mem_iff.1 ht, hg⟩

theorem Similar.sameGround (h : Similar r r') (hc : SameGround r) : SameGround r' := by
  intro x
  have := hc x
  simpa [h.reactants.mem_iff, h.products.mem_iff] using this

theorem Similar.threeBody (h : Similar r r') (hv : Valid F r) :
    classifyThreeBody r = classifyThreeBody r' := by
  have h1 : HeavyRecur r = HeavyRecur r' := propext ⟨h.heavyRecur, h.symm.heavyRecur⟩
  rw [threeBody_eq hv, threeBody_eq (h.valid hv), h1, nE_perm h.reactants, nE_perm h.products,
    ((heavy_perm h.reactants).map RP.chargeOf).sum_eq, ((heavy_perm h.products).map RP.chargeOf).sum_eq]

theorem Similar.neutral (h : Similar r r') (hv : Valid F r) (h2 : r.reactants.length = 2) :
    classifyNeutral r (nE r.products) = classifyNeutral r' (nE r'.products) := by
  have h1 : SameGround r = SameGround r' := propext ⟨h.sameGround, h.symm.sameGround⟩
  have h3 : (∃ s ∈ r.reactants, s.name ∈ r.products.map RP.name) =
      ∃ s ∈ r'.reactants, s.name ∈ r'.products.map RP.name := by
    simp [h.reactants.mem_iff, h.products.mem_iff]
  have h4 : (∀ s ∈ r.products, s.chargeOf = 0) = ∀ s ∈ r'.products, s.chargeOf = 0 := by
    simp [h.products.mem_iff]
  have h34 := congrArg₂ And h3 h4
  rw [neutral_eq hv h2, neutral_eq (h.valid hv) (by rw [← h.reactants.length_eq, h2]), h1,
    h.getElastic, h.products.length_eq, nE_perm h.products, (heavy_perm h.products).length_eq,
    nX_perm h.reactants, nX_perm h.products]
  congr! 10

theorem all_perm_any {l l' : List RP} (h : l.Perm l') (p : RP → Bool) : l'.any p = l.any p := by
  rw [Bool.eq_iff_iff, List.any_eq_true, List.any_eq_true]
  simp [h.mem_iff]

theorem Similar.twoBody (h : Similar r r') (n : Int) {A : RP} (hA : heavy r.reactants = [A]) :
    classifyTwoBody r n A = classifyTwoBody r' n A := by
  have hp := heavy_perm h.products
  unfold classifyTwoBody
  simp only
  rw [(heavy_perm h.reactants).length_eq.symm, hp.length_eq.symm, h.getElastic, h.loss, all_perm_any hp]
  by_cases hn : n = 0
  · by_cases hl : (heavy r.reactants).length = (heavy r.products).length
    · rw [hA] at hl
      obtain ⟨B, hB⟩ := List.length_eq_one_iff.1 hl.symm
      rw [hB] at hp
      rw [hB, List.singleton_perm.1 hp]
    · simp only [if_neg hl]
  · simp only [if_neg hn]

theorem Similar.electron (h : Similar r r') (hv : Valid F r) (hE : 0 < nE r.reactants) (n : Int) :
    classifyElectron r n = classifyElectron r' n := by
  have hp := heavy_perm h.reactants
  have hs := nE_add_heavy r.reactants
  unfold classifyElectron
  cases hr : heavy r.reactants with
  | nil =>
    rw [hr] at hp
    rw [List.nil_perm.1 hp]
  | cons A l =>
    cases hr' : heavy r'.reactants with
    | nil =>
      rw [hr, hr'] at hp
      exact absurd hp.symm (by simp)
    | cons A' l' =>
      simp only
      rw [h.reactants.length_eq, h.threeBody hv]
      by_cases h1 : r'.reactants.length < 2
      · rw [if_pos h1, if_pos h1]
      rw [if_neg h1, if_neg h1]
      by_cases h2 : r'.reactants.length > 3
      · rw [if_pos h2, if_pos h2]
      rw [if_neg h2, if_neg h2]
      by_cases h3 : r'.reactants.length = 3
      · rw [if_pos h3, if_pos h3]
      rw [if_neg h3, if_neg h3]
      rw [hr, List.length_cons, h.reactants.length_eq] at hs
      have hl : l = [] := List.length_eq_zero_iff.1 (by omega)
      rw [hl] at hr
      rw [hr, hr'] at hp
      have := List.singleton_perm.1 hp
      cases this
      exact h.twoBody n hr

/-- `firstWith` fails in one order exactly if in the other, with the same error -/
theorem firstWith_perm {p : Int → Bool} {l l' : List RP} (h : l.Perm l') :
    (∃ s ∈ l, ∃ s' ∈ l', firstWith p l = .ok s ∧ firstWith p l' = .ok s' ∧ p s.chargeOf = true ∧
        p s'.chargeOf = true) ∨
      (firstWith p l = .error .indexError ∧ firstWith p l' = .error .indexError) := by
  by_cases he : ∃ s ∈ l, p s.chargeOf = true
  · left
    obtain ⟨s, hs⟩ := firstWith_exists he
    obtain ⟨s', hs'⟩ := firstWith_exists (p := p) (l := l') (by
      obtain ⟨t, ht, hp⟩ := he
      exact ⟨t, h.mem_iff.1 ht, hp⟩)
    exact ⟨s, (firstWith_ok hs).1, s', (firstWith_ok hs').1, hs, hs', (firstWith_ok hs).2,
      (firstWith_ok hs').2⟩
  · right
    have hn : ∀ s ∈ l, p s.chargeOf = false := by
      intro s hs
      cases hp : p s.chargeOf with
      | false => rfl
      | true => exact absurd ⟨s, hs, hp⟩ he
    exact ⟨firstWith_error hn, firstWith_error fun s hs => hn s (h.mem_iff.2 hs)⟩

/-- on a side of two, an ion and a neutral are found in any order -/
theorem firstWith_both {p q : Int → Bool} {l l' : List RP} (h : l.Perm l') (h2 : l.length = 2)
    (hpq : ∀ c, p c = true → q c = true → False) {A B : RP} (hA : firstWith p l = .ok A)
    (hB : firstWith q l = .ok B) : firstWith p l' = .ok A ∧ firstWith q l' = .ok B := by
  have hl := pair_of_firstWith h2 hA hB hpq
  have pA := (firstWith_ok hA).2
  have qB := (firstWith_ok hB).2
  have hl' : l' = [A, B] ∨ l' = [B, A] := by
    rcases hl with rfl | rfl
    · exact List.pair_perm.1 h
    · exact (List.pair_perm.1 h).symm
  have pB : p B.chargeOf = false := by
    cases hx : p B.chargeOf with
    | false => rfl
    | true => exact (hpq _ hx qB).elim
  have qA : q A.chargeOf = false := by
    cases hx : q A.chargeOf with
    | false => rfl
    | true => exact (hpq _ pA hx).elim
  exact firstWith_pair hl' pA pB qA qB

theorem Similar.positive (h : Similar r r') (h2 : r.reactants.length = 2) :
    classifyPositive r = classifyPositive r' := by
  have hl := h.reactants.length_eq
  have hl' := h.products.length_eq
  unfold classifyPositive
  rcases firstWith_perm (p := fun c => decide (0 < c)) h.reactants with
    ⟨A, -, A', -, hA, hA', -, -⟩ | ⟨hA, hA'⟩
  · rcases firstWith_perm (p := fun c => decide (c = 0)) h.reactants with
      ⟨B, -, B', -, hB, hB', -, -⟩ | ⟨hB, hB'⟩
    · obtain ⟨e1, e2⟩ := firstWith_both h.reactants h2 (by simp; omega) hA hB
      rw [e1] at hA'; cases hA'
      rw [e2] at hB'; cases hB'
      rw [hA, hB, e1, e2, ← hl, ← hl']
      simp only
      by_cases hp : r.products.length = r.reactants.length
      · rw [if_pos hp, if_pos hp]
        rcases firstWith_perm (p := fun c => decide (0 < c)) h.products with
          ⟨C, -, C', -, hC, hC', -, -⟩ | ⟨hC, hC'⟩
        · rcases firstWith_perm (p := fun c => decide (c = 0)) h.products with
            ⟨D, -, D', -, hD, hD', -, -⟩ | ⟨hD, hD'⟩
          · obtain ⟨e3, e4⟩ := firstWith_both h.products (by omega) (by simp; omega) hC hD
            rw [hC, hD, e3, e4]
          · rw [hC, hC', hD, hD']
        · rw [hC, hC']
      · rw [if_neg hp, if_neg hp]
        have hm : (B.name ++ str!"+" ∈ r.products.map RP.name) =
            (B.name ++ str!"+" ∈ r'.products.map RP.name) := by
          rw [(h.products.map RP.name).mem_iff]
        simp only [hm]
    · rw [hA, hA', hB, hB']
  · rw [hA, hA']

theorem Similar.negative (h : Similar r r') (h2 : r.reactants.length = 2) (n : Int) :
    classifyNegative r n = classifyNegative r' n := by
  have hl := h.reactants.length_eq
  have hl' := h.products.length_eq
  unfold classifyNegative
  rcases firstWith_perm (p := fun c => decide (c < 0)) h.reactants with
    ⟨A, -, A', -, hA, hA', -, -⟩ | ⟨hA, hA'⟩
  · rcases firstWith_perm (p := fun c => decide (c = 0)) h.reactants with
      ⟨B, -, B', -, hB, hB', -, -⟩ | ⟨hB, hB'⟩
    · obtain ⟨e1, e2⟩ := firstWith_both h.reactants h2 (by simp; omega) hA hB
      rw [e1] at hA'; cases hA'
      rw [e2] at hB'; cases hB'
      rw [hA, hB, e1, e2, ← hl, ← hl']
      simp only
      by_cases hp : r.products.length = r.reactants.length
      · rw [if_pos hp, if_pos hp]
        rcases firstWith_perm (p := fun c => decide (c < 0)) h.products with
          ⟨C, -, C', -, hC, hC', -, -⟩ | ⟨hC, hC'⟩
        · rcases firstWith_perm (p := fun c => decide (c = 0)) h.products with
            ⟨D, -, D', -, hD, hD', -, -⟩ | ⟨hD, hD'⟩
          · obtain ⟨e3, e4⟩ := firstWith_both h.products (by omega) (by simp; omega) hC hD
            rw [hC, hD, e3, e4]
          · rw [hC, hC', hD, hD']
        · rw [hC, hC']
      · rw [if_neg hp, if_neg hp]
    · rw [hA, hA', hB, hB']
  · rw [hA, hA']

/-- **C51.** The class of a reaction (or the error) is decided by the species on both sides, in whatever
order they are listed, the elastic flag and the energy loss; rate coefficients, id and everything else play
no part. -/
theorem classify_similar (hv : Valid F r) (h : Similar r r') : classify r = classify r' := by
  rw [classify_eq hv, classify_eq (h.valid hv), ← h.reactants.length_eq, ← h.products.length_eq,
    ← nE_perm h.reactants, ← nE_perm h.products]
  by_cases hE : 0 < nE r.reactants
  · rw [if_pos hE, if_pos hE, h.electron hv hE]
  rw [if_neg hE, if_neg hE]
  by_cases h2 : r.reactants.length = 2
  · simp only [h2]
    unfold classifyHeavy
    have hn := h.neutral hv h2
    rw [← nE_perm h.products] at hn
    simp only [← all_perm h.reactants, ← all_perm h.products, hn, h.positive h2, h.negative h2,
      h.reactants.length_eq, h.products.length_eq]
  · simp only [if_neg h2]

theorem reaction_init_parses (hF : GoodParser F) {a : ReactionArgs} (h : Reaction.init F a = .ok r) :
    ∀ s ∈ r.rps, s.Parses F := by
  unfold Reaction.init at h
  iterate 7
    split at h
    · cases h
  simp only at h
  iterate 3
    split at h
    · cases h
  rename_i hac
  cases h
  exact ((reaction_check_iff hF _).1 hac).1

/-- A reaction that passed its constructor, with the electron of charge -1 and ids that identify the species,
is valid in the sense of the theorems on the classification. -/
theorem valid_of_init (hF : ChemParser F) {a : ReactionArgs} (h : Reaction.init F a = .ok r)
    (hid : ∀ s ∈ r.rps, ∀ t ∈ r.rps, s.id = t.id ↔ s.name = t.name)
    (he : ∀ s ∈ r.rps, s.name = str!"e" → s.charge = some (-1)) : Valid F r where
  parses := reaction_init_parses hF.good h
  balanced := (reaction_init_balanced hF.good h).1
  short := by
    have := (reaction_init_balanced hF.good h).2.2.2
    exact ⟨this.1, this.2.1, this.2.2.1⟩
  idname := hid
  electron := he

end Verif.Plaschem.Classify

/-! ### examples and findings -/
namespace Verif.Plaschem.DemoC
open Classify
open DemoR (F goodF e M O O2 O2m)

theorem chemF : ChemParser F where
  good := goodF
  some_atom := by
    intro n d h
    unfold F at h
    repeat' split at h
    all_goals (cases h; try decide)
  no_M := by
    intro n d h
    unfold F at h
    repeat' split at h
    all_goals (cases h; try decide)

def Ar : RP := { oid := 5, id := 4, name := str!"Ar", mass := some 40 }
def ArP : RP := { oid := 6, id := 5, name := str!"Ar+", mass := some 40, charge := some 1 }
def ArPP : RP := { oid := 7, id := 6, name := str!"Ar++", mass := some 40, charge := some 2 }
def ArX : RP :=
  { oid := 8, id := 7, name := str!"Ar*", mass := some 40, state := some str!"*", stateless := some str!"Ar" }

def args (rs ps : List RP) : ReactionArgs :=
  { id := 1, reactants := rs, products := ps, specialNumber := some (some 10) }
def mk (rs ps : List RP) : Reaction :=
  { id := 1, reactants := rs, products := ps, specialNumber := some 10 }

/-- every one of these is accepted as a reaction -/
example : Reaction.init F (args [e, Ar] [e, e, ArP]) = .ok (mk [e, Ar] [e, e, ArP]) ∧
    Reaction.init F (args [e, e] [e, e]) = .ok (mk [e, e] [e, e]) ∧
    Reaction.init F (args [ArPP, Ar] [ArP, ArP]) = .ok (mk [ArPP, Ar] [ArP, ArP]) ∧
    Reaction.init F (args [ArP, ArP] [ArP, ArP]) = .ok (mk [ArP, ArP] [ArP, ArP]) :=
  ⟨rfl, rfl, rfl, rfl⟩

theorem valid_ionization : Valid F (mk [Ar, e] [e, e, ArP]) :=
  valid_of_init chemF (a := args [Ar, e] [e, e, ArP]) rfl (by decide) (by decide)

example : classify (mk [Ar, e] [e, e, ArP]) = .ok (.electron, .ionization) :=
  (ionization_iff valid_ionization).2 ⟨Ar, ArP, ⟨by decide, by decide⟩, ⟨by decide, by decide⟩,
    by decide, by decide, by decide⟩

/-- in another order: the same class -/
example : classify (mk [e, Ar] [ArP, e, e]) = .ok (.electron, .ionization) := by
  rw [← classify_similar valid_ionization (r' := mk [e, Ar] [ArP, e, e])
    ⟨by decide, by decide, rfl, rfl⟩]
  decide +kernel

example : classify (mk [e, O2] [O, { O with id := 8, name := str!"O-", charge := some (-1) }]) =
    .ok (.electron, .dissAttachment) := by decide +kernel
example : classify (mk [e, Ar] [e, ArX]) = .ok (.electron, .excitation) := by decide +kernel
example : classify (mk [e, ArP, M] [Ar, M]) = .ok (.electron, .threeRecombination) := by decide +kernel
example : classify (mk [e, O2, M] [O2m, M]) = .ok (.electron, .threeAttachment) := by decide +kernel
example : classify (mk [ArX, ArX] [e, ArP, Ar]) = .ok (.neutral, .penning) := by decide +kernel
example : classify (mk [ArP, Ar] [ArP, Ar]) = .ok (.positive, .resonant) := by decide +kernel
example : classify (mk [O2m, ArP] [O2, Ar]) = .ok (.ionIon, .neutralization) := by decide +kernel

/-- finding: these reactions are accepted, but cannot be classified, so no listing of a chemistry with one of
them can be made (charge transfer from a doubly charged ion is a realistic process) -/
theorem unclassifiable :
    classify (mk [e, e] [e, e]) = .error .indexError ∧
    classify (mk [ArPP, Ar] [ArP, ArP]) = .error .indexError ∧
    classify (mk [ArP, ArP] [ArP, ArP]) = .error .indexError := by decide +kernel

example : Valid F (mk [ArPP, Ar] [ArP, ArP]) :=
  valid_of_init chemF (a := args [ArPP, Ar] [ArP, ArP]) rfl (by decide) (by decide)

end Verif.Plaschem.DemoC
