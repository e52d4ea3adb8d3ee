/-
Properties C10-C12, C14-C17 and C56: single species and reactions.
-/
import Verif.Plaschem.ReactStr
import Verif.Plaschem.DictLemmas
import Verif.Plaschem.ChemLemmas
import Mathlib.Algebra.BigOperators.Group.List.Basic
import Mathlib.Data.List.Count
import Mathlib.Tactic.Ring
import Mathlib.Tactic.Linarith

namespace Verif.Plaschem

/-! ### Specification -/

/-- Charge of a species as far as the conservation check is concerned; the arbitrary collision partner
M has none. -/
def RP.chargeOf (s : RP) : Int := s.getCharge.getD 0

/-- number of atoms `a` in species `s`, where `F` is the formula parser. -/
def RP.atomCount (F : Str → Option (Dict Str Nat)) (s : RP) (a : Str) : Nat :=
  match s.getAtoms F with
  | .ok d => (d.get? a).getD 0
  | .error _ => 0

/-- the formula of the species can be parsed -/
def RP.Parses (F : Str → Option (Dict Str Nat)) (s : RP) : Prop := ∃ d, s.getAtoms F = .ok d

/-- what is expected from the formula parser: no element is listed twice or with count zero -/
def GoodParser (F : Str → Option (Dict Str Nat)) : Prop :=
  ∀ n d, F n = some d → d.keys.Nodup ∧ ∀ p ∈ d, 0 < p.2

/-- The two sides carry the same charge and the same number of each kind of atom. -/
def Balanced (F : Str → Option (Dict Str Nat)) (lhs rhs : List RP) : Prop :=
  (lhs.map RP.chargeOf).sum = (rhs.map RP.chargeOf).sum ∧
  ∀ a, (lhs.map (fun s => s.atomCount F a)).sum = (rhs.map (fun s => s.atomCount F a)).sum

/-! ### C10 -/

private theorem addAtom_get (d : Dict Str Nat) (a : Str) (n : Nat) (b : Str) :
    ((Reaction.addAtom d a n).get? b).getD 0 = (d.get? b).getD 0 + if a = b then n else 0 := by
  unfold Reaction.addAtom
  cases h : d.get? a with
  | some v =>
    simp only [Dict.get?_set]
    by_cases hab : a = b
    · subst hab; simp [h]
    · simp [hab]
  | none =>
    simp only [Dict.get?_set]
    by_cases hab : a = b
    · subst hab; simp [h]
    · simp [hab]

/-- keys unique and all counts positive -/
private def Good (d : Dict Str Nat) : Prop := d.keys.Nodup ∧ ∀ p ∈ d, 0 < p.2

private theorem good_set {d : Dict Str Nat} (h : Good d) (a : Str) {n : Nat} (hn : 0 < n) :
    Good (d.set a n) := by
  have hk : (d.set a n).keys.Nodup := by
    rw [Dict.keys_set]
    split
    · exact h.1
    · rename_i hna
      rw [List.nodup_append]
      exact ⟨h.1, by simp, by intro x hx y hy; simp at hy; subst hy; exact fun hc => hna (hc ▸ hx)⟩
  refine ⟨hk, fun p hp => ?_⟩
  have h1 := Dict.get?_of_mem hk hp
  rw [Dict.get?_set] at h1
  split at h1
  · simp at h1; omega
  · exact h.2 _ (Dict.mem_of_get? h1)

private theorem good_addAtom {d : Dict Str Nat} (h : Good d) (a : Str) {n : Nat} (hn : 0 < n) :
    Good (Reaction.addAtom d a n) := by
  unfold Reaction.addAtom
  split
  · exact good_set h a (by omega)
  · exact good_set h a hn

private theorem fold_addAtom (as : Dict Str Nat) (d : Dict Str Nat) (hn : as.keys.Nodup) (b : Str) :
    ((as.foldl (fun d e => Reaction.addAtom d e.1 e.2) d).get? b).getD 0 =
      (d.get? b).getD 0 + (as.get? b).getD 0 := by
  induction as generalizing d with
  | nil => simp [Dict.get?]
  | cons e as ih =>
    obtain ⟨a, n⟩ := e
    simp only [List.foldl_cons]
    simp only [Dict.keys, List.map_cons, List.nodup_cons] at hn
    rw [ih _ hn.2, addAtom_get, Dict.get?_cons]
    by_cases h : a = b
    · subst h
      have : Dict.get? as a = none := by
        by_contra hc
        obtain ⟨v, hv⟩ := Option.ne_none_iff_exists'.1 hc
        exact hn.1 ((Dict.mem_keys_iff as a).2 ⟨v, hv⟩)
      simp [this]
    · simp [h]

private theorem fold_good (as : Dict Str Nat) (d : Dict Str Nat) (h : Good d) (ha : ∀ p ∈ as, 0 < p.2) :
    Good (as.foldl (fun d e => Reaction.addAtom d e.1 e.2) d) := by
  induction as generalizing d with
  | nil => exact h
  | cons e as ih =>
    exact ih _ (good_addAtom h _ (ha e (by simp))) (fun p hp => ha p (by simp [hp]))

private theorem getAtoms_good {F : Str → Option (Dict Str Nat)} (hF : GoodParser F) {s : RP}
    {d : Dict Str Nat} (h : s.getAtoms F = .ok d) : Good d := by
  unfold RP.getAtoms at h
  split at h
  · cases h; exact ⟨by simp [Dict.keys], by simp⟩
  · split at h
    · cases h; exact ⟨by simp [Dict.keys], by simp⟩
    · split at h
      · cases h
      · split at h
        · rename_i d' hd; cases h; exact hF _ _ hd
        · cases h

private theorem countAtoms_spec {F : Str → Option (Dict Str Nat)} (hF : GoodParser F) (l : List RP)
    (d : Dict Str Nat) (hd : Good d) :
    (∀ s ∈ l, s.Parses F) ∧
      (∃ d', Reaction.countAtoms F l d = .ok d' ∧ Good d' ∧
        ∀ a, (d'.get? a).getD 0 = (d.get? a).getD 0 + (l.map (fun s => s.atomCount F a)).sum) ∨
    (∃ s ∈ l, ¬ s.Parses F) ∧ ∃ e, Reaction.countAtoms F l d = .error e ∧ e ≠ .reactionValue := by
  induction l generalizing d with
  | nil => exact .inl ⟨by simp, d, rfl, hd, by simp⟩
  | cons s l ih =>
    unfold Reaction.countAtoms
    cases h : s.getAtoms F with
    | error e =>
      refine .inr ⟨⟨s, by simp, ?_⟩, e, rfl, ?_⟩
      · rintro ⟨d, hd⟩; rw [h] at hd; cases hd
      · unfold RP.getAtoms at h
        split at h
        · cases h
        · split at h
          · cases h
          · split at h
            · rename_i e' he
              cases h
              unfold RP.getStateless at he
              split at he
              · cases he
              · split at he
                · cases he
                · split at he
                  · cases he; decide
                  · cases he
            · split at h
              · cases h
              · cases h; decide
    | ok as =>
      have hg := getAtoms_good hF h
      rcases ih _ (fold_good as d hd hg.2) with ⟨hp, d', h1, h2, h3⟩ | ⟨⟨t, ht, hnt⟩, e, h1, h2⟩
      · refine .inl ⟨?_, d', h1, h2, fun a => ?_⟩
        · intro t ht
          rcases List.mem_cons.1 ht with rfl | ht
          · exact ⟨as, h⟩
          · exact hp t ht
        · rw [h3, fold_addAtom _ _ hg.1]
          simp only [List.map_cons, List.sum_cons]
          have : s.atomCount F a = (as.get? a).getD 0 := by simp [RP.atomCount, h]
          rw [this]; omega
      · exact .inr ⟨⟨t, by simp [ht], hnt⟩, e, h1, h2⟩

private theorem dictEq_iff {d e : Dict Str Nat} (hd : Good d) (he : Good e) :
    Reaction.dictEq d e = true ↔ ∀ a, (d.get? a).getD 0 = (e.get? a).getD 0 := by
  unfold Reaction.dictEq
  simp only [Bool.and_eq_true, List.all_eq_true, decide_eq_true_eq]
  constructor
  · rintro ⟨h1, h2⟩ a
    cases ha : d.get? a with
    | some v => rw [h1 _ (Dict.mem_of_get? ha)]
    | none =>
      cases hb : e.get? a with
      | some v =>
        have := h2 _ (Dict.mem_of_get? hb)
        simp [ha] at this
      | none => rfl
  · intro h
    have key : ∀ {d e : Dict Str Nat}, Good d → (∀ a, (d.get? a).getD 0 = (e.get? a).getD 0) →
        ∀ p ∈ d, e.get? p.1 = some p.2 := by
      intro d e hd h p hp
      have h1 := Dict.get?_of_mem hd.1 hp
      have h2 := h p.1
      have h3 := hd.2 p hp
      rw [h1] at h2
      cases hb : e.get? p.1 with
      | some v => rw [hb] at h2; simp at h2; rw [h2]
      | none => rw [hb] at h2; simp at h2; omega
    exact ⟨key hd h, key he (fun a => (h a).symm)⟩

private theorem chargeSum_eq (l : List RP) : Reaction.chargeSum l = (l.map RP.chargeOf).sum := by
  unfold Reaction.chargeSum
  induction l with
  | nil => rfl
  | cons s l ih =>
    by_cases h : s.name = str!"M"
    · have h0 : s.chargeOf = 0 := by simp [RP.chargeOf, RP.getCharge, h]
      rw [List.filter_cons_of_neg (by simpa using h), ih, List.map_cons, List.sum_cons, h0, zero_add]
    · rw [List.filter_cons_of_pos (by simpa using h), List.map_cons, List.sum_cons, ih, List.map_cons,
        List.sum_cons]
      rfl

/-- **C10.** The consistency check of a reaction passes exactly for reactions with readable formulas
whose sides balance in charge and in every kind of atom. -/
theorem reaction_check_iff {F : Str → Option (Dict Str Nat)} (hF : GoodParser F) (r : Reaction) :
    r.assertConsistency F = .ok () ↔
      (∀ s ∈ r.reactants ++ r.products, s.Parses F) ∧ Balanced F r.reactants r.products := by
  unfold Reaction.assertConsistency Balanced
  rw [chargeSum_eq, chargeSum_eq]
  have hnil : Good [] := ⟨by simp [Dict.keys], by simp⟩
  by_cases hc : (r.reactants.map RP.chargeOf).sum = (r.products.map RP.chargeOf).sum
  · rw [if_neg (not_not.2 hc)]
    rcases countAtoms_spec hF r.reactants [] hnil with ⟨hp, d, h1, h2, h3⟩ | ⟨⟨t, ht, hnt⟩, e, h1, -⟩
    · rcases countAtoms_spec hF r.products [] hnil with ⟨hp', d', h1', h2', h3'⟩ | ⟨⟨t, ht, hnt⟩, e, h1', -⟩
      · simp only [h1, h1']
        have e1 : (if Reaction.dictEq d d' = true then (Except.ok () : Except Err Unit)
            else .error .reactionValue) = .ok () ↔ Reaction.dictEq d d' = true := by
          split <;> simp_all
        rw [e1, dictEq_iff h2 h2']
        have e0 : ∀ a, (Dict.get? ([] : Dict Str Nat) a).getD 0 = 0 := fun a => by simp [Dict.get?]
        simp only [h3, h3', e0, zero_add]
        constructor
        · intro h
          exact ⟨fun s hs => (List.mem_append.1 hs).elim (hp s) (hp' s), hc, h⟩
        · intro h; exact h.2.2
      · simp only [h1, h1', reduceCtorEq, false_iff, not_and]
        intro h; exact absurd (h t (by simp [ht])) hnt
    · simp only [h1, reduceCtorEq, false_iff, not_and]
      intro h; exact absurd (h t (by simp [ht])) hnt
  · rw [if_pos hc]
    simp [hc]

/-- **C10.** A reaction that was constructed conserves charge and atoms. -/
theorem reaction_init_balanced {F : Str → Option (Dict Str Nat)} (hF : GoodParser F) {a : ReactionArgs}
    {r : Reaction} (h : Reaction.init F a = .ok r) :
    Balanced F r.reactants r.products ∧ r.reactants = a.reactants ∧ r.products = a.products ∧
    1 ≤ r.reactants.length ∧ r.reactants.length ≤ 3 ∧ 1 ≤ r.products.length ∧ 0 < r.id := by
  unfold Reaction.init at h
  split at h
  · cases h
  rename_i h0
  split at h
  · cases h
  rename_i h1
  split at h
  · cases h
  rename_i h2
  split at h
  · cases h
  split at h
  · cases h
  split at h
  · cases h
  split at h
  · cases h
  simp only at h
  split at h
  · cases h
  split at h
  · cases h
  split at h
  · cases h
  rename_i hac
  cases h
  have hac' := (reaction_check_iff hF _).1 hac
  simp only [not_or, not_lt, not_le] at h0 h1 h2
  refine ⟨hac'.2, rfl, rfl, h1.1, h2, h1.2, ?_⟩
  simp only; omega

/-- **C10.** A balanced reaction with readable formulas is never rejected by the conservation check. -/
theorem reaction_init_never_rejects_balanced {F : Str → Option (Dict Str Nat)} (hF : GoodParser F)
    {a : ReactionArgs} (hp : ∀ s ∈ a.reactants ++ a.products, s.Parses F)
    (hb : Balanced F a.reactants a.products) : Reaction.init F a ≠ .error .reactionValue := by
  unfold Reaction.init
  split; · simp
  split; · simp
  split; · simp
  split; · simp
  split; · simp
  split; · simp
  split; · simp
  simp only
  split
  · rename_i e he
    split at he
    · unfold Reaction.checkArrhA at he
      split at he
      · cases he; simp
      · repeat' split at he
        all_goals first | (cases he; simp) | cases he
    · cases he
  · split
    · rename_i e he
      split at he
      · unfold Reaction.checkArrhC at he
        split at he
        · cases he; simp
        · repeat' split at he
          all_goals first | (cases he; simp) | cases he
      · cases he
    · rw [(reaction_check_iff hF _).2 ⟨hp, hb⟩]
      simp

end Verif.Plaschem
