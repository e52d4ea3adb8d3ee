/-
C51: specification of reactions as they occur in a chemistry, and lemmas on charges, electrons and
atoms of the two sides.
-/
import Verif.Plaschem.Classify
import Verif.Plaschem.ReactProps2
import Mathlib.Data.List.Perm.Basic

namespace Verif.Plaschem.Classify
open Verif.Plaschem

/-! ### Specification -/

/-- number of electrons on a side -/
def nE (l : List RP) : Nat := l.countP (fun s => s.name = str!"e")

/-- What is expected of the formula parser for the theorems below: no element twice or with count
zero, at least one atom in every species, and no element called M. -/
structure ChemParser (F : Str → Option (Dict Str Nat)) : Prop where
  good : GoodParser F
  some_atom : ∀ n d, F n = some d → d ≠ []
  no_M : ∀ n d, F n = some d → str!"M" ∉ d.keys

/-- A reaction as it occurs in a chemistry: it passed the checks of its constructor, ids and names
identify the species, and the electron has charge -1. -/
structure Valid (F : Str → Option (Dict Str Nat)) (r : Reaction) : Prop where
  parses : ∀ s ∈ r.rps, s.Parses F
  balanced : Balanced F r.reactants r.products
  short : 1 ≤ r.reactants.length ∧ r.reactants.length ≤ 3 ∧ 1 ≤ r.products.length
  idname : ∀ s ∈ r.rps, ∀ t ∈ r.rps, s.id = t.id ↔ s.name = t.name
  electron : ∀ s ∈ r.rps, s.name = str!"e" → s.charge = some (-1)

/-! ### Lemmas -/

theorem charge0_eq (s : RP) : charge0 s = s.chargeOf := rfl

theorem heavy_cons_e {s : RP} (h : s.name = str!"e") (l : List RP) : heavy (s :: l) = heavy l := by
  simp [heavy, h]

theorem heavy_cons_ne {s : RP} (h : s.name ≠ str!"e") (l : List RP) :
    heavy (s :: l) = s :: heavy l := by
  simp [heavy, h]

theorem nE_cons_e {s : RP} (h : s.name = str!"e") (l : List RP) : nE (s :: l) = nE l + 1 := by
  simp [nE, h]

theorem nE_cons_ne {s : RP} (h : s.name ≠ str!"e") (l : List RP) : nE (s :: l) = nE l := by
  simp [nE, h]

theorem nE_add_heavy (l : List RP) : nE l + (heavy l).length = l.length := by
  induction l with
  | nil => rfl
  | cons s l ih =>
    by_cases h : s.name = str!"e"
    · rw [heavy_cons_e h, nE_cons_e h, List.length_cons]; omega
    · rw [heavy_cons_ne h, nE_cons_ne h, List.length_cons, List.length_cons]; omega

theorem nE_pos_iff (l : List RP) : 0 < nE l ↔ ∃ s ∈ l, s.name = str!"e" := by
  simp [nE, List.countP_pos_iff]

theorem isElectron_iff (r : Reaction) : r.isElectronProcess = true ↔ 0 < nE r.reactants := by
  rw [nE_pos_iff]; simp [Reaction.isElectronProcess]

theorem chargeOf_electron {s : RP} (h : s.name = str!"e") (hc : s.charge = some (-1)) :
    s.chargeOf = -1 := by
  simp [RP.chargeOf, RP.getCharge, h, hc]

theorem chargeOf_M {s : RP} (h : s.name = str!"M") : s.chargeOf = 0 := by
  simp [RP.chargeOf, RP.getCharge, h]

theorem getCharge_none_iff (s : RP) : s.getCharge = none ↔ s.name = str!"M" := by
  unfold RP.getCharge
  split
  · simp [*]
  · split <;> simp [*]

theorem getCharge_of_ne {s : RP} (h : s.name ≠ str!"M") : s.getCharge = some s.chargeOf := by
  cases hc : s.getCharge with
  | none => exact absurd ((getCharge_none_iff s).1 hc) h
  | some c => simp [RP.chargeOf, hc]

/-- the charge of a side is that of its heavy species minus its number of electrons -/
theorem charge_split (l : List RP) (he : ∀ s ∈ l, s.name = str!"e" → s.charge = some (-1)) :
    (l.map RP.chargeOf).sum = ((heavy l).map RP.chargeOf).sum - nE l := by
  induction l with
  | nil => rfl
  | cons s l ih =>
    have ih := ih (fun t ht => he t (List.mem_cons_of_mem _ ht))
    by_cases h : s.name = str!"e"
    · have hc := chargeOf_electron h (he s List.mem_cons_self h)
      have h1 : heavy (s :: l) = heavy l := by simp [heavy, h]
      have h2 : nE (s :: l) = nE l + 1 := by simp [nE, h]
      rw [List.map_cons, List.sum_cons, hc, ih, h1, h2]; push_cast; ring
    · have h1 : heavy (s :: l) = s :: heavy l := by simp [heavy, h]
      have h2 : nE (s :: l) = nE l := by simp [nE, h]
      rw [List.map_cons, List.sum_cons, ih, h1, h2, List.map_cons, List.sum_cons]; ring

private theorem count_ids {l : List RP} {s : RP}
    (h : ∀ t ∈ l, t.id = s.id ↔ t.name = s.name) :
    (l.map RP.id).count s.id = l.countP (fun t => t.name = s.name) := by
  rw [List.count, List.countP_map]
  apply List.countP_congr
  intro t ht
  simp only [Function.comp, beq_iff_eq, decide_eq_true_eq]
  exact h t ht

/-- the net number of electrons -/
theorem elStoich_spec {r : Reaction}
    (hid : ∀ s ∈ r.rps, ∀ t ∈ r.rps, s.id = t.id ↔ s.name = t.name) :
    elStoich r = .ok ((nE r.products : Int) - nE r.reactants) := by
  obtain ⟨d, h1, h2, h3⟩ := stoich_net r
  unfold elStoich
  rw [h1]
  cases hf : r.rps.filter (fun s => s.name = str!"e") with
  | nil =>
    simp only [List.filter_eq_nil_iff, decide_eq_true_eq, Reaction.rps, List.mem_append] at hf
    have a : nE r.reactants = 0 := by
      simp only [nE, List.countP_eq_zero, decide_eq_true_eq]
      exact fun s hs => hf s (.inl hs)
    have b : nE r.products = 0 := by
      simp only [nE, List.countP_eq_zero, decide_eq_true_eq]
      exact fun s hs => hf s (.inr hs)
    simp [a, b]
  | cons s l =>
    have hs : s ∈ r.rps.filter (fun s => s.name = str!"e") := by rw [hf]; exact List.mem_cons_self
    simp only [List.mem_filter, decide_eq_true_eq] at hs
    obtain ⟨hs, he⟩ := hs
    have hk : s.id ∈ d.keys := by
      rw [h2.2.1, ← List.map_append]
      exact List.mem_map_of_mem hs
    have hv := h3 s.id hk
    cases hg : d.get? s.id with
    | none =>
      obtain ⟨v, hv'⟩ := (Dict.mem_keys_iff d s.id).1 hk
      rw [hg] at hv'; cases hv'
    | some v =>
      rw [hg] at hv
      have hr : (r.reactants.map RP.id).count s.id = nE r.reactants := by
        rw [count_ids (fun t ht => hid t (by simp [Reaction.rps, ht]) s hs), he]; rfl
      have hp : (r.products.map RP.id).count s.id = nE r.products := by
        rw [count_ids (fun t ht => hid t (by simp [Reaction.rps, ht]) s hs), he]; rfl
      simp only [Option.some.injEq] at hv
      rw [hr, hp] at hv
      simp only [hg, hv]

theorem mem_heavy {l : List RP} {s : RP} : s ∈ heavy l ↔ s ∈ l ∧ s.name ≠ str!"e" := by
  simp [heavy]

theorem stateless_ok {F : Str → Option (Dict Str Nat)} {s : RP} (h : s.Parses F) :
    ∃ n, s.getStateless = .ok n := by
  obtain ⟨d, hd⟩ := h
  cases hg : s.getStateless with
  | ok n => exact ⟨n, rfl⟩
  | error e =>
    exfalso
    unfold RP.getAtoms at hd
    split at hd
    · rename_i h; simp [RP.getStateless, RP.isSpecial, h] at hg
    · split at hd
      · rename_i h; simp [RP.getStateless, RP.isSpecial, h] at hg
      · rw [hg] at hd; cases hd

theorem collect_ok {α β : Type} {f : α → Except Err β} {l : List α} (h : ∀ a ∈ l, ∃ b, f a = .ok b) :
    ∃ bs, collect f l = .ok bs := by
  induction l with
  | nil => exact ⟨[], rfl⟩
  | cons a l ih =>
    obtain ⟨b, hb⟩ := h a List.mem_cons_self
    obtain ⟨bs, hbs⟩ := ih (fun x hx => h x (List.mem_cons_of_mem _ hx))
    exact ⟨b :: bs, by simp only [collect, hb, hbs]⟩

theorem ground_ok {F : Str → Option (Dict Str Nat)} {s : RP} (h : s.Parses F) :
    ∃ n, ground s = .ok n := by
  obtain ⟨n, hn⟩ := stateless_ok h
  exact ⟨stripCharge n, by simp only [ground, hn]⟩

/-! atoms of the special species -/

theorem atomCount_e (F : Str → Option (Dict Str Nat)) {s : RP} (h : s.name = str!"e") (a : Str) :
    s.atomCount F a = 0 := by
  simp [RP.atomCount, RP.getAtoms, h, Dict.get?]

theorem atomCount_M (F : Str → Option (Dict Str Nat)) {s : RP} (h : s.name = str!"M") (a : Str) :
    s.atomCount F a = if a = str!"M" then 1 else 0 := by
  by_cases ha : a = str!"M"
  · simp [RP.atomCount, RP.getAtoms, h, Dict.get?, ha]
  · have : ¬ (['M'] = a) := fun h => ha h.symm
    simp [RP.atomCount, RP.getAtoms, h, Dict.get?, ha, this]

/-- a heavy species other than M has an atom that is not M -/
theorem exists_atom {F : Str → Option (Dict Str Nat)} (hF : ChemParser F) {s : RP} (hp : s.Parses F)
    (he : s.name ≠ str!"e") (hM : s.name ≠ str!"M") :
    ∃ a, a ≠ str!"M" ∧ 0 < s.atomCount F a := by
  obtain ⟨d, hd⟩ := hp
  have hd' := hd
  unfold RP.getAtoms at hd
  rw [if_neg he, if_neg hM] at hd
  cases hg : s.getStateless with
  | error e => rw [hg] at hd; cases hd
  | ok n =>
    rw [hg] at hd
    simp only at hd
    cases hf : F (stripCharge n) with
    | none => rw [hf] at hd; cases hd
    | some d0 =>
      rw [hf] at hd
      cases hd
      have h1 := hF.some_atom _ _ hf
      have h2 := hF.no_M _ _ hf
      obtain ⟨h3, h4⟩ := hF.good _ _ hf
      cases hdd : d with
      | nil => exact absurd hdd h1
      | cons p d' =>
        refine ⟨p.1, ?_, ?_⟩
        · intro h; exact h2 (by rw [hdd, Dict.keys, List.map_cons, h]; exact List.mem_cons_self)
        · have : (Dict.get? d p.1) = some p.2 := by rw [hdd]; simp [Dict.get?]
          simp only [RP.atomCount, hd', this, Option.getD_some]
          exact h4 p (by rw [hdd]; exact List.mem_cons_self)

private theorem sum_zero_of {l : List RP} {f : RP → Nat} (h : (l.map f).sum = 0) :
    ∀ s ∈ l, f s = 0 := by
  induction l with
  | nil => intro s hs; cases hs
  | cons a l ih =>
    rw [List.map_cons, List.sum_cons] at h
    intro s hs
    rcases List.mem_cons.1 hs with rfl | hs
    · omega
    · exact ih (by omega) s hs

private theorem sum_heavy {l : List RP} (f : RP → Nat) (hf : ∀ s, s.name = str!"e" → f s = 0) :
    (l.map f).sum = ((heavy l).map f).sum := by
  induction l with
  | nil => rfl
  | cons s l ih =>
    by_cases h : s.name = str!"e"
    · rw [heavy_cons_e h, List.map_cons, List.sum_cons, hf s h, ih]; omega
    · rw [heavy_cons_ne h, List.map_cons, List.sum_cons, ih, List.map_cons, List.sum_cons]

/-- an electron colliding with M alone leaves M -/
theorem heavy_of_M {F : Str → Option (Dict Str Nat)} (hF : ChemParser F) {r : Reaction}
    (hv : Valid F r) {A : RP} (hA : heavy r.reactants = [A]) (hM : A.name = str!"M") :
    ∃ B, heavy r.products = [B] ∧ B.name = str!"M" := by
  have key : ∀ a, ((heavy r.products).map (fun s => s.atomCount F a)).sum =
      if a = str!"M" then 1 else 0 := by
    intro a
    rw [← sum_heavy _ (fun s hs => atomCount_e F hs a), ← hv.balanced.2 a,
      sum_heavy _ (fun s hs => atomCount_e F hs a), hA]
    simp [atomCount_M F hM]
  have hall : ∀ s ∈ heavy r.products, s.name = str!"M" := by
    intro s hs
    by_contra hsM
    obtain ⟨hs1, hs2⟩ := mem_heavy.1 hs
    obtain ⟨a, ha, hpos⟩ := exists_atom hF (hv.parses s (by simp [Reaction.rps, hs1])) hs2 hsM
    have h0 := key a
    rw [if_neg ha] at h0
    have := sum_zero_of h0 s hs
    omega
  have h1 := key str!"M"
  rw [if_pos rfl] at h1
  have h2 : ∀ l : List RP, (∀ s ∈ l, s.name = str!"M") →
      (l.map (fun s => s.atomCount F str!"M")).sum = l.length := by
    intro l hl
    induction l with
    | nil => rfl
    | cons s l ih =>
      rw [List.map_cons, List.sum_cons, ih (fun t ht => hl t (List.mem_cons_of_mem _ ht)),
        atomCount_M F (hl s List.mem_cons_self), if_pos rfl, List.length_cons]; omega
  rw [h2 _ hall] at h1
  obtain ⟨B, hB⟩ := List.length_eq_one_iff.1 h1
  exact ⟨B, hB, hall B (by rw [hB]; exact List.mem_cons_self)⟩

/-- charge balance in terms of heavy species and electrons -/
theorem charge_balance {F : Str → Option (Dict Str Nat)} {r : Reaction} (hv : Valid F r) :
    ((heavy r.reactants).map RP.chargeOf).sum - nE r.reactants =
      ((heavy r.products).map RP.chargeOf).sum - nE r.products := by
  rw [← charge_split _ (fun s hs => hv.electron s (by simp [Reaction.rps, hs])),
    ← charge_split _ (fun s hs => hv.electron s (by simp [Reaction.rps, hs]))]
  exact hv.balanced.1

/-- an electron colliding with M alone leaves as one electron -/
theorem nE_of_M {F : Str → Option (Dict Str Nat)} (hF : ChemParser F) {r : Reaction}
    (hv : Valid F r) {A : RP} (hA : heavy r.reactants = [A]) (hM : A.name = str!"M") :
    nE r.products = nE r.reactants := by
  obtain ⟨B, hB, hBM⟩ := heavy_of_M hF hv hA hM
  have h := charge_balance hv
  rw [hA, hB] at h
  simp [chargeOf_M hM, chargeOf_M hBM] at h
  omega

theorem classify_eq {F : Str → Option (Dict Str Nat)} {r : Reaction} (hv : Valid F r) :
    classify r =
      if 0 < nE r.reactants then
        under .electron (classifyElectron r ((nE r.products : Int) - nE r.reactants))
      else if r.reactants.length = 3 then .ok (.three, .noCat)
      else if r.reactants.length = 1 then
        if r.products.length = 1 then .ok (.decay, .noCat) else .ok (.unclassified, .noCat)
      else if r.reactants.length = 2 then classifyHeavy r (nE r.products)
      else .ok (.unclassified, .noCat) := by
  unfold classify
  rw [elStoich_spec hv.idname]
  simp only
  by_cases h : 0 < nE r.reactants
  · rw [if_pos ((isElectron_iff r).2 h), if_pos h]
  · rw [if_neg (fun hc => h ((isElectron_iff r).1 hc)), if_neg h]
    have : nE r.reactants = 0 := by omega
    rw [this]
    simp only [Nat.cast_zero, sub_zero]

theorem firstWith_ok {p : Int → Bool} {l : List RP} {s : RP} (h : firstWith p l = .ok s) :
    s ∈ l ∧ p s.chargeOf = true := by
  unfold firstWith at h
  split at h
  · rename_i t ht
    cases h
    exact ⟨List.mem_of_find?_eq_some ht, by have := List.find?_some ht; exact this⟩
  · cases h

theorem firstWith_exists {p : Int → Bool} {l : List RP} (h : ∃ s ∈ l, p s.chargeOf = true) :
    ∃ s, firstWith p l = .ok s := by
  unfold firstWith
  cases hf : l.find? (fun s => p (charge0 s)) with
  | some s => exact ⟨s, rfl⟩
  | none =>
    obtain ⟨s, hs, hp⟩ := h
    rw [List.find?_eq_none] at hf
    exact absurd hp (hf s hs)

theorem firstWith_error {p : Int → Bool} {l : List RP} (h : ∀ s ∈ l, p s.chargeOf = false) :
    firstWith p l = .error .indexError := by
  unfold firstWith
  have : l.find? (fun s => p (charge0 s)) = none := by
    rw [List.find?_eq_none]
    intro s hs
    rw [charge0_eq, h s hs]; simp
  rw [this]

end Verif.Plaschem.Classify
