/-
The getters that hand out one attribute for all selected species or reactions of a chemistry
(plaschem/chemistry.py:641-711, 748-842). Property C18 (second half) and C107.
-/
import Verif.Plaschem.AdhocRet
import Verif.Plaschem.Stoich

namespace Verif.Plaschem

/-- plaschem/species.py:290-324: the stored attributes that class `RP` of the model leaves out, for one
species object (`none` = not defined). -/
structure Extra where
  hForm : Option ℚ := none
  ljEpsilon : Option ℚ := none
  ljSigma : Option ℚ := none

namespace RP

/-- plaschem/species.py:290-300 `get_h_form`; the default is in species.py:60-67. -/
def getHForm (X : RP → Extra) (s : RP) : Option ℚ :=
  if s.isSpecial then none
  else match (X s).hForm with
    | some v => some v
    | none => some 0

/-- plaschem/species.py:302-312 `get_lj_epsilon`. -/
def getLjEpsilon (X : RP → Extra) (s : RP) : Option ℚ :=
  if s.isSpecial then none
  else match (X s).ljEpsilon with
    | some v => some v
    | none => some 0

/-- plaschem/species.py:314-324 `get_lj_sigma`. -/
def getLjSigma (X : RP → Extra) (s : RP) : Option ℚ :=
  if s.isSpecial then none
  else match (X s).ljSigma with
    | some v => some v
    | none => some 3

end RP

namespace Reaction

/-- plaschem/reactions.py:490-501 `get_arrh_b`, with the failure of the inner call of `get_arrh_a()`
(in SI units) left visible. -/
def arrhBOrFail (r : Reaction) : Except Err (Option ℚ) :=
  match r.arrhB with
  | some b => .ok (some b)
  | none =>
    match r.getArrhA true with
    | .error e => .error e
    | .ok none => .ok none
    | .ok (some _) => .ok (some 0)

/-- plaschem/reactions.py:503-516 `get_arrh_c`, likewise. -/
def arrhCOrFail (r : Reaction) : Except Err (Option ℚ) :=
  match r.arrhC with
  | some c => .ok (some c)
  | none =>
    match r.getArrhA true with
    | .error e => .error e
    | .ok none => .ok none
    | .ok (some _) => .ok (some 0)

/-- plaschem/reactions.py:545-555 `get_gas_heat_contrib`; `H r` is the stored attribute. -/
def getGasHeat (H : Reaction → Option ℚ) (r : Reaction) : ℚ :=
  match H r with
  | some v => v
  | none => 0

end Reaction

namespace Net

/-- plaschem/chemistry.py:649, 659, 669, ...: `[x.get_attr() for x in items]`, evaluated from the left
until a getter raises. -/
def comprehension {α β : Type} (g : α → Except Err β) : List α → Except Err (List β)
  | [] => .ok []
  | x :: xs =>
    match g x with
    | .error e => .error e
    | .ok v =>
      match comprehension g xs with
      | .error e => .error e
      | .ok vs => .ok (v :: vs)

/-- `pd.Series(values, index=index)` for two lists; pandas raises a `ValueError` if the lengths differ.
Simplification: `None` stays `None` (pandas may turn it into NaN). -/
def mkSeries {β : Type} (index : List Nat) (values : List β) : Except Err (Dict Nat β) :=
  if index.length = values.length then .ok (index.zip values) else .error .valueError

/-- the body shared by the getters of plaschem/chemistry.py:641-699, for the getter `g` of one
attribute. -/
def speciesSeries {β : Type} (net : Net) (g : RP → Except Err β) (st : State)
    (disabled special protect : Bool) : Except Err (Dict Nat β) :=
  let species := net.getSpecies st disabled special protect
  match comprehension g species with
  | .error e => .error e
  | .ok vs => mkSeries (species.map RP.id) vs

/-- plaschem/chemistry.py:641-649 `get_species_name`, with its index. -/
def speciesNames (net : Net) := net.speciesSeries (fun s => .ok s.name)

/-- plaschem/chemistry.py:651-659 `get_species_charge`. -/
def speciesCharges (net : Net) := net.speciesSeries (fun s => .ok s.getCharge)

/-- plaschem/chemistry.py:661-669 `get_species_mass`. -/
def speciesMasses (net : Net) := net.speciesSeries RP.getMass

/-- plaschem/chemistry.py:671-679 `get_species_h_form`. -/
def speciesHForm (net : Net) (X : RP → Extra) := net.speciesSeries (fun s => .ok (s.getHForm X))

/-- plaschem/chemistry.py:681-689 `get_species_lj_epsilon`. -/
def speciesLjEpsilon (net : Net) (X : RP → Extra) := net.speciesSeries (fun s => .ok (s.getLjEpsilon X))

/-- plaschem/chemistry.py:691-699 `get_species_lj_sigma`. -/
def speciesLjSigma (net : Net) (X : RP → Extra) := net.speciesSeries (fun s => .ok (s.getLjSigma X))

/-- plaschem/chemistry.py:748-755 `get_species_id`. -/
def speciesIds (net : Net) (st : State) (disabled special protect : Bool) : List Nat :=
  (net.getSpecies st disabled special protect).map RP.id

/-- the body shared by the getters of plaschem/chemistry.py:797-840, for the getter `g` of one
attribute. -/
def reactionsSeries {β : Type} (net : Net) (g : Reaction → Except Err β) (st : State)
    (disabled : Bool) : Except Err (Dict Nat β) :=
  let reactions := net.getReactions st disabled
  match comprehension g reactions with
  | .error e => .error e
  | .ok vs => mkSeries (reactions.map Reaction.id) vs

/-- plaschem/chemistry.py:797-803 `get_reactions_arrh_b`. -/
def reactionsArrhB (net : Net) := net.reactionsSeries Reaction.arrhBOrFail

/-- plaschem/chemistry.py:805-811 `get_reactions_arrh_c`. -/
def reactionsArrhC (net : Net) := net.reactionsSeries Reaction.arrhCOrFail

/-- plaschem/chemistry.py:813-819 `get_reactions_el_en_loss`. -/
def reactionsElEnLoss (net : Net) := net.reactionsSeries (fun r => .ok r.getElEnLoss)

/-- plaschem/chemistry.py:821-827 `get_reactions_ges_heat_contrib`. -/
def reactionsGasHeat (net : Net) (H : Reaction → Option ℚ) :=
  net.reactionsSeries (fun r => .ok (r.getGasHeat H))

/-- plaschem/chemistry.py:829-835 `get_reactions_elastic`. -/
def reactionsElastic (net : Net) := net.reactionsSeries (fun r => .ok r.getElastic)

/-- plaschem/chemistry.py:837-842 `get_reactions_id`. -/
def reactionsIds (net : Net) (st : State) (disabled : Bool) : List Nat :=
  (net.getReactions st disabled).map Reaction.id

end Net
open Net

/-! ### What the answers have to be -/

/-- `d` has one entry per item of `items`, in the same order, keyed by the id of the item and carrying
its own value; and it can be indexed by the ids. -/
structure Lists {α β : Type} (id : α → Nat) (own : α → β) (items : List α) (d : Dict Nat β) : Prop where
  /-- the index is the list of ids, position by position -/
  index : d.keys = items.map id
  /-- the values are those of the items, position by position -/
  values : d.map Prod.snd = items.map own
  /-- look-up by id finds the value of the item -/
  lookup : ∀ x ∈ items, d.get? (id x) = some (own x)

/-- The attribute stored for the object, else the default; `None` for `e` and `M`. -/
inductive OwnValue (stored : Option ℚ) (default : ℚ) (s : RP) : Option ℚ → Prop
  | special : s.name = str!"e" ∨ s.name = str!"M" → OwnValue stored default s none
  | stored (v : ℚ) : s.name ≠ str!"e" → s.name ≠ str!"M" → stored = some v → OwnValue stored default s (some v)
  | default : s.name ≠ str!"e" → s.name ≠ str!"M" → stored = none → OwnValue stored default s (some default)

theorem comprehension_ok {α β : Type} {g : α → Except Err β} {own : α → β} {l : List α}
    (h : ∀ x ∈ l, g x = .ok (own x)) : comprehension g l = .ok (l.map own) := by
  induction l with
  | nil => rfl
  | cons x xs ih =>
    simp only [comprehension, h x (by simp), ih (fun y hy => h y (by simp [hy])), List.map_cons]

theorem comprehension_spec {α β : Type} {g : α → Except Err β} {l : List α} :
    (∃ e, comprehension g l = .error e) ↔ ∃ x ∈ l, ∃ e, g x = .error e := by
  induction l with
  | nil => simp [comprehension]
  | cons x xs ih =>
    unfold comprehension
    cases hx : g x with
    | error e => simp [hx]
    | ok v =>
      cases hc : comprehension g xs with
      | error e =>
        have := ih.1 ⟨e, hc⟩
        obtain ⟨y, hy, e', he⟩ := this
        exact ⟨fun _ => ⟨y, by simp [hy], e', he⟩, fun _ => ⟨e, rfl⟩⟩
      | ok vs =>
        refine ⟨fun h => ?_, fun h => ?_⟩
        · obtain ⟨e, he⟩ := h; simp at he
        · obtain ⟨y, hy, e', he⟩ := h
          rcases List.mem_cons.1 hy with rfl | hy
          · rw [hx] at he; cases he
          · obtain ⟨e, h2⟩ := ih.2 ⟨y, hy, e', he⟩
            rw [hc] at h2; cases h2

private theorem lists_zip {α β : Type} (id : α → Nat) (own : α → β) (l : List α)
    (hn : (l.map id).Nodup) : Lists id own l ((l.map id).zip (l.map own)) := by
  have hz : (l.map id).zip (l.map own) = l.map (fun x => (id x, own x)) := by
    rw [List.zip_map']
  rw [hz]
  refine ⟨by simp [Dict.keys, Function.comp_def], by simp [Function.comp_def], fun x hx => ?_⟩
  exact Dict.get?_of_mem (d := l.map (fun x => (id x, own x)))
    (by simpa [Dict.keys, Function.comp_def] using hn) (List.mem_map_of_mem hx)

private theorem series_lists {α β : Type} {id : α → Nat} {g : α → Except Err β} {own : α → β} {l : List α}
    (hn : (l.map id).Nodup) (h : ∀ x ∈ l, g x = .ok (own x)) :
    ∃ d, (match comprehension g l with
          | .error e => .error e
          | .ok vs => mkSeries (l.map id) vs) = Except.ok d ∧ Lists id own l d := by
  refine ⟨(l.map id).zip (l.map own), ?_, lists_zip id own l hn⟩
  rw [comprehension_ok h]
  simp [mkSeries]

private theorem series_error {α β : Type} {id : α → Nat} {g : α → Except Err β} {l : List α}
    (h : ∃ x ∈ l, ∃ e, g x = .error e) :
    ∃ e, (match comprehension g l with
          | .error e => .error e
          | .ok vs => mkSeries (l.map id) vs) = (Except.error e : Except Err (Dict Nat β)) := by
  obtain ⟨e, he⟩ := comprehension_spec.2 h
  exact ⟨e, by rw [he]⟩

private theorem sp_nodup {net : Net} {st : State} (h : Reachable net st) (a b c : Bool) :
    ((net.getSpecies st a b c).map RP.id).Nodup :=
  (reachable_inv h).1.spNodup.sublist (List.filter_sublist.map _)

private theorem r_nodup {net : Net} {st : State} (h : Reachable net st) (a : Bool) :
    ((net.getReactions st a).map Reaction.id).Nodup :=
  (reachable_inv h).1.rNodup.sublist (List.filter_sublist.map _)

private theorem special_iff {s : RP} : s.isSpecial = true ↔ s.name = str!"e" ∨ s.name = str!"M" := by
  simp [RP.isSpecial]

private theorem ownValue {o : Option ℚ} {d : ℚ} {s : RP} :
    OwnValue o d s (if s.isSpecial then none else match o with
      | some v => some v
      | none => some d) := by
  by_cases hs : s.isSpecial = true
  · rw [if_pos hs]; exact .special (special_iff.1 hs)
  · rw [if_neg hs]
    have hs' := fun hh => hs (special_iff.2 hh)
    cases o with
    | none => exact .default (fun h => hs' (.inl h)) (fun h => hs' (.inr h)) rfl
    | some v => exact .stored v (fun h => hs' (.inl h)) (fun h => hs' (.inr h)) rfl

/-! ### C18: species -/

/-- **C18.** In every reachable state and for all filters, the getters of names, charges, formation
enthalpies, Lennard-Jones parameters, sticking coefficients and ids succeed and are aligned with
`get_species` for the same filters: one entry per selected species, in construction order, keyed by
its id and carrying its own value. -/
theorem species_getters_aligned {net : Net} {st : State} (h : Reachable net st) (X : RP → Extra)
    (disabled special prot : Bool) :
    let sel := net.getSpecies st disabled special prot
    (∃ d, net.speciesNames st disabled special prot = .ok d ∧ Lists RP.id RP.name sel d) ∧
    (∃ d own, net.speciesCharges st disabled special prot = .ok d ∧ Lists RP.id own sel d ∧
      ∀ s, (s.name = str!"M" → own s = none) ∧ (s.name ≠ str!"M" → own s = some (s.charge.getD 0))) ∧
    (∃ d own, net.speciesHForm X st disabled special prot = .ok d ∧ Lists RP.id own sel d ∧
      ∀ s, OwnValue (X s).hForm 0 s (own s)) ∧
    (∃ d own, net.speciesLjEpsilon X st disabled special prot = .ok d ∧ Lists RP.id own sel d ∧
      ∀ s, OwnValue (X s).ljEpsilon 0 s (own s)) ∧
    (∃ d own, net.speciesLjSigma X st disabled special prot = .ok d ∧ Lists RP.id own sel d ∧
      ∀ s, OwnValue (X s).ljSigma 3 s (own s)) ∧
    (∃ own, Lists RP.id own sel (net.getSpeciesStickCoef st disabled special prot) ∧
      ∀ s, own s = stickInForce st s) ∧
    net.speciesIds st disabled special prot = sel.map RP.id := by
  intro sel
  have hn := sp_nodup h disabled special prot
  refine ⟨series_lists hn (fun s _ => rfl), ?_, ?_, ?_, ?_, ?_, rfl⟩
  · obtain ⟨d, hd, hl⟩ := series_lists (g := fun s : RP => Except.ok s.getCharge) (own := RP.getCharge)
      hn (fun s _ => rfl)
    refine ⟨d, RP.getCharge, hd, hl, fun s => ⟨fun hM => by simp [RP.getCharge, hM], fun hM => ?_⟩⟩
    unfold RP.getCharge
    rw [if_neg hM]
    cases s.charge <;> rfl
  · obtain ⟨d, hd, hl⟩ := series_lists (g := fun s : RP => Except.ok (s.getHForm X))
      (own := RP.getHForm X) hn (fun s _ => rfl)
    exact ⟨d, _, hd, hl, fun s => ownValue⟩
  · obtain ⟨d, hd, hl⟩ := series_lists (g := fun s : RP => Except.ok (s.getLjEpsilon X))
      (own := RP.getLjEpsilon X) hn (fun s _ => rfl)
    exact ⟨d, _, hd, hl, fun s => ownValue⟩
  · obtain ⟨d, hd, hl⟩ := series_lists (g := fun s : RP => Except.ok (s.getLjSigma X))
      (own := RP.getLjSigma X) hn (fun s _ => rfl)
    exact ⟨d, _, hd, hl, fun s => ownValue⟩
  · have hz := lists_zip RP.id (stickInForce st) sel hn
    rw [List.zip_map'] at hz
    exact ⟨stickInForce st, hz, fun s => rfl⟩

/-- **C18.** Masses: the getter succeeds exactly if every selected species other than `M` has a mass,
and is then aligned with the others. -/
theorem species_masses {net : Net} {st : State} (h : Reachable net st) (disabled special prot : Bool) :
    let sel := net.getSpecies st disabled special prot
    ((∀ s ∈ sel, s.name ≠ str!"M" → s.mass ≠ none) →
      ∃ d own, net.speciesMasses st disabled special prot = .ok d ∧ Lists RP.id own sel d ∧
        ∀ s, (s.name = str!"M" → own s = none) ∧ (s.name ≠ str!"M" → own s = s.mass)) ∧
    ((∃ s ∈ sel, s.name ≠ str!"M" ∧ s.mass = none) →
      ∃ e, net.speciesMasses st disabled special prot = .error e) := by
  intro sel
  have hn := sp_nodup h disabled special prot
  refine ⟨fun hm => ?_, fun hm => ?_⟩
  · obtain ⟨d, hd, hl⟩ := series_lists (l := sel) (g := RP.getMass)
      (own := fun s => if s.name = str!"M" then none else s.mass) hn (fun s hs => by
        unfold RP.getMass
        by_cases hM : s.name = str!"M"
        · rw [if_pos hM, if_pos hM]
        · rw [if_neg hM, if_neg hM]
          cases hms : s.mass with
          | none => exact absurd hms (hm s hs hM)
          | some m => rfl)
    exact ⟨d, _, hd, hl, fun s => ⟨fun hM => if_pos hM, fun hM => if_neg hM⟩⟩
  · refine series_error ?_
    obtain ⟨s, hs, hM, hms⟩ := hm
    exact ⟨s, hs, .rpAttribute, by unfold RP.getMass; rw [if_neg hM, hms]⟩

/-- **C18.** Hence the answers of any two of these getters for the same filters can be combined
position by position: entry `k` of both belongs to the same species. The return coefficients
share the index too, provided no ad-hoc coefficients are stored for a species outside the selection
(`ret_coefs_index`, C21). -/
theorem species_getters_share_index {net : Net} {st : State} (h : Reachable net st) (X : RP → Extra)
    (disabled special prot : Bool) {names : Dict Nat Str} {charges masses hf eps sig : Dict Nat _}
    (h1 : net.speciesNames st disabled special prot = .ok names)
    (h2 : net.speciesCharges st disabled special prot = .ok charges)
    (h3 : net.speciesMasses st disabled special prot = .ok masses)
    (h4 : net.speciesHForm X st disabled special prot = .ok hf)
    (h5 : net.speciesLjEpsilon X st disabled special prot = .ok eps)
    (h6 : net.speciesLjSigma X st disabled special prot = .ok sig) :
    let ids := net.speciesIds st disabled special prot
    ids.Nodup ∧ names.keys = ids ∧ charges.keys = ids ∧ masses.keys = ids ∧ hf.keys = ids ∧ eps.keys = ids ∧
      sig.keys = ids ∧ (net.getSpeciesStickCoef st disabled special prot).keys = ids := by
  intro ids
  obtain ⟨⟨d1, e1, l1⟩, ⟨d2, o2, e2, l2, -⟩, ⟨d4, o4, e4, l4, -⟩, ⟨d5, o5, e5, l5, -⟩, ⟨d6, o6, e6, l6, -⟩,
    ⟨o7, l7, -⟩, -⟩ := species_getters_aligned h X disabled special prot
  rw [h1] at e1; cases e1
  rw [h2] at e2; cases e2
  rw [h4] at e4; cases e4
  rw [h5] at e5; cases e5
  rw [h6] at e6; cases e6
  refine ⟨sp_nodup h disabled special prot, l1.index, l2.index, ?_, l4.index, l5.index, l6.index, l7.index⟩
  by_cases hm : ∀ s ∈ net.getSpecies st disabled special prot, s.name ≠ str!"M" → s.mass ≠ none
  · obtain ⟨d3, o3, e3, l3, -⟩ := (species_masses h disabled special prot).1 hm
    rw [h3] at e3; cases e3
    exact l3.index
  · push Not at hm
    obtain ⟨e, he⟩ := (species_masses h disabled special prot).2 hm
    rw [h3] at he; cases he

/-! ### C107: reactions -/

/-- **C107.** `get_reactions` returns, in construction order and without duplicates, all reactions or
those that are enabled. -/
theorem getReactions_exact {net : Net} {st : State} (h : Reachable net st) (disabled : Bool) :
    (net.getReactions st disabled).Sublist net.reactions ∧
    ((net.getReactions st disabled).map Reaction.id).Nodup ∧
    ∀ r, r ∈ net.getReactions st disabled ↔ r ∈ net.reactions ∧ (disabled = false → st.enR r.id = true) := by
  refine ⟨List.filter_sublist, r_nodup h disabled, fun r => ?_⟩
  unfold getReactions
  cases disabled <;> simp

/-- the exponent or activation energy handed out: the stored number, zero if there is only a
pre-exponential factor, nothing for a reaction without rate data. -/
inductive OwnArrh (stored arrhA : Option ℚ) : Option ℚ → Prop
  | stored (v : ℚ) : stored = some v → OwnArrh stored arrhA (some v)
  | zero : stored = none → arrhA ≠ none → OwnArrh stored arrhA (some 0)
  | none : stored = none → arrhA = none → OwnArrh stored arrhA none

private theorem arrhA_total {r : Reaction} (h : r.arrhA ≠ none → ∃ f, HasFactor r f) :
    ∃ v, r.getArrhA true = .ok v ∧ (v = none ↔ r.arrhA = none) := by
  unfold Reaction.getArrhA Reaction.getUnitA
  cases ha : r.arrhA with
  | none => exact ⟨none, rfl, by simp⟩
  | some a =>
    obtain ⟨f, u, hu, hf⟩ := h (by simp [ha])
    exact ⟨some (a * f), by simp [hu, hf], by simp⟩

private theorem orFail {r : Reaction} (o : Option ℚ) (h : r.arrhA ≠ none → ∃ f, HasFactor r f) :
    ∃ v, (match o with
      | some c => .ok (some c)
      | none => match r.getArrhA true with
        | .error e => .error e
        | .ok none => .ok none
        | .ok (some _) => .ok (some 0)) = (Except.ok v : Except Err (Option ℚ)) ∧ OwnArrh o r.arrhA v := by
  cases o with
  | some v => exact ⟨some v, rfl, .stored v rfl⟩
  | none =>
    obtain ⟨w, hw, hn⟩ := arrhA_total h
    cases w with
    | none => exact ⟨none, by simp [hw], .none rfl (hn.1 rfl)⟩
    | some w => exact ⟨some 0, by simp [hw], .zero rfl (fun hh => by simpa using hn.2 hh)⟩

/-- **C107.** In every reachable state the per-reaction getters are aligned with `get_reactions` for
the same filter; those of the Arrhenius exponent and activation energy for reactions whose rate unit
is a known one, which the constructor of reactions enforces (`init_hasFactor`). -/
theorem reaction_getters_aligned {net : Net} {st : State} (h : Reachable net st) (H : Reaction → Option ℚ)
    (disabled : Bool) :
    let sel := net.getReactions st disabled
    (∃ d, net.reactionsElEnLoss st disabled = .ok d ∧
      Lists Reaction.id (fun r => r.elEnLoss.getD 0) sel d) ∧
    (∃ d, net.reactionsGasHeat H st disabled = .ok d ∧
      Lists Reaction.id (fun r => (H r).getD 0) sel d) ∧
    (∃ d own, net.reactionsElastic st disabled = .ok d ∧ Lists Reaction.id own sel d ∧
      ∀ r, own r = true ↔ r.elastic = some true ∨ r.elastic = none ∧
        ∀ n, n ∈ r.reactants.map RP.name ↔ n ∈ r.products.map RP.name) ∧
    ((∀ r ∈ sel, r.arrhA ≠ none → ∃ f, HasFactor r f) →
      (∃ d own, net.reactionsArrhB st disabled = .ok d ∧ Lists Reaction.id own sel d ∧
        ∀ r ∈ sel, OwnArrh r.arrhB r.arrhA (own r)) ∧
      (∃ d own, net.reactionsArrhC st disabled = .ok d ∧ Lists Reaction.id own sel d ∧
        ∀ r ∈ sel, OwnArrh r.arrhC r.arrhA (own r))) ∧
    net.reactionsIds st disabled = sel.map Reaction.id := by
  intro sel
  have hn := r_nodup h disabled
  refine ⟨series_lists hn (fun r _ => rfl), series_lists hn (fun r _ => ?_), ?_, fun hf => ⟨?_, ?_⟩, rfl⟩
  · unfold Reaction.getGasHeat; cases H r <;> rfl
  · obtain ⟨d, hd, hl⟩ := series_lists (g := fun r : Reaction => Except.ok r.getElastic)
      (own := Reaction.getElastic) hn (fun r _ => rfl)
    refine ⟨d, _, hd, hl, fun r => ?_⟩
    unfold Reaction.getElastic
    cases he : r.elastic with
    | some b => simp
    | none =>
      simp only [Bool.and_eq_true, List.all_eq_true, decide_eq_true_eq]
      constructor
      · rintro ⟨h1, h2⟩; exact .inr ⟨by simp, fun n => ⟨h1 n, h2 n⟩⟩
      · rintro (hh | ⟨-, hh⟩)
        · cases hh
        · exact ⟨fun n hn => (hh n).1 hn, fun n hn => (hh n).2 hn⟩
  · have hex : ∀ r ∈ sel, ∃ v, r.arrhBOrFail = .ok v ∧ OwnArrh r.arrhB r.arrhA v :=
      fun r hr => orFail r.arrhB (hf r hr)
    let own : Reaction → Option ℚ := fun r => (r.arrhBOrFail.toOption).join
    obtain ⟨d, hd, hl⟩ := series_lists (l := sel) (g := Reaction.arrhBOrFail) (own := own) hn
      (fun r hr => by obtain ⟨v, hv, -⟩ := hex r hr; simp [own, hv, Except.toOption])
    refine ⟨d, own, hd, hl, fun r hr => ?_⟩
    obtain ⟨v, hv, ho⟩ := hex r hr
    simpa [own, hv, Except.toOption] using ho
  · have hex : ∀ r ∈ sel, ∃ v, r.arrhCOrFail = .ok v ∧ OwnArrh r.arrhC r.arrhA v :=
      fun r hr => orFail r.arrhC (hf r hr)
    let own : Reaction → Option ℚ := fun r => (r.arrhCOrFail.toOption).join
    obtain ⟨d, hd, hl⟩ := series_lists (l := sel) (g := Reaction.arrhCOrFail) (own := own) hn
      (fun r hr => by obtain ⟨v, hv, -⟩ := hex r hr; simp [own, hv, Except.toOption])
    refine ⟨d, own, hd, hl, fun r hr => ?_⟩
    obtain ⟨v, hv, ho⟩ := hex r hr
    simpa [own, hv, Except.toOption] using ho

/-- **C107.** Every reaction accepted by the constructor meets the condition on rate units. -/
theorem init_hasFactor {F : Str → Option (Dict Str Nat)} {a : ReactionArgs} {r : Reaction}
    (h : Reaction.init F a = .ok r) : r.arrhA ≠ none → ∃ f, HasFactor r f := by
  intro ha
  unfold Reaction.init at h
  split at h; · cases h
  split at h; · cases h
  split at h; · cases h
  split at h; · cases h
  split at h; · cases h
  split at h; · cases h
  split at h; · cases h
  simp only at h
  split at h
  · cases h
  rename_i hc
  split at h
  · cases h
  split at h
  · cases h
  cases h
  simp only at ha hc ⊢
  cases hj : a.arrhA.join with
  | none => exact absurd hj ha
  | some v =>
    rw [hj] at hc
    simp only [Reaction.checkArrhA] at hc
    cases hu : a.unitA with
    | none => rw [hu] at hc; cases hc
    | some u =>
      rw [hu] at hc
      simp only at hc
      by_cases hm : u ∈ Reaction.allowedUnitsA
      · have hm' := hm
        simp only [Reaction.allowedUnitsA, List.mem_cons, List.not_mem_nil, or_false] at hm'
        rcases hm' with rfl | rfl | rfl | rfl | rfl
        · exact ⟨1, _, rfl, by decide +kernel⟩
        · exact ⟨1 / 1000000, _, rfl, by decide +kernel⟩
        · exact ⟨1, _, rfl, by decide +kernel⟩
        · exact ⟨1 / 1000000000000, _, rfl, by decide +kernel⟩
        · exact ⟨1, _, rfl, by decide +kernel⟩
      · rw [if_pos hm] at hc; cases hc

/-- **C107.** The three views of one selection fit together: the rows of the stoichiometric matrix, the
pre-exponential factors and the per-reaction series carry the same index, which is what the equations
of the plasma model rely on when they combine them by position. -/
theorem reaction_getters_share_index {net : Net} {st0 : State} (h : net.init = .ok st0) (ops : List Op)
    (disabled special : Bool) (H : Reaction → Option ℚ)
    {M : Dict Nat (Dict Nat Int)} {as bs cs es : Dict Nat _} {gs : Dict Nat ℚ} {el : Dict Nat Bool}
    (hM : net.stoichiomatrix (net.run st0 ops) disabled special .net = .ok M)
    (ha : net.getReactionsArrhA (net.run st0 ops) disabled true = .ok as)
    (hb : net.reactionsArrhB (net.run st0 ops) disabled = .ok bs)
    (hc : net.reactionsArrhC (net.run st0 ops) disabled = .ok cs)
    (he : net.reactionsElEnLoss (net.run st0 ops) disabled = .ok es)
    (hg : net.reactionsGasHeat H (net.run st0 ops) disabled = .ok gs)
    (hel : net.reactionsElastic (net.run st0 ops) disabled = .ok el) :
    let ids := net.reactionsIds (net.run st0 ops) disabled
    ids.Nodup ∧ M.keys = ids ∧ as.keys = ids ∧ bs.keys = ids ∧ cs.keys = ids ∧ es.keys = ids ∧ gs.keys = ids ∧
      el.keys = ids := by
  intro ids
  have hr : Reachable net (net.run st0 ops) := (Reachable.init h).run ops
  obtain ⟨⟨d1, e1, l1⟩, ⟨d2, e2, l2⟩, ⟨d3, o3, e3, l3, -⟩, hbc, -⟩ := reaction_getters_aligned hr H disabled
  rw [he] at e1; cases e1
  rw [hg] at e2; cases e2
  rw [hel] at e3; cases e3
  have hA := arrh_a_history h ops disabled
  obtain ⟨⟨d4, o4, e4, l4, -⟩, ⟨d5, o5, e5, l5, -⟩⟩ := hbc ((hA.2.1.1 ⟨_, ha⟩).1)
  rw [hb] at e4; cases e4
  rw [hc] at e5; cases e5
  obtain ⟨M', hM', hk, -⟩ := stoichiomatrix_entries hr disabled special (m := .net) (by simp)
  rw [hM] at hM'; cases hM'
  exact ⟨r_nodup hr disabled, hk, (hA.2.2 _ ha).1, l4.index, l5.index, l1.index, l2.index, l3.index⟩

/-! ### Examples -/

/-- the demo chemistry after disabling a species: all getters answer for the three remaining ones. -/
example : let st := (Demo.net.disable Demo.st0 [.id 4] []).1
    Demo.net.speciesIds st false false true = [1, 2, 3] ∧
    (Demo.net.speciesNames st false false true).toOption =
      some [(1, str!"Ar"), (2, str!"Ar+"), (3, str!"Ar++")] ∧
    (Demo.net.speciesCharges st false false true).toOption = some [(1, some 0), (2, some 1), (3, some 2)] ∧
    (Demo.net.speciesMasses st false false true).toOption = some [(1, some 40), (2, some 40), (3, some 40)] ∧
    (Demo.net.speciesLjSigma (fun s => if s.id = 2 then { ljSigma := some 5 } else {}) st false false true).toOption =
      some [(1, some 3), (2, some 5), (3, some 3)] := by
  decide +kernel

/-- a chemistry with rate data, an ad-hoc value and a disabled reaction. -/
example : let st := Demo.netK.run Demo.st0 [.adhocArrhA 1 7, .disable [.id 4] []]
    ∃ ids, Demo.netK.reactionsIds st false = ids ∧ ids ≠ [] ∧
    ((Demo.netK.getReactionsArrhA st false true).toOption.map Dict.keys = some ids) ∧
    ((Demo.netK.reactionsArrhB st false).toOption.map Dict.keys = some ids) ∧
    ((Demo.netK.reactionsArrhC st false).toOption.map Dict.keys = some ids) ∧
    ((Demo.netK.reactionsElastic st false).toOption.map Dict.keys = some ids) ∧
    ((Demo.netK.stoichiomatrix st false false .net).toOption.map Dict.keys = some ids) :=
  ⟨_, rfl, by decide +kernel⟩

/-- an ion without a mass: the getter of masses raises, unless the ion is filtered out. -/
example : let net : Net := { Demo.net with species := Demo.net.species.map (fun s =>
      if s.id = 4 then { s with mass := none } else s) }
    (net.speciesMasses Demo.st0 false false true).toOption = none ∧
    ((net.speciesMasses { Demo.st0 with enSp := fun i => i ≠ 4 } false false true).toOption.isSome) := by
  decide +kernel

end Verif.Plaschem
