/-
Stoichiometric matrices (plaschem/chemistry.py:873-944) and property C20.
-/
import Verif.Plaschem.ChemProps2
import Verif.Plaschem.ReactProps2

namespace Verif.Plaschem

namespace Net

/-- plaschem/chemistry.py:886-892: one row of the matrix; entries that were never set are filled with
0. -/
def stoichRow (cols : List RP) (coefs : Dict Nat Int) : Dict Nat Int :=
  cols.map (fun s => (s.id, (coefs.get? s.id).getD 0))

/-- plaschem/chemistry.py:886-892: the rows for the selected reactions. -/
def stoichRows (cols : List RP) (m : Method) : List Reaction → Except Err (Dict Nat (Dict Nat Int))
  | [] => .ok []
  | r :: rs =>
    match r.getStoichCoefs m with
    | .error e => .error e
    | .ok coefs =>
      match stoichRows cols m rs with
      | .error e => .error e
      | .ok rest => .ok ((r.id, stoichRow cols coefs) :: rest)

/-- plaschem/chemistry.py:873-893 `get_stoichiomatrix`: rows labelled by reaction ids, entries by species
ids. -/
def stoichiomatrix (net : Net) (st : State) (disabled special : Bool) (m : Method) :
    Except Err (Dict Nat (Dict Nat Int)) :=
  stoichRows (net.getSpecies st disabled special true) m (net.getReactions st disabled)

/-- plaschem/chemistry.py:913-919, 937-943: coefficients of one species in the selected reactions. -/
def stoichColumn (sid : Nat) (m : Method) : List Reaction → Except Err (Dict Nat Int)
  | [] => .ok []
  | r :: rs =>
    match r.getStoichCoefs m with
    | .error e => .error e
    | .ok coefs =>
      match stoichColumn sid m rs with
      | .error e => .error e
      | .ok rest => .ok ((r.id, (coefs.get? sid).getD 0) :: rest)

/-- plaschem/chemistry.py:897-920 `get_reactions_stoich_coefs_electron`. -/
def stoichElectron (net : Net) (st : State) (disabled : Bool) (m : Method) : Except Err (Dict Nat Int) :=
  match net.getRp (.name str!"e") with
  | .error e => .error e
  | .ok s => stoichColumn s.id m (net.getReactions st disabled)

/-- plaschem/chemistry.py:922-944 `get_reactions_stoich_coefs_arbitrary`: zeros if there is no M. -/
def stoichArbitrary (net : Net) (st : State) (disabled : Bool) (m : Method) : Except Err (Dict Nat Int) :=
  match net.getRp (.name str!"M") with
  | .error _ => .ok ((net.getReactions st disabled).map (fun r => (r.id, 0)))
  | .ok s => stoichColumn s.id m (net.getReactions st disabled)

end Net
open Net

/-- Specification: the coefficient of species `i` in reaction `r`. -/
def multiplicity (r : Reaction) (i : Nat) : Method → Int
  | .lhs => (r.reactants.map RP.id).count i
  | .rhs => (r.products.map RP.id).count i
  | .net => ((r.products.map RP.id).count i : Int) - ((r.reactants.map RP.id).count i : Int)
  | _ => 0

private theorem coefs_spec (r : Reaction) {m : Method} (hm : m = .lhs ∨ m = .rhs ∨ m = .net) :
    ∃ d, r.getStoichCoefs m = .ok d ∧ ∀ i, (d.get? i).getD 0 = multiplicity r i m := by
  have absent : ∀ {d : Dict Nat Int} {i : Nat}, i ∉ d.keys → (d.get? i).getD 0 = 0 := by
    intro d i h
    cases hc : d.get? i with
    | none => rfl
    | some v => exact absurd ((Dict.mem_keys_iff d i).2 ⟨v, hc⟩) h
  rcases hm with rfl | rfl | rfl
  · obtain ⟨d, h1, h2, h3⟩ := stoich_lhs r
    refine ⟨d, h1, fun i => ?_⟩
    by_cases hi : i ∈ d.keys
    · rw [h3 i hi]; rfl
    · rw [absent hi]
      have : i ∉ r.reactants.map RP.id := fun hc => hi ((h2.2.1 i).2 hc)
      simp [multiplicity, List.count_eq_zero_of_not_mem this]
  · obtain ⟨d, h1, h2, h3⟩ := stoich_rhs r
    refine ⟨d, h1, fun i => ?_⟩
    by_cases hi : i ∈ d.keys
    · rw [h3 i hi]; rfl
    · rw [absent hi]
      have : i ∉ r.products.map RP.id := fun hc => hi ((h2.2.1 i).2 hc)
      simp [multiplicity, List.count_eq_zero_of_not_mem this]
  · obtain ⟨d, h1, h2, h3⟩ := stoich_net r
    refine ⟨d, h1, fun i => ?_⟩
    by_cases hi : i ∈ d.keys
    · rw [h3 i hi]; rfl
    · rw [absent hi]
      have : i ∉ r.reactants.map RP.id ++ r.products.map RP.id := fun hc => hi ((h2.2.1 i).2 hc)
      rw [List.mem_append, not_or] at this
      simp [multiplicity, List.count_eq_zero_of_not_mem this.1, List.count_eq_zero_of_not_mem this.2]

/-- looking up an entry in a table built by `map` -/
theorem Dict.get?_map {α β : Type} (l : List α) (key : α → Nat) (val : α → β)
    (hn : (l.map key).Nodup) {a : α} (ha : a ∈ l) :
    Dict.get? (l.map (fun x => (key x, val x))) (key a) = some (val a) := by
  induction l with
  | nil => cases ha
  | cons x l ih =>
    rw [List.map_cons, List.nodup_cons] at hn
    rw [List.map_cons, Dict.get?_cons]
    rcases List.mem_cons.1 ha with rfl | ha
    · simp
    · have : key x ≠ key a := fun h => hn.1 (h ▸ List.mem_map_of_mem ha)
      rw [if_neg this, ih hn.2 ha]

theorem rows_spec (cols : List RP) {m : Method} (hm : m = .lhs ∨ m = .rhs ∨ m = .net)
    (rs : List Reaction) :
    stoichRows cols m rs =
      .ok (rs.map (fun r => (r.id, cols.map (fun s => (s.id, multiplicity r s.id m))))) := by
  induction rs with
  | nil => rfl
  | cons r rs ih =>
    obtain ⟨d, h1, h2⟩ := coefs_spec r hm
    simp only [stoichRows, h1, ih, stoichRow, h2, List.map_cons]

private theorem column_spec (i : Nat) {m : Method} (hm : m = .lhs ∨ m = .rhs ∨ m = .net)
    (rs : List Reaction) : stoichColumn i m rs = .ok (rs.map (fun r => (r.id, multiplicity r i m))) := by
  induction rs with
  | nil => rfl
  | cons r rs ih =>
    obtain ⟨d, h1, h2⟩ := coefs_spec r hm
    simp only [stoichColumn, h1, ih, h2, List.map_cons]

/-- **C20.** The matrix has one row per selected reaction and one column per selected species, in
construction order, and each entry is the multiplicity of the species in the reaction. -/
theorem stoichiomatrix_entries {net : Net} {st : State} (h : Reachable net st) (disabled special : Bool)
    {m : Method} (hm : m = .lhs ∨ m = .rhs ∨ m = .net) :
    ∃ M, net.stoichiomatrix st disabled special m = .ok M ∧
      M.keys = (net.getReactions st disabled).map Reaction.id ∧
      ∀ r ∈ net.getReactions st disabled, ∃ row, M.get? r.id = some row ∧
        row.keys = (net.getSpecies st disabled special true).map RP.id ∧
        ∀ s ∈ net.getSpecies st disabled special true, row.get? s.id = some (multiplicity r s.id m) := by
  obtain ⟨hwf, -⟩ := reachable_inv h
  refine ⟨_, rows_spec _ hm _, by simp [Dict.keys, Function.comp_def], fun r hr => ?_⟩
  refine ⟨_, Dict.get?_map (net.getReactions st disabled) Reaction.id _
    (hwf.rNodup.sublist (List.filter_sublist.map _)) hr, by simp [Dict.keys, Function.comp_def], ?_⟩
  intro s hs
  exact Dict.get?_map _ RP.id _ (hwf.spNodup.sublist (List.filter_sublist.map _)) hs

/-- **C20.** The net matrix is the difference of the right-hand and left-hand matrices. -/
theorem stoichiomatrix_net_eq_diff {net : Net} {st : State} (h : Reachable net st)
    (disabled special : Bool) : ∃ L R N, net.stoichiomatrix st disabled special .lhs = .ok L ∧
      net.stoichiomatrix st disabled special .rhs = .ok R ∧
      net.stoichiomatrix st disabled special .net = .ok N ∧
      ∀ r ∈ net.getReactions st disabled, ∀ s ∈ net.getSpecies st disabled special true,
        ∃ l rr n a b c, L.get? r.id = some l ∧ R.get? r.id = some rr ∧ N.get? r.id = some n ∧
          l.get? s.id = some a ∧ rr.get? s.id = some b ∧ n.get? s.id = some c ∧
          c = b - a ∧ 0 ≤ a ∧ 0 ≤ b := by
  obtain ⟨L, hL, -, hL'⟩ := stoichiomatrix_entries h disabled special (m := .lhs) (by simp)
  obtain ⟨R, hR, -, hR'⟩ := stoichiomatrix_entries h disabled special (m := .rhs) (by simp)
  obtain ⟨N, hN, -, hN'⟩ := stoichiomatrix_entries h disabled special (m := .net) (by simp)
  refine ⟨L, R, N, hL, hR, hN, fun r hr s hs => ?_⟩
  obtain ⟨l, l1, -, l2⟩ := hL' r hr
  obtain ⟨rr, r1, -, r2⟩ := hR' r hr
  obtain ⟨n, n1, -, n2⟩ := hN' r hr
  exact ⟨l, rr, n, _, _, _, l1, r1, n1, l2 s hs, r2 s hs, n2 s hs, rfl,
    Int.natCast_nonneg _, Int.natCast_nonneg _⟩

/-! ### Conservation in matrix form -/

private theorem sum_filter_split {α : Type} (L : List α) (p : α → Bool) (f : α → Int) :
    (L.map f).sum = ((L.filter p).map f).sum + ((L.filter (fun x => !p x)).map f).sum := by
  induction L with
  | nil => rfl
  | cons x L ih =>
    by_cases h : p x = true
    · rw [List.filter_cons_of_pos h, List.filter_cons_of_neg (by simp [h]), List.map_cons, List.sum_cons,
        List.map_cons, List.sum_cons, ih]; ring
    · rw [List.filter_cons_of_neg h, List.filter_cons_of_pos (by simpa using h), List.map_cons,
        List.sum_cons, List.map_cons, List.sum_cons, ih]; ring

private theorem sum_only {L : List RP} (hn : (L.map RP.name).Nodup) {e : RP} (he : e ∈ L)
    (f : RP → Int) (hf : ∀ s ∈ L, s.name ≠ e.name → f s = 0) : (L.map f).sum = f e := by
  induction L with
  | nil => cases he
  | cons x L ih =>
    rw [List.map_cons, List.nodup_cons] at hn
    rw [List.map_cons, List.sum_cons]
    rcases List.mem_cons.1 he with rfl | he
    · have : ∀ s ∈ L, f s = 0 := fun s hs => hf s (by simp [hs])
        (fun hc => hn.1 (hc ▸ List.mem_map_of_mem hs))
      rw [List.map_congr_left this]; simp
    · have hx : f x = 0 := hf x (by simp) (fun hc => hn.1 (hc ▸ List.mem_map_of_mem he))
      rw [hx, zero_add, ih hn.2 he (fun s hs => hf s (by simp [hs]))]

private theorem sum_map_sub' {α : Type} (L : List α) (f g : α → Int) :
    (L.map (fun x => f x - g x)).sum = (L.map f).sum - (L.map g).sum := by
  induction L with
  | nil => rfl
  | cons x L ih => simp only [List.map_cons, List.sum_cons, ih]; ring

/-- weighted row sum over all enabled species = products minus reactants -/
private theorem row_sum {net : Net} {st : State} (hok : NetOk net st) {r : Reaction}
    (hr : r ∈ net.reactions) (her : st.enR r.id = true) (w : RP → Int) :
    ((net.getSpecies st false true true).map (fun s => multiplicity r s.id .net * w s)).sum =
      (r.products.map w).sum - (r.reactants.map w).sum := by
  let L := net.getSpecies st false true true
  have hid : (L.map RP.id).Nodup := hok.ids
  -- weight by id
  let wi : Nat → Int := fun i => match L.find? (fun s => s.id = i) with
    | some s => w s
    | none => 0
  have hwi : ∀ s ∈ L, wi s.id = w s := by
    intro s hs
    cases hf : L.find? (fun t => t.id = s.id) with
    | none =>
      have := List.find?_eq_none.1 hf s hs
      simp at this
    | some t =>
      have h1 : t ∈ L := List.mem_of_find?_eq_some hf
      have h2 : t.id = s.id := by simpa using List.find?_some hf
      have : t = s := List.inj_on_of_nodup_map hid h1 hs h2
      simp only [wi, hf, this]
  have hmem : ∀ p ∈ r.rps, p ∈ L := fun p hp => mem_getSpecies.2 (hok.present r hr her p hp)
  have e1 := sum_count_mul hid (r.products.map RP.id) (fun x hx => by
    obtain ⟨p, hp, rfl⟩ := List.mem_map.1 hx
    exact List.mem_map_of_mem (hmem p (List.mem_append_right _ hp))) wi
  have e2 := sum_count_mul hid (r.reactants.map RP.id) (fun x hx => by
    obtain ⟨p, hp, rfl⟩ := List.mem_map.1 hx
    exact List.mem_map_of_mem (hmem p (List.mem_append_left _ hp))) wi
  rw [List.map_map, List.map_map] at e1 e2
  have f1 : (r.products.map (wi ∘ RP.id)) = r.products.map w :=
    List.map_congr_left (fun p hp => hwi p (hmem p (List.mem_append_right _ hp)))
  have f2 : (r.reactants.map (wi ∘ RP.id)) = r.reactants.map w :=
    List.map_congr_left (fun p hp => hwi p (hmem p (List.mem_append_left _ hp)))
  rw [f1] at e1
  rw [f2] at e2
  rw [← e1, ← e2, ← sum_map_sub']
  show ((L.map fun s => multiplicity r s.id .net * w s)).sum = _
  congr 1
  apply List.map_congr_left
  intro s hs
  have := hwi s hs
  simp only [Function.comp, multiplicity, this]
  ring

/-- the electron coefficients are available in every reachable state of a plasma chemistry -/
theorem electron_ok {net : Net} {st : State} (h : Reachable net st) (hq : net.requiresCharge = true)
    {m : Method} (hm : m = .lhs ∨ m = .rhs ∨ m = .net) : ∃ E, net.stoichElectron st false m = .ok E := by
  obtain ⟨hwf, hinv⟩ := reachable_inv h
  obtain ⟨e, hem, hen, hname⟩ := hinv.ok.electron hq
  have hge : net.getRp (.name str!"e") = .ok e := hname ▸ find_name hwf.nameNodup hem
  exact ⟨_, by unfold stoichElectron; rw [hge]; exact column_spec e.id hm _⟩

/-- the coefficients of M are always available -/
theorem arbitrary_ok (net : Net) (st : State) {m : Method} (hm : m = .lhs ∨ m = .rhs ∨ m = .net) :
    ∃ A, net.stoichArbitrary st false m = .ok A := by
  unfold stoichArbitrary
  cases net.getRp (.name str!"M") with
  | error e => exact ⟨_, rfl⟩
  | ok s => exact ⟨_, column_spec s.id hm _⟩

theorem sum_atoms_cast (F : Str → Option (Dict Str Nat)) (l : List RP) (el : Str) :
    (l.map (fun s => (s.atomCount F el : Int))).sum = (((l.map (fun s => s.atomCount F el)).sum : Nat) : Int) := by
  induction l with
  | nil => rfl
  | cons x l ih => simp only [List.map_cons, List.sum_cons, ih]; push_cast; rfl

/-- **C20.** The rows of the net matrix, weighted by the number of atoms of any element, give zero, with or without
charged species. -/
theorem stoichiomatrix_elements {net : Net} {st : State} (h : Reachable net st)
    {F : Str → Option (Dict Str Nat)} (hb : ∀ r ∈ net.reactions, Balanced F r.reactants r.products) :
    ∃ N, net.stoichiomatrix st false false .net = .ok N ∧
      ∀ r ∈ net.getReactions st false, ∃ row, N.get? r.id = some row ∧
        ∀ el, el ≠ str!"M" → ((net.getSpecies st false false true).map
          (fun s => (row.get? s.id).getD 0 * (s.atomCount F el : Int))).sum = 0 := by
  obtain ⟨hwf, hinv⟩ := reachable_inv h
  obtain ⟨N, hN, -, hN'⟩ := stoichiomatrix_entries h false false (m := .net) (by simp)
  refine ⟨N, hN, fun r hr => ?_⟩
  obtain ⟨row, hrow1, -, hrow2⟩ := hN' r hr
  obtain ⟨hr1, hr2⟩ := List.mem_filter.1 hr
  have her : st.enR r.id = true := by simpa using hr2
  refine ⟨row, hrow1, fun el hel => ?_⟩
  have hheavy : net.getSpecies st false false true =
      (net.getSpecies st false true true).filter (fun s => !s.isSpecial) := by
    unfold getSpecies
    rw [List.filter_filter]
    apply List.filter_congr
    intro s _
    simp only [speciesMask, Bool.false_or, Bool.true_or, Bool.and_true]
    cases st.enSp s.id <;> cases s.isSpecial <;> rfl
  have e1 : (net.getSpecies st false false true).map
        (fun s => (row.get? s.id).getD 0 * (s.atomCount F el : Int)) =
      (net.getSpecies st false false true).map
        (fun s => multiplicity r s.id .net * (s.atomCount F el : Int)) :=
    List.map_congr_left (fun s hs => by rw [hrow2 s hs]; rfl)
  rw [e1, hheavy]
  have hsum := row_sum hinv.ok hr1 her (fun s => (s.atomCount F el : Int))
  rw [sum_atoms_cast, sum_atoms_cast, (hb r hr1).2, sub_self] at hsum
  rw [sum_filter_split _ (fun s : RP => !s.isSpecial)] at hsum
  have hspecial : (((net.getSpecies st false true true).filter (fun s : RP => !(!s.isSpecial))).map
      (fun s => multiplicity r s.id .net * (s.atomCount F el : Int))).sum = 0 := by
    have : ∀ s ∈ (net.getSpecies st false true true).filter (fun s : RP => !(!s.isSpecial)),
        multiplicity r s.id .net * (s.atomCount F el : Int) = 0 := by
      intro s hs
      have hsp : s.isSpecial = true := by simpa using (List.mem_filter.1 hs).2
      have : s.name = str!"e" ∨ s.name = str!"M" := by simpa [RP.isSpecial] using hsp
      have h0 : s.atomCount F el = 0 := by
        rcases this with h' | h'
        · simp [RP.atomCount, RP.getAtoms, h', Dict.get?]
        · simp [RP.atomCount, RP.getAtoms, h', Dict.get?, Ne.symm hel]
      rw [h0]; simp
    rw [List.map_congr_left this]; simp
  rw [hspecial] at hsum
  linarith

/-- **C20.** In every reachable state of a chemistry of accepted reactions, the rows of the net matrix
over the heavy species, weighted by charge, give the electron coefficient of the reaction; weighted by
the number of atoms of any element they give zero; and the net coefficient of M is zero. -/
theorem stoichiomatrix_conserves {net : Net} {st : State} (h : Reachable net st)
    {F : Str → Option (Dict Str Nat)}
    (hFM : ∀ n d, F n = some d → d.get? str!"M" = none)
    (hb : ∀ r ∈ net.reactions, Balanced F r.reactants r.products)
    (hq : net.requiresCharge = true)
    (he : ∀ s ∈ net.species, s.name = str!"e" → s.chargeOf = -1) :
    ∃ N E A, net.stoichiomatrix st false false .net = .ok N ∧ net.stoichElectron st false .net = .ok E ∧
      net.stoichArbitrary st false .net = .ok A ∧
      ∀ r ∈ net.getReactions st false, ∃ row ν, N.get? r.id = some row ∧ E.get? r.id = some ν ∧
        ((net.getSpecies st false false true).map
          (fun s => (row.get? s.id).getD 0 * s.chargeOf)).sum = ν ∧
        (∀ el, el ≠ str!"M" → ((net.getSpecies st false false true).map
          (fun s => (row.get? s.id).getD 0 * (s.atomCount F el : Int))).sum = 0) ∧
        A.get? r.id = some 0 := by
  obtain ⟨hwf, hinv⟩ := reachable_inv h
  obtain ⟨N, hN, -, hN'⟩ := stoichiomatrix_entries h false false (m := .net) (by simp)
  obtain ⟨e, hem, hen, hname⟩ := hinv.ok.electron hq
  have hge : net.getRp (.name str!"e") = .ok e := hname ▸ find_name hwf.nameNodup hem
  have hm3 : Method.net = .lhs ∨ Method.net = .rhs ∨ Method.net = .net := by simp
  have hrn : ((net.getReactions st false).map Reaction.id).Nodup :=
    hwf.rNodup.sublist (List.filter_sublist.map _)
  have atomM : ∀ s : RP, s.atomCount F str!"M" = if s.name = str!"M" then 1 else 0 := by
    intro s
    unfold RP.atomCount RP.getAtoms
    by_cases h1 : s.name = str!"e"
    · simp [h1, Dict.get?]
    · rw [if_neg h1]
      by_cases h2 : s.name = str!"M"
      · simp [h2, Dict.get?]
      · rw [if_neg h2, if_neg h2]
        cases s.getStateless with
        | error e => rfl
        | ok n =>
          simp only
          cases hF : F (stripCharge n) with
          | none => rfl
          | some d => simp [hFM _ _ hF]
  -- the coefficient of M vanishes
  have netM : ∀ r ∈ net.reactions, st.enR r.id = true → ∀ s ∈ net.species, s.name = str!"M" →
      multiplicity r s.id .net = 0 := by
    intro r hr her s hs hsM
    by_cases hens : st.enSp s.id = true
    · have hrow := row_sum hinv.ok hr her (fun s => (s.atomCount F str!"M" : Int))
      rw [sum_atoms_cast, sum_atoms_cast, (hb r hr).2, sub_self] at hrow
      have hs' : s ∈ net.getSpecies st false true true := mem_getSpecies.2 ⟨hs, hens⟩
      have honly := sum_only hinv.ok.names hs'
        (fun t => multiplicity r t.id .net * (t.atomCount F str!"M" : Int)) (by
          intro t _ hne
          have : t.name ≠ str!"M" := hsM ▸ hne
          simp only [atomM, this, if_false]; simp)
      rw [hrow] at honly
      simp only [atomM, hsM, if_true] at honly
      simpa using honly.symm
    · have hnot : ∀ p ∈ r.rps, p.id ≠ s.id := by
        intro p hp hc
        exact hens (hc ▸ (hinv.ok.present r hr her p hp).2)
      have c1 : s.id ∉ r.products.map RP.id := by
        intro hc; obtain ⟨p, hp, hpe⟩ := List.mem_map.1 hc
        exact hnot p (List.mem_append_right _ hp) hpe
      have c2 : s.id ∉ r.reactants.map RP.id := by
        intro hc; obtain ⟨p, hp, hpe⟩ := List.mem_map.1 hc
        exact hnot p (List.mem_append_left _ hp) hpe
      simp [multiplicity, List.count_eq_zero_of_not_mem c1, List.count_eq_zero_of_not_mem c2]
  have hA : ∃ A, net.stoichArbitrary st false .net = .ok A ∧
      ∀ r ∈ net.getReactions st false, A.get? r.id = some 0 := by
    unfold stoichArbitrary
    cases hgm : net.getRp (.name str!"M") with
    | error e' =>
      exact ⟨_, rfl, fun r hr => Dict.get?_map _ Reaction.id (fun _ => (0 : Int)) hrn hr⟩
    | ok s =>
      refine ⟨_, column_spec s.id hm3 _, fun r hr => ?_⟩
      rw [Dict.get?_map _ Reaction.id _ hrn hr]
      have hsM : s.name = str!"M" := by
        unfold getRp at hgm
        simp only at hgm
        split at hgm
        · rename_i t ht
          cases hgm
          simpa using List.find?_some ht
        · cases hgm
      obtain ⟨hr1, hr2⟩ := List.mem_filter.1 hr
      rw [netM r hr1 (by simpa using hr2) s (getRp_mem hgm) hsM]
  obtain ⟨A, hA1, hA2⟩ := hA
  refine ⟨N, _, A, hN, by unfold stoichElectron; rw [hge]; exact column_spec e.id hm3 _, hA1, ?_⟩
  intro r hr
  obtain ⟨row, hrow1, -, hrow2⟩ := hN' r hr
  obtain ⟨hr1, hr2⟩ := List.mem_filter.1 hr
  have her : st.enR r.id = true := by simpa using hr2
  refine ⟨row, _, hrow1, Dict.get?_map _ Reaction.id _ hrn hr, ?_, ?_, hA2 r hr⟩
  all_goals
    have hheavy : net.getSpecies st false false true =
        (net.getSpecies st false true true).filter (fun s => !s.isSpecial) := by
      unfold getSpecies
      rw [List.filter_filter]
      apply List.filter_congr
      intro s _
      simp only [speciesMask, Bool.false_or, Bool.true_or, Bool.and_true]
      cases st.enSp s.id <;> cases s.isSpecial <;> rfl
  · have e1 : (net.getSpecies st false false true).map (fun s => (row.get? s.id).getD 0 * s.chargeOf) =
        (net.getSpecies st false false true).map (fun s => multiplicity r s.id .net * s.chargeOf) :=
      List.map_congr_left (fun s hs => by rw [hrow2 s hs]; rfl)
    rw [e1, hheavy]
    have hsum := row_sum hinv.ok hr1 her RP.chargeOf
    rw [(hb r hr1).1, sub_self] at hsum
    rw [sum_filter_split _ (fun s : RP => !s.isSpecial)] at hsum
    have hspecial : (((net.getSpecies st false true true).filter (fun s : RP => !(!s.isSpecial))).map
        (fun s => multiplicity r s.id .net * s.chargeOf)).sum = multiplicity r e.id .net * (-1) := by
      rw [sum_only (hinv.ok.names.sublist (List.filter_sublist.map _)) (e := e)
        (List.mem_filter.2 ⟨mem_getSpecies.2 ⟨hem, hen⟩, by simp [RP.isSpecial, hname]⟩), he e hem hname]
      intro s hs hne
      have hsp : s.isSpecial = true := by simpa using (List.mem_filter.1 hs).2
      have : s.name = str!"M" := by
        have : s.name = str!"e" ∨ s.name = str!"M" := by simpa [RP.isSpecial] using hsp
        rcases this with h' | h'
        · exact absurd (h'.trans hname.symm) hne
        · exact h'
      have h0 : s.chargeOf = 0 := by simp [RP.chargeOf, RP.getCharge, this]
      rw [h0, mul_zero]
    rw [hspecial] at hsum
    linarith
  · obtain ⟨N2, hN2, hel⟩ := stoichiomatrix_elements h hb
    rw [hN] at hN2
    cases hN2
    obtain ⟨row2, h2, hrest⟩ := hel r hr
    rw [hrow1] at h2
    cases h2
    exact hrest

/-- a parser for the demo chemistry and the hypotheses of the theorem -/
example : (∀ r ∈ Demo.net.reactions,
      (r.reactants.map RP.chargeOf).sum = (r.products.map RP.chargeOf).sum ∧
      (r.reactants.map (fun s => s.atomCount DemoR.F str!"Ar")).sum =
      (r.products.map (fun s => s.atomCount DemoR.F str!"Ar")).sum) ∧
    (∀ s ∈ Demo.net.species, s.name = str!"e" → s.chargeOf = -1) := by
  decide

example : Demo.net.stoichiomatrix Demo.st0 false false .net = .ok
    [(1, [(1, -1), (2, 1), (3, 0), (4, 0)]), (2, [(1, 0), (2, -1), (3, 1), (4, 0)]),
     (3, [(1, -1), (2, 0), (3, 0), (4, 1)]), (4, [(1, 1), (2, 0), (3, 0), (4, -1)]),
     (5, [(1, 0), (2, 1), (3, -1), (4, 0)])] := by rfl

end Verif.Plaschem
