/-
Model of pygmo_fwork/optichem/morris.py, part 2: mapping the factors to the pre-exponential factors of the reactions
(C45), on top of the chemistry model.

The vectors of factors are arrays, the nominal values a series labelled by reaction ids, as `run_trajectory` passes them.
Reactions without rate data (nan in the code) are outside the model: `nominal` answers with an error.
-/
import Verif.Plaschem.Stoich
import Verif.Plaschem.Adhoc
import Mathlib.Algebra.BigOperators.Group.List.Basic
import Mathlib.Algebra.Order.BigOperators.GroupWithZero.List
import Mathlib.Tactic.Positivity
import Mathlib.Tactic.Ring
import Mathlib.Tactic.Linarith

namespace Verif.Fwork.Morris
open Verif.Plaschem
open Verif.Plaschem.Net

/-! ### model -/

/-- exceptions of the mappings -/
inductive MapErr where
  /-- `MorrisInputsError` -/
  | inputs
  | chem (e : Err)
  /-- a nominal value is missing (outside the model) -/
  | noRate
deriving DecidableEq

/-- morris.py:168-195 `_map_reactions_factors_to_k` -/
def mapReactions (x : List ℚ) (k : Dict Nat ℚ) : Except MapErr (Dict Nat ℚ) :=
  if x.length ≠ k.length then .error .inputs
  else .ok (List.zipWith (fun e xi => (e.1, 2 * e.2 * xi)) k x)

/-- an entry of a stoichiometric matrix -/
def entry (M : Dict Nat (Dict Nat Int)) (r s : Nat) : Int := ((M.get? r).bind (fun row => row.get? s)).getD 0

/-- morris.py:237-239: the loop over the columns of the involvement matrix (an entry is true if it is not zero in the sum
of the left-hand and the right-hand matrix) -/
def scale (L R : Dict Nat (Dict Nat Int)) : List (Nat × ℚ) → Dict Nat ℚ → Dict Nat ℚ
  | [], k => k
  | (s, xi) :: l, k =>
    scale L R l (k.map (fun e => if entry L e.1 s + entry R e.1 s ≠ 0 then (e.1, e.2 * (2 * xi)) else e))

/-- morris.py:197-241 `_map_species_factors_to_k` -/
def mapSpecies (net : Net) (st : State) (x : List ℚ) (k : Dict Nat ℚ) : Except MapErr (Dict Nat ℚ) :=
  match net.stoichiomatrix st false false .lhs with
  | .error e => .error (.chem e)
  | .ok L =>
    match net.stoichiomatrix st false false .rhs with
    | .error e => .error (.chem e)
    | .ok R =>
      let cols := (net.getSpecies st false false true).map RP.id
      if k.keys ≠ (net.getReactions st false).map Reaction.id then .error .inputs
      else if x.length ≠ cols.length then .error .inputs
      else .ok (scale L R (cols.zip x) k)

/-- all the values present -/
def present : Dict Nat (Option ℚ) → Option (Dict Nat ℚ)
  | [] => some []
  | (_, none) :: _ => none
  | (i, some v) :: l => (present l).map (fun l => (i, v) :: l)

/-- morris.py:548, 556: the nominal values -/
def nominal (net : Net) (st : State) : Except MapErr (Dict Nat ℚ) :=
  match net.getReactionsArrhA st false false with
  | .error e => .error (.chem e)
  | .ok d =>
    match present d with
    | none => .error .noRate
    | some k => .ok k

/-- morris.py:552-553, 560-561, 640-645: load the new values into the chemistry -/
def setAll (net : Net) (st : State) (k : Dict Nat ℚ) : State :=
  net.run st (k.map (fun e => .adhocArrhA e.1 e.2))

/-- what is varied -/
inductive Kind where
  | species
  | reactions

/-- morris.py:638-645: one evaluation; the nominal values are those of the start -/
def applyX (net : Net) (kind : Kind) (k : Dict Nat ℚ) (st : State) (x : List ℚ) : Except MapErr State :=
  match kind with
  | .species =>
    match mapSpecies net st x k with
    | .error e => .error e
    | .ok k' => .ok (setAll net st k')
  | .reactions =>
    match mapReactions x k with
    | .error e => .error e
    | .ok k' => .ok (setAll net st k')

/-- the vectors of a trajectory one after the other -/
def applyAll (net : Net) (kind : Kind) (k : Dict Nat ℚ) : State → List (List ℚ) → Except MapErr State
  | st, [] => .ok st
  | st, x :: xs =>
    match applyX net kind k st x with
    | .error e => .error e
    | .ok st' => applyAll net kind k st' xs

/-- morris.py:545-561, 634-645: the chemistry after the points `xs` of a trajectory -/
def perturbed (net : Net) (kind : Kind) (st : State) (xs : List (List ℚ)) : Except MapErr State :=
  match nominal net st with
  | .error e => .error e
  | .ok k => applyAll net kind k st xs

/-! ### specification -/

/-- The species takes part in the reaction. -/
def TakesPart (s : RP) (r : Reaction) : Prop := s.id ∈ r.reactants.map RP.id ∨ s.id ∈ r.products.map RP.id

instance (s : RP) (r : Reaction) : Decidable (TakesPart s r) := by unfold TakesPart; infer_instance

/-- The factor a reaction is multiplied with: `2 x` for each species taking part in it. -/
def speciesFactor (species : List RP) (x : List ℚ) (r : Reaction) : ℚ :=
  ((species.zip x).map (fun p => if TakesPart p.1 r then 2 * p.2 else 1)).prod

/-- The value in force for a reaction. -/
def inForce (st : State) (r : Reaction) : Option ℚ :=
  match st.adArrhA.get? r.id with
  | some v => some v
  | none => r.arrhA

/-! ### lemmas -/

/-- nothing but the ad-hoc pre-exponential factors differs -/
structure SameButArrh (a b : State) : Prop where
  enSp : a.enSp = b.enSp
  enR : a.enR = b.enR
  protSp : a.protSp = b.protSp
  adhocSp : a.adhocSp = b.adhocSp
  stick : a.adStick = b.adStick
  ret : a.adRet = b.adRet

theorem SameButArrh.refl (a : State) : SameButArrh a a := ⟨rfl, rfl, rfl, rfl, rfl, rfl⟩

theorem SameButArrh.trans {a b c : State} (h : SameButArrh a b) (k : SameButArrh b c) : SameButArrh a c :=
  ⟨h.enSp.trans k.enSp, h.enR.trans k.enR, h.protSp.trans k.protSp, h.adhocSp.trans k.adhocSp, h.stick.trans k.stick,
    h.ret.trans k.ret⟩

theorem SameButArrh.reactions {net : Net} {a b : State} (h : SameButArrh a b) (d : Bool) :
    net.getReactions a d = net.getReactions b d := by
  unfold getReactions; rw [h.enR]

theorem SameButArrh.species {net : Net} {a b : State} (h : SameButArrh a b) (d s p : Bool) :
    net.getSpecies a d s p = net.getSpecies b d s p := by
  unfold getSpecies speciesMask
  simp only [h.enSp, h.protSp, h.adhocSp]

theorem run_append {net : Net} (ops : List Op) (o : Op) (st : State) :
    (net.step (net.run st ops) o).1 = net.run st (ops ++ [o]) := by
  induction ops generalizing st with
  | nil => rfl
  | cons a ops ih => exact ih _

theorem reachable_run {net : Net} {st : State} (h : Reachable net st) :
    ∃ st0 ops, net.init = .ok st0 ∧ st = net.run st0 ops := by
  induction h with
  | init h => exact ⟨_, [], h, rfl⟩
  | step o _ ih =>
    obtain ⟨st0, ops, h0, rfl⟩ := ih
    exact ⟨st0, ops ++ [o], h0, run_append ops o st0⟩

/-- the getter in nominal units -/
theorem arrh_inForce {net : Net} {st : State} (h : Reachable net st) (disabled : Bool) :
    ∃ d, net.getReactionsArrhA st disabled false = .ok d ∧
      d.keys = (net.getReactions st disabled).map Reaction.id ∧
      ∀ r ∈ net.getReactions st disabled, d.get? r.id = some (inForce st r) := by
  obtain ⟨st0, ops, h0, rfl⟩ := reachable_run h
  obtain ⟨⟨d, h1, h2, h3⟩, -⟩ := arrh_a_history h0 ops disabled
  refine ⟨d, h1, h2, fun r hr => ?_⟩
  rw [h3 r hr]
  unfold inForce
  have := run_adArrh (.init h0) ops (i := r.id) (List.mem_map_of_mem (List.mem_filter.1 hr).1)
  rw [(init_spec h0).2.2.2.2.2.2.2.1] at this
  rw [this]
  rfl

theorem setAll_spec {net : Net} {st : State} (h : Reachable net st) (k : Dict Nat ℚ)
    (hk : ∀ i ∈ k.keys, i ∈ net.reactions.map Reaction.id) (hn : k.keys.Nodup) :
    Reachable net (setAll net st k) ∧ SameButArrh (setAll net st k) st ∧
      ∀ i, (setAll net st k).adArrhA.get? i = match k.get? i with | some v => some v | none => st.adArrhA.get? i := by
  induction k generalizing st with
  | nil => exact ⟨h, .refl _, fun i => rfl⟩
  | cons e k ih =>
    obtain ⟨i, v⟩ := e
    have hi : i ∈ net.reactions.map Reaction.id := hk i (by simp [Dict.keys])
    have hn' : i ∉ Dict.keys k ∧ (Dict.keys k).Nodup := by simpa [Dict.keys] using hn
    have hstep : (net.step st (.adhocArrhA i v)).1 = { st with adArrhA := st.adArrhA.set i v } := by
      simp only [step, setAdhocArrhA, if_pos hi]
    have hr := h.step (.adhocArrhA i v)
    obtain ⟨a, b, c⟩ := ih hr (fun j hj => hk j (by simp only [Dict.keys, List.map_cons]; exact List.mem_cons_of_mem _ hj)) hn'.2
    refine ⟨a, b.trans ?_, ?_⟩
    · rw [hstep]; exact ⟨rfl, rfl, rfl, rfl, rfl, rfl⟩
    · intro j
      have : setAll net st ((i, v) :: k) = setAll net (net.step st (.adhocArrhA i v)).1 k := rfl
      rw [this, c j, hstep, Dict.get?_cons]
      simp only
      by_cases hij : i = j
      · subst hij
        have : Dict.get? k i = none := by
          cases hg : Dict.get? k i with
          | none => rfl
          | some w => exact absurd ((Dict.mem_keys_iff k i).2 ⟨w, hg⟩) hn'.1
        rw [this, Dict.get?_set, if_pos rfl, if_pos rfl]
      · rw [if_neg hij, Dict.get?_set, if_neg hij]

private theorem scale_eq (L R : Dict Nat (Dict Nat Int)) (l : List (Nat × ℚ)) (k : Dict Nat ℚ) :
    scale L R l k = k.map (fun e =>
      (e.1, e.2 * (l.map (fun p => if entry L e.1 p.1 + entry R e.1 p.1 ≠ 0 then 2 * p.2 else 1)).prod)) := by
  induction l generalizing k with
  | nil => simp [scale]
  | cons c l ih =>
    obtain ⟨s, xi⟩ := c
    unfold scale
    rw [ih, List.map_map]
    apply List.map_congr_left
    rintro ⟨i, v⟩ -
    simp only [Function.comp_apply, List.map_cons, List.prod_cons]
    by_cases h : entry L i s + entry R i s ≠ 0
    · rw [if_pos h, if_pos h]
      simp only [mul_assoc]
    · rw [if_neg h, if_neg h]
      simp only [one_mul]

private theorem multiplicity_takesPart (s : RP) (r : Reaction) :
    multiplicity r s.id .lhs + multiplicity r s.id .rhs ≠ 0 ↔ TakesPart s r := by
  unfold TakesPart
  simp only [multiplicity]
  rw [← List.count_pos_iff, ← List.count_pos_iff]
  omega

private theorem entry_eq {net : Net} {st : State} {m : Method} {M : Dict Nat (Dict Nat Int)}
    (hM : ∀ r ∈ net.getReactions st false, ∃ row, M.get? r.id = some row ∧
        row.keys = (net.getSpecies st false false true).map RP.id ∧
        ∀ s ∈ net.getSpecies st false false true, row.get? s.id = some (multiplicity r s.id m))
    {r : Reaction} (hr : r ∈ net.getReactions st false) {s : RP} (hs : s ∈ net.getSpecies st false false true) :
    entry M r.id s.id = multiplicity r s.id m := by
  obtain ⟨row, h1, -, h2⟩ := hM r hr
  unfold entry
  rw [h1]
  simp [h2 s hs]

theorem mapSpecies_spec {net : Net} {st : State} (h : Reachable net st) {x : List ℚ} {k : Dict Nat ℚ}
    (hx : x.length = (net.getSpecies st false false true).length)
    (hk : k.keys = (net.getReactions st false).map Reaction.id) :
    ∃ k', mapSpecies net st x k = .ok k' ∧ k'.keys = k.keys ∧
      ∀ r ∈ net.getReactions st false, ∀ v, k.get? r.id = some v →
        k'.get? r.id = some (v * speciesFactor (net.getSpecies st false false true) x r) := by
  obtain ⟨L, hL, -, hL'⟩ := stoichiomatrix_entries h false false (m := .lhs) (by simp)
  obtain ⟨R, hR, -, hR'⟩ := stoichiomatrix_entries h false false (m := .rhs) (by simp)
  have hwf := (reachable_inv h).1
  have hnd : k.keys.Nodup := by
    rw [hk]; exact hwf.rNodup.sublist (List.filter_sublist.map _)
  refine ⟨scale L R (((net.getSpecies st false false true).map RP.id).zip x) k, ?_, ?_, ?_⟩
  · unfold mapSpecies
    rw [hL, hR]
    simp only
    rw [if_neg (not_not.2 hk), if_neg (by rw [List.length_map]; exact not_not.2 hx)]
  · rw [scale_eq]; simp [Dict.keys, Function.comp_def]
  · intro r hr v hv
    rw [scale_eq]
    have hmem : (r.id, v) ∈ k := Dict.mem_of_get? hv
    have := Dict.get?_of_mem (d := k.map (fun e => (e.1, e.2 * ((((net.getSpecies st false false true).map RP.id).zip x).map
      (fun p => if entry L e.1 p.1 + entry R e.1 p.1 ≠ 0 then 2 * p.2 else 1)).prod)))
      (by simpa [Dict.keys, Function.comp_def] using hnd) (List.mem_map_of_mem hmem)
    simp only at this
    rw [this]
    congr 2
    unfold speciesFactor
    rw [List.zip_map_left, List.map_map]
    congr 1
    apply List.map_congr_left
    rintro ⟨s, xi⟩ hp
    have hs : s ∈ net.getSpecies st false false true := (List.of_mem_zip hp).1
    simp only [Function.comp_apply, Prod.map_apply, id_eq]
    rw [entry_eq hL' hr hs, entry_eq hR' hr hs]
    by_cases ht : TakesPart s r
    · rw [if_pos ((multiplicity_takesPart s r).2 ht), if_pos ht]
    · rw [if_neg (fun hc => ht ((multiplicity_takesPart s r).1 hc)), if_neg ht]

theorem mapReactions_spec {rs : List Reaction} (hn : (rs.map Reaction.id).Nodup) {x : List ℚ} {k : Dict Nat ℚ}
    (hx : x.length = rs.length) (hk : k.keys = rs.map Reaction.id) :
    ∃ k', mapReactions x k = .ok k' ∧ k'.keys = k.keys ∧
      ∀ p ∈ rs.zip x, ∀ v, k.get? p.1.id = some v → k'.get? p.1.id = some (v * (2 * p.2)) := by
  have hl : x.length = k.length := by
    rw [hx, ← List.length_map (f := Reaction.id), ← hk]; simp [Dict.keys]
  refine ⟨_, by unfold mapReactions; rw [if_neg (not_not.2 hl)], ?_, ?_⟩
  · clear hx hk
    induction k generalizing x with
    | nil => rfl
    | cons e k ih =>
      cases x with
      | nil => simp at hl
      | cons a x =>
        have := ih (x := x) (by simpa using hl)
        simpa [Dict.keys] using this
  · clear hl
    induction rs generalizing x k with
    | nil => intro p hp; simp at hp
    | cons r rs ih =>
      cases x with
      | nil => simp at hx
      | cons a x =>
        cases k with
        | nil => simp [Dict.keys] at hk
        | cons e k =>
          obtain ⟨i, w⟩ := e
          simp only [Dict.keys, List.map_cons, List.cons.injEq] at hk
          simp only [List.map_cons, List.nodup_cons] at hn
          rintro p hp v hv
          rw [List.zip_cons_cons, List.mem_cons] at hp
          simp only [List.zipWith_cons_cons]
          rw [Dict.get?_cons] at hv ⊢
          rcases hp with rfl | hp
          · simp only at hv ⊢
            rw [if_pos hk.1] at hv ⊢
            cases hv
            congr 1; ring
          · have hmem : p.1 ∈ rs := (List.of_mem_zip hp).1
            have hne : i ≠ p.1.id := by
              intro h
              exact hn.1 (hk.1 ▸ h ▸ List.mem_map_of_mem hmem)
            rw [if_neg hne] at hv ⊢
            exact ih hn.2 (by simpa using hx) hk.2 p hp v hv

private theorem present_spec {d : Dict Nat (Option ℚ)} (h : ∀ p ∈ d, ∃ v, p.2 = some v) :
    ∃ k, present d = some k ∧ k.keys = d.keys ∧ ∀ i v, d.get? i = some (some v) → k.get? i = some v := by
  induction d with
  | nil => exact ⟨[], rfl, rfl, by intro i v h; cases h⟩
  | cons e d ih =>
    obtain ⟨i, w⟩ := e
    obtain ⟨v, hv⟩ := h (i, w) (by simp)
    simp only at hv
    subst hv
    obtain ⟨k, h1, h2, h3⟩ := ih (fun p hp => h p (by simp [hp]))
    refine ⟨(i, v) :: k, by simp [present, h1], by simpa [Dict.keys] using h2, ?_⟩
    intro j u hj
    rw [Dict.get?_cons] at hj ⊢
    by_cases hij : i = j
    · rw [if_pos hij] at hj ⊢; cases hj; rfl
    · rw [if_neg hij] at hj ⊢; exact h3 j u hj

theorem nominal_spec {net : Net} {st : State} (h : Reachable net st)
    (hr : ∀ r ∈ net.getReactions st false, ∃ v, inForce st r = some v) :
    ∃ k, nominal net st = .ok k ∧ k.keys = (net.getReactions st false).map Reaction.id ∧
      ∀ r ∈ net.getReactions st false, ∀ v, inForce st r = some v → k.get? r.id = some v := by
  obtain ⟨d, h1, h2, h3⟩ := arrh_inForce h false
  have hnd : d.keys.Nodup := by
    rw [h2]; exact (reachable_inv h).1.rNodup.sublist (List.filter_sublist.map _)
  have hp : ∀ p ∈ d, ∃ v, p.2 = some v := by
    intro p hp
    have hk : p.1 ∈ d.keys := List.mem_map_of_mem hp
    rw [h2] at hk
    obtain ⟨r, hrm, hri⟩ := List.mem_map.1 hk
    have := Dict.get?_of_mem hnd hp
    rw [← hri, h3 r hrm] at this
    obtain ⟨v, hv⟩ := hr r hrm
    exact ⟨v, by rw [← Option.some.inj this, hv]⟩
  obtain ⟨k, k1, k2, k3⟩ := present_spec hp
  refine ⟨k, by unfold nominal; rw [h1]; simp only; rw [k1], k2.trans h2, ?_⟩
  intro r hrm v hv
  exact k3 _ _ (by rw [h3 r hrm, hv])

/-- the value a mapping gives to a reaction, in terms of the positions in the vector of factors -/
def mapped (net : Net) (kind : Kind) (st : State) (x : List ℚ) (r : Reaction) (v w : ℚ) : Prop :=
  match kind with
  | .species => w = v * speciesFactor (net.getSpecies st false false true) x r
  | .reactions => ∀ p ∈ (net.getReactions st false).zip x, p.1 = r → w = v * (2 * p.2)

/-- number of factors -/
def dimension (net : Net) (st : State) : Kind → ℕ
  | .species => (net.getSpecies st false false true).length
  | .reactions => (net.getReactions st false).length

theorem applyX_spec {net : Net} {st0 st : State} (h : Reachable net st) (hs : SameButArrh st st0) (kind : Kind)
    {k : Dict Nat ℚ} (hk : k.keys = (net.getReactions st0 false).map Reaction.id) {x : List ℚ}
    (hx : x.length = dimension net st0 kind) :
    ∃ st', applyX net kind k st x = .ok st' ∧ Reachable net st' ∧ SameButArrh st' st0 ∧
      ∀ r ∈ net.getReactions st0 false, ∀ v, k.get? r.id = some v →
        ∃ w, st'.adArrhA.get? r.id = some w ∧ mapped net kind st0 x r v w := by
  have hnd : ((net.getReactions st0 false).map Reaction.id).Nodup :=
    (reachable_inv h).1.rNodup.sublist (List.filter_sublist.map _)
  have hsub : ∀ i ∈ (net.getReactions st0 false).map Reaction.id, i ∈ net.reactions.map Reaction.id := by
    intro i hi
    obtain ⟨r, hr, rfl⟩ := List.mem_map.1 hi
    exact List.mem_map_of_mem (List.mem_filter.1 hr).1
  cases kind with
  | species =>
    obtain ⟨k', m1, m2, m3⟩ := mapSpecies_spec h (x := x) (k := k) (by rw [hs.species]; exact hx) (by rw [hs.reactions]; exact hk)
    obtain ⟨a, b, c⟩ := setAll_spec h k' (by rw [m2, hk]; exact hsub) (by rw [m2, hk]; exact hnd)
    refine ⟨setAll net st k', by unfold applyX; simp only [m1], a, b.trans hs, ?_⟩
    intro r hr v hv
    refine ⟨_, ?_, rfl⟩
    rw [c, m3 r (by rw [hs.reactions]; exact hr) v hv, hs.species]
  | reactions =>
    obtain ⟨k', m1, m2, m3⟩ := mapReactions_spec hnd (x := x) (k := k) hx hk
    obtain ⟨a, b, c⟩ := setAll_spec h k' (by rw [m2, hk]; exact hsub) (by rw [m2, hk]; exact hnd)
    refine ⟨setAll net st k', by unfold applyX; simp only [m1], a, b.trans hs, ?_⟩
    intro r hr v hv
    have hkey : r.id ∈ k'.keys := by rw [m2, hk]; exact List.mem_map_of_mem hr
    obtain ⟨w, hw⟩ := (Dict.mem_keys_iff _ _).1 hkey
    refine ⟨w, by rw [c, hw], ?_⟩
    intro p hp hpr
    subst hpr
    have := m3 p hp v hv
    rw [hw] at this
    exact Option.some.inj this

private theorem applyAll_spec {net : Net} {st0 : State} (kind : Kind) {k : Dict Nat ℚ}
    (hk : k.keys = (net.getReactions st0 false).map Reaction.id) (xs : List (List ℚ)) (x : List ℚ)
    (hx : x.length = dimension net st0 kind) : (∀ y ∈ xs, y.length = dimension net st0 kind) →
    ∀ {st : State}, Reachable net st → SameButArrh st st0 →
    ∃ st', applyAll net kind k st (xs ++ [x]) = .ok st' ∧ Reachable net st' ∧ SameButArrh st' st0 ∧
      ∀ r ∈ net.getReactions st0 false, ∀ v, k.get? r.id = some v →
        ∃ w, st'.adArrhA.get? r.id = some w ∧ mapped net kind st0 x r v w := by
  induction xs with
  | nil =>
    intro _ st h hs
    obtain ⟨st', e, rest⟩ := applyX_spec h hs kind hk hx
    exact ⟨st', by simp only [List.nil_append, applyAll, e], rest⟩
  | cons y xs ih =>
    intro hy st h hs
    obtain ⟨st1, e, h1, hs1, -⟩ := applyX_spec h hs kind hk (hy y (by simp))
    obtain ⟨st', e', rest⟩ := ih (fun z hz => hy z (by simp [hz])) h1 hs1
    exact ⟨st', by simp only [List.cons_append, applyAll, e, e'], rest⟩

/-! ### C45 -/

/-- **C45.** In every reachable state of a chemistry whose enabled reactions have rate data, after any points of a
trajectory the last of which is `x`, the rate coefficient in force for each enabled reaction is its value at the start
times the factor that belongs to `x` alone: nothing of the earlier points is left. For a species run the factor is the
product of `2 x_s` over the species taking part in the reaction, for a reactions run it is `2 x_r`. Nothing else in
the chemistry has changed. -/
theorem perturbed_values {net : Net} {st : State} (h : Reachable net st)
    (hr : ∀ r ∈ net.getReactions st false, ∃ v, inForce st r = some v) (kind : Kind) (xs : List (List ℚ)) (x : List ℚ)
    (hxs : ∀ y ∈ xs, y.length = dimension net st kind) (hx : x.length = dimension net st kind) :
    ∃ st', perturbed net kind st (xs ++ [x]) = .ok st' ∧ SameButArrh st' st ∧
      ∃ d, net.getReactionsArrhA st' false false = .ok d ∧
        d.keys = (net.getReactions st false).map Reaction.id ∧
        ∀ r ∈ net.getReactions st false, ∀ v, inForce st r = some v →
          ∃ w, d.get? r.id = some (some w) ∧ mapped net kind st x r v w := by
  obtain ⟨k, k1, k2, k3⟩ := nominal_spec h hr
  obtain ⟨st', e, h', hs', hv⟩ := applyAll_spec kind k2 xs x hx hxs h (.refl st)
  refine ⟨st', by unfold perturbed; rw [k1]; exact e, hs', ?_⟩
  obtain ⟨d, d1, d2, d3⟩ := arrh_inForce h' false
  rw [hs'.reactions] at d2 d3
  refine ⟨d, d1, d2, ?_⟩
  intro r hrm v hrv
  obtain ⟨w, w1, w2⟩ := hv r hrm v (k3 r hrm v hrv)
  refine ⟨w, ?_, w2⟩
  rw [d3 r hrm]
  unfold inForce
  rw [w1]

/-- **C45.** Factors of 1/2 leave a reaction as it is. -/
theorem speciesFactor_centre {species : List RP} {x : List ℚ} {r : Reaction}
    (h : ∀ p ∈ species.zip x, TakesPart p.1 r → p.2 = 1 / 2) : speciesFactor species x r = 1 := by
  unfold speciesFactor
  apply List.prod_eq_one
  intro y hy
  obtain ⟨p, hp, rfl⟩ := List.mem_map.1 hy
  by_cases ht : TakesPart p.1 r
  · rw [if_pos ht, h p hp ht]; norm_num
  · rw [if_neg ht]

/-- **C45.** Only the factors of the species taking part matter. -/
theorem speciesFactor_local {species : List RP} {x y : List ℚ} {r : Reaction} (hl : x.length = y.length)
    (h : ∀ i (hi : i < species.length) (hx : i < x.length) (hy : i < y.length), TakesPart species[i] r → x[i] = y[i]) :
    speciesFactor species x r = speciesFactor species y r := by
  unfold speciesFactor
  congr 1
  apply List.ext_getElem
  · simp [hl]
  · intro i h1 h2
    simp only [List.length_map, List.length_zip, lt_inf_iff] at h1 h2
    simp only [List.getElem_map, List.getElem_zip]
    by_cases ht : TakesPart species[i] r
    · rw [if_pos ht, if_pos ht, h i h1.1 h1.2 h2.2 ht]
    · rw [if_neg ht, if_neg ht]

/-- **C45.** Inside the unit cube the factor is positive and less than two to the number of species taking part (one if
there is none). -/
theorem speciesFactor_bounds {species : List RP} {x : List ℚ} {r : Reaction} (hx : ∀ a ∈ x, 0 < a ∧ a < 1) :
    0 < speciesFactor species x r ∧
      speciesFactor species x r ≤ 2 ^ ((species.zip x).countP (fun p => decide (TakesPart p.1 r))) := by
  unfold speciesFactor
  have : ∀ l : List (RP × ℚ), (∀ p ∈ l, 0 < p.2 ∧ p.2 < 1) →
      0 < (l.map (fun p => if TakesPart p.1 r then 2 * p.2 else 1)).prod ∧
      (l.map (fun p => if TakesPart p.1 r then 2 * p.2 else 1)).prod ≤
        2 ^ (l.countP (fun p => decide (TakesPart p.1 r))) := by
    intro l hl
    induction l with
    | nil => simp
    | cons p l ih =>
      obtain ⟨h1, h2⟩ := ih (fun q hq => hl q (by simp [hq]))
      obtain ⟨h3, h4⟩ := hl p (by simp)
      simp only [List.map_cons, List.prod_cons, List.countP_cons]
      by_cases ht : TakesPart p.1 r
      · simp only [if_pos ht, decide_eq_true ht, if_true, pow_succ]
        refine ⟨by positivity, ?_⟩
        calc 2 * p.2 * (l.map (fun p => if TakesPart p.1 r then 2 * p.2 else 1)).prod
            ≤ 2 * (2 ^ l.countP (fun p => decide (TakesPart p.1 r))) :=
              mul_le_mul (by linarith) h2 h1.le (by norm_num)
          _ = _ := by ring
      · simp only [if_neg ht, one_mul, decide_eq_false ht]
        exact ⟨h1, by simpa using h2⟩
  apply this
  intro p hp
  exact hx _ (List.of_mem_zip hp).2

/-! ### a concrete case -/

/-- the demo chemistry with rate data -/
def netRates : Net :=
  { Demo.net with
    reactions := Demo.net.reactions.map (fun r => { r with arrhA := some 5, arrhAUnit := some str!"m3.s-1" }) }

example : netRates.init = .ok Demo.st0 ∧ dimension netRates Demo.st0 .species = 4 ∧
    dimension netRates Demo.st0 .reactions = 5 ∧
    ∀ r ∈ netRates.getReactions Demo.st0 false, ∃ v, inForce Demo.st0 r = some v := by
  refine ⟨rfl, rfl, rfl, ?_⟩
  intro r hr
  refine ⟨5, ?_⟩
  have : r ∈ netRates.reactions := (List.mem_filter.1 hr).1
  obtain ⟨r', -, rfl⟩ := List.mem_map.1 this
  rfl

/-- Ar+ down to a quarter, Ar* up to one: the reactions with Ar+ are halved, those with Ar* doubled. The first vector
leaves no trace. -/
example : (match perturbed netRates .species Demo.st0 [[1/20, 1/20, 1/20, 1/20], [1/2, 1/4, 1/2, 1]] with
    | .ok st => (netRates.getReactionsArrhA st false false).toOption
    | .error _ => none) =
    some [(1, some (5/2)), (2, some (5/2)), (3, some 10), (4, some 10), (5, some (5/2))] := by decide +kernel

end Verif.Fwork.Morris
