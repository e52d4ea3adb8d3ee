/-
Ad-hoc attributes and surface return coefficients: model of the remaining getters
(plaschem/chemistry.py:777-795, 844-871) and properties C19, C21, C24.
-/
import Verif.Plaschem.ChemProps2
import Verif.Plaschem.DictLemmas

namespace Verif.Plaschem

namespace Net

/-- plaschem/chemistry.py:785: nominal pre-exponential factors of the selected reactions. -/
def nominalArrhA (si : Bool) : List Reaction → Except Err (Dict Nat (Option ℚ))
  | [] => .ok []
  | r :: rs =>
    match r.getArrhA si with
    | .error e => .error e
    | .ok v =>
      match nominalArrhA si rs with
      | .error e => .error e
      | .ok rest => .ok ((r.id, v) :: rest)

/-- plaschem/chemistry.py:789-792: conversion of *all* stored ad-hoc values (also of disabled
reactions); a missing unit is a `KeyError`. -/
def adhocToSI (net : Net) : Dict Nat ℚ → Except Err (Dict Nat ℚ)
  | [] => .ok []
  | (i, v) :: rest =>
    match net.getReaction i with
    | .error e => .error e
    | .ok r =>
      match r.getUnitA with
      | none => .error .keyError
      | some u =>
        match Reaction.siFactors.get? u with
        | none => .error .keyError
        | some f =>
          match net.adhocToSI rest with
          | .error e => .error e
          | .ok rest' => .ok ((i, v * f) :: rest')

/-- plaschem/chemistry.py:793 `Series.update`: entries with a matching label are overwritten. -/
def updateSeries (d : Dict Nat (Option ℚ)) (u : Dict Nat ℚ) : Dict Nat (Option ℚ) :=
  d.map (fun e => (e.1, match u.get? e.1 with
                        | some v => some v
                        | none => e.2))

/-- plaschem/chemistry.py:777-795 `get_reactions_arrh_a`. -/
def getReactionsArrhA (net : Net) (st : State) (disabled si : Bool) :
    Except Err (Dict Nat (Option ℚ)) :=
  match nominalArrhA si (net.getReactions st disabled) with
  | .error e => .error e
  | .ok d =>
    if si then
      match net.adhocToSI st.adArrhA with
      | .error e => .error e
      | .ok u => .ok (updateSeries d u)
    else .ok (updateSeries d st.adArrhA)

/-- a data frame under construction: row labels, column labels and the cells that were assigned. -/
structure RetMat where
  rows : List Nat
  cols : List Nat
  cells : Dict (Nat × Nat) ℚ

/-- plaschem/chemistry.py:864 `ret_mat.at[i, j] = v`: an unknown row label enlarges the frame. -/
def RetMat.put (M : RetMat) (i j : Nat) (v : ℚ) : RetMat :=
  { M with rows := if i ∈ M.rows then M.rows else M.rows ++ [i], cells := M.cells.set (i, j) v }

/-- plaschem/chemistry.py:861-864: the inner loop, for the dictionary of species `j`. -/
def putAll (net : Net) (j : Nat) (M : RetMat) : Dict Str ℚ → Except Err RetMat
  | [] => .ok M
  | (n, v) :: rest =>
    match net.getRp (.name n) with
    | .error e => .error e
    | .ok s => net.putAll j (M.put s.id j v) rest

/-- plaschem/chemistry.py:858-864: the outer loop. -/
def putCols (net : Net) (M : RetMat) : Dict Nat (Option (Dict Str ℚ)) → Except Err RetMat
  | [] => .ok M
  | (_, none) :: rest => net.putCols M rest
  | (j, some c) :: rest =>
    match net.putAll j M c with
    | .error e => .error e
    | .ok M' => net.putCols M' rest

/-- plaschem/chemistry.py:865 `fillna(0.)`: the entry of the final frame. -/
def RetMat.entry (M : RetMat) (i j : Nat) : ℚ := (M.cells.get? (i, j)).getD 0

/-- plaschem/chemistry.py:844-871 `get_return_matrix(disabled, special=False)`. The variant
`special=True` is `Verif.Fwork.CoupleInit.returnCells`. -/
def getReturnMatrix (net : Net) (st : State) (disabled : Bool) : Except Err RetMat :=
  match net.getSpeciesRetCoefs st disabled false true with
  | .error e => .error e
  | .ok d => net.putCols { rows := d.keys, cols := d.keys, cells := [] } d

end Net
open Net

/-! ### identifiers -/

theorem designates_iff {net : Net} (hwf : WF net) {x : SpIdent} {s : RP} (h : net.getRp x = .ok s)
    (i : Nat) : Designates net x i ↔ s.id = i := by
  have := resolveSpecies_iff hwf (xs := [x]) (l := [s.id]) (by simp [resolveSpecies, h]) i
  rw [List.mem_singleton] at this
  constructor
  · intro hd; exact (this.2 ⟨x, by simp, hd⟩).symm
  · intro hs
    obtain ⟨y, hy, hd⟩ := this.1 hs.symm
    rw [List.mem_singleton] at hy
    exact hy ▸ hd

theorem not_designates {net : Net} {x : SpIdent} {e : Err} (h : net.getRp x = .error e) (i : Nat) :
    ¬ Designates net x i := by
  intro hd
  unfold getRp at h
  cases x with
  | id j =>
    obtain ⟨rfl, s, hs, hi⟩ := hd
    simp only at h
    split at h
    · cases h
    · rename_i hf
      have := List.find?_eq_none.1 hf s hs
      simp [hi] at this
  | name n =>
    obtain ⟨s, hs, hn, -⟩ := hd
    simp only at h
    split at h
    · cases h
    · rename_i hf
      have := List.find?_eq_none.1 hf s hs
      simp [hn] at this
  | obj o =>
    obtain ⟨hs, -⟩ := hd
    simp only at h
    split at h
    · cases h
    · rename_i hf
      have := List.find?_eq_none.1 hf o hs
      simp at this

/-! ### C19 -/

open Classical in
/-- Specification: the ad-hoc sticking coefficient in force for species `i` after one more call, if
`cur` was in force before. -/
noncomputable def nextStick (net : Net) (i : Nat) (cur : Option ℚ) : Op → Option ℚ
  | .adhocStick x v => if Designates net x i then some v else cur
  | .resetAdhocSpecies true _ => none
  | _ => cur

/-- Specification: the ad-hoc pre-exponential factor in force for reaction `i` after one more call. -/
def nextArrh (i : Nat) (cur : Option ℚ) : Op → Option ℚ
  | .adhocArrhA r v => if r = i then some v else cur
  | .resetAdhocReactions => none
  | _ => cur

private theorem disable_adhoc {net : Net} {st : State} (hwf : WF net) (hinv : Inv net st)
    (sp : List SpIdent) (rx : List Nat) : (net.disable st sp rx).1.adStick = st.adStick ∧
    (net.disable st sp rx).1.adRet = st.adRet ∧ (net.disable st sp rx).1.adArrhA = st.adArrhA := by
  rcases disable_cases hinv sp rx with ⟨e, -, -, -, he, -⟩ | ⟨sids, -, -, he, -⟩ | ⟨sids, st', -, -, hr, he⟩
  · rw [he]; exact ⟨rfl, rfl, rfl⟩
  · rw [he]; exact ⟨rfl, rfl, rfl⟩
  · rw [he]
    have c := cascade_of_ok hwf hr
    exact ⟨c.stick, c.ret, c.arrh⟩

open Classical in
theorem step_adStick {net : Net} {st : State} (h : Reachable net st) (o : Op) (i : Nat) :
    (net.step st o).1.adStick.get? i = nextStick net i (st.adStick.get? i) o := by
  obtain ⟨hwf, hinv⟩ := reachable_inv h
  cases o with
  | disable sp rx => simp only [step, nextStick]; rw [(disable_adhoc hwf hinv sp rx).1]
  | reset => rfl
  | protect sp => simp only [step, nextStick]; rw [setProtected_spec.2.2.2.1]
  | adhocStick x v =>
    simp only [step, nextStick, setAdhocStick]
    cases hx : net.getRp x with
    | error e => rw [if_neg (not_designates hx i)]
    | ok s =>
      have key : (st.adStick.set s.id v).get? i =
          if Designates net x i then some v else st.adStick.get? i := by
        rw [Dict.get?_set]
        by_cases hi : s.id = i
        · rw [if_pos hi, if_pos ((designates_iff hwf hx i).2 hi)]
        · rw [if_neg hi, if_neg (fun hd => hi ((designates_iff hwf hx i).1 hd))]
      simp only
      split <;> exact key
  | adhocRet x v =>
    simp only [step, nextStick, setAdhocRet]
    split
    · rfl
    · split
      · rfl
      · split <;> rfl
  | resetAdhocSpecies a b => cases a <;> rfl
  | adhocArrhA r v => simp only [step, nextStick, setAdhocArrhA]; split <;> rfl
  | resetAdhocReactions => rfl

theorem step_adArrh {net : Net} {st : State} (h : Reachable net st) (o : Op) {i : Nat}
    (hi : i ∈ net.reactions.map Reaction.id) :
    (net.step st o).1.adArrhA.get? i = nextArrh i (st.adArrhA.get? i) o := by
  obtain ⟨hwf, hinv⟩ := reachable_inv h
  cases o with
  | disable sp rx => simp only [step, nextArrh]; rw [(disable_adhoc hwf hinv sp rx).2.2]
  | reset => rfl
  | protect sp => simp only [step, nextArrh]; rw [setProtected_spec.2.2.2.2.2.1]
  | adhocStick x v =>
    simp only [step, nextArrh, setAdhocStick]
    split
    · rfl
    · split <;> rfl
  | adhocRet x v =>
    simp only [step, nextArrh, setAdhocRet]
    split
    · rfl
    · split
      · rfl
      · split <;> rfl
  | resetAdhocSpecies a b => rfl
  | adhocArrhA r v =>
    simp only [step, nextArrh, setAdhocArrhA]
    by_cases hr : r ∈ net.reactions.map Reaction.id
    · rw [if_pos hr, Dict.get?_set]
    · rw [if_neg hr]
      have : r ≠ i := fun hc => hr (hc ▸ hi)
      rw [if_neg this]
  | resetAdhocReactions => rfl

theorem Reachable.run {net : Net} {st : State} (h : Reachable net st) (ops : List Op) :
    Reachable net (net.run st ops) := by
  induction ops generalizing st with
  | nil => exact h
  | cons o ops ih => exact ih (h.step o)

private theorem run_adStick {net : Net} {st : State} (h : Reachable net st) (ops : List Op) (i : Nat) :
    (net.run st ops).adStick.get? i = ops.foldl (nextStick net i) (st.adStick.get? i) := by
  induction ops generalizing st with
  | nil => rfl
  | cons o ops ih =>
    rw [Net.run, ih (h.step o), step_adStick h, List.foldl_cons]

theorem run_adArrh {net : Net} {st : State} (h : Reachable net st) (ops : List Op) {i : Nat}
    (hi : i ∈ net.reactions.map Reaction.id) :
    (net.run st ops).adArrhA.get? i = ops.foldl (nextArrh i) (st.adArrhA.get? i) := by
  induction ops generalizing st with
  | nil => rfl
  | cons o ops ih =>
    rw [Net.run, ih (h.step o), step_adArrh h _ hi, List.foldl_cons]

private theorem get?_map' {α β : Type} (l : List α) (key : α → Nat) (val : α → β)
    (hn : (l.map key).Nodup) {a : α} (ha : a ∈ l) :
    Dict.get? (l.map (fun x => (key x, val x))) (key a) = some (val a) :=
  Dict.get?_of_mem (d := l.map (fun x => (key x, val x)))
    (by simpa [Dict.keys, Function.comp_def] using hn) (List.mem_map_of_mem ha)

/-- **C19.** After any history of calls, the sticking coefficient handed out for each selected species
is the last ad-hoc value set for it since the last reset, and the nominal one if there is none. -/
theorem stick_coef_history {net : Net} {st0 : State} (h : net.init = .ok st0) (ops : List Op)
    (disabled special prot : Bool) :
    let st := net.run st0 ops
    let d := net.getSpeciesStickCoef st disabled special prot
    d.keys = (net.getSpecies st disabled special prot).map RP.id ∧
    ∀ s ∈ net.getSpecies st disabled special prot,
      d.get? s.id = some (match ops.foldl (nextStick net s.id) none with
                          | some v => some v
                          | none => s.getStickCoef) := by
  intro st d
  have hr : Reachable net st0 := .init h
  have hwf := (reachable_inv hr).1
  refine ⟨by simp [d, getSpeciesStickCoef, Dict.keys, Function.comp_def], fun s hs => ?_⟩
  have h0 : st0.adStick = [] := (init_spec h).2.2.2.2.2.1
  have hh := run_adStick hr ops s.id
  rw [h0] at hh
  have := get?_map' (net.getSpecies st disabled special prot) RP.id
    (fun s => match st.adStick.get? s.id with
              | some v => some v
              | none => s.getStickCoef) (hwf.spNodup.sublist (List.filter_sublist.map _)) hs
  refine this.trans ?_
  show some (match (net.run st0 ops).adStick.get? s.id with
              | some v => some v
              | none => s.getStickCoef) = _
  rw [hh]
  rfl

/-- The rate unit of the reaction has a conversion factor to SI. -/
def HasFactor (r : Reaction) (f : ℚ) : Prop :=
  ∃ u, r.arrhAUnit = some u ∧ Reaction.siFactors.get? u = some f

private theorem hasFactor_unique {r : Reaction} {f g : ℚ} (h : HasFactor r f) (k : HasFactor r g) :
    f = g := by
  obtain ⟨u, hu, hf⟩ := h
  obtain ⟨w, hw, hg⟩ := k
  rw [hu] at hw; cases hw
  rw [hf] at hg; cases hg; rfl

private theorem getArrhA_ok_iff {r : Reaction} :
    (∃ v, r.getArrhA true = .ok v) ↔ (r.arrhA = none ∨ ∃ f, HasFactor r f) := by
  unfold Reaction.getArrhA Reaction.getUnitA HasFactor
  cases r.arrhA with
  | none => simp
  | some a =>
    simp only [if_true]
    cases r.arrhAUnit with
    | none => simp
    | some u =>
      simp only
      cases hg : Reaction.siFactors.get? u with
      | none => simp [hg]
      | some f => simp [hg]

private theorem nominalArrhA_spec {si : Bool} {l : List Reaction} :
    (∀ d, nominalArrhA si l = .ok d → (∀ r ∈ l, ∃ v, r.getArrhA si = .ok v) ∧
      d.map Prod.fst = l.map Reaction.id ∧
      ∀ e ∈ d, ∃ r ∈ l, r.id = e.1 ∧ r.getArrhA si = .ok e.2) ∧
    ((∀ r ∈ l, ∃ v, r.getArrhA si = .ok v) → ∃ d, nominalArrhA si l = .ok d) := by
  induction l with
  | nil => refine ⟨?_, fun _ => ⟨[], rfl⟩⟩; intro d hd; cases hd; simp
  | cons r l ih =>
    constructor
    · intro d hd
      unfold nominalArrhA at hd
      split at hd
      · cases hd
      rename_i v hv
      split at hd
      · cases hd
      rename_i rest hrest
      cases hd
      obtain ⟨a, b, c⟩ := ih.1 rest hrest
      refine ⟨?_, by simp [b], ?_⟩
      · intro t ht
        rcases List.mem_cons.1 ht with rfl | ht
        · exact ⟨v, hv⟩
        · exact a t ht
      · intro e he
        rcases List.mem_cons.1 he with rfl | he
        · exact ⟨r, by simp, rfl, hv⟩
        · obtain ⟨t, ht, h1, h2⟩ := c e he
          exact ⟨t, by simp [ht], h1, h2⟩
    · intro hall
      obtain ⟨d, hd⟩ := ih.2 (fun t ht => hall t (by simp [ht]))
      obtain ⟨v, hv⟩ := hall r (by simp)
      exact ⟨_, by simp only [nominalArrhA, hv, hd]; rfl⟩

private theorem getReaction_find {net : Net} (hn : (net.reactions.map Reaction.id).Nodup) {r : Reaction}
    (hr : r ∈ net.reactions) : net.getReaction r.id = .ok r := by
  unfold getReaction
  cases hf : net.reactions.find? (fun t => decide (t.id = r.id)) with
  | none =>
    have := List.find?_eq_none.1 hf r hr
    simp at this
  | some t =>
    have h1 := List.mem_of_find?_eq_some hf
    have h2 := List.find?_some hf
    have : t = r := List.inj_on_of_nodup_map hn h1 hr (by simpa using h2)
    rw [this]

private theorem adhocToSI_spec {net : Net} (hn : (net.reactions.map Reaction.id).Nodup)
    {ad : Dict Nat ℚ} (hk : ∀ i ∈ ad.keys, i ∈ net.reactions.map Reaction.id) :
    (∀ u, net.adhocToSI ad = .ok u → (∀ r ∈ net.reactions, r.id ∈ ad.keys → ∃ f, HasFactor r f) ∧
      ∀ r ∈ net.reactions, ∀ f, HasFactor r f → u.get? r.id = (ad.get? r.id).map (fun v => v * f)) ∧
    ((∀ r ∈ net.reactions, r.id ∈ ad.keys → ∃ f, HasFactor r f) → ∃ u, net.adhocToSI ad = .ok u) := by
  induction ad with
  | nil =>
    refine ⟨?_, fun _ => ⟨[], rfl⟩⟩
    intro u hu; cases hu
    exact ⟨fun r _ h => (by cases h), fun r _ f _ => rfl⟩
  | cons e ad ih =>
    obtain ⟨i, v⟩ := e
    obtain ⟨r, hr, rfl⟩ := List.mem_map.1 (hk i (by simp [Dict.keys]))
    have ih' := ih (fun j hj => hk j (by simp only [Dict.keys, List.map_cons, List.mem_cons] at hj ⊢; exact .inr hj))
    constructor
    · intro u hu
      unfold adhocToSI at hu
      rw [getReaction_find hn hr] at hu
      simp only at hu
      cases hun : r.getUnitA with
      | none => rw [hun] at hu; cases hu
      | some w =>
        rw [hun] at hu
        simp only at hu
        cases hfa : Reaction.siFactors.get? w with
        | none => rw [hfa] at hu; cases hu
        | some f =>
          rw [hfa] at hu
          simp only at hu
          cases hrest : net.adhocToSI ad with
          | error e => rw [hrest] at hu; cases hu
          | ok rest =>
            rw [hrest] at hu
            cases hu
            obtain ⟨a, b⟩ := ih'.1 rest hrest
            have hF : HasFactor r f := ⟨w, hun, hfa⟩
            refine ⟨?_, ?_⟩
            · intro t ht htk
              simp only [Dict.keys, List.map_cons, List.mem_cons] at htk
              rcases htk with heq | htk
              · have : t = r := List.inj_on_of_nodup_map hn ht hr heq
                subst this; exact ⟨f, hF⟩
              · exact a t ht htk
            · intro t ht g hg
              rw [Dict.get?_cons, Dict.get?_cons]
              by_cases heq : r.id = t.id
              · rw [if_pos heq, if_pos heq]
                have : t = r := List.inj_on_of_nodup_map hn ht hr heq.symm
                subst this
                rw [hasFactor_unique hF hg]; rfl
              · rw [if_neg heq, if_neg heq]; exact b t ht g hg
    · intro hall
      obtain ⟨f, w, hw, hf⟩ := hall r hr (by simp [Dict.keys])
      obtain ⟨u, hu⟩ := ih'.2 (fun t ht htk => hall t ht (by
        simp only [Dict.keys, List.map_cons, List.mem_cons] at htk ⊢; exact .inr htk))
      have hw' : r.getUnitA = some w := hw
      refine ⟨(r.id, v * f) :: u, ?_⟩
      unfold adhocToSI
      rw [getReaction_find hn hr]
      simp only [hw', hf, hu]

private theorem reachable_arrhKeys {net : Net} {st : State} (h : Reachable net st) :
    ∀ i ∈ st.adArrhA.keys, i ∈ net.reactions.map Reaction.id := by
  induction h with
  | init h => rw [(init_spec h).2.2.2.2.2.2.2.1]; intro i hi; cases hi
  | @step st o hr ih =>
    obtain ⟨hwf, hinv⟩ := reachable_inv hr
    cases o with
    | disable sp rx => simp only [step]; rw [(disable_adhoc hwf hinv sp rx).2.2]; exact ih
    | reset => exact ih
    | protect sp => simp only [step]; rw [setProtected_spec.2.2.2.2.2.1]; exact ih
    | adhocStick x v =>
      simp only [step, setAdhocStick]
      split
      · exact ih
      · split <;> exact ih
    | adhocRet x v =>
      simp only [step, setAdhocRet]
      split
      · exact ih
      · split
        · exact ih
        · split <;> exact ih
    | resetAdhocSpecies a b => exact ih
    | adhocArrhA r v =>
      simp only [step, setAdhocArrhA]
      split
      · rename_i hr
        intro i hi
        rw [Dict.keys_set] at hi
        split at hi
        · exact ih i hi
        · rcases List.mem_append.1 hi with hi | hi
          · exact ih i hi
          · rw [List.mem_singleton] at hi; exact hi ▸ hr
      · exact ih
    | resetAdhocReactions => intro i hi; cases hi

/-- **C19.** After any history of calls, the pre-exponential factor handed out in nominal units is the
last ad-hoc value set since the last reset, else the nominal one. In SI units the getter succeeds
exactly when every selected reaction with a nominal factor and every reaction with an ad-hoc factor,
selected or not, has a unit with a conversion factor, and then hands out the same values converted. -/
theorem arrh_a_history {net : Net} {st0 : State} (h : net.init = .ok st0) (ops : List Op)
    (disabled : Bool) :
    let st := net.run st0 ops
    let inForce : Reaction → Option ℚ := fun r =>
      match ops.foldl (nextArrh r.id) none with
      | some v => some v
      | none => r.arrhA
    (∃ d, net.getReactionsArrhA st disabled false = .ok d ∧
      d.keys = (net.getReactions st disabled).map Reaction.id ∧
      ∀ r ∈ net.getReactions st disabled, d.get? r.id = some (inForce r)) ∧
    ((∃ d, net.getReactionsArrhA st disabled true = .ok d) ↔
      (∀ r ∈ net.getReactions st disabled, r.arrhA ≠ none → ∃ f, HasFactor r f) ∧
      (∀ r ∈ net.reactions, ops.foldl (nextArrh r.id) none ≠ none → ∃ f, HasFactor r f)) ∧
    (∀ d, net.getReactionsArrhA st disabled true = .ok d →
      d.keys = (net.getReactions st disabled).map Reaction.id ∧
      ∀ r ∈ net.getReactions st disabled, ∀ f, HasFactor r f →
        d.get? r.id = some ((inForce r).map (fun v => v * f))) := by
  intro st inForce
  have hr0 : Reachable net st0 := .init h
  have hr : Reachable net st := hr0.run ops
  have hwf := (reachable_inv hr0).1
  have h0 : st0.adArrhA = [] := (init_spec h).2.2.2.2.2.2.2.1
  have hget : ∀ r ∈ net.reactions, st.adArrhA.get? r.id = ops.foldl (nextArrh r.id) none := by
    intro r hrm
    have := run_adArrh hr0 ops (i := r.id) (List.mem_map_of_mem hrm)
    rw [h0] at this
    exact this
  have hsub : ∀ r ∈ net.getReactions st disabled, r ∈ net.reactions := fun r hr => (List.mem_filter.1 hr).1
  have hnd : ((net.getReactions st disabled).map Reaction.id).Nodup :=
    hwf.rNodup.sublist (List.filter_sublist.map _)
  have upd : ∀ (si : Bool) (d : Dict Nat (Option ℚ)) (u : Dict Nat ℚ),
      nominalArrhA si (net.getReactions st disabled) = .ok d →
      (updateSeries d u).keys = (net.getReactions st disabled).map Reaction.id ∧
      ∀ r ∈ net.getReactions st disabled, ∀ v, r.getArrhA si = .ok v →
        (updateSeries d u).get? r.id = some (match u.get? r.id with
          | some w => some w
          | none => v) := by
    intro si d u hd
    obtain ⟨-, b, c⟩ := (nominalArrhA_spec (si := si)).1 d hd
    have hk : (updateSeries d u).keys = (net.getReactions st disabled).map Reaction.id := by
      rw [← b]; simp [updateSeries, Dict.keys, Function.comp_def]
    refine ⟨hk, fun r hrm v hv => ?_⟩
    have hmem : r.id ∈ d.map Prod.fst := b ▸ List.mem_map_of_mem hrm
    obtain ⟨e, he, hei⟩ := List.mem_map.1 hmem
    obtain ⟨t, ht, hti, htv⟩ := c e he
    have : t = r := List.inj_on_of_nodup_map hnd ht hrm (hti.trans hei)
    subst this
    rw [hv] at htv
    cases htv
    have := Dict.get?_of_mem (d := updateSeries d u) (by rw [hk]; exact hnd)
      (p := (e.1, match u.get? e.1 with
                        | some v => some v
                        | none => e.2)) (List.mem_map_of_mem he)
    simp only [hei] at this
    exact this
  have hkeys := reachable_arrhKeys hr
  obtain ⟨hsi1, hsi2⟩ := adhocToSI_spec hwf.rNodup hkeys
  have hinKeys : ∀ r ∈ net.reactions, r.id ∈ st.adArrhA.keys ↔ ops.foldl (nextArrh r.id) none ≠ none := by
    intro r hrm
    rw [Dict.mem_keys_iff, hget r hrm, Option.ne_none_iff_exists']
  refine ⟨?_, ?_, ?_⟩
  · obtain ⟨d, hd⟩ := (nominalArrhA_spec (si := false) (l := net.getReactions st disabled)).2
      (fun r _ => by unfold Reaction.getArrhA; cases r.arrhA <;> simp)
    obtain ⟨k1, k2⟩ := upd false d st.adArrhA hd
    refine ⟨_, by simp only [getReactionsArrhA, hd]; rfl, k1, fun r hrm => ?_⟩
    have hv : r.getArrhA false = .ok r.arrhA := by unfold Reaction.getArrhA; cases r.arrhA <;> simp
    rw [k2 r hrm _ hv, hget r (hsub r hrm)]
  · constructor
    · rintro ⟨d, hd⟩
      unfold getReactionsArrhA at hd
      split at hd
      · cases hd
      rename_i d0 hd0
      simp only [if_true] at hd
      split at hd
      · cases hd
      rename_i u hu
      refine ⟨fun r hrm hne => ?_, fun r hrm hne => ?_⟩
      · have := ((nominalArrhA_spec (si := true)).1 d0 hd0).1 r hrm
        exact (getArrhA_ok_iff.1 this).resolve_left hne
      · exact (hsi1 u hu).1 r hrm ((hinKeys r hrm).2 hne)
    · rintro ⟨a, b⟩
      obtain ⟨d0, hd0⟩ := (nominalArrhA_spec (si := true) (l := net.getReactions st disabled)).2
        (fun r hrm => getArrhA_ok_iff.2 (by
          by_cases hn : r.arrhA = none
          · exact .inl hn
          · exact .inr (a r hrm hn)))
      obtain ⟨u, hu⟩ := hsi2 (fun r hrm hk => b r hrm ((hinKeys r hrm).1 hk))
      exact ⟨_, by simp only [getReactionsArrhA, hd0, hu]; rfl⟩
  · intro d hd
    unfold getReactionsArrhA at hd
    split at hd
    · cases hd
    rename_i d0 hd0
    simp only [if_true] at hd
    split at hd
    · cases hd
    rename_i u hu
    cases hd
    obtain ⟨k1, k2⟩ := upd true d0 u hd0
    refine ⟨k1, fun r hrm f hf => ?_⟩
    have hv : r.getArrhA true = .ok (r.arrhA.map (fun v => v * f)) := by
      obtain ⟨w, hw, hwf⟩ := hf
      unfold Reaction.getArrhA Reaction.getUnitA
      cases r.arrhA with
      | none => rfl
      | some a => simp [hw, hwf]
    rw [k2 r hrm _ hv, (hsi1 u hu).2 r (hsub r hrm) f hf, hget r (hsub r hrm)]
    simp only [inForce]
    cases ops.foldl (nextArrh r.id) none <;> rfl

/-- a chemistry with rate data -/
def Demo.k1 : Reaction := { Demo.r1 with arrhA := some 5, arrhAUnit := some str!"m3.s-1" }
def Demo.netK : Net := { Demo.net with reactions := [Demo.k1, Demo.r2, Demo.r3, Demo.r4, Demo.r5] }

/-- a history on it -/
def Demo.stK : State := Demo.netK.run Demo.st0
  [.adhocStick (.name str!"Ar+") 2, .adhocArrhA 1 7, .disable [.id 4] [], .adhocStick (.id 2) 3]

/-- the demo chemistry: later settings win, other items keep their values, resets restore -/
example : Demo.netK.init = .ok Demo.st0 ∧
    Demo.netK.getSpeciesStickCoef Demo.stK false false true = [(1, some 0), (2, some 3), (3, some 1)] ∧
    (Demo.netK.getReactionsArrhA Demo.stK false false = .ok [(1, some 7), (2, none), (5, none)]) ∧
    Demo.netK.getSpeciesStickCoef (Demo.netK.run Demo.stK [.resetAdhocSpecies true false]) false false true =
      [(1, some 0), (2, some 1), (3, some 1)] := ⟨rfl, rfl, rfl, rfl⟩

/-- **C19, negative part.** An ad-hoc pre-exponential factor for a reaction without rate data is
accepted, and from then on the SI getter fails for the whole chemistry, even if that reaction is
disabled. -/
theorem adhoc_arrh_breaks_si_getter :
    let st := Demo.netK.run Demo.st0 [.adhocArrhA 3 7, .disable [.id 4] []]
    (Demo.netK.setAdhocArrhA Demo.st0 3 7).2 = none ∧
    (∃ d, Demo.netK.getReactionsArrhA (Demo.netK.run Demo.st0 [.disable [.id 4] []]) false true = .ok d) ∧
    st.enR 3 = false ∧ Demo.netK.getReactionsArrhA st false true = .error .keyError := by
  refine ⟨rfl, ?_, rfl, ?_⟩
  · have h := (arrh_a_history (net := Demo.netK) (st0 := Demo.st0) rfl [.disable [.id 4] []] false).2.1
    refine h.2 ⟨?_, ?_⟩
    · intro r hr hne
      have : r ∈ [Demo.k1, Demo.r2, Demo.r5] := hr
      simp only [List.mem_cons, List.not_mem_nil, or_false] at this
      rcases this with rfl | rfl | rfl
      · exact ⟨1, str!"m3.s-1", rfl, rfl⟩
      · exact absurd rfl hne
      · exact absurd rfl hne
    · intro r hr hne; exact absurd rfl hne
  · rfl

/-! ### C24 -/

/-- **C24.** An accepted ad-hoc dictionary only names enabled species; the call stores exactly that
dictionary for exactly that species. -/
theorem adhoc_ret_accepted {net : Net} {st st' : State} (h : Reachable net st) {x : SpIdent}
    {v : Dict Str ℚ} (hs : net.setAdhocRet st x v = (st', none)) :
    (∃ s ∈ net.species, Designates net x s.id ∧ st'.adRet.get? s.id = some v) ∧
    (∀ p ∈ v, ∃ t ∈ net.species, t.name = p.1 ∧ st.enSp t.id = true) ∧
    (∀ i, ¬ Designates net x i → st'.adRet.get? i = st.adRet.get? i) ∧
    st' = { st with adRet := st'.adRet } := by
  obtain ⟨hwf, hinv⟩ := reachable_inv h
  unfold setAdhocRet at hs
  split at hs
  · simp at hs
  rename_i s hx
  by_cases hv : (v.all fun p => decide (p.1 ∈ net.getSpeciesName st false true true)) = true
  · rw [if_neg (not_not.2 hv)] at hs
    simp only at hs
    split at hs
    · simp at hs
    · simp only [Prod.mk.injEq, and_true] at hs
      subst hs
      refine ⟨⟨s, getRp_mem hx, (designates_iff hwf hx s.id).2 rfl, ?_⟩, ?_, ?_, rfl⟩
      · simp only [Dict.get?_set, if_true]
      · intro p hp
        have := of_decide_eq_true (List.all_eq_true.1 hv p hp)
        obtain ⟨t, ht, htn⟩ := List.mem_map.1 this
        exact ⟨t, (mem_getSpecies.1 ht).1, htn, (mem_getSpecies.1 ht).2⟩
      · intro i hi
        simp only [Dict.get?_set]
        rw [if_neg (fun hc => hi ((designates_iff hwf hx i).2 hc))]
  · rw [if_pos hv] at hs; simp at hs

/-- **C24.** If every return species named in the nominal data exists, the call raises exactly when the
identifier is unknown or a name is not that of an enabled species, and it then changes nothing. -/
theorem adhoc_ret_rejected {net : Net} {st : State} (h : Reachable net st) (hcl : net.RetClosed)
    (x : SpIdent) (v : Dict Str ℚ) :
    ((net.setAdhocRet st x v).2 ≠ none ↔ (∀ i, ¬ Designates net x i) ∨
      ∃ p ∈ v, ∀ t ∈ net.species, st.enSp t.id = true → t.name ≠ p.1) ∧
    ((net.setAdhocRet st x v).2 ≠ none → (net.setAdhocRet st x v).1 = st) := by
  obtain ⟨hwf, hinv⟩ := reachable_inv h
  unfold setAdhocRet
  split
  · rename_i e hx
    exact ⟨⟨fun _ => .inl (not_designates hx), fun _ => by simp⟩, fun _ => rfl⟩
  rename_i s hx
  have hd : ¬ ∀ i, ¬ Designates net x i := fun hc => hc s.id ((designates_iff hwf hx s.id).2 rfl)
  have hbad : (∃ p ∈ v, ∀ t ∈ net.species, st.enSp t.id = true → t.name ≠ p.1) ↔
      ¬ (v.all fun p => decide (p.1 ∈ net.getSpeciesName st false true true)) = true := by
    rw [List.all_eq_true]
    push Not
    refine exists_congr fun p => and_congr_right fun _ => ?_
    rw [ne_eq, decide_eq_true_eq, getSpeciesName, List.mem_map]
    constructor
    · rintro h1 ⟨t, ht, htn⟩
      exact h1 t (mem_getSpecies.1 ht).1 (mem_getSpecies.1 ht).2 htn
    · intro h1 t ht he htn
      exact h1 ⟨t, mem_getSpecies.2 ⟨ht, he⟩, htn⟩
  by_cases hv : (v.all fun p => decide (p.1 ∈ net.getSpeciesName st false true true)) = true
  · rw [if_neg (not_not.2 hv)]
    obtain ⟨hn, ha⟩ := reachable_ret h
    have hr : Reachable net (net.setAdhocRet st x v).1 := h.step (.adhocRet x v)
    have hst : (net.setAdhocRet st x v).1 = { st with adRet := st.adRet.set s.id v } := by
      unfold setAdhocRet
      rw [hx]
      simp only
      rw [if_neg (not_not.2 hv)]
      split <;> rfl
    rw [hst] at hr
    have hok := (consistency_check_passes hr hcl).1
    simp only [hok]
    refine ⟨⟨fun hc => absurd rfl hc, ?_⟩, fun hc => absurd rfl hc⟩
    rintro (hc | hc)
    · exact absurd hc hd
    · exact absurd hv (hbad.1 hc)
  · rw [if_pos hv]
    exact ⟨⟨fun _ => .inr (hbad.2 hv), fun _ => by simp⟩, fun _ => rfl⟩

/-- both outcomes occur -/
example : (Demo.net.setAdhocRet Demo.st0 (.id 2) [(str!"Ar", 1), (str!"Ar*", 2)]).2 = none ∧
    (Demo.net.setAdhocRet Demo.st0 (.id 2) [(str!"Ar", 1), (str!"O2", 2)]).2 = some .consistency ∧
    (Demo.net.setAdhocRet Demo.st0 (.name str!"He") [(str!"Ar", 1)]).2 = some .speciesNotPresent :=
  ⟨rfl, rfl, rfl⟩

end Verif.Plaschem
