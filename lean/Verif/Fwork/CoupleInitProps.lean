/-
C92: the coupling graph of a chemistry: when the constructor accepts its input, what its arrays are, and the weights and the
ranking in terms of the chemistry.
-/
import Verif.Fwork.CoupleInit
import Verif.Fwork.MorrisRet
import Verif.Plaschem.DumpLoad

namespace Verif.Fwork.CoupleInit
open Finset Verif.Plaschem Verif.Plaschem.Net Verif.Fwork.Rates
open Verif.Fwork.Morris (PyDicts ret_nodup)

/-! ### specification -/

/-- how many particles `a` come back for each particle `b` that sticks to the wall -/
def returned (st : State) (b a : RP) : ℚ :=
  if b.isSpecial || a.isSpecial then 0
  else
    match b.getRetCoefs with
    | .error _ => 0
    | .ok nominal =>
      match retInForce st b nominal with
      | none => 0
      | some c => (c.get? a.name).getD 0

/-- change of the number of particles `a` by the reaction, per second, without sign -/
noncomputable def turnover (f : Lab → ℝ) (a : RP) (r : Reaction) : ℝ :=
  |(r.products.count a : ℝ) - r.reactants.count a| * f (.id r.id)

/-- source of `a` at the walls because `b` sticks there, with area and volume of a cylinder -/
noncomputable def wall (st : State) (radius length : ℝ) (w : Str → ℝ) (b a : RP) : ℝ :=
  if b.isSpecial then 0
  else w b.name * (2 * Real.pi * radius * (radius + length)) / (Real.pi * radius ^ 2 * length) *
    ((if b = a then 1 else 0) - (returned st b a : ℝ))

/-! ### lemmas -/

theorem get?_filter_key {α : Type} (d : Dict Str α) (p : Str → Prop) [DecidablePred p] {n : Str} (hn : p n) :
    Dict.get? (d.filter fun e => decide (p e.1)) n = d.get? n := by
  induction d with
  | nil => rfl
  | cons e d ih =>
    obtain ⟨k, v⟩ := e
    by_cases hk : p k
    · rw [List.filter_cons_of_pos (by simpa using hk), Dict.get?_cons, Dict.get?_cons, ih]
    · rw [List.filter_cons_of_neg (by simpa using hk), Dict.get?_cons, ih, if_neg (fun h : k = n => hk (h ▸ hn))]

theorem cells_spec {net : Net} {st : State} (h : Sound net st) (hcl : net.RetClosed) (hpy : PyDicts net st) :
    ∃ M, returnCells net st = .ok M ∧ M.rows = M.cols ∧
      (M.cols = ids net st ↔ ∀ i ∈ st.adRet.keys, ∃ s ∈ net.species, s.id = i ∧ st.enSp s.id = true) ∧
      ∀ a ∈ net.getSpecies st false true true, ∀ b ∈ net.getSpecies st false true true,
        returnEntry net M a.id b.id = returned st b a := by
  have hwf := h.wf
  have hinv := h.inv
  obtain ⟨d, hd, hval, hnames, hnd, hkeys⟩ := ret_coefs_value_of h.wf h.nom h.ad h.ret hcl false true true
  have hmem : ∀ e ∈ d, d.get? e.1 = some e.2 := fun e he => Dict.get?_of_mem hnd he
  have hdict := ret_nodup hpy hd
  obtain ⟨M, h1, h2, h3, -, h5⟩ := putCols_spec hwf hnd
    (fun e he c hc => hdict e.1 c (by rw [hmem e he, hc]))
    (fun e he c hc p hp => by
      obtain ⟨t, ht, htn, -⟩ := hnames e.1 c (by rw [hmem e he, hc]) p hp
      exact ⟨t, ht, htn⟩) { rows := d.keys, cols := d.keys, cells := [] }
  have hrow : M.rows = d.keys := by
    refine h5 fun t ht hm => (hkeys _).2 (.inl ⟨t, ?_, rfl⟩)
    rw [mem_retNames] at hm
    obtain ⟨e, he, c, hc, p, hp, hpn⟩ := hm
    obtain ⟨u, hu, hun, hue⟩ := hnames e.1 c (by rw [hmem e he, hc]) p hp
    have : u = t := hwf.eq_of_name hu ht (hun.trans hpn)
    exact mem_getSpecies.2 ⟨ht, this ▸ hue⟩
  refine ⟨M, by unfold returnCells; rw [hd]; exact h1, by rw [hrow, h2], ?_, ?_⟩
  · have h2' : M.cols = d.keys := h2
    rw [h2']
    constructor
    · intro he i hi
      have : i ∈ d.keys := (hkeys i).2 (.inr (.inl hi))
      rw [he] at this
      obtain ⟨s, hs, rfl⟩ := List.mem_map.1 this
      obtain ⟨h6, h7⟩ := mem_getSpecies.1 hs
      exact ⟨s, h6, rfl, h7⟩
    · intro hall
      obtain ⟨d', hd', hk⟩ := ret_coefs_index_of h.nom false true (fun i hi => by
        obtain ⟨s, hs, hsi, hse⟩ := hall i hi
        exact ⟨s, mem_getSpecies.2 ⟨hs, hse⟩, hsi⟩)
      rw [hd] at hd'
      cases hd'
      exact hk
  · intro a ha b hb
    obtain ⟨ha1, ha2⟩ := mem_getSpecies.1 ha
    obtain ⟨hb1, hb2⟩ := mem_getSpecies.1 hb
    have hsp : ∀ s ∈ net.species, specialId net s.id = s.isSpecial := by
      intro s hs
      rw [Bool.eq_iff_iff]
      unfold specialId
      rw [List.any_eq_true]
      constructor
      · rintro ⟨t, ht, he⟩
        rw [decide_eq_true_eq] at he
        rw [← hwf.eq_of_id ht hs he.1]
        exact he.2
      · intro hc
        exact ⟨s, hs, by simp [hc]⟩
    unfold returnEntry returned
    rw [hsp a ha1, hsp b hb1, Bool.or_comm]
    by_cases hs : (b.isSpecial || a.isSpecial) = true
    · rw [if_pos hs, if_pos hs]
    · rw [if_neg hs, if_neg hs]
      obtain ⟨nominal, hnom, hget⟩ := hval b hb
      unfold RetMat.entry
      rw [h3 a ha1 b.id, hnom, hget]
      simp only
      cases hin : retInForce st b nominal with
      | none => rfl
      | some c =>
        have hk : (keepEnabled net st c).get? a.name = c.get? a.name := by
          classical
          unfold keepEnabled
          exact get?_filter_key c (EnabledName net st) ⟨a, ha1, rfl, ha2⟩
        simp only [Option.map_some, hk]
        cases c.get? a.name <;> rfl

theorem count_id {l : List RP} {a : RP} (h : ∀ p ∈ l, p.id = a.id → p = a) : (l.map RP.id).count a.id = l.count a := by
  induction l with
  | nil => rfl
  | cons p l ih =>
    rw [List.map_cons, List.count_cons, List.count_cons, ih fun q hq => h q (List.mem_cons_of_mem _ hq)]
    congr 1
    by_cases hp : p = a
    · simp [hp]
    · have : p.id ≠ a.id := fun e => hp (h p (List.mem_cons_self ..) e)
      simp [hp, this]

theorem cell_spec {net : Net} {st : State} (hwf : WF net) {m : Method} (f : Reaction → RP → ℕ)
    (hf : ∀ r s, multiplicity r s.id m = f r s) (hm : m = .lhs ∨ m = .rhs ∨ m = .net) :
    ∃ M, net.stoichiomatrix st false true m = .ok M ∧
      (∀ e ∈ M, e.2.keys = ids net st) ∧ M.keys = (net.getReactions st false).map Reaction.id ∧
      ∀ (j : Fin (net.getReactions st false).length) (i : Fin (net.getSpecies st false true true).length),
        cell M j i = f (net.getReactions st false)[j] (net.getSpecies st false true true)[i] := by
  refine ⟨_, rows_spec _ hm _, ?_, ?_, ?_⟩
  · intro e he
    obtain ⟨r, -, rfl⟩ := List.mem_map.1 he
    simp [Dict.keys, ids, Function.comp_def]
  · simp [Dict.keys, Function.comp_def]
  · intro j i
    unfold cell
    rw [List.getElem?_map, List.getElem?_eq_getElem j.2]
    simp only [Option.map_some]
    rw [List.getElem?_map, List.getElem?_eq_getElem i.2]
    simp only [Option.map_some]
    have := hf (net.getReactions st false)[j] (net.getSpecies st false true true)[i]
    simp only [Fin.getElem_fin] at this ⊢
    rw [this]
    rfl

/-! ### C92 -/

/-- What the constructor asks of the frames and of the chemistry. -/
structure Matching (net : Net) (st : State) (F : Frame Lab) (W : Frame Str) : Prop where
  rates : F.cols = .t :: (net.getReactions st false).map (fun r => Lab.id r.id)
  fluxes : W.cols = str!"t" :: (net.getSpecies st false false true).map RP.name
  times : F.rows.map (fun r => r .t) = W.rows.map (fun r => r str!"t")
  adhoc : ∀ i ∈ st.adRet.keys, ∃ s ∈ net.species, s.id = i ∧ st.enSp s.id = true

theorem accepted_iff_sound {net : Net} {st : State} (h : Sound net st) (hcl : net.RetClosed) (hpy : PyDicts net st)
    (radius length : ℝ) (F : Frame Lab) (W : Frame Str) :
    (∃ C, init net st radius length F W = .ok C) ↔ Matching net st F W := by
  have hwf := h.wf
  obtain ⟨L, hL, hL1, hL2, -⟩ := cell_spec (st := st) hwf (m := .lhs) (fun r s => (r.reactants.map RP.id).count s.id)
    (fun _ _ => rfl) (by simp)
  obtain ⟨R, hR, hR1, hR2, -⟩ := cell_spec (st := st) hwf (m := .rhs) (fun r s => (r.products.map RP.id).count s.id)
    (fun _ _ => rfl) (by simp)
  obtain ⟨M, hM, hM1, hM2, -⟩ := cells_spec h hcl hpy
  have hck : check net st F W = .ok () ↔ Matching net st F W := by
    have a1 : L.any (fun e => e.2.keys ≠ ids net st) = false := by
      rw [List.any_eq_false]
      intro e he
      simp [hL1 e he]
    have a2 : R.any (fun e => e.2.keys ≠ ids net st) = false := by
      rw [List.any_eq_false]
      intro e he
      simp [hR1 e he]
    unfold check Frame.times
    simp only [hL, hR, hL2, hR2, hM, a1, a2]
    constructor
    · intro hc
      by_cases t1 : Lab.t ∈ F.cols
      · by_cases t2 : str!"t" ∈ W.cols
        · simp only [if_pos t1, if_pos t2] at hc
          split at hc
          · cases hc
          · rename_i h1
            split at hc
            · cases hc
            · split at hc
              · cases hc
              · split at hc
                · cases hc
                · rename_i h4
                  split at hc
                  · cases hc
                  · rename_i h5
                    split at hc
                    · cases hc
                    · rename_i h6
                      push Not at h1 h4 h5 h6
                      exact ⟨h4, h5, h1, hM2.1 h6.2⟩
        · rw [if_pos t1, if_neg t2] at hc; cases hc
      · rw [if_neg t1] at hc; cases hc
    · rintro ⟨h1, h2, h3, h4⟩
      have t1 : Lab.t ∈ F.cols := by rw [h1]; exact List.mem_cons_self ..
      have t2 : str!"t" ∈ W.cols := by rw [h2]; exact List.mem_cons_self ..
      have h5 := hM2.2 h4
      have h2' : W.cols = str!"t" :: net.getSpeciesName st false false true := h2
      simp only [h3, h1, h2', hM1, h5]
      simp
  constructor
  · rintro ⟨C, hC⟩
    unfold init at hC
    cases hc : check net st F W with
    | error e => rw [hc] at hC; cases hC
    | ok u => exact hck.1 hc
  · intro hm
    unfold init
    rw [hck.2 hm, hL, hR, hM]
    exact ⟨_, rfl⟩

/-- **C92.** For every reachable chemistry the constructor accepts the frames exactly if their columns are the time stamp and the
enabled reactions (by id) or heavy species (by name), in the order of the chemistry, the time stamps agree, and no disabled
species has ad-hoc return coefficients. -/
theorem accepted_iff {net : Net} {st : State} (h : Reachable net st) (hcl : net.RetClosed) (hpy : PyDicts net st)
    (radius length : ℝ) (F : Frame Lab) (W : Frame Str) :
    (∃ C, init net st radius length F W = .ok C) ↔ Matching net st F W :=
  accepted_iff_sound (.of_reachable h) hcl hpy radius length F W

/-- **C92.** The refusals are about the frames or the ad-hoc return coefficients, never about the chemistry itself. -/
theorem refusals {net : Net} {st : State} (h : Reachable net st) (hcl : net.RetClosed) (hpy : PyDicts net st)
    {radius length : ℝ} {F : Frame Lab} {W : Frame Str} {e : InitErr} (he : init net st radius length F W = .error e) :
    (e = .key ∧ (Lab.t ∉ F.cols ∨ str!"t" ∉ W.cols)) ∨
    (e = .times ∧ F.rows.map (fun r => r .t) ≠ W.rows.map (fun r => r str!"t")) ∨
    (e = .rates ∧ F.cols ≠ .t :: (net.getReactions st false).map (fun r => Lab.id r.id)) ∨
    (e = .fluxes ∧ W.cols ≠ str!"t" :: (net.getSpecies st false false true).map RP.name) ∨
    (e = .ret ∧ ∃ i ∈ st.adRet.keys, ∀ s ∈ net.species, s.id = i → st.enSp s.id = false) := by
  obtain ⟨hwf, hinv⟩ := reachable_inv h
  obtain ⟨L, hL, hL1, hL2, -⟩ := cell_spec (st := st) hwf (m := .lhs) (fun r s => (r.reactants.map RP.id).count s.id)
    (fun _ _ => rfl) (by simp)
  obtain ⟨R, hR, hR1, hR2, -⟩ := cell_spec (st := st) hwf (m := .rhs) (fun r s => (r.products.map RP.id).count s.id)
    (fun _ _ => rfl) (by simp)
  obtain ⟨M, hM, hM1, hM2, -⟩ := cells_spec (.of_reachable h) hcl hpy
  have a1 : L.any (fun e => e.2.keys ≠ ids net st) = false := by
    rw [List.any_eq_false]
    intro e he
    simp [hL1 e he]
  have a2 : R.any (fun e => e.2.keys ≠ ids net st) = false := by
    rw [List.any_eq_false]
    intro e he
    simp [hR1 e he]
  unfold init at he
  cases hc : check net st F W with
  | ok u => rw [hc, hL, hR, hM] at he; cases he
  | error e' =>
    rw [hc] at he
    cases he
    unfold check Frame.times at hc
    simp only [hL, hR, hL2, hR2, hM, a1, a2] at hc
    by_cases t1 : Lab.t ∈ F.cols
    · by_cases t2 : str!"t" ∈ W.cols
      · simp only [if_pos t1, if_pos t2] at hc
        split at hc
        · rename_i h1; cases hc; exact .inr (.inl ⟨rfl, h1⟩)
        · simp only [Bool.or_self, Bool.false_eq_true, if_false, ne_eq, not_true_eq_false, or_self] at hc
          split at hc
          · rename_i h1; cases hc; exact .inr (.inr (.inl ⟨rfl, h1⟩))
          · split at hc
            · rename_i h1; cases hc; exact .inr (.inr (.inr (.inl ⟨rfl, h1⟩)))
            · split at hc
              · rename_i h1
                cases hc
                refine .inr (.inr (.inr (.inr ⟨rfl, ?_⟩)))
                have h2 : M.cols ≠ ids net st := by
                  rw [hM1] at h1
                  simpa using h1
                have h3 := mt hM2.2 h2
                push Not at h3
                obtain ⟨i, hi, h4⟩ := h3
                exact ⟨i, hi, fun s hs hsi => by simpa using h4 s hs hsi⟩
              · cases hc
      · rw [if_pos t1, if_neg t2] at hc; cases hc; exact .inl ⟨rfl, .inr t2⟩
    · rw [if_neg t1] at hc; cases hc; exact .inl ⟨rfl, .inl t1⟩

end Verif.Fwork.CoupleInit
