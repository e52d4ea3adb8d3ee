/-
What an ad-hoc attribute changes in the equations of the global model (property C120): the equations read off a chemistry
before and after `set_adhoc_species_attributes` or `set_adhoc_reactions_attributes` (plaschem/chemistry.py:350-428).
-/
import Verif.Fwork.ReducedEqnsDemo

namespace Verif.Fwork.AdhocEqns
open Finset Verif.Plaschem Verif.Plaschem.Net Verif.Pygmol
open Verif.Fwork.Rates (ReadsWall mem_heavy)
open Verif.Fwork.GraphRun (ns nr ret_returned net_counts)
open Verif.Fwork.CoupleInit (returned)
open Verif.Fwork.Morris (PyDicts)
open Verif.Fwork.ReducedEqns

variable {net : Net} {st st' : State} {X : RP → Extra} {P : Params}

/-! ### specification -/

/-- what the wall does to species `i` by way of species `k`: particles `k` are lost to it (the sink is negative), for each of
which `ret i k` particles `i` come back -/
noncomputable def wallVia {n r : ℕ} (D : Data n r) (y : Y n) (k i : Fin n) : ℝ :=
  D.pSinks y k * ((if i = k then 1 else 0) - D.ret i k)

/-- The call sets the sticking coefficient or the return coefficients of species `s`. -/
def SetsWall (net : Net) (o : Net.Op) (s : RP) : Prop :=
  ∃ x, net.getRp x = .ok s ∧ ((∃ v, o = .adhocStick x v) ∨ ∃ c, o = .adhocRet x c)

/-- the rate of a reaction at the state `y` were its pre-exponential factor one -/
noncomputable def unitRate {n r : ℕ} (D : Data n r) (y : Y n) (j : Fin r) : ℝ :=
  ({ D with arrhA := fun _ => 1 } : Data n r).pRates y j

/-! ### the data are determined by the chemistry and the parameters -/

/-- **C120.** The equations are determined by the chemistry and the parameters. -/
theorem reads_unique (hr : Reachable net st) (hcl : net.RetClosed) (hpy : PyDicts net st) {D D' : Data (ns net st) (nr net st)}
    (hD : ReadsAll X P D) (hD' : ReadsAll X P D') : D' = D := by
  have h : D'.PartOf D id id := partOf_of hr hr hcl hcl hpy hpy (fun _ => rfl) (fun _ => rfl) rfl rfl rfl hD hD'
    (fun _ => rfl) (fun _ => rfl) Function.injective_id Function.injective_id (.inl strictMono_id)
    fun j i hi => absurd ⟨i, rfl⟩ hi
  cases D
  cases D'
  simp only [Data.mk.injEq]
  exact ⟨h.consts, funext h.charge, funext h.mass, funext h.lj, funext h.stick, funext h.arrhA, funext h.arrhB, funext h.arrhC,
    funext h.enLoss, funext h.elastic, funext h.eNet, funext h.eLhs, funext h.mLhs, funext fun i => funext (h.ret i),
    funext fun j => funext (h.net j), funext fun j => funext (h.lhs j), funext h.feed, h.tempG, h.radius, h.length, h.p0, h.power,
    h.flux⟩

/-- only the pre-exponential factors depend on the ad-hoc ones -/
theorem reads_arrh {a : Dict Nat ℚ} {D : Data (ns net st) (nr net st)}
    {D' : Data (ns net { st with adArrhA := a }) (nr net { st with adArrhA := a })} (hD : ReadsAll X P D) (hD' : ReadsAll X P D') :
    ReadsAll (st := st) X P ({ D' with arrhA := D.arrhA } : Data (ns net st) (nr net st)) :=
  ⟨⟨hD'.coefs.charge, hD'.coefs.netC, hD'.coefs.lhs, hD'.coefs.eNet, hD'.coefs.eLhs, hD'.coefs.mLhs⟩, ⟨hD'.wall.ret⟩, hD'.mass,
    hD'.lj, hD'.stick, hD.arrhA, hD'.arrhB, hD'.arrhC, hD'.enLoss, hD'.elastic, hD'.feed, hD'.consts, hD'.tempG, hD'.radius,
    hD'.length, hD'.p0, hD'.power, hD'.flux⟩

/-- only the sticking coefficients and the return matrix depend on the ad-hoc ones -/
theorem reads_wall {a : Dict Nat ℚ} {b : Dict Nat (Dict Str ℚ)} {D : Data (ns net st) (nr net st)}
    {D' : Data (ns net { st with adStick := a, adRet := b }) (nr net { st with adStick := a, adRet := b })} (hD : ReadsAll X P D)
    (hD' : ReadsAll X P D') :
    ReadsAll (st := st) X P ({ D' with stick := D.stick, ret := D.ret } : Data (ns net st) (nr net st)) :=
  ⟨⟨hD'.coefs.charge, hD'.coefs.netC, hD'.coefs.lhs, hD'.coefs.eNet, hD'.coefs.eLhs, hD'.coefs.mLhs⟩, ⟨hD.wall.ret⟩, hD'.mass,
    hD'.lj, hD.stick, hD'.arrhA, hD'.arrhB, hD'.arrhC, hD'.enLoss, hD'.elastic, hD'.feed, hD'.consts, hD'.tempG, hD'.radius,
    hD'.length, hD'.p0, hD'.power, hD'.flux⟩

theorem toSI_get {d u : Dict Nat ℚ} (h : net.adhocToSI d = .ok u) (i : ℕ) :
    d.get? i = none ∧ u.get? i = none ∨
    ∃ v r f, d.get? i = some v ∧ net.getReaction i = .ok r ∧ HasFactor r f ∧ u.get? i = some (v * f) := by
  induction d generalizing u with
  | nil => cases h; exact .inl ⟨rfl, rfl⟩
  | cons e d ih =>
    obtain ⟨k, v⟩ := e
    unfold Net.adhocToSI at h
    cases hg : net.getReaction k with
    | error x => rw [hg] at h; cases h
    | ok r =>
      rw [hg] at h
      dsimp only at h
      cases hu : r.getUnitA with
      | none => rw [hu] at h; cases h
      | some w =>
        rw [hu] at h
        dsimp only at h
        cases hf : Reaction.siFactors.get? w with
        | none => rw [hf] at h; cases h
        | some f =>
          rw [hf] at h
          dsimp only at h
          cases hrest : net.adhocToSI d with
          | error x => rw [hrest] at h; cases h
          | ok rest =>
            rw [hrest] at h
            cases h
            rw [Dict.get?_cons, Dict.get?_cons]
            by_cases hk : k = i
            · rw [if_pos hk, if_pos hk]
              exact .inr ⟨v, r, f, rfl, hk ▸ hg, ⟨w, hu, hf⟩, rfl⟩
            · rw [if_neg hk, if_neg hk]
              exact ih hrest

theorem getReaction_id {i : ℕ} {r : Reaction} (h : net.getReaction i = .ok r) : r ∈ net.reactions ∧ r.id = i := by
  unfold getReaction at h
  split at h
  · rename_i e
    cases h
    exact ⟨List.mem_of_find?_eq_some e, by simpa using List.find?_some e⟩
  · cases h

/-- the factor read for a reaction after an ad-hoc factor was set for it -/
theorem arrh_own (hr : Reachable net st) {r : ℕ} {v : ℚ}
    {D' : Data (ns net { st with adArrhA := st.adArrhA.set r v }) (nr net { st with adArrhA := st.adArrhA.set r v })}
    (hD' : ReadsAll X P D') (j : Fin (nr net st)) (he : (reAt net st j).id = r) :
    ∃ f, HasFactor (reAt net st j) f ∧ D'.arrhA j = ((v * f : ℚ) : ℝ) := by
  obtain ⟨hwf, -⟩ := reachable_inv hr
  obtain ⟨d', e', hd'⟩ := hD'.arrhA
  obtain ⟨a', ha', hA'⟩ := hd' j
  obtain ⟨u', w', h1', h2', h3'⟩ := arrhA_at e' ha'
  have hre : reAt net { st with adArrhA := st.adArrhA.set r v } j = reAt net st j := rfl
  rw [hre] at h3'
  have g' := toSI_get h1' (reAt net st j).id
  rw [Dict.get?_set, if_pos he.symm] at g'
  rcases g' with ⟨k1, -⟩ | ⟨y, t', f', k1, k2, k3, k4⟩
  · cases k1
  · cases k1
    obtain ⟨m1, m2⟩ := getReaction_id k2
    have : t' = reAt net st j :=
      List.inj_on_of_nodup_map hwf.rNodup m1 (List.mem_filter.1 (re_mem (st := st) j)).1 m2
    rw [this] at k3
    rw [k4] at h3'
    exact ⟨f', k3, by rw [hA', Option.some.inj h3']⟩

/-- the factors read after an ad-hoc factor was set -/
theorem arrh_set (hr : Reachable net st) {r : ℕ} {v : ℚ} {D : Data (ns net st) (nr net st)}
    {D' : Data (ns net { st with adArrhA := st.adArrhA.set r v }) (nr net { st with adArrhA := st.adArrhA.set r v })}
    (hD : ReadsAll X P D) (hD' : ReadsAll X P D') (j : Fin (nr net st)) :
    ((reAt net st j).id ≠ r → D'.arrhA j = D.arrhA j) ∧
    ((reAt net st j).id = r → ∃ f, HasFactor (reAt net st j) f ∧ D'.arrhA j = ((v * f : ℚ) : ℝ)) := by
  obtain ⟨d, e, hd⟩ := hD.arrhA
  obtain ⟨d', e', hd'⟩ := hD'.arrhA
  obtain ⟨a, ha, hA⟩ := hd j
  obtain ⟨a', ha', hA'⟩ := hd' j
  obtain ⟨u, w, h1, h2, h3⟩ := arrhA_at e ha
  obtain ⟨u', w', h1', h2', h3'⟩ := arrhA_at e' ha'
  have hre : reAt net { st with adArrhA := st.adArrhA.set r v } j = reAt net st j := rfl
  rw [hre] at h2' h3'
  rw [h2] at h2'
  cases h2'
  have g := toSI_get h1 (reAt net st j).id
  have g' := toSI_get h1' (reAt net st j).id
  rw [Dict.get?_set] at g'
  refine ⟨fun hne => ?_, arrh_own hr hD' j⟩
  · rw [if_neg (Ne.symm hne)] at g'
    rw [hA, hA']
    rcases g with ⟨g1, g2⟩ | ⟨x, t, f, g1, g2, g3, g4⟩
    · rcases g' with ⟨-, k2⟩ | ⟨y, t', f', k1, -, -, -⟩
      · rw [g2] at h3; rw [k2] at h3'
        rw [← h3] at h3'
        rw [Option.some.inj h3']
      · rw [g1] at k1; cases k1
    · rcases g' with ⟨k1, -⟩ | ⟨y, t', f', k1, k2, k3, k4⟩
      · rw [g1] at k1; cases k1
      · rw [g1] at k1; cases k1
        rw [g2] at k2; cases k2
        obtain ⟨z, hz, hz'⟩ := g3
        obtain ⟨z', hy, hy'⟩ := k3
        rw [hz] at hy; cases hy
        rw [hz'] at hy'; cases hy'
        rw [g4] at h3; rw [k4] at h3'
        rw [← h3] at h3'
        rw [Option.some.inj h3']

/-! ### the right-hand side as a function of the factors -/

section data
variable {n r : ℕ} (D : Data n r) (a : Fin r → ℝ)

theorem rates_factor (y : Y n) (j : Fin r) :
    ({ D with arrhA := a } : Data n r).pRates y j = a j * ({ D with arrhA := fun _ => 1 } : Data n r).pRates y j := by
  have e : ∀ E : Data n r, E.pRates y j =
      E.pK y j * (E.pNe y ^ E.eLhs j * (∏ i, y.n i ^ E.lhs j i) * Data.pTot y ^ E.mLhs j) := fun _ => rfl
  have hk : ({ D with arrhA := a } : Data n r).pK y j = a j * ({ D with arrhA := fun _ => 1 } : Data n r).pK y j := by
    have k : ∀ E : Data n r, E.pK y j = if E.elc j then E.arrhA j * E.pTe y ^ E.arrhB j * Real.exp (-E.arrhC j / E.pTe y)
        else E.arrhA j * (E.tempG / 300) ^ E.arrhB j * Real.exp (-E.arrhC j / E.tempG) := fun _ => rfl
    rw [k, k]
    by_cases h : D.elc j
    · rw [if_pos (show ({ D with arrhA := a } : Data n r).elc j from h),
        if_pos (show ({ D with arrhA := fun _ => 1 } : Data n r).elc j from h), one_mul, mul_assoc]
      rfl
    · rw [if_neg (show ¬ ({ D with arrhA := a } : Data n r).elc j from h),
        if_neg (show ¬ ({ D with arrhA := fun _ => 1 } : Data n r).elc j from h), one_mul, mul_assoc]
  rw [e, e, hk, mul_assoc]
  rfl

theorem dn_factor (y : Y n) (i : Fin n) :
    ({ D with arrhA := a } : Data n r).pDn y i =
      D.pDn y i + ∑ j, (D.net j i : ℝ) * (({ D with arrhA := a } : Data n r).pRates y j - D.pRates y j) := by
  have e : ∀ E : Data n r, E.pDn y i = (∑ j, (E.net j i : ℝ) * E.pRates y j) + E.pFlow y i + E.pSrc y i + Data.fMinN y.n i :=
    fun _ => rfl
  rw [e, e]
  simp only [mul_sub, sum_sub_distrib]
  show _ + D.pFlow y i + D.pSrc y i + _ = _
  ring

theorem drho_factor (t : ℝ) (y : Y n) :
    ({ D with arrhA := a } : Data n r).pDrho t y = D.pDrho t y -
      ∑ j, ((if 0 < D.eLhs j then D.pLoss y j else 0) + 3 / 2 * D.pTe y * D.eNet j) *
        (({ D with arrhA := a } : Data n r).pRates y j - D.pRates y j) := by
  have e : ∀ E : Data n r, E.pDrho t y = E.fExt (E.power t) - (∑ j ∈ univ.filter E.elc, E.pLoss y j * E.pRates y j) -
      3 / 2 * E.pTe y * (∑ j, (E.eNet j : ℝ) * E.pRates y j) - E.pElWalls y - E.pIonsWalls y + Data.fMinRho y.rho := fun _ => rfl
  have h2 : ∀ E : Data n r, (∑ j ∈ univ.filter E.elc, E.pLoss y j * E.pRates y j) =
      ∑ j, (if 0 < E.eLhs j then E.pLoss y j else 0) * E.pRates y j := fun E => by
    rw [sum_filter]
    refine sum_congr rfl fun j _ => ?_
    by_cases hj : 0 < E.eLhs j
    · rw [if_pos hj, if_pos (show E.elc j from hj)]
    · rw [if_neg hj, if_neg (show ¬ E.elc j from hj), zero_mul]
  rw [e, e, h2, h2]
  simp only [mul_sub, add_mul, sum_sub_distrib, sum_add_distrib, mul_assoc, ← mul_sum]
  show D.fExt (D.power t) - (∑ j, (if 0 < D.eLhs j then D.pLoss y j else 0) * _) - 3 / 2 * (D.pTe y * ∑ j, (D.eNet j : ℝ) * _) -
    D.pElWalls y - D.pIonsWalls y + _ = _
  ring

end data

theorem data_arrh (hr : Reachable net st) (hcl : net.RetClosed) (hpy : PyDicts net st) {a : Dict Nat ℚ}
    {D : Data (ns net st) (nr net st)} {D' : Data (ns net { st with adArrhA := a }) (nr net { st with adArrhA := a })}
    (hD : ReadsAll X P D) (hD' : ReadsAll X P D') : D' = ({ D with arrhA := D'.arrhA } : Data (ns net st) (nr net st)) := by
  rw [← reads_unique hr hcl hpy hD (reads_arrh hD hD')]
  rfl

theorem same_y {n : ℕ} {y y' : Y n} (h1 : ∀ i, y.n i = y'.n i) (h2 : y.rho = y'.rho) : y' = y := by
  cases y
  cases y'
  simp only [Y.mk.injEq]
  exact ⟨funext fun i => (h1 i).symm, h2.symm⟩

theorem step_arrh {r : ℕ} {v : ℚ} (h : net.step st (.adhocArrhA r v) = (st', none)) :
    st' = { st with adArrhA := st.adArrhA.set r v } := by
  change net.setAdhocArrhA st r v = _ at h
  unfold setAdhocArrhA at h
  split at h <;> cases h
  rfl

/-! ### C120 -/

/-- **C120.** An ad-hoc pre-exponential factor, converted to SI units, takes the place of the nominal one in the rate of its
reaction; all other rates stay. -/
theorem adhoc_rate (hr : Reachable net st) (hcl : net.RetClosed) (hpy : PyDicts net st) {r : ℕ} {v : ℚ}
    (h : net.step st (.adhocArrhA r v) = (st', none)) {D : Data (ns net st) (nr net st)} {D' : Data (ns net st') (nr net st')}
    (hD : ReadsAll X P D) (hD' : ReadsAll X P D') {y : Y (ns net st)} {y' : Y (ns net st')} (hy : SameState net st st' y y')
    {j : Fin (nr net st)} {j' : Fin (nr net st')} (hj : reAt net st j = reAt net st' j') :
    ((reAt net st j).id ≠ r → D'.pRates y' j' = D.pRates y j) ∧
    ((reAt net st j).id = r → D.pRates y j = D.arrhA j * unitRate D y j ∧
      ∃ f, HasFactor (reAt net st j) f ∧ D'.pRates y' j' = v * f * unitRate D y j) := by
  have hst := step_arrh h
  subst hst
  have hyy : y' = y := same_y (n := ns net st) (fun i => hy.n i i rfl) hy.rho
  have hjj : j = j' := reAt_inj hr hj
  subst hyy hjj
  have e := data_arrh hr hcl hpy hD hD'
  obtain ⟨k1, k2⟩ := arrh_set hr hD hD' j
  have e1 : D'.pRates y' j = D'.arrhA j * unitRate D y' j := by
    conv_lhs => rw [e]
    exact rates_factor D D'.arrhA y' j
  have e2 : D.pRates y' j = D.arrhA j * unitRate D y' j := rates_factor D D.arrhA y' j
  refine ⟨fun hne => by rw [e1, e2, k1 hne], fun he => ⟨e2, ?_⟩⟩
  obtain ⟨f, hf, hA⟩ := k2 he
  exact ⟨f, hf, by rw [e1, hA]; push_cast; rfl⟩

theorem rate_equations (hr : Reachable net st) (hcl : net.RetClosed) (hpy : PyDicts net st) {r : ℕ} {v : ℚ}
    (h : net.step st (.adhocArrhA r v) = (st', none)) {D : Data (ns net st) (nr net st)} {D' : Data (ns net st') (nr net st')}
    (hD : ReadsAll X P D) (hD' : ReadsAll X P D') {y : Y (ns net st)} {y' : Y (ns net st')} (hy : SameState net st st' y y')
    (t : ℝ) : ∃ w : Fin (nr net st) → ℝ, (∀ j j', reAt net st j = reAt net st' j' → w j = D'.pRates y' j' - D.pRates y j) ∧
    (∀ j, (reAt net st j).id ≠ r → w j = 0) ∧
    (∀ i i', spAt net st i = spAt net st' i' → (D'.rhs t y').n i' = (D.rhs t y).n i + ∑ j, (D.net j i : ℝ) * w j) ∧
    (D'.rhs t y').rho = (D.rhs t y).rho - ∑ j, ((if 0 < D.eLhs j then D.pLoss y j else 0) + 3 / 2 * D.pTe y * D.eNet j) * w j := by
  have hst := step_arrh h
  subst hst
  have hyy : y' = y := same_y (n := ns net st) (fun i => hy.n i i rfl) hy.rho
  subst hyy
  have e := data_arrh hr hcl hpy hD hD'
  have hr' : Reachable net (net.step st (.adhocArrhA r v)).1 := .step _ hr
  refine ⟨fun j => D'.pRates y' j - D.pRates y' j, fun j j' hj => ?_, fun j hne => ?_, fun i i' hi => ?_, ?_⟩
  · have : j = j' := reAt_inj hr hj
    rw [this]
  · exact sub_eq_zero.2 ((adhoc_rate hr hcl hpy h hD hD' hy (j' := j) rfl).1 hne)
  · have : i = i' := spAt_inj hr hi
    subst this
    have k := dn_factor D D'.arrhA y' i
    rw [← e] at k
    exact k
  · have k := drho_factor D D'.arrhA t y'
    rw [← e] at k
    exact k

/-- **C120.** It changes the equations by exactly what the reaction makes more or less of each species, and by the energy
exchanged in it. -/
theorem adhoc_rate_equations (hr : Reachable net st) (hcl : net.RetClosed) (hpy : PyDicts net st) {r : ℕ} {v : ℚ}
    (h : net.step st (.adhocArrhA r v) = (st', none)) {D : Data (ns net st) (nr net st)} {D' : Data (ns net st') (nr net st')}
    (hD : ReadsAll X P D) (hD' : ReadsAll X P D') {y : Y (ns net st)} {y' : Y (ns net st')} (hy : SameState net st st' y y')
    {j : Fin (nr net st)} {j' : Fin (nr net st')} (hj : reAt net st j = reAt net st' j') (hid : (reAt net st j).id = r) (t : ℝ) :
    (∀ i i', spAt net st i = spAt net st' i' → (D'.rhs t y').n i' = (D.rhs t y).n i +
      (((reAt net st j).products.count (spAt net st i) : ℝ) - (reAt net st j).reactants.count (spAt net st i)) *
        (D'.pRates y' j' - D.pRates y j)) ∧
    (D'.rhs t y').rho = (D.rhs t y).rho - ((if 0 < D.eLhs j then D.pLoss y j else 0) + 3 / 2 * D.pTe y * D.eNet j) *
      (D'.pRates y' j' - D.pRates y j) := by
  obtain ⟨w, h1, h2, h3, h4⟩ := rate_equations hr hcl hpy h hD hD' hy t
  have hw : ∀ k ≠ j, w k = 0 := fun k hk => h2 k fun he => hk (reAt_inj hr
    (List.inj_on_of_nodup_map (reachable_inv hr).1.rNodup (List.mem_filter.1 (re_mem (st := st) k)).1
      (List.mem_filter.1 (re_mem (st := st) j)).1 (he.trans hid.symm)))
  refine ⟨fun i i' hi => ?_, ?_⟩
  · rw [h3 i i' hi, sum_eq_single j (fun k _ hk => by rw [hw k hk, mul_zero]) (fun hn => absurd (mem_univ j) hn), h1 j j' hj,
      net_counts hr hD.coefs]
  · rw [h4, sum_eq_single j (fun k _ hk => by rw [hw k hk, mul_zero]) (fun hn => absurd (mem_univ j) hn), h1 j j' hj]

/-- **C120.** The factor of a disabled reaction changes nothing. -/
theorem adhoc_rate_disabled (hr : Reachable net st) (hcl : net.RetClosed) (hpy : PyDicts net st) {r : ℕ} {v : ℚ}
    (h : net.step st (.adhocArrhA r v) = (st', none)) (hid : st.enR r = false) {D : Data (ns net st) (nr net st)}
    {D' : Data (ns net st') (nr net st')} (hD : ReadsAll X P D) (hD' : ReadsAll X P D') {y : Y (ns net st)}
    {y' : Y (ns net st')} (hy : SameState net st st' y y') (t : ℝ) :
    (∀ i i', spAt net st i = spAt net st' i' → (D'.rhs t y').n i' = (D.rhs t y).n i) ∧ (D'.rhs t y').rho = (D.rhs t y).rho := by
  obtain ⟨w, h1, h2, h3, h4⟩ := rate_equations hr hcl hpy h hD hD' hy t
  have hw : ∀ k, w k = 0 := fun k => h2 k fun he => by
    have := (List.mem_filter.1 (re_mem (st := st) k)).2
    rw [he, hid] at this
    cases this
  refine ⟨fun i i' hi => ?_, ?_⟩
  · rw [h3 i i' hi, sum_eq_zero fun k _ => by rw [hw k, mul_zero], add_zero]
  · rw [h4, sum_eq_zero fun k _ => by rw [hw k, mul_zero], sub_zero]

/-! ### the wall -/

theorem stick_at {k : Fin (ns net st)} {v : ℚ} (h : At (net.getSpeciesStickCoef st false false true) k (some v)) :
    stickInForce st (spAt net st k) = some v := by
  unfold At getSpeciesStickCoef at h
  rw [List.map_map, List.getElem?_map, List.getElem?_eq_getElem k.2, Option.map_some] at h
  exact Option.some.inj h

theorem src_via {n r : ℕ} (D : Data n r) (y : Y n) (i : Fin n) :
    D.pSrc y i = ∑ k, wallVia D y k i := by
  have e : D.pSrc y i = D.pSinks y i + ∑ k, -D.pSinks y k * D.ret i k := rfl
  rw [e]
  unfold wallVia
  simp only [mul_sub, sum_sub_distrib, mul_ite, mul_one, mul_zero, sum_ite_eq, mem_univ, if_true, neg_mul, sum_neg_distrib]
  ring

theorem step_stick {x : SpIdent} {s : RP} {v : ℚ} (hx : net.getRp x = .ok s)
    (h : net.step st (.adhocStick x v) = (st', none)) : st' = { st with adStick := st.adStick.set s.id v } := by
  change net.setAdhocStick st x v = _ at h
  unfold setAdhocStick at h
  rw [hx] at h
  dsimp only at h
  split at h <;> cases h
  rfl

theorem step_ret {x : SpIdent} {s : RP} {c : Dict Str ℚ} (hx : net.getRp x = .ok s)
    (h : net.step st (.adhocRet x c) = (st', none)) : st' = { st with adRet := st.adRet.set s.id c } := by
  change net.setAdhocRet st x c = _ at h
  unfold setAdhocRet at h
  rw [hx] at h
  dsimp only at h
  split at h
  · cases h
  split at h <;> cases h
  rfl

theorem step_wall {o : Net.Op} {s : RP} (hs : SetsWall net o s) (h : net.step st o = (st', none)) :
    ∃ a b, st' = { st with adStick := a, adRet := b } ∧ (∀ i ≠ s.id, a.get? i = st.adStick.get? i) ∧
      ∀ i ≠ s.id, b.get? i = st.adRet.get? i := by
  obtain ⟨x, hx, ⟨v, rfl⟩ | ⟨c, rfl⟩⟩ := hs
  · exact ⟨_, _, step_stick hx h, fun i hi => by rw [Dict.get?_set, if_neg (Ne.symm hi)], fun i hi => rfl⟩
  · exact ⟨_, _, step_ret hx h, fun i hi => rfl, fun i hi => by rw [Dict.get?_set, if_neg (Ne.symm hi)]⟩

theorem data_wall (hr : Reachable net st) (hcl : net.RetClosed) (hpy : PyDicts net st) {a : Dict Nat ℚ}
    {b : Dict Nat (Dict Str ℚ)} {D : Data (ns net st) (nr net st)}
    {D' : Data (ns net { st with adStick := a, adRet := b }) (nr net { st with adStick := a, adRet := b })}
    (hD : ReadsAll X P D) (hD' : ReadsAll X P D') :
    D' = ({ D with stick := D'.stick, ret := D'.ret } : Data (ns net st) (nr net st)) := by
  rw [← reads_unique hr hcl hpy hD (reads_wall hD hD')]
  rfl

theorem src_change {n r : ℕ} (D : Data n r) (sc : Fin n → ℝ) (rt : Fin n → Fin n → ℝ) (y : Y n) (k : Fin n)
    (hs : ∀ i, i ≠ k → sc i = D.stick i) (hr : ∀ i m, m ≠ k → rt i m = D.ret i m) (i : Fin n) :
    ({ D with stick := sc, ret := rt } : Data n r).pSrc y i - D.pSrc y i =
      wallVia ({ D with stick := sc, ret := rt } : Data n r) y k i - wallVia D y k i := by
  rw [src_via, src_via, ← sum_sub_distrib]
  refine sum_eq_single k (fun m _ hm => ?_) (fun hn => absurd (mem_univ _) hn)
  have f : ∀ E : Data n r, E.pSinks y m =
    (if E.thermalFlux then -E.pDiff y m * y.n m * E.stick m / (E.stick m * E.diffL + 4 * E.pDiff y m / E.pV y m)
      else -E.pDiff y m * y.n m * E.stick m / E.diffL ^ 2 * E.volume / E.area) * E.area / E.volume := fun _ => rfl
  have h1 : ({ D with stick := sc, ret := rt } : Data n r).pSinks y m = D.pSinks y m := by
    rw [f, f]
    show (if D.thermalFlux then -D.pDiff y m * y.n m * sc m / (sc m * D.diffL + 4 * D.pDiff y m / D.pV y m)
        else -D.pDiff y m * y.n m * sc m / D.diffL ^ 2 * D.volume / D.area) * D.area / D.volume = _
    rw [hs m hm]
  unfold wallVia
  rw [h1]
  show D.pSinks y m * (_ - rt i m) - _ = 0
  rw [hr i m hm, sub_self]

theorem dn_wall {n r : ℕ} (D : Data n r) (st : Fin n → ℝ) (rt : Fin n → Fin n → ℝ) (y : Y n) (i : Fin n) :
    ({ D with stick := st, ret := rt } : Data n r).pDn y i =
      D.pDn y i + (({ D with stick := st, ret := rt } : Data n r).pSrc y i - D.pSrc y i) := by
  have e : ∀ E : Data n r, E.pDn y i = (∑ j, (E.net j i : ℝ) * E.pRates y j) + E.pFlow y i + E.pSrc y i + Data.fMinN y.n i :=
    fun _ => rfl
  rw [e, e]
  show (∑ j, (D.net j i : ℝ) * D.pRates y j) + D.pFlow y i + _ + _ = _
  ring

theorem drho_wall {n r : ℕ} (D : Data n r) (st : Fin n → ℝ) (rt : Fin n → Fin n → ℝ) (t : ℝ) (y : Y n) :
    ({ D with stick := st, ret := rt } : Data n r).pDrho t y = D.pDrho t y +
      ∑ i, (2 * D.pTe y * D.charge i + if 0 < D.charge i then 1 / 2 * D.pTe y + D.fSheath (D.pTe y) * D.charge i else 0) *
        (({ D with stick := st, ret := rt } : Data n r).pSrc y i - D.pSrc y i) := by
  have e : ∀ E : Data n r, E.pDrho t y = E.fExt (E.power t) - E.pElInel y - E.pGainLoss y -
      (-2 * E.pTe y * ∑ i, (E.charge i : ℝ) * E.pSrc y i) -
      (-0.5 * E.pTe y * (∑ i ∈ univ.filter E.pos, E.pSrc y i) -
        E.fSheath (E.pTe y) * ∑ i ∈ univ.filter E.pos, (E.charge i : ℝ) * E.pSrc y i) + Data.fMinRho y.rho := fun _ => rfl
  have h2 : ∀ (E : Data n r) (w : Fin n → ℝ), ∑ i ∈ univ.filter E.pos, w i = ∑ i, if 0 < E.charge i then w i else 0 :=
    fun E w => by
      rw [sum_filter]
      refine sum_congr rfl fun j _ => ?_
      by_cases hj : 0 < E.charge j
      · rw [if_pos hj, if_pos (show E.pos j from hj)]
      · rw [if_neg hj, if_neg (show ¬ E.pos j from hj)]
  rw [e, e, h2, h2, h2, h2]
  show D.fExt (D.power t) - D.pElInel y - D.pGainLoss y - (-2 * D.pTe y * ∑ i, (D.charge i : ℝ) * _) -
    (-0.5 * D.pTe y * (∑ i, if 0 < D.charge i then _ else 0) - D.fSheath (D.pTe y) * ∑ i, if 0 < D.charge i then
      (D.charge i : ℝ) * _ else 0) + _ = _
  have h3 : ∀ w : Fin n → ℝ, ∑ i, (2 * D.pTe y * D.charge i + if 0 < D.charge i then
      1 / 2 * D.pTe y + D.fSheath (D.pTe y) * D.charge i else 0) * w i =
      2 * D.pTe y * (∑ i, (D.charge i : ℝ) * w i) + 0.5 * D.pTe y * (∑ i, if 0 < D.charge i then w i else 0) +
        D.fSheath (D.pTe y) * ∑ i, if 0 < D.charge i then (D.charge i : ℝ) * w i else 0 := fun w => by
    rw [mul_sum, mul_sum, mul_sum, ← sum_add_distrib, ← sum_add_distrib]
    refine sum_congr rfl fun i _ => ?_
    split_ifs <;> ring
  simp only [mul_sub, sum_sub_distrib]
  rw [h3, h3]
  ring

/-- the other species stick and come back as before -/
theorem wall_same (hr : Reachable net st) (hcl : net.RetClosed) (hpy : PyDicts net st) {a : Dict Nat ℚ}
    {b : Dict Nat (Dict Str ℚ)} (hr' : Reachable net { st with adStick := a, adRet := b })
    (hpy' : PyDicts net { st with adStick := a, adRet := b }) {z : ℕ} (ha : ∀ i ≠ z, a.get? i = st.adStick.get? i)
    (hb : ∀ i ≠ z, b.get? i = st.adRet.get? i) {D : Data (ns net st) (nr net st)}
    {D' : Data (ns net { st with adStick := a, adRet := b }) (nr net { st with adStick := a, adRet := b })} (hD : ReadsAll X P D)
    (hD' : ReadsAll X P D') (k : Fin (ns net st)) (hid : (spAt net st k).id ≠ z) :
    D'.stick k = D.stick k ∧ ∀ i : Fin (ns net st), D'.ret i k = D.ret i k := by
  refine ⟨?_, fun i => ?_⟩
  · obtain ⟨v, hv, hm⟩ := hD.stick k
    obtain ⟨v', hv', hm'⟩ := hD'.stick k
    have h1 := stick_at hv
    have h2 : stickInForce { st with adStick := a, adRet := b } (spAt net st k) = some v' := stick_at hv'
    have h3 : stickInForce { st with adStick := a, adRet := b } (spAt net st k) = stickInForce st (spAt net st k) := by
      unfold stickInForce
      simp only [ha _ hid]
    rw [h3, h1] at h2
    rw [hm, hm', Option.some.inj h2]
  · rw [ret_returned hr hcl hpy hD.wall i k, ret_returned hr' hcl hpy' hD'.wall i k]
    congr 1
    show returned { st with adStick := a, adRet := b } (spAt net st k) (spAt net st i) = _
    unfold returned retInForce stickInForce
    simp only [ha _ hid, hb _ hid]

/-- **C120.** Ad-hoc sticking and return coefficients of a species change no rate of a reaction; they change the equations by
exactly what the wall does by way of this species, and the energy by what the charges it takes and gives back carry. -/
theorem adhoc_wall (hr : Reachable net st) (hcl : net.RetClosed) (hpy : PyDicts net st) (hpy' : PyDicts net st') {o : Net.Op} {s : RP}
    (hs : SetsWall net o s) (h : net.step st o = (st', none)) {D : Data (ns net st) (nr net st)}
    {D' : Data (ns net st') (nr net st')} (hD : ReadsAll X P D) (hD' : ReadsAll X P D') {y : Y (ns net st)} {y' : Y (ns net st')}
    (hy : SameState net st st' y y') {k : Fin (ns net st)} {k' : Fin (ns net st')} (hk : spAt net st k = s)
    (hk' : spAt net st' k' = s) (t : ℝ) :
    (∀ j j', reAt net st j = reAt net st' j' → D'.pRates y' j' = D.pRates y j) ∧
    ∃ w : Fin (ns net st) → ℝ,
      (∀ i i', spAt net st i = spAt net st' i' → w i = wallVia D' y' k' i' - wallVia D y k i) ∧
      (∀ i i', spAt net st i = spAt net st' i' → (D'.rhs t y').n i' = (D.rhs t y).n i + w i) ∧
      (D'.rhs t y').rho = (D.rhs t y).rho + ∑ i, (2 * D.pTe y * D.charge i +
        if 0 < D.charge i then 1 / 2 * D.pTe y + D.fSheath (D.pTe y) * D.charge i else 0) * w i := by
  have hr' : Reachable net st' := by
    have := Reachable.step o hr
    rw [h] at this
    exact this
  obtain ⟨a, b, rfl, ha, hb⟩ := step_wall hs h
  have hyy : y' = y := same_y (n := ns net st) (fun i => hy.n i i rfl) hy.rho
  subst hyy
  have hkk : k' = k := spAt_inj hr (hk'.trans hk.symm)
  subst hkk
  have e := data_wall hr hcl hpy hD hD'
  have hid : ∀ i : Fin (ns net st), i ≠ k' → (spAt net st i).id ≠ s.id := fun i hi he => hi (spAt_inj hr (by
    rw [hk]
    refine (reachable_inv hr).1.eq_of_id (mem_heavy.1 (sp_mem i)).1 ?_ he
    rw [← hk]; exact (mem_heavy.1 (sp_mem (st := st) k')).1))
  have hw := fun (i : Fin (ns net st)) (hi : i ≠ k') => wall_same hr hcl hpy hr' hpy' ha hb hD hD' i (hid i hi)
  have hsrc : ∀ i : Fin (ns net st), D'.pSrc y' i - D.pSrc y' i = wallVia D' y' k' i - wallVia D y' k' i := fun i => by
    have q := src_change D D'.stick D'.ret y' k' (fun i hi => (hw i hi).1) (fun i m hm => (hw m hm).2 i) i
    rw [← e] at q
    exact q
  refine ⟨fun j j' hj => ?_, fun i => wallVia D' y' k' i - wallVia D y' k' i, fun i i' hi => ?_, fun i i' hi => ?_, ?_⟩
  · have : j = j' := reAt_inj hr hj
    subst this
    rw [e]
    rfl
  · have : i = i' := spAt_inj hr hi
    rw [this]
  · have : i = i' := spAt_inj hr hi
    subst this
    have q := dn_wall D D'.stick D'.ret y' i
    rw [← e] at q
    exact q.trans (congrArg (D.pDn y' i + ·) (hsrc i))
  · have q := drho_wall D D'.stick D'.ret t y'
    rw [← e] at q
    show D'.pDrho t y' = D.pDrho t y' + _
    simp only [← hsrc]
    exact q

theorem data_eta {n r : ℕ} (D : Data n r) {s : Fin n → ℝ} {w : Fin n → Fin n → ℝ} (hs : s = D.stick) (hw : w = D.ret) :
    ({ D with stick := s, ret := w } : Data n r) = D := by
  subst hs hw; rfl

/-- **C120.** Those of a disabled species, of the electron and of `M` change nothing. -/
theorem adhoc_wall_absent (hr : Reachable net st) (hcl : net.RetClosed) (hpy : PyDicts net st) (hpy' : PyDicts net st') {o : Net.Op}
    {s : RP} (hs : SetsWall net o s) (h : net.step st o = (st', none)) (hno : st.enSp s.id = false ∨ s.isSpecial = true)
    {D : Data (ns net st) (nr net st)} {D' : Data (ns net st') (nr net st')} (hD : ReadsAll X P D) (hD' : ReadsAll X P D')
    {y : Y (ns net st)} {y' : Y (ns net st')} (hy : SameState net st st' y y') (t : ℝ) :
    (∀ i i', spAt net st i = spAt net st' i' → (D'.rhs t y').n i' = (D.rhs t y).n i) ∧ (D'.rhs t y').rho = (D.rhs t y).rho := by
  have hr' : Reachable net st' := by
    have := Reachable.step o hr
    rw [h] at this
    exact this
  have hsm : s ∈ net.species := by obtain ⟨x, hx, -⟩ := hs; exact getRp_mem hx
  obtain ⟨a, b, rfl, ha, hb⟩ := step_wall hs h
  have hyy : y' = y := same_y (n := ns net st) (fun i => hy.n i i rfl) hy.rho
  subst hyy
  have hid : ∀ i : Fin (ns net st), (spAt net st i).id ≠ s.id := fun i he => by
    obtain ⟨h1, h2, h3⟩ := mem_heavy.1 (sp_mem i)
    rw [(reachable_inv hr).1.eq_of_id h1 hsm he] at h2 h3
    rcases hno with h4 | h4
    · rw [h2] at h4; cases h4
    · rw [h3] at h4; cases h4
  have hw := fun i : Fin (ns net st) => wall_same hr hcl hpy hr' hpy' ha hb hD hD' i (hid i)
  have e : D' = D := (data_wall hr hcl hpy hD hD').trans
    (data_eta D (funext fun i => (hw i).1) (funext fun i => funext fun k => (hw k).2 i))
  subst e
  refine ⟨fun i i' hi => ?_, rfl⟩
  have : i = i' := spAt_inj hr hi
  subst this
  rfl

/-- **C120.** The ad-hoc sticking coefficient is the one the wall loss of the species is computed with. -/
theorem adhoc_stick (hr : Reachable net st) (hcl : net.RetClosed) (hpy : PyDicts net st) {x : SpIdent} {s : RP} {v : ℚ}
    (hx : net.getRp x = .ok s) (h : net.step st (.adhocStick x v) = (st', none)) {D : Data (ns net st) (nr net st)}
    {D' : Data (ns net st') (nr net st')} (hD : ReadsAll X P D) (hD' : ReadsAll X P D') {y : Y (ns net st)}
    {y' : Y (ns net st')} (hy : SameState net st st' y y') {k : Fin (ns net st)} {k' : Fin (ns net st')} (hk : spAt net st k = s)
    (hk' : spAt net st' k' = s) :
    D'.stick k' = v ∧ D'.pSinks y' k' = ({ D with stick := fun _ => (v : ℝ) } : Data (ns net st) (nr net st)).pSinks y k := by
  have hst := step_stick hx h
  subst hst
  have hyy : y' = y := same_y (n := ns net st) (fun i => hy.n i i rfl) hy.rho
  subst hyy
  have hkk : k' = k := spAt_inj hr (hk'.trans hk.symm)
  subst hkk
  have h1 : D'.stick k' = v := by
    obtain ⟨v', hv', hm'⟩ := hD'.stick k'
    have h2 := stick_at hv'
    rw [hk'] at h2
    unfold stickInForce at h2
    simp only [Dict.get?_set, if_true] at h2
    rw [hm', ← Option.some.inj h2]
  refine ⟨h1, ?_⟩
  have e := data_wall (b := st.adRet) hr hcl hpy hD hD'
  have q : ({ D with stick := D'.stick, ret := D'.ret } : Data (ns net st) (nr net st)).pSinks y' k' =
      ({ D with stick := fun _ => (v : ℝ) } : Data (ns net st) (nr net st)).pSinks y' k' := by
    have f : ∀ E : Data (ns net st) (nr net st), E.pSinks y' k' =
      (if E.thermalFlux then -E.pDiff y' k' * y'.n k' * E.stick k' / (E.stick k' * E.diffL + 4 * E.pDiff y' k' / E.pV y' k')
        else -E.pDiff y' k' * y'.n k' * E.stick k' / E.diffL ^ 2 * E.volume / E.area) * E.area / E.volume := fun _ => rfl
    refine (f _).trans (Eq.trans ?_ (f _).symm)
    show (if D.thermalFlux then -D.pDiff y' k' * y'.n k' * D'.stick k' / (D'.stick k' * D.diffL + 4 * D.pDiff y' k' / D.pV y' k')
        else -D.pDiff y' k' * y'.n k' * D'.stick k' / D.diffL ^ 2 * D.volume / D.area) * D.area / D.volume = _
    rw [h1]
    rfl
  rw [← e] at q
  exact q

/-- **C120.** The ad-hoc return coefficients are those the wall returns by, if the species sticks at all. -/
theorem adhoc_return (hr : Reachable net st) (hcl : net.RetClosed) (hpy' : PyDicts net st') {x : SpIdent}
    {s : RP} {c : Dict Str ℚ} (hx : net.getRp x = .ok s) (h : net.step st (.adhocRet x c) = (st', none))
    {D : Data (ns net st) (nr net st)} {D' : Data (ns net st') (nr net st')} (hD : ReadsAll X P D) (hD' : ReadsAll X P D')
    {k : Fin (ns net st)} {k' : Fin (ns net st')} (hk : spAt net st k = s) (hk' : spAt net st' k' = s) :
    D'.stick k' = D.stick k ∧
    ∀ i, D'.ret i k' = if D.stick k = 0 then 0 else (((c.get? (spAt net st' i).name).getD 0 : ℚ) : ℝ) := by
  have hr' : Reachable net st' := by
    have := Reachable.step (.adhocRet x c) hr
    rw [h] at this
    exact this
  have hst := step_ret hx h
  subst hst
  have hkk : k' = k := spAt_inj hr (hk'.trans hk.symm)
  subst hkk
  obtain ⟨v, hv, hm⟩ := hD.stick k'
  obtain ⟨v', hv', hm'⟩ := hD'.stick k'
  have h1 := stick_at hv
  have h2 : stickInForce st (spAt net st k') = some v' := stick_at hv'
  rw [h1] at h2
  cases h2
  refine ⟨hm'.trans hm.symm, fun i => ?_⟩
  rw [ret_returned hr' hcl hpy' hD'.wall i k']
  have h3 := (mem_heavy.1 (sp_mem (st := st) k')).2.2
  have h4 := (mem_heavy.1 (sp_mem (st := st) i)).2.2
  show ((returned { st with adRet := st.adRet.set s.id c } (spAt net st k') (spAt net st i) : ℚ) : ℝ) = _
  obtain ⟨_, _, hval, _⟩ := ret_coefs_value hr hcl false false true
  obtain ⟨m, h5, -⟩ := hval _ (sp_mem (st := st) k')
  unfold returned retInForce
  rw [h3, h4, h5]
  have h6 : stickInForce { st with adRet := st.adRet.set s.id c } (spAt net st k') = some v := h1
  simp only [Bool.or_self, Bool.false_eq_true, if_false, h6]
  rw [hm]
  by_cases hz : v = 0
  · subst hz
    rw [if_pos rfl, if_pos Rat.cast_zero]
    exact Rat.cast_zero
  · rw [if_neg (by simpa using hz), if_neg (by exact_mod_cast hz), hk, Dict.get?_set, if_pos rfl]
    rfl

/-- **C120.** A reaction with the ad-hoc factor zero is as good as disabled: disabling it, and what can no longer react
without it, leaves the equations of the other species as they are. -/
theorem zero_as_disabled (hr : Reachable net st) (hcl : net.RetClosed) {r : ℕ}
    (h : net.step st (.adhocArrhA r 0) = (st', none)) (hpy : PyDicts net st') {st'' : State} (hr'' : Reachable net st'')
    (hsh : Shrinks net st' st'') (hion : NoIonLost net st' st'') (hfeed : NoFeedLost net st' st'' P)
    (hret : NoIonReturned net st' st'') (hcut : ∀ q ∈ net.reactions, st'.enR q.id = true → Cut st'' q → q.id = r)
    {D' : Data (ns net st') (nr net st')} {D'' : Data (ns net st'') (nr net st'')} (hD' : ReadsAll X P D')
    (hD'' : ReadsAll X P D'') {y' : Y (ns net st')} {y'' : Y (ns net st'')} (hy : SameState net st' st'' y' y'') (t : ℝ) :
    (∀ i i', spAt net st' i = spAt net st'' i' → (D'.rhs t y').n i = (D''.rhs t y'').n i') ∧
    (D'.rhs t y').rho = (D''.rhs t y'').rho := by
  classical
  have hr' : Reachable net st' := by
    have := Reachable.step (.adhocArrhA r 0) hr
    rw [h] at this
    exact this
  have hz : ∀ j, Cut st'' (reAt net st' j) → D'.pRates y' j = 0 := fun j hj => by
    obtain ⟨h1, h2⟩ := List.mem_filter.1 (re_mem (st := st') j)
    have h3 := hcut _ h1 (by simpa using h2) hj
    have hA : D'.arrhA j = 0 := by
      have hst := step_arrh h
      subst hst
      obtain ⟨f, -, hf⟩ := arrh_own hr hD' j h3
      rw [hf, zero_mul, Rat.cast_zero]
    rw [show D'.pRates y' j = D'.arrhA j * unitRate D' y' j from rates_factor D' D'.arrhA y' j, hA, zero_mul]
  refine ⟨fun i i' hi => ?_, ?_⟩
  · rw [reduced_densities hr' hr'' hcl hpy hsh hD' hD'' hy hion hfeed t hi,
      sum_eq_zero fun j hj => by rw [hz j (mem_filter.1 hj).2, mul_zero], add_zero]
  · rw [reduced_energy hr' hr'' hcl hpy hsh hD' hD'' hy hion hret t,
      sum_eq_zero fun j hj => by rw [hz j (mem_filter.1 hj).2, mul_zero], sub_zero]

end Verif.Fwork.AdhocEqns
