/-
Property C122: what makes the equations of a chemistry physical, and that accepted input then has exactly one time development.
-/
import Verif.Fwork.UniqueEqns
import Verif.Pygmol.Params
import Verif.Pygmol.Power

namespace Verif.Fwork.PhysEqns
open Finset Verif.Plaschem Verif.Plaschem.Net Verif.Pygmol
open Verif.Fwork.Rates (ReadsWall mem_heavy)
open Verif.Fwork.GraphRun (ns nr ret_returned)
open Verif.Fwork.Morris (PyDicts)
open Verif.Fwork.CoupleInit (returned)
open Verif.Fwork.ReducedEqns

variable {net : Net} {st : State} {X : RP → Extra} {P : ReducedEqns.Params}

/-! ### specification -/

/-- The pre-exponential factor in force: the ad-hoc one, otherwise the one of the reaction. -/
def factorInForce (st : State) (r : Reaction) : Option ℚ :=
  match st.adArrhA.get? r.id with
  | some v => some v
  | none => r.arrhA

/-- The enabled part of a chemistry makes physical sense. -/
structure PhysicalChemistry (net : Net) (st : State) : Prop where
  mass : ∀ s ∈ net.species, st.enSp s.id = true → s.isSpecial = false → ∀ m, s.mass = some m → 0 < m
  stick : ∀ s ∈ net.species, st.enSp s.id = true → s.isSpecial = false → ∀ v, stickInForce st s = some v → 0 ≤ v
  ret : ∀ s ∈ net.species, st.enSp s.id = true → s.isSpecial = false → ∀ t ∈ net.species, st.enSp t.id = true →
    t.isSpecial = false → 0 ≤ returned st s t
  rate : ∀ r ∈ net.reactions, st.enR r.id = true → ∀ v, factorInForce st r = some v → 0 ≤ v

/-- The parameters make physical sense for the enabled species. -/
structure PhysicalParams (net : Net) (st : State) (P : ReducedEqns.Params) : Prop where
  tempG : 0 < P.tempG
  r : 0 < P.r
  z : 0 < P.z
  p0 : 0 < P.p0
  feed : ∀ s ∈ net.species, st.enSp s.id = true → s.isSpecial = false → 0 ≤ (P.feeds.get? s.name).getD 0

/-- The species and reactions make physical sense as passed to their constructors (which check only the last). -/
structure SoundInput (F : Str → Option (Dict Str Nat)) (net : Net) : Prop where
  mass : ∀ s ∈ net.species, ∀ m, s.mass = some m → 0 < m
  stick : ∀ s ∈ net.species, ∀ v, s.stickCoef = some v → 0 ≤ v
  ret : ∀ s ∈ net.species, ∀ c, s.retCoefs = some c → c.keys.Nodup ∧ ∀ p ∈ c, 0 ≤ p.2
  reactions : ∀ r ∈ net.reactions, ∃ a, Reaction.init F a = .ok r

/-- A call that sets no negative value. -/
def SoundOp : Net.Op → Prop
  | .adhocStick _ v => 0 ≤ v
  | .adhocRet _ c => c.keys.Nodup ∧ ∀ p ∈ c, 0 ≤ p.2
  | .adhocArrhA _ v => 0 ≤ v
  | _ => True

/-- Histories of such calls, on a freshly constructed chemistry. -/
inductive SoundHistory (net : Net) : State → Prop
  | init {st : State} : net.init = .ok st → SoundHistory net st
  | step {st : State} (o : Net.Op) : SoundOp o → SoundHistory net st → SoundHistory net (net.step st o).1

/-- The parameters the equations are set up with (equations.py:184-191, 802-809), read from accepted `ModelParameters`. -/
noncomputable def given (Q : Pygmol.Params) (C : Consts) (dalton : ℝ) (flux : Bool) : ReducedEqns.Params where
  C := C
  dalton := dalton
  feeds := Q.feeds
  tempG := Q.tempGas
  r := Q.radius
  z := Q.length
  p0 := Q.pressure
  power := powerExt Q.time Q.power
  thermalFlux := flux

/-- **C122.** The equations use the parameters by their documented names, and the power by linear interpolation between the given
times. -/
theorem given_reads (Q : Pygmol.Params) (C : Consts) (dalton : ℝ) (flux : Bool) :
    Q.getItem str!"temp_gas" = .ok (.number (given Q C dalton flux).tempG) ∧
    Q.getItem str!"radius" = .ok (.number (given Q C dalton flux).r) ∧
    Q.getItem str!"length" = .ok (.number (given Q C dalton flux).z) ∧
    Q.getItem str!"pressure" = .ok (.number (given Q C dalton flux).p0) ∧
    Q.getItem str!"feeds" = .ok (.feeds (given Q C dalton flux).feeds) ∧
    ∃ times values, Q.getItem str!"t_power" = .ok (.numbers times) ∧ Q.getItem str!"power" = .ok (.numbers values) ∧
      (given Q C dalton flux).power = powerExt times values :=
  ⟨rfl, rfl, rfl, rfl, rfl, Q.time, Q.power, rfl, rfl, rfl⟩

/-! ### reading -/

theorem factor_pos {u : Str} {f : ℚ} (h : Reaction.siFactors.get? u = some f) : 0 < f := by
  have h : (u, f) ∈ Reaction.siFactors := Dict.mem_of_get? h
  unfold Reaction.siFactors at h
  simp only [List.mem_cons, Prod.mk.injEq, List.not_mem_nil, or_false] at h
  rcases h with ⟨-, rfl⟩ | ⟨-, rfl⟩ | ⟨-, rfl⟩ | ⟨-, rfl⟩ | ⟨-, rfl⟩ <;> norm_num

theorem mass_at {D : Data (ns net st) (nr net st)} (hD : ReadsAll X P D) (i : Fin (ns net st)) :
    ∃ m, (spAt net st i).mass = some m ∧ D.mass i = (m : ℝ) * P.dalton := by
  obtain ⟨d, e, hd⟩ := hD.mass
  obtain ⟨v, hv, hm⟩ := hd i
  have a := species_at e hv
  unfold RP.getMass at a
  split at a
  · cases a
  · split at a
    · rename_i m hm'
      cases a
      exact ⟨_, hm', hm⟩
    · cases a

theorem stick_at {D : Data (ns net st) (nr net st)} (hD : ReadsAll X P D) (i : Fin (ns net st)) :
    ∃ v, stickInForce st (spAt net st i) = some v ∧ D.stick i = (v : ℝ) := by
  obtain ⟨v, hk, hm⟩ := hD.stick i
  unfold At getSpeciesStickCoef at hk
  rw [List.map_map, List.getElem?_map, List.getElem?_eq_getElem i.2] at hk
  exact ⟨v, Option.some.inj hk, hm⟩

theorem factor_at {D : Data (ns net st) (nr net st)} (hD : ReadsAll X P D) (j : Fin (nr net st)) :
    ∃ v f, factorInForce st (reAt net st j) = some v ∧ 0 < f ∧ D.arrhA j = ((v * f : ℚ) : ℝ) := by
  obtain ⟨d, e, hd⟩ := hD.arrhA
  obtain ⟨a, ha, hA⟩ := hd j
  obtain ⟨u, w, h1, h2, h3⟩ := arrhA_at e ha
  unfold factorInForce
  rcases AdhocEqns.toSI_get h1 (reAt net st j).id with ⟨k1, k2⟩ | ⟨v, r, f, k1, k2, ⟨unit, -, k3⟩, k4⟩
  · rw [k2] at h3
    rw [k1]
    dsimp only at h3 ⊢
    subst h3
    unfold Reaction.getArrhA at h2
    split at h2
    · cases h2
    · rename_i v hv
      simp only [if_true] at h2
      split at h2
      · cases h2
      · split at h2
        · rename_i f hf
          cases h2
          exact ⟨v, f, hv, factor_pos hf, hA⟩
        · cases h2
  · rw [k4] at h3
    rw [k1]
    cases h3
    exact ⟨v, f, rfl, factor_pos k3, hA⟩

theorem at_species {s : RP} (h1 : s ∈ net.species) (h2 : st.enSp s.id = true) (h3 : s.isSpecial = false) :
    ∃ i, spAt net st i = s := by
  obtain ⟨i, hi, e⟩ := List.getElem_of_mem (mem_heavy.2 ⟨h1, h2, h3⟩)
  exact ⟨⟨i, hi⟩, e⟩

theorem at_reaction {r : Reaction} (h1 : r ∈ net.reactions) (h2 : st.enR r.id = true) : ∃ j, reAt net st j = r := by
  have : r ∈ net.getReactions st false := by simp [getReactions, h1, h2]
  obtain ⟨j, hj, e⟩ := List.getElem_of_mem this
  exact ⟨⟨j, hj⟩, e⟩

theorem feed_at {D : Data (ns net st) (nr net st)} (hD : ReadsAll X P D) (i : Fin (ns net st)) :
    D.feed i = (P.feeds.get? (spAt net st i).name).getD 0 := by
  obtain ⟨d, e, hd⟩ := hD.feed
  obtain ⟨n, hn, hm⟩ := hd i
  have := species_at e hn
  cases this
  exact hm

/-- **C122.** The data of the equations are physical exactly if the parameters and the enabled part of the chemistry are; the
stoichiometry always is. -/
theorem physical_iff (hr : Reachable net st) (hcl : net.RetClosed) (hpy : PyDicts net st) {D : Data (ns net st) (nr net st)}
    (hD : ReadsAll X P D) (hd : 0 < P.dalton) : D.Physical ↔ PhysicalParams net st P ∧ PhysicalChemistry net st := by
  have hsp : ∀ i, spAt net st i ∈ net.species ∧ st.enSp (spAt net st i).id = true ∧ (spAt net st i).isSpecial = false :=
    fun i => mem_heavy.1 (sp_mem i)
  have hre : ∀ j, reAt net st j ∈ net.reactions ∧ st.enR (reAt net st j).id = true := fun j => by
    have := re_mem (net := net) (st := st) j
    unfold getReactions at this
    simpa using List.mem_filter.1 this
  constructor
  · intro h
    refine ⟨⟨hD.tempG ▸ h.tempG, hD.radius ▸ h.r, hD.length ▸ h.z, hD.p0 ▸ h.p0, fun s h1 h2 h3 => ?_⟩,
      fun s h1 h2 h3 m hm => ?_, fun s h1 h2 h3 v hv => ?_, fun s h1 h2 h3 t k1 k2 k3 => ?_, fun r h1 h2 v hv => ?_⟩
    · obtain ⟨i, rfl⟩ := at_species h1 h2 h3
      rw [← feed_at hD]
      exact h.feed i
    · obtain ⟨i, rfl⟩ := at_species h1 h2 h3
      obtain ⟨m', e, k⟩ := mass_at hD i
      rw [hm] at e
      cases e
      have := h.mass i
      rw [k] at this
      exact_mod_cast (pos_iff_pos_of_mul_pos this).2 hd
    · obtain ⟨i, rfl⟩ := at_species h1 h2 h3
      obtain ⟨v', e, k⟩ := stick_at hD i
      rw [hv] at e
      cases e
      have := h.stick i
      rw [k] at this
      exact_mod_cast this
    · obtain ⟨i, rfl⟩ := at_species h1 h2 h3
      obtain ⟨k, rfl⟩ := at_species k1 k2 k3
      have := h.ret k i
      rw [ret_returned hr hcl hpy hD.wall] at this
      exact_mod_cast this
    · obtain ⟨j, rfl⟩ := at_reaction h1 h2
      obtain ⟨v', f, e, hf, k⟩ := factor_at hD j
      rw [hv] at e
      cases e
      have := h.arrhA j
      rw [k] at this
      have : 0 ≤ v * f := by exact_mod_cast this
      exact nonneg_of_mul_nonneg_left this hf
  · rintro ⟨hP, hC⟩
    refine ⟨hD.tempG ▸ hP.tempG, hD.radius ▸ hP.r, hD.length ▸ hP.z, hD.p0 ▸ hP.p0, fun i => ?_, fun i => ?_, fun i => ?_,
      fun i k => ?_, fun j => ?_, fun j i => ?_, fun j i => ?_⟩
    · obtain ⟨m, e, k⟩ := mass_at hD i
      obtain ⟨h1, h2, h3⟩ := hsp i
      rw [k]
      exact mul_pos (by exact_mod_cast hC.mass _ h1 h2 h3 m e) hd
    · obtain ⟨v, e, k⟩ := stick_at hD i
      obtain ⟨h1, h2, h3⟩ := hsp i
      rw [k]
      exact_mod_cast hC.stick _ h1 h2 h3 v e
    · obtain ⟨h1, h2, h3⟩ := hsp i
      rw [feed_at hD]
      exact hP.feed _ h1 h2 h3
    · obtain ⟨h1, h2, h3⟩ := hsp i
      obtain ⟨k1, k2, k3⟩ := hsp k
      rw [ret_returned hr hcl hpy hD.wall]
      exact_mod_cast hC.ret _ k1 k2 k3 _ h1 h2 h3
    · obtain ⟨v, f, e, hf, k⟩ := factor_at hD j
      rw [k]
      exact_mod_cast mul_nonneg (hC.rate _ (hre j).1 (hre j).2 v e) hf.le
    · obtain ⟨M, e, hM⟩ := hD.coefs.lhs
      rw [hM, coef_at hr (by simp) e]
      exact Int.natCast_nonneg _
    · obtain ⟨M, e, hM⟩ := hD.coefs.lhs
      obtain ⟨N, e', hN⟩ := hD.coefs.netC
      rw [hM, hN, coef_at hr (by simp) e, coef_at hr (by simp) e']
      simp only [Plaschem.multiplicity]
      have := Int.natCast_nonneg (((reAt net st j).products.map RP.id).count (spAt net st i).id)
      omega

/-! ### histories -/

theorem SoundHistory.reachable (h : SoundHistory net st) : Reachable net st := by
  induction h with
  | init h => exact .init h
  | step o _ _ ih => exact .step o ih

/-- no ad-hoc value is negative -/
structure SoundAdhoc (st : State) : Prop where
  stick : ∀ e ∈ st.adStick, 0 ≤ e.2
  ret : ∀ e ∈ st.adRet, e.2.keys.Nodup ∧ ∀ p ∈ e.2, 0 ≤ p.2
  arrh : ∀ e ∈ st.adArrhA, 0 ≤ e.2

theorem SoundAdhoc.of_eq {st st' : State} (h : SoundAdhoc st) (h1 : st'.adStick = st.adStick) (h2 : st'.adRet = st.adRet)
    (h3 : st'.adArrhA = st.adArrhA) : SoundAdhoc st' := ⟨h1 ▸ h.stick, h2 ▸ h.ret, h3 ▸ h.arrh⟩

theorem SoundHistory.adhoc (h : SoundHistory net st) : SoundAdhoc st := by
  induction h with
  | init h =>
    have := init_spec h
    exact ⟨by rw [this.2.2.2.2.2.1]; simp, by rw [this.2.2.2.2.2.2.1]; simp, by rw [this.2.2.2.2.2.2.2.1]; simp⟩
  | @step st o ho hs ih =>
    obtain ⟨hwf, hinv⟩ := reachable_inv hs.reachable
    cases o with
    | disable sp rx =>
      simp only [Net.step]
      rcases disable_cases hinv sp rx with ⟨e, -, -, -, he, -⟩ | ⟨sids, -, -, he, -⟩ | ⟨sids, st', -, -, hrec, he⟩
      · rw [he]; exact ih
      · rw [he]; exact ih
      · rw [he]
        have c := cascade_of_ok hwf hrec
        exact ih.of_eq c.stick c.ret c.arrh
    | reset => exact ih.of_eq rfl rfl rfl
    | protect sp =>
      have := @setProtected_spec net st sp
      exact ih.of_eq this.2.2.2.1 this.2.2.2.2.1 this.2.2.2.2.2.1
    | adhocStick p v =>
      simp only [Net.step, setAdhocStick]
      split
      · exact ih
      · rename_i s hs
        have : SoundAdhoc { st with adStick := st.adStick.set s.id v } := ⟨fun e he => by
          rcases mem_set he with rfl | he
          · exact ho
          · exact ih.stick e he, ih.ret, ih.arrh⟩
        split <;> exact this
    | adhocRet p v =>
      simp only [Net.step, setAdhocRet]
      split
      · exact ih
      · rename_i s hs
        have : SoundAdhoc { st with adRet := st.adRet.set s.id v } := ⟨ih.stick, fun e he => by
          rcases mem_set he with rfl | he
          · exact ho
          · exact ih.ret e he, ih.arrh⟩
        split
        · exact ih
        · split <;> exact this
    | resetAdhocSpecies a b =>
      simp only [Net.step, resetAdhocSpecies]
      exact ⟨fun e he => by
          cases a
          · exact ih.stick e he
          · exact absurd he (by simp),
        fun e he => by
          cases b
          · exact ih.ret e he
          · exact absurd he (by simp), ih.arrh⟩
    | adhocArrhA r v =>
      simp only [Net.step, setAdhocArrhA]
      split
      · exact ⟨ih.stick, ih.ret, fun e he => by
          rcases mem_set he with rfl | he
          · exact ho
          · exact ih.arrh e he⟩
      · exact ih
    | resetAdhocReactions => exact ⟨ih.stick, ih.ret, by simp [Net.step, resetAdhocReactions]⟩

theorem init_factor {F : Str → Option (Dict Str Nat)} {a : ReactionArgs} {r : Reaction} (h : Reaction.init F a = .ok r) {v : ℚ}
    (hv : r.arrhA = some v) : 0 ≤ v := by
  unfold Reaction.init at h
  dsimp only at h
  repeat' split at h
  all_goals first
    | (exfalso; cases h; done)
    | skip
  cases h
  rename_i hA _ _ _ _
  dsimp only at hv
  rw [hv] at hA
  dsimp only at hA
  unfold Reaction.checkArrhA at hA
  repeat' split at hA
  all_goals first
    | (exfalso; cases hA; done)
    | exact not_lt.1 ‹_›

variable {F : Str → Option (Dict Str Nat)}

theorem pyDicts_of_sound (hs : SoundInput F net) (hh : SoundHistory net st) : PyDicts net st := by
  refine ⟨fun s h1 c hc => ?_, fun e he => (hh.adhoc.ret e he).1⟩
  unfold RP.getRetCoefs at hc
  split at hc
  · cases hc
  · split at hc
    · rename_i d hd
      cases hc
      exact (hs.ret s h1 _ hd).1
    · split at hc
      · cases hc; exact List.nodup_nil
      · split at hc
        · cases hc; exact List.nodup_singleton _
        · cases hc

/-- **C122.** Sound input stays physical under every history of calls that set no negative value. -/
theorem sound_physical (hs : SoundInput F net) (hh : SoundHistory net st) : PhysicalChemistry net st := by
  have had := hh.adhoc
  refine ⟨fun s h1 _ _ m hm => hs.mass s h1 m hm, fun s h1 _ _ v hv => ?_, fun s h1 _ _ t _ _ _ => ?_, fun r h1 _ v hv => ?_⟩
  · unfold stickInForce at hv
    split at hv
    · rename_i v' hv'
      cases hv
      exact had.stick _ (Dict.mem_of_get? hv')
    · unfold RP.getStickCoef at hv
      split at hv
      · cases hv
      · split at hv
        · rename_i x hx
          cases hv
          exact hs.stick s h1 _ hx
        · split at hv <;> cases hv <;> norm_num
  · have pos : ∀ {c : Dict Str ℚ} {n : Str}, (∀ p ∈ c, 0 ≤ p.2) → 0 ≤ (c.get? n).getD 0 := fun {c n} h => by
      cases hg : c.get? n with
      | none => exact le_rfl
      | some v => exact h _ (Dict.mem_of_get? hg)
    unfold returned
    split
    · exact le_rfl
    · split
      · exact le_rfl
      · rename_i nominal hn
        split
        · exact le_rfl
        · rename_i c hc
          refine pos ?_
          unfold retInForce at hc
          split at hc
          · cases hc; simp
          · split at hc
            · rename_i c' hc'
              cases hc
              exact (had.ret _ (Dict.mem_of_get? hc')).2
            · unfold RP.getRetCoefs at hn
              split at hn
              · cases hn; cases hc
              · split at hn
                · rename_i d hd
                  cases hn
                  cases hc
                  exact (hs.ret s h1 _ hd).2
                · split at hn
                  · cases hn; cases hc; simp
                  · split at hn
                    · cases hn; cases hc; simp
                    · cases hn
  · unfold factorInForce at hv
    split at hv
    · rename_i v' hv'
      cases hv
      exact had.arrh _ (Dict.mem_of_get? hv')
    · obtain ⟨a, ha⟩ := hs.reactions r h1
      exact init_factor ha hv

/-- **C122.** The equations set up from sound input and accepted parameters are physical, after every such history. -/
theorem accepted_physical (hs : SoundInput F net) (hh : SoundHistory net st) (hcl : net.RetClosed) {passed : List (Str × Val)}
    {Q : Pygmol.Params} (hQ : initParams passed = .ok Q) {C : Consts} {dalton : ℝ} (hd : 0 < dalton) {flux : Bool}
    {D : Data (ns net st) (nr net st)} (hD : ReadsAll X (given Q C dalton flux) D) : D.Physical := by
  obtain ⟨h1, h2, h3, h4, -, h6, -⟩ := accepted_params hQ
  refine (physical_iff hh.reachable hcl (pyDicts_of_sound hs hh) hD hd).2 ⟨⟨h4, h1, h2, h3, fun s _ _ _ => ?_⟩, sound_physical hs hh⟩
  show 0 ≤ (Dict.get? Q.feeds s.name).getD 0
  cases hg : Dict.get? Q.feeds s.name with
  | none => exact le_rfl
  | some v => exact (h6 _ (Dict.mem_of_get? hg)).le

theorem lj_at {D : Data (ns net st) (nr net st)} (hD : ReadsAll X P D) (i : Fin (ns net st)) :
    D.ljSigma i = (((X (spAt net st i)).ljSigma.getD 3 : ℚ) : ℝ) * 1e-10 := by
  obtain ⟨d, e, hd⟩ := hD.lj
  obtain ⟨v, hv, hm⟩ := hd i
  have h3 := (mem_heavy.1 (sp_mem i)).2.2
  have := species_at e hv
  rw [hm]
  unfold RP.getLjSigma at this
  rw [h3] at this
  simp only [Bool.false_eq_true, if_false] at this
  split at this <;> rename_i w hw <;> cases this <;> rw [hw] <;> rfl

/-- **C122.** For such input: in a chemistry of charged species with a neutral one, with species of positive size whose negative
ions stick to the wall, from every state with positive densities, a positive density of electrons and weakly coupled ions starts
exactly one time development, defined for a while; it stays in states with positive densities in which the equations are
defined. -/
theorem accepted_development (hs : SoundInput F net) (hh : SoundHistory net st) (hcl : net.RetClosed) {passed : List (Str × Val)}
    {Q : Pygmol.Params} (hQ : initParams passed = .ok Q) (htime : Q.time.Pairwise (· < ·)) {C : Consts} {dalton : ℝ}
    (hd : 0 < dalton) {flux : Bool} {D : Data (ns net st) (nr net st)} (hD : ReadsAll X (given Q C dalton flux) D)
    (hq : net.requiresCharge = true) (hsize : ∀ s ∈ net.species, ∀ v, (X s).ljSigma = some v → 0 < v)
    (hneu : ∃ s ∈ net.species, st.enSp s.id = true ∧ s.isSpecial = false ∧ s.chargeOf = 0)
    (hneg : flux = true → ∀ s ∈ net.species, st.enSp s.id = true → s.isSpecial = false → s.chargeOf < 0 → stickInForce st s ≠ some 0)
    {y0 : Y (ns net st)} (hn : ∀ i, 0 < y0.n i) (hne : 0 < D.getElectronDensity y0 none)
    (hw : ∀ i k, i ≠ k → ¬ D.neu i → ¬ D.neu k → D.fB0 (D.pV y0) i k < 2 * D.pDebye y0) :
    ∃ ε ∈ Set.Ioc 0 Q.tEnd, ∃ y, D.Solves ε y ∧ y 0 = y0 ∧
      (∀ t ∈ Set.Icc 0 ε, (∀ i, 0 < (y t).n i) ∧ 0 < D.getElectronDensity (y t) none ∧ D.Regular (y t)) ∧
      ∀ z, D.Solves ε z → z 0 = y0 → ∀ t ∈ Set.Icc 0 ε, z t = y t := by
  have hph := accepted_physical hs hh hcl hQ hd hD
  obtain ⟨-, -, -, -, hT, -, -, hlen, -⟩ := accepted_params hQ
  obtain ⟨s, hs1, hs2, hs3, hs4⟩ := hneu
  obtain ⟨i, hi⟩ := at_species hs1 hs2 hs3
  obtain ⟨p, hp1, ⟨hp2, hp3, hp4⟩, hp5⟩ := positive_ion_survives hh.reachable hq
  have hpsp : p.isSpecial = false := by
    unfold RP.isSpecial
    simp [hp2, hp3]
  obtain ⟨k, hk⟩ := at_species hp1 hp5 hpsp
  have hpk : 0 < D.charge k := by
    rw [hD.coefs.charge, hk]
    unfold RP.chargeOf RP.getCharge
    rw [if_neg hp3]
    cases hc : p.charge with
    | none => rw [hc] at hp4; exact absurd hp4 (lt_irrefl _)
    | some c => rw [hc] at hp4; exact hp4
  have hik : i ≠ k := fun h => by
    have : D.charge i = 0 := by rw [hD.coefs.charge, hi]; exact hs4
    rw [h] at this
    omega
  have hflux : D.thermalFlux = flux := hD.flux
  have hreg : D.Regular y0 := by
    refine D.regular_of_physical hph (fun i => (hn i).le) hne (fun m => ?_) (fun m => ?_) hw
      ⟨i, by rw [hD.coefs.charge, hi]; exact hs4, hn i⟩ ⟨k, hpk⟩ (fun hf m hm => ?_)
    · rw [lj_at hD]
      have : 0 < (X (spAt net st m)).ljSigma.getD 3 := by
        cases hx : (X (spAt net st m)).ljSigma with
        | none => norm_num
        | some v => exact hsize _ (mem_heavy.1 (sp_mem m)).1 v hx
      have : (0 : ℝ) < (((X (spAt net st m)).ljSigma.getD 3 : ℚ) : ℝ) := by exact_mod_cast this
      positivity
    · by_cases h : m = i
      · exact ⟨k, by rw [h]; exact hik.symm, hn k⟩
      · exact ⟨i, fun e => h e.symm, hn i⟩
    · obtain ⟨v, e, hv⟩ := stick_at hD m
      obtain ⟨h1, h2, h3⟩ := mem_heavy.1 (sp_mem m)
      have hne : v ≠ 0 := fun h0 => hneg (hflux ▸ hf) _ h1 h2 h3 (by rw [← hD.coefs.charge]; exact hm) (by rw [e, h0])
      rw [hv]
      have := hph.stick m
      rw [hv] at this
      exact lt_of_le_of_ne this (by exact_mod_cast hne.symm)
  have hcont : ContinuousOn D.power (Set.Icc 0 Q.tEnd) := by
    rw [hD.power]
    refine (interp_continuous ?_).continuousOn
    have : ((Q.time.zip Q.power).map Prod.fst).Pairwise (· < ·) := by
      rw [List.map_fst_zip hlen.ge]; exact htime
    rwa [List.pairwise_map] at this
  obtain ⟨ε, hε, y, hy, h0, hg⟩ := Data.solution_exists hph hn hne hreg hT hcont
  exact ⟨ε, hε, y, hy, h0, hg, fun z hz hz0 =>
    Data.unique_of_good hph hy (fun t ht => ⟨(hg t ht).1, (hg t ht).2.1, (hg t ht).2.2⟩) hz (hz0.trans h0.symm)⟩

end Verif.Fwork.PhysEqns
