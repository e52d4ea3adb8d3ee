/-
Property C118: what disabling species and reactions does to the equations of the global model (model in ReducedEqns.lean).
-/
import Verif.Fwork.ReducedEqns

namespace Verif.Fwork.ReducedEqns
open Finset Verif.Plaschem Verif.Plaschem.Net Verif.Pygmol
open Verif.Fwork.Rates (ReadsWall mem_heavy)
open Verif.Fwork.GraphRun (ns nr ret_returned net_counts)
open Verif.Fwork.CoupleInit (returned count_id)
open Verif.Fwork.Morris (PyDicts)

variable {net : Net} {st st' : State}

/-! ### lemmas -/

theorem shrinks_refl (net : Net) (st : State) : Shrinks net st st :=
  ⟨fun _ _ h => h, fun _ _ h => h, rfl, rfl, rfl⟩

theorem Shrinks.trans {a b c : State} (h1 : Shrinks net a b) (h2 : Shrinks net b c) : Shrinks net a c :=
  ⟨fun s hs h => h1.sp s hs (h2.sp s hs h), fun r hr h => h1.rx r hr (h2.rx r hr h), h2.stick.trans h1.stick,
    h2.ret.trans h1.ret, h2.arrh.trans h1.arrh⟩

theorem shrinks_disable (hr : Reachable net st) (species : List SpIdent) (reactions : List Nat) :
    Shrinks net st (net.disable st species reactions).1 := by
  obtain ⟨hwf, hinv⟩ := reachable_inv hr
  rcases disable_cases hinv species reactions with ⟨e, -, -, -, he, -⟩ | ⟨sids, -, -, he, -⟩ | ⟨sids, st'', -, -, hrec, he⟩
  · rw [he]; exact shrinks_refl net st
  · rw [he]; exact shrinks_refl net st
  · rw [he]
    have c := cascade_of_ok hwf hrec
    exact ⟨fun s _ h => c.monoS _ h, fun r _ h => c.monoR _ h, c.stick, c.ret, c.arrh⟩

theorem SameState.stateOf {y : Y (ns net st)} {y' : Y (ns net st')} (h : SameState net st st' y y') (hr : Reachable net st)
    {f : Fin (ns net st') → Fin (ns net st)} {g : Fin (nr net st') → Fin (nr net st)} (hp : Places net st st' f g) :
    Data.StateOf y' y f where
  n := fun i => (h.n _ _ (hp.sp i)).symm
  rho := h.rho.symm
  absent := fun i hi => h.absent i (by rw [hp.mem_sp hr] at hi; simpa using hi)

theorem Places.of_eq (hr : Reachable net st) {f : Fin (ns net st') → Fin (ns net st)} {g : Fin (nr net st') → Fin (nr net st)}
    (hp : Places net st st' f g) {i : Fin (ns net st)} {i' : Fin (ns net st')} (h : spAt net st i = spAt net st' i') :
    i = f i' := spAt_inj hr (h.trans (hp.sp i').symm)

theorem Places.of_eq_rx (hr : Reachable net st) {f : Fin (ns net st') → Fin (ns net st)}
    {g : Fin (nr net st') → Fin (nr net st)} (hp : Places net st st' f g) {j : Fin (nr net st)} {j' : Fin (nr net st')}
    (h : reAt net st j = reAt net st' j') : j = g j' := reAt_inj hr (h.trans (hp.rx j').symm)

theorem charge_pos {s : RP} (h : s.isSpecial = false) : 0 < s.chargeOf ↔ PositiveIon s := by
  have h1 : s.name ≠ str!"e" ∧ s.name ≠ str!"M" := by
    unfold RP.isSpecial at h
    constructor <;> intro he <;> rw [he] at h <;> simp at h
  unfold PositiveIon RP.chargeOf RP.getCharge
  rw [if_neg h1.2]
  cases s.charge <;> simp [h1.1, h1.2]

theorem lost {f : Fin (ns net st') → Fin (ns net st)} {g : Fin (nr net st') → Fin (nr net st)}
    (hp : Places net st st' f g) (hr : Reachable net st) {i : Fin (ns net st)} (hi : i ∉ Set.range f) :
    spAt net st i ∈ net.species ∧ st.enSp (spAt net st i).id = true ∧ st'.enSp (spAt net st i).id = false ∧
      (spAt net st i).isSpecial = false := by
  obtain ⟨h1, h2, h3⟩ := mem_heavy.1 (sp_mem i)
  rw [hp.mem_sp hr] at hi
  exact ⟨h1, h2, by simpa using hi, h3⟩

theorem keepsPos {D : Data (ns net st) (nr net st)} (hread : Reads D) (hr : Reachable net st) (h : NoIonLost net st st')
    {f : Fin (ns net st') → Fin (ns net st)} {g : Fin (nr net st') → Fin (nr net st)} (hp : Places net st st' f g) :
    D.KeepsPos f := by
  intro i hi
  obtain ⟨h1, h2, h3, h4⟩ := lost hp hr hi
  rw [hread.charge]
  by_contra hc
  exact h _ h1 h2 h3 ((charge_pos h4).1 (not_le.1 hc))

theorem feed_eq {X : RP → Extra} {P : Params} {D : Data (ns net st) (nr net st)} (hD : ReadsAll X P D) (i : Fin (ns net st)) :
    D.feed i = (P.feeds.get? (spAt net st i).name).getD 0 := by
  obtain ⟨d, e, hd⟩ := hD.feed
  obtain ⟨n, hn, hm⟩ := hd i
  have := species_at e hn
  cases this
  exact hm

theorem keepsFeed {X : RP → Extra} {P : Params} {D : Data (ns net st) (nr net st)} (hD : ReadsAll X P D)
    (hr : Reachable net st) (h : NoFeedLost net st st' P)
    {f : Fin (ns net st') → Fin (ns net st)} {g : Fin (nr net st') → Fin (nr net st)} (hp : Places net st st' f g) :
    D.KeepsFeed f := by
  intro i hi
  obtain ⟨h1, h2, h3, h4⟩ := lost hp hr hi
  rw [feed_eq hD]
  exact h _ h1 h2 h3

theorem keepsReturn (hcl : net.RetClosed) (hpy : PyDicts net st) {D : Data (ns net st) (nr net st)} (hread : Reads D)
    (hw : ReadsWall D) (hr : Reachable net st) (h : NoIonReturned net st st')
    {f : Fin (ns net st') → Fin (ns net st)} {g : Fin (nr net st') → Fin (nr net st)} (hp : Places net st st' f g) :
    D.KeepsReturn f := by
  intro i hi hc k
  obtain ⟨h1, h2, h3, h4⟩ := lost hp hr hi
  obtain ⟨h5, h6, -⟩ := mem_heavy.1 (sp_mem (st := st') k)
  rw [ret_returned hr hcl hpy hw, hp.sp, h _ h1 h2 h3 (by rwa [hread.charge] at hc) _ h5 h6, Rat.cast_zero]

/-! ### C118 -/

/-- **C118.** Calls of `disable`, also those that raise, leave a chemistry with no more species and reactions than before, and
with the same ad-hoc attributes: the theorems below apply to the states before and after. -/
theorem disabling_shrinks (hr : Reachable net st) (calls : List (List SpIdent × List Nat)) :
    Shrinks net st (net.run st (calls.map fun c => .disable c.1 c.2)) ∧
    Reachable net (net.run st (calls.map fun c => .disable c.1 c.2)) := by
  induction calls generalizing st with
  | nil => exact ⟨shrinks_refl net st, hr⟩
  | cons c cs ih =>
    have h1 : Reachable net (net.step st (.disable c.1 c.2)).1 := .step _ hr
    obtain ⟨h2, h3⟩ := ih h1
    exact ⟨(shrinks_disable hr c.1 c.2).trans h2, h3⟩

section
variable (hr : Reachable net st) (hr' : Reachable net st') (hcl : net.RetClosed) (hpy : PyDicts net st)
    (h : Shrinks net st st') {X : RP → Extra} {P : Params} {D : Data (ns net st) (nr net st)}
    {D' : Data (ns net st') (nr net st')} (hD : ReadsAll X P D) (hD' : ReadsAll X P D')
    {y : Y (ns net st)} {y' : Y (ns net st')} (hy : SameState net st st' y y')
include hr hr' hcl hpy h hD hD' hy

/-- **C118.** While the disabled species have no density, the reactions that are left go at the same rates as before, and of
those that were disabled only the reactions whose reactants are all there had a rate. -/
theorem rates_kept :
    (∀ j j', reAt net st j = reAt net st' j' → D.pRates y j = D'.pRates y' j') ∧
    (∀ j, st'.enR (reAt net st j).id = false → ¬ Cut st' (reAt net st j) → D.pRates y j = 0) ∧
    D.pTe y = D'.pTe y' ∧ D.pNe y = D'.pNe y' ∧ D.pP y = D'.pP y' := by
  obtain ⟨f, g, hp⟩ := places h
  have hpart := partOf hr hr' hcl hpy h hD hD' hp
  have hs := hy.stateOf hr hp
  refine ⟨fun j j' hj => ?_, fun j hj hc => ?_, (hpart.electronTemp hs).symm, (hpart.electronDensity hs).symm,
    (hpart.pressure hs).symm⟩
  · rw [hp.of_eq_rx hr hj, hpart.rate hs]
  · rw [← cut_iff hr hD.coefs hp h] at hc
    have : ∃ i, i ∉ Set.range f ∧ D.lhs j i ≠ 0 := by
      by_contra hno
      push Not at hno
      refine hc ⟨by rw [hp.mem_rx hr, hj]; simp, fun i hi => hno i hi⟩
    obtain ⟨i, hi, hl⟩ := this
    exact Data.PartOf.rate_zero hs hi hl

open Classical in
/-- **C118.** The densities of the species that are left change in the full system as in the reduced one, but for the reactions
cut off: those that were disabled although their reactants are there. No positive ion and no fed species may be among the
disabled species. -/
theorem reduced_densities (hion : NoIonLost net st st') (hfeed : NoFeedLost net st st' P) (t : ℝ)
    {i : Fin (ns net st)} {i' : Fin (ns net st')} (hi : spAt net st i = spAt net st' i') :
    (D.rhs t y).n i = (D'.rhs t y').n i' + ∑ j ∈ univ.filter (fun j => Cut st' (reAt net st j)),
      (((reAt net st j).products.count (spAt net st i) : ℝ) - (reAt net st j).reactants.count (spAt net st i)) *
        D.pRates y j := by
  obtain ⟨f, g, hp⟩ := places h
  have hpart := partOf hr hr' hcl hpy h hD hD' hp
  have hs := hy.stateOf hr hp
  have key := hpart.dn hs (keepsPos hD.coefs hr hion hp) (keepsFeed hD hr hfeed hp) i'
  show D.pDn y i = D'.pDn y' i' + _
  rw [hp.of_eq hr hi, key]
  congr 1
  refine sum_congr (filter_congr fun j _ => cut_iff hr hD.coefs hp h j) fun j _ => ?_
  rw [net_counts hr hD.coefs]

open Classical in
/-- **C118.** Likewise the energy of the electrons: the full system differs by the energy the electrons lose in the reactions
cut off, and by the mean energy of the electrons these make. -/
theorem reduced_energy (hion : NoIonLost net st st') (hret : NoIonReturned net st st') (t : ℝ) :
    (D.rhs t y).rho = (D'.rhs t y').rho - ∑ j ∈ univ.filter (fun j => Cut st' (reAt net st j)),
      ((if 0 < D.eLhs j then D.pLoss y j else 0) + 3 / 2 * D.pTe y * D.eNet j) * D.pRates y j := by
  obtain ⟨f, g, hp⟩ := places h
  have hpart := partOf hr hr' hcl hpy h hD hD' hp
  have hs := hy.stateOf hr hp
  have key := hpart.drho hs (keepsPos hD.coefs hr hion hp) (keepsReturn hcl hpy hD.coefs hD.wall hr hret hp) t
  show D.pDrho t y = D'.pDrho t y' - _
  rw [key]
  congr 1
  exact sum_congr (filter_congr fun j _ => cut_iff hr hD.coefs hp h j) fun j _ => rfl

/-- **C118.** If every reaction that was disabled has lost a reactant, the reduced system is the full one on the species that
are left. -/
theorem reduced_exact (hion : NoIonLost net st st') (hfeed : NoFeedLost net st st' P) (hret : NoIonReturned net st st')
    (hcut : ∀ r ∈ net.reactions, st.enR r.id = true → ¬ Cut st' r) (t : ℝ) :
    (∀ i i', spAt net st i = spAt net st' i' → (D.rhs t y).n i = (D'.rhs t y').n i') ∧
    (D.rhs t y).rho = (D'.rhs t y').rho := by
  classical
  have hno : univ.filter (fun j => Cut st' (reAt net st j)) = (∅ : Finset (Fin (nr net st))) := by
    refine filter_eq_empty_iff.2 fun {j} _ => ?_
    obtain ⟨h1, h2⟩ := List.mem_filter.1 (re_mem (st := st) j)
    exact hcut _ h1 (by simpa using h2)
  refine ⟨fun i i' hi => ?_, ?_⟩
  · rw [reduced_densities hr hr' hcl hpy h hD hD' hy hion hfeed t hi]
    rw [sum_eq_zero (fun j hj => ?_), add_zero]
    exact absurd (by convert hj) (hno ▸ notMem_empty j)
  · rw [reduced_energy hr hr' hcl hpy h hD hD' hy hion hret t]
    rw [sum_eq_zero (fun j hj => ?_), sub_zero]
    exact absurd (by convert hj) (hno ▸ notMem_empty j)

open Classical in
/-- **C118, where a positive ion is disabled.** The ambipolar diffusivity is a mean over the positive ions enabled, whether they
have a density or not. Disabling an ion that is not there changes it, unless the free diffusivity of that ion is the mean. -/
theorem ion_lost_ambipolar (h1 : ∃ i, PositiveIon (spAt net st i)) (h2 : ∃ i, PositiveIon (spAt net st' i)) :
    (univ.filter fun i => PositiveIon (spAt net st i)).card * D.pAmb y =
      (univ.filter fun i => PositiveIon (spAt net st' i)).card * D'.pAmb y' +
      (∑ i ∈ univ.filter (fun i => PositiveIon (spAt net st i) ∧ st'.enSp (spAt net st i).id = false), D.pFree y i) *
        (1 + D.pTe y * D.C.e / D.C.kB / D.pTi y * (1 + 2 * ((∑ i ∈ univ.filter D.neg, y.n i) / D.pNe y))) /
        (1 + (∑ i ∈ univ.filter D.neg, y.n i) / D.pNe y * (D.pTe y * D.C.e / D.C.kB / D.pTi y)) := by
  obtain ⟨f, g, hp⟩ := places h
  have hpart := partOf hr hr' hcl hpy h hD hD' hp
  have hs := hy.stateOf hr hp
  have e1 : ∀ i, D.pos i ↔ PositiveIon (spAt net st i) := fun i => by
    unfold Data.pos; rw [hD.coefs.charge]; exact charge_pos (mem_heavy.1 (sp_mem i)).2.2
  have e2 : ∀ i, D'.pos i ↔ PositiveIon (spAt net st' i) := fun i => by
    unfold Data.pos; rw [hD'.coefs.charge]; exact charge_pos (mem_heavy.1 (sp_mem i)).2.2
  have f1 : (univ.filter fun i => PositiveIon (spAt net st i)) = univ.filter D.pos := by
    ext i; simp only [mem_filter, mem_univ, true_and]; exact (e1 i).symm
  have f2 : (univ.filter fun i => PositiveIon (spAt net st' i)) = univ.filter D'.pos := by
    ext i; simp only [mem_filter, mem_univ, true_and]; exact (e2 i).symm
  have f3 : (univ.filter fun i => PositiveIon (spAt net st i) ∧ st'.enSp (spAt net st i).id = false) =
      univ.filter (fun i => 0 < D.charge i ∧ i ∉ Set.range f) := by
    ext i
    simp only [mem_filter, mem_univ, true_and]
    rw [hp.mem_sp hr, ← e1]
    unfold Data.pos
    simp
  obtain ⟨a, ha⟩ := h1
  obtain ⟨b, hb⟩ := h2
  rw [f1, f2, f3]
  exact hpart.amb_removed hs ⟨a, by simpa using (e1 a).2 ha⟩ ⟨b, by simpa using (e2 b).2 hb⟩

omit hy in
/-- **C118, where a positive ion is disabled.** Disabling ions heavier than all the positive ions left lowers the voltage of
the sheath, whatever their density. -/
theorem ion_lost_sheath (hlost : ∃ s ∈ net.species, st.enSp s.id = true ∧ st'.enSp s.id = false ∧ PositiveIon s)
    (hheavy : ∀ s ∈ net.species, ∀ u ∈ net.species, PositiveIon s → PositiveIon u → st.enSp s.id = true →
      st'.enSp s.id = false → st'.enSp u.id = true → ∀ v w, s.mass = some v → u.mass = some w → w < v)
    (hu : 0 < P.dalton) (hm : ∀ s ∈ net.species, ∀ v, s.mass = some v → 0 < v) (h2 : ∃ i, PositiveIon (spAt net st' i))
    {T : ℝ} (hT : 0 < T) : D'.fSheath T < D.fSheath T := by
  obtain ⟨f, g, hp⟩ := places h
  have hpart := partOf hr hr' hcl hpy h hD hD' hp
  have hmass : ∀ i, ∃ v, (spAt net st i).mass = some v ∧ D.mass i = (v : ℝ) * P.dalton := by
    intro i
    obtain ⟨d, e, hd⟩ := hD.mass
    obtain ⟨v, hv, hm⟩ := hd i
    have := species_at e hv
    unfold RP.getMass at this
    split at this
    · cases this
    · split at this
      · rename_i m hm'; cases this; exact ⟨_, hm', hm⟩
      · cases this
  obtain ⟨s, hs, h3, h4, h5⟩ := hlost
  have hsp : s.isSpecial = false := by
    obtain ⟨a, b, -⟩ := h5; simp [RP.isSpecial, a, b]
  obtain ⟨k, hk, hk'⟩ := List.getElem_of_mem (mem_heavy.2 ⟨hs, h3, hsp⟩)
  have e1 : ∀ i, 0 < D.charge i ↔ PositiveIon (spAt net st i) := fun i => by
    rw [hD.coefs.charge]; exact charge_pos (mem_heavy.1 (sp_mem i)).2.2
  have e2 : ∀ i, D'.pos i ↔ PositiveIon (spAt net st' i) := fun i => by
    unfold Data.pos; rw [hD'.coefs.charge]; exact charge_pos (mem_heavy.1 (sp_mem i)).2.2
  have hks : spAt net st ⟨k, hk⟩ = s := hk'
  obtain ⟨b, hb⟩ := h2
  refine hpart.sheath_removed (b := ⟨k, hk⟩) ((e1 _).2 (hks ▸ h5)) ?_ ?_ ?_ ⟨b, by simpa using (e2 b).2 hb⟩ hT
  · rw [hp.mem_sp hr, hks, h4]; simp
  · intro i hi hci l hcl'
    obtain ⟨a1, a2, a3, -⟩ := lost hp hr hi
    obtain ⟨v, hv, hv'⟩ := hmass i
    obtain ⟨w, hw, hw'⟩ := hmass (f l)
    have a4 := (hp.mem_sp hr (f l)).1 ⟨l, rfl⟩
    have := hheavy _ a1 _ (mem_heavy.1 (sp_mem (f l))).1 ((e1 i).1 hci) ((e1 (f l)).1 hcl') a2 a3 a4 v w hv hw
    rw [hv', hw']
    exact mul_lt_mul_of_pos_right (by exact_mod_cast this) hu
  · intro i
    obtain ⟨v, hv, hv'⟩ := hmass i
    rw [hv']
    exact mul_pos (by exact_mod_cast hm _ (mem_heavy.1 (sp_mem i)).1 v hv) hu

end

/-- **C118.** What a request for species alone cuts off are the reactions that would make a disabled species, and those with a
disabled electron or `M`. -/
theorem cut_makes_disabled (hr : Reachable net st) {species : List SpIdent} (hd : net.disable st species [] = (st', none))
    {r : Reaction} (hrm : r ∈ net.reactions) (he : st.enR r.id = true) (hc : Cut st' r) :
    (∃ p ∈ r.products, st'.enSp p.id = false) ∨
    ∃ p ∈ r.reactants, st'.enSp p.id = false ∧ (p.name = str!"e" ∨ p.name = str!"M") := by
  obtain ⟨h1, h2, -⟩ := disable_exact hr hd
  have hf : ForcedR net st (Requested net species) (ReqR []) r.id := by
    by_contra hno
    have := (h2 r.id).2 ⟨he, hno⟩
    rw [hc.1] at this; cases this
  obtain ⟨hwf, -⟩ := reachable_inv hr
  have key : ∀ i, ForcedR net st (Requested net species) (ReqR []) i → ∃ q ∈ net.reactions, q.id = i ∧
      ∃ k, Occurs k q ∧ ForcedS net st (Requested net species) (ReqR []) k := by
    intro i hi
    cases hi with
    | requested hreq _ => cases hreq
    | incomplete hq _ ho hs => exact ⟨_, hq, rfl, _, ho, hs⟩
  obtain ⟨q, hq, hid, k, ho, hs⟩ := key _ hf
  have : q = r := List.inj_on_of_nodup_map hwf.rNodup hq hrm hid
  subst this
  obtain ⟨p, hp, rfl⟩ := ho
  have hdis : st'.enSp p.id = false := by
    by_contra hno
    exact ((h1 p.id).1 (by simpa using hno)).2 hs
  rcases List.mem_append.1 hp with hp | hp
  · right
    refine ⟨p, hp, hdis, ?_⟩
    by_contra hno
    rw [not_or] at hno
    have := hc.2 p hp hno.1 hno.2
    rw [hdis] at this; cases this
  · exact .inl ⟨p, hp, hdis⟩

end Verif.Fwork.ReducedEqns
