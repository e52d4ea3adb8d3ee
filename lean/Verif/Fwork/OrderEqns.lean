/-
Property C119, the equations of the global model: they do not depend on the order in which the species and reactions of the
chemistry are listed, provided each elastic electron collision has one collision partner.
-/
import Verif.Plaschem.Shuffle
import Verif.Fwork.ReducedEqnsDemo

namespace Verif.Fwork.OrderEqns
open Finset Verif.Plaschem Verif.Plaschem.Net Verif.Pygmol
open Verif.Fwork.Rates (ReadsWall mem_heavy)
open Verif.Fwork.GraphRun (ns nr)
open Verif.Fwork.Morris (PyDicts)
open Verif.Fwork.ReducedEqns

variable {net net' : Net} {st : State}

/-- **Specification.** The heavy reactants of each enabled elastic collision with an electron are equally heavy. -/
def OnePartner (net : Net) (st : State) : Prop :=
  ∀ r ∈ net.reactions, st.enR r.id = true → r.getElastic = true → (∃ p ∈ r.reactants, p.name = str!"e") →
    ∀ a ∈ r.reactants, ∀ b ∈ r.reactants, a.isSpecial = false → b.isSpecial = false → a.mass = b.mass

/-- **Specification.** The states `y` and `y'` give each species the same density, and the electrons the same energy. -/
structure Agrees (net net' : Net) (st : State) (y : Y (ns net st)) (y' : Y (ns net' st)) : Prop where
  n : ∀ i i', spAt net st i = spAt net' st i' → y.n i = y'.n i'
  rho : y.rho = y'.rho

theorem positions {α : Type} {l l' : List α} (h : l'.Perm l) (hn : l.Nodup) :
    ∃ f : Fin l'.length → Fin l.length, (∀ i, l[(f i : ℕ)]'(f i).2 = l'[(i : ℕ)]'i.2) ∧ Function.Bijective f := by
  have hn' : l'.Nodup := h.nodup_iff.2 hn
  have key : ∀ i : Fin l'.length, ∃ k : Fin l.length, l[(k : ℕ)]'k.2 = l'[(i : ℕ)]'i.2 := fun i => by
    obtain ⟨k, hk, e⟩ := List.getElem_of_mem (h.mem_iff.1 (List.getElem_mem i.2))
    exact ⟨⟨k, hk⟩, e⟩
  choose f hf using key
  refine ⟨f, hf, fun a b hab => ?_, fun k => ?_⟩
  · have : l'[(a : ℕ)]'a.2 = l'[(b : ℕ)]'b.2 := by rw [← hf a, ← hf b, hab]
    exact Fin.ext ((hn'.getElem_inj_iff).1 this)
  · obtain ⟨i, hi, e⟩ := List.getElem_of_mem (h.mem_iff.2 (List.getElem_mem k.2))
    refine ⟨⟨i, hi⟩, Fin.ext ((hn.getElem_inj_iff).1 ((hf ⟨i, hi⟩).trans e))⟩

/-- a reaction with a positive coefficient of the electron has the electron among its reactants -/
theorem electron_mem (hr : Reachable net st) {D : Data (ns net st) (nr net st)} (hread : Reads D) {j : Fin (nr net st)}
    (h : D.elc j) : ∃ p ∈ (reAt net st j).reactants, p.name = str!"e" := by
  obtain ⟨hwf, -⟩ := reachable_inv hr
  obtain ⟨E, hE, he⟩ := hread.eLhs
  unfold Data.elc at h
  rw [he] at h
  unfold stoichElectron at hE
  cases hx : net.getRp (.name str!"e") with
  | error x => rw [hx] at hE; cases hE
  | ok s =>
    rw [hx] at hE
    rw [column_entry hr hE] at h
    obtain ⟨d, hd, h1, h2⟩ := Plaschem.stoich_lhs (reAt net st j)
    rw [hd] at h
    have hmem : s.id ∈ d.keys := by
      by_contra hn
      have : d.get? s.id = none := by
        cases hg : d.get? s.id with
        | none => rfl
        | some v => exact absurd ((Dict.mem_keys_iff _ _).2 ⟨v, hg⟩) hn
      have e : (Except.ok d : Except Err (Dict ℕ ℤ)).toOption.getD [] = d := rfl
      rw [e, this] at h
      simp at h
    obtain ⟨p, hp, he⟩ := List.mem_map.1 ((h1.2.1 _).1 hmem)
    have hs := getRp_mem hx
    have hps := hwf.eq_of_id (hwf.closed _ (List.mem_filter.1 (re_mem (st := st) j)).1 _ (List.mem_append_left _ hp)) hs he
    refine ⟨p, hp, ?_⟩
    rw [hps]
    unfold getRp at hx
    simp only at hx
    split at hx
    · rename_i e
      cases hx
      simpa using List.find?_some e
    · cases hx

theorem equal_masses (hr : Reachable net st) (hone : OnePartner net st) {X : RP → Extra} {P : Params}
    {D : Data (ns net st) (nr net st)} (hD : ReadsAll X P D) (j : Fin (nr net st)) (i k : Fin (ns net st)) (hj : D.elc j)
    (he : D.elastic j = true) (hi : 0 < D.lhs j i) (hk : 0 < D.lhs j k) : D.mass i = D.mass k := by
  have hm : ∀ {i}, 0 < D.lhs j i → spAt net st i ∈ (reAt net st j).reactants := fun {i} h => by
    by_contra hn
    rw [(lhs_zero hr hD.coefs j i).2 hn] at h
    exact absurd h (lt_irrefl 0)
  have hel : (reAt net st j).getElastic = true := by
    obtain ⟨d, e, hd⟩ := hD.elastic
    have := reactions_at e (hd j)
    rw [he] at this
    exact Except.ok.inj this
  obtain ⟨h1, h2⟩ := List.mem_filter.1 (re_mem (st := st) j)
  have key := hone _ h1 (by simpa using h2) hel (electron_mem hr hD.coefs hj) _ (hm hi) _ (hm hk)
    (mem_heavy.1 (sp_mem i)).2.2 (mem_heavy.1 (sp_mem k)).2.2
  obtain ⟨d, e, hd⟩ := hD.mass
  obtain ⟨v, hv, h3⟩ := hd i
  obtain ⟨w, hw, h4⟩ := hd k
  have a := species_at e hv
  have b := species_at e hw
  have hM : ∀ s : RP, s.isSpecial = false → s.name ≠ str!"M" := fun s h he => by
    unfold RP.isSpecial at h; rw [he] at h; simp at h
  unfold RP.getMass at a b
  rw [if_neg (hM _ (mem_heavy.1 (sp_mem i)).2.2), key] at a
  rw [if_neg (hM _ (mem_heavy.1 (sp_mem k)).2.2)] at b
  rw [a] at b
  rw [h3, h4, Option.some.inj (Except.ok.inj b)]

/-- **C119.** The equations of the global model do not depend on the order in which the species and reactions are listed: at
states with the same densities each species, and the energy of the electrons, changes at the same rate. -/
theorem order_of_equations (h : Shuffled net net') (hr : Reachable net st) (hcl : net.RetClosed) (hpy : PyDicts net st)
    (hone : OnePartner net st) {X : RP → Extra} {P : Params} {D : Data (ns net st) (nr net st)}
    {D' : Data (ns net' st) (nr net' st)} (hD : ReadsAll X P D) (hD' : ReadsAll X P D')
    {y : Y (ns net st)} {y' : Y (ns net' st)} (hy : Agrees net net' st y y') (t : ℝ) :
    (∀ i i', spAt net st i = spAt net' st i' → (D.rhs t y).n i = (D'.rhs t y').n i') ∧
    (D.rhs t y).rho = (D'.rhs t y').rho ∧
    (∀ j j', reAt net st j = reAt net' st j' → D.pRates y j = D'.pRates y' j') := by
  classical
  obtain ⟨hwf, -⟩ := reachable_inv hr
  have hr' := h.reachable hr
  have hcl' : net'.RetClosed := fun s hs d hd p hp => by
    obtain ⟨t, ht, e⟩ := hcl s (h.species.mem_iff.1 hs) d hd p hp
    exact ⟨t, h.species.mem_iff.2 ht, e⟩
  have hpy' : PyDicts net' st := ⟨fun s hs => hpy.nominal s (h.species.mem_iff.1 hs), hpy.adhoc⟩
  obtain ⟨f, hf, hfb⟩ := positions (h.getSpecies st false false true)
    ((hwf.spNodup.sublist (List.filter_sublist.map _)).of_map)
  obtain ⟨g, hg, hgb⟩ := positions (h.getReactions st false)
    ((hwf.rNodup.sublist (List.filter_sublist.map _)).of_map)
  have hout : ∀ i, ¬ i ∉ Set.range f := fun i hi => hi (hfb.2 i)
  have hpart : D'.PartOf D f g :=
    partOf_of hr hr' hcl hcl' hpy hpy' (h.getRp hwf) (h.getReaction hwf) rfl rfl rfl hD hD' hf hg hfb.1 hgb.1
      (.inr fun j i k a b c d => equal_masses hr hone hD j i k a b c d) fun j i hi => absurd hi (hout i)
  have hs : Data.StateOf y' y f := ⟨fun i => (hy.n _ _ (hf i)).symm, hy.rho.symm, fun i hi => absurd hi (hout i)⟩
  have hcut : ∀ (w : Fin (nr net st) → ℝ), ∑ j ∈ univ.filter (Data.Cut D f g), w j = 0 := fun w => by
    refine sum_eq_zero fun j hj => ?_
    exact absurd (hgb.2 j) (mem_filter.1 hj).2.1
  refine ⟨fun i i' hi => ?_, ?_, fun j j' hj => ?_⟩
  · have e : i = f i' := spAt_inj hr (hi.trans (hf i').symm)
    show D.pDn y i = D'.pDn y' i'
    rw [e, hpart.dn hs (fun i hi => absurd hi (hout i)) (fun i hi => absurd hi (hout i)) i', hcut, add_zero]
  · show D.pDrho t y = D'.pDrho t y'
    rw [hpart.drho hs (fun i hi => absurd hi (hout i)) (fun i hi => absurd hi (hout i)) t, hcut, sub_zero]
  · have e : j = g j' := reAt_inj hr (hj.trans (hg j').symm)
    rw [e, hpart.rate hs]

/-- every assignment of densities to species is a state of both systems -/
theorem agrees_of (net net' : Net) (st : State) (n : RP → ℝ) (rho : ℝ) :
    Agrees net net' st ⟨fun i => n (spAt net st i), rho⟩ ⟨fun i => n (spAt net' st i), rho⟩ :=
  ⟨fun i i' h => by simp only [h], rfl⟩

namespace Demo
open Verif.Plaschem.Demo (e Ar ArP)
open Verif.Fwork.ReducedEqns.Demo (Kr X u3 u6 rx st0 Ar2P)

/-- the chemistry of `ReducedEqns.Demo`, listed backwards -/
def back : Net where
  species := ReducedEqns.Demo.net.species.reverse
  reactions := ReducedEqns.Demo.net.reactions.reverse

theorem shuffled : Shuffled ReducedEqns.Demo.net back := ⟨rfl, List.reverse_perm _, List.reverse_perm _⟩

/-- The chemistry listed backwards starts in the same state, and disabling Ar2+ and reaction 2 disables the same species and reactions; the
species themselves are returned in another order. -/
example : back.init.toOption = some st0 ∧
    back.step st0 (.disable [.obj Ar2P] [2]) = ReducedEqns.Demo.net.step st0 (.disable [.obj Ar2P] [2]) ∧
    (back.step st0 (.disable [.obj Ar2P] [2])).1.enR 5 = false ∧
    back.getSpecies st0 false false true ≠ ReducedEqns.Demo.net.getSpecies st0 false false true :=
  ⟨(order_of_construction shuffled).trans (by rw [ReducedEqns.Demo.init_ok]; rfl),
    order_of_call shuffled ReducedEqns.Demo.reach0 _, by decide +kernel, by decide +kernel⟩

theorem defined_back : Defined back st0 X :=
  ⟨Numbers.spec (by decide +kernel), Numbers.spec (by decide +kernel), by decide +kernel,
    Numbers.spec (by decide +kernel), Numbers.spec (by decide +kernel), Numbers.spec (by decide +kernel),
    Square.spec (by decide +kernel)⟩

/-- The argon chemistry, with its elastic collisions of electrons and krypton, has the same equations listed backwards; the
first species is another one. -/
example (P : Params) (n : RP → ℝ) (rho t : ℝ) :
    let y : Y (ns ReducedEqns.Demo.net st0) := ⟨fun i => n (spAt _ st0 i), rho⟩
    let y' : Y (ns back st0) := ⟨fun i => n (spAt _ st0 i), rho⟩
    ((construct ReducedEqns.Demo.net st0 X P).rhs t y).n ⟨0, by decide⟩ = ((construct back st0 X P).rhs t y').n ⟨4, by decide⟩ ∧
    ((construct ReducedEqns.Demo.net st0 X P).rhs t y).rho = ((construct back st0 X P).rhs t y').rho ∧
    spAt ReducedEqns.Demo.net st0 ⟨0, by decide⟩ = Ar ∧ spAt back st0 ⟨0, by decide⟩ = Kr ∧
    (reAt back st0 ⟨0, by decide⟩).getElastic = true := by
  intro y y'
  obtain ⟨h1, h2, -⟩ := order_of_equations shuffled ReducedEqns.Demo.reach0 ReducedEqns.Demo.retClosed ReducedEqns.Demo.pyDicts
    (by unfold OnePartner; decide +kernel)
    (readsAll_construct ReducedEqns.Demo.reach0 rfl (ReducedEqns.Demo.defined (.inl rfl)) P)
    (readsAll_construct (shuffled.reachable ReducedEqns.Demo.reach0) rfl defined_back P)
    (agrees_of _ back st0 n rho) t
  exact ⟨h1 _ _ (by decide +kernel), h2, by decide +kernel, by decide +kernel, by decide +kernel⟩

/-- Ar+ is made from argon and Ar2+ from Ar+; the electrons collide with argon and krypton at once. -/
def two : Net where
  species := [e, Ar, ArP, Ar2P, Kr]
  reactions := [rx 1 [e, Ar] [ArP, e, e] u3, rx 2 [e, Ar2P] [Ar, Ar] u3, rx 3 [e, Ar, Kr] [e, Ar, Kr] u6, rx 4 [ArP, Ar] [Ar2P] u3]

/-- krypton listed before argon -/
def two' : Net := { two with species := [e, Kr, Ar, ArP, Ar2P] }

theorem partner_of {net : Net} {st : State} {P : Params} (j : Fin (nr net st)) (i : Fin (ns net st)) (m : ℚ)
    (h1 : decide (0 < (Dict.get? (okOr (net.stoichElectron st false .lhs)) (reAt net st j).id).getD 0) = true)
    (h2 : ((okOr (net.reactionsElastic st false)).map Prod.snd).getD j false = true)
    (h3 : ((List.finRange (ns net st)).find? fun i =>
      decide (0 < cell (okOr (net.stoichiomatrix st false false .lhs)) (reAt net st j).id (spAt net st i).id)) = some i)
    (h4 : num (okOr (net.speciesMasses st false false true)) i = m) :
    (construct net st X P).elc j ∧ (construct net st X P).elastic j = true ∧
      (construct net st X P).partnerMass j = m * P.dalton := by
  have a : (construct net st X P).elc j := of_decide_eq_true h1
  have b : (construct net st X P).elastic j = true := h2
  refine ⟨a, b, ?_⟩
  unfold Data.partnerMass
  rw [if_pos ⟨a, b⟩]
  have c : (List.finRange (ns net st)).find? (fun i => decide (0 < (construct net st X P).lhs j i)) = some i := h3
  rw [c]
  show ((num _ _ : ℚ) : ℝ) * P.dalton = _
  rw [h4]

end Demo

open Demo in
/-- **C119, where the order does matter.** An elastic collision of electrons with two kinds of heavy species takes the mass of
whichever is listed first: the two orders of one chemistry give different energy losses, whenever the electrons are not at
the temperature of the gas. -/
theorem order_matters_elastic : ∃ (net net' : Net) (st : State) (X : RP → Extra) (j : Fin (nr net st)) (j' : Fin (nr net' st)),
    Shuffled net net' ∧ Reachable net st ∧ reAt net st j = reAt net' st j' ∧ ¬ OnePartner net st ∧
    ∀ P : Params, 0 < P.dalton → ∃ D D', ReadsAll (net := net) (st := st) X P D ∧ ReadsAll (net := net') (st := st) X P D' ∧
      ∀ T, T ≠ P.tempG * P.C.kB / P.C.e → D.fElasticLoss T j ≠ D'.fElasticLoss T j' := by
  have hr : Reachable two ReducedEqns.Demo.st0 := .init (by rfl)
  have hs : Shuffled two two' := ⟨rfl, by decide +kernel, .refl _⟩
  refine ⟨two, two', ReducedEqns.Demo.st0, ReducedEqns.Demo.X, ⟨2, by decide +kernel⟩, ⟨2, by decide +kernel⟩, hs, hr, rfl,
    by unfold OnePartner; decide +kernel, fun P hP => ?_⟩
  refine ⟨construct two _ _ P, construct two' _ _ P, readsAll_construct hr rfl ?_ P,
    readsAll_construct (hs.reachable hr) rfl ?_ P, fun T hT h => ?_⟩
  · exact ⟨Numbers.spec (by decide +kernel), Numbers.spec (by decide +kernel), by decide +kernel,
      Numbers.spec (by decide +kernel), Numbers.spec (by decide +kernel), Numbers.spec (by decide +kernel),
      Square.spec (by decide +kernel)⟩
  · exact ⟨Numbers.spec (by decide +kernel), Numbers.spec (by decide +kernel), by decide +kernel,
      Numbers.spec (by decide +kernel), Numbers.spec (by decide +kernel), Numbers.spec (by decide +kernel),
      Square.spec (by decide +kernel)⟩
  · obtain ⟨-, -, h1⟩ := partner_of (net := two) (st := ReducedEqns.Demo.st0) (P := P) ⟨2, by decide +kernel⟩
      ⟨0, by decide +kernel⟩ 40 (by decide +kernel) (by decide +kernel) (by decide +kernel) (by decide +kernel)
    obtain ⟨-, -, h2⟩ := partner_of (net := two') (st := ReducedEqns.Demo.st0) (P := P) ⟨2, by decide +kernel⟩
      ⟨0, by decide +kernel⟩ 84 (by decide +kernel) (by decide +kernel) (by decide +kernel) (by decide +kernel)
    unfold Data.fElasticLoss at h
    rw [h1, h2] at h
    have h3 : T - P.tempG * P.C.kB / P.C.e ≠ 0 := sub_ne_zero.2 hT
    have h4 := mul_right_cancel₀ h3 h
    have hm := P.C.mE_pos
    change 3 * P.C.mE / _ = 3 * P.C.mE / _ at h4
    rw [div_eq_div_iff (by positivity) (by positivity)] at h4
    have h5 := mul_left_cancel₀ (by positivity) h4
    push_cast at h5
    nlinarith

end Verif.Fwork.OrderEqns
