/-
The equations a chemistry hands to the global model, before and after species or reactions were disabled: model of what
`Equations.__init__` reads (pygmo_fwork/pygmol/equations.py:149-288), and the relation of the two systems (property C118).
-/
import Mathlib.Data.List.NodupEquivFin
import Verif.Fwork.GraphRunProps
import Verif.Plaschem.Getters
import Verif.Pygmol.Restrict

namespace Verif.Fwork.ReducedEqns
open Finset Verif.Plaschem Verif.Plaschem.Net Verif.Pygmol
open Verif.Fwork.Rates (ReadsWall mem_heavy)
open Verif.Fwork.GraphRun (ns nr ret_returned net_counts)
open Verif.Fwork.CoupleInit (returned count_id)
open Verif.Fwork.Morris (PyDicts)

/-! ### model -/

/-- equations.py:2, 30, 149-153, 184-213: the constants and the model parameters. `feeds` is a dictionary keyed by the
names of species; `power` is the interpolated power (`Verif.Pygmol.interp`). -/
structure Params where
  C : Consts
  /-- scipy's `atomic_mass` -/
  dalton : ℝ
  feeds : Dict Str ℝ
  tempG : ℝ
  r : ℝ
  z : ℝ
  p0 : ℝ
  power : ℝ → ℝ
  thermalFlux : Bool := true

/-- `np.array(series)[i]` is the number `v`: the `i`-th value, whatever its label (equations.py:156-167). -/
def At {β : Type} (d : Dict Nat β) (i : ℕ) (v : β) : Prop := (d.map Prod.snd)[i]? = some v

/-- equations.py:149-288: the constructor read the data `D` from the chemistry in state `st` and the parameters `P`; the
stoichiometric coefficients and charges as in `Reads`, the return matrix as in `ReadsWall`. `X s` are the stored
Lennard-Jones parameters of the species. The conversions into SI units are those of lines 158-159. -/
structure ReadsAll {net : Net} {st : State} (X : RP → Extra) (P : Params) (D : Data (ns net st) (nr net st)) : Prop where
  coefs : Reads D
  wall : ReadsWall D
  mass : ∃ d, net.speciesMasses st false false true = .ok d ∧
    ∀ i : Fin (ns net st), ∃ v, At d i (some v) ∧ D.mass i = (v : ℝ) * P.dalton
  lj : ∃ d, net.speciesLjSigma X st false false true = .ok d ∧
    ∀ i : Fin (ns net st), ∃ v, At d i (some v) ∧ D.ljSigma i = (v : ℝ) * 1e-10
  stick : ∀ i : Fin (ns net st), ∃ v, At (net.getSpeciesStickCoef st false false true) i (some v) ∧ D.stick i = (v : ℝ)
  arrhA : ∃ d, net.getReactionsArrhA st false true = .ok d ∧
    ∀ j : Fin (nr net st), ∃ v, At d j (some v) ∧ D.arrhA j = (v : ℝ)
  arrhB : ∃ d, net.reactionsArrhB st false = .ok d ∧
    ∀ j : Fin (nr net st), ∃ v, At d j (some v) ∧ D.arrhB j = (v : ℝ)
  arrhC : ∃ d, net.reactionsArrhC st false = .ok d ∧
    ∀ j : Fin (nr net st), ∃ v, At d j (some v) ∧ D.arrhC j = (v : ℝ)
  enLoss : ∃ d, net.reactionsElEnLoss st false = .ok d ∧
    ∀ j : Fin (nr net st), ∃ v, At d j v ∧ D.enLoss j = (v : ℝ)
  elastic : ∃ d, net.reactionsElastic st false = .ok d ∧
    ∀ j : Fin (nr net st), At d j (D.elastic j)
  feed : ∃ d, net.speciesNames st false false true = .ok d ∧
    ∀ i : Fin (ns net st), ∃ n, At d i n ∧ D.feed i = (P.feeds.get? n).getD 0
  consts : D.C = P.C
  tempG : D.tempG = P.tempG
  radius : D.r = P.r
  length : D.z = P.z
  p0 : D.p0 = P.p0
  power : D.power = P.power
  flux : D.thermalFlux = P.thermalFlux

/-! ### specification -/

/-- `st'` is `st` with some species and reactions disabled, all ad-hoc attributes as they were. -/
structure Shrinks (net : Net) (st st' : State) : Prop where
  sp : ∀ s ∈ net.species, st'.enSp s.id = true → st.enSp s.id = true
  rx : ∀ r ∈ net.reactions, st'.enR r.id = true → st.enR r.id = true
  stick : st'.adStick = st.adStick
  ret : st'.adRet = st.adRet
  arrh : st'.adArrhA = st.adArrhA

/-- The state `y` of the full system is the state `y'` of the reduced one, and the disabled species have no density. -/
structure SameState (net : Net) (st st' : State) (y : Y (ns net st)) (y' : Y (ns net st')) : Prop where
  n : ∀ i i', spAt net st i = spAt net st' i' → y.n i = y'.n i'
  absent : ∀ i, st'.enSp (spAt net st i).id = false → y.n i = 0
  rho : y.rho = y'.rho

/-- The reaction was disabled although its reactants are there (the electron and `M` aside). -/
def Cut (st' : State) (r : Reaction) : Prop :=
  st'.enR r.id = false ∧ ∀ p ∈ r.reactants, p.name ≠ str!"e" → p.name ≠ str!"M" → st'.enSp p.id = true

/-- No positive ion was disabled. -/
def NoIonLost (net : Net) (st st' : State) : Prop :=
  ∀ s ∈ net.species, st.enSp s.id = true → st'.enSp s.id = false → ¬ PositiveIon s

/-- No species fed into the chamber was disabled. -/
def NoFeedLost (net : Net) (st st' : State) (P : Params) : Prop :=
  ∀ s ∈ net.species, st.enSp s.id = true → st'.enSp s.id = false → (P.feeds.get? s.name).getD 0 = 0

/-- The wall turns no enabled species into an ion that was disabled. -/
def NoIonReturned (net : Net) (st st' : State) : Prop :=
  ∀ s ∈ net.species, st.enSp s.id = true → st'.enSp s.id = false → s.chargeOf ≠ 0 →
    ∀ t ∈ net.species, st'.enSp t.id = true → returned st t s = 0

/-! ### reading series by position -/

theorem comprehension_at {α β : Type} {g : α → Except Err β} {l : List α} {vs : List β} (h : comprehension g l = .ok vs)
    {i : ℕ} (hi : i < l.length) : ∃ v, vs[i]? = some v ∧ g l[i] = .ok v := by
  induction l generalizing vs i with
  | nil => cases hi
  | cons x xs ih =>
    unfold comprehension at h
    cases hx : g x with
    | error e => rw [hx] at h; cases h
    | ok v =>
      rw [hx] at h
      cases hc : comprehension g xs with
      | error e => rw [hc] at h; cases h
      | ok ws =>
        rw [hc] at h
        cases h
        cases i with
        | zero => exact ⟨v, rfl, hx⟩
        | succ i => exact ih hc (by simpa using hi)

theorem zip_at {β : Type} {ids : List ℕ} {vs : List β} {d : Dict Nat β} (h : mkSeries ids vs = .ok d) {i : ℕ} {v w : β}
    (h1 : vs[i]? = some v) (h2 : At d i w) : w = v := by
  unfold mkSeries at h
  split at h
  · rename_i hl
    cases h
    unfold At at h2
    rw [List.map_snd_zip hl.ge, h1] at h2
    exact (Option.some.inj h2).symm
  · cases h

theorem species_at {β : Type} {net : Net} {st : State} {g : RP → Except Err β} {d : Dict Nat β}
    (h : net.speciesSeries g st false false true = .ok d) {i : Fin (ns net st)} {v : β} (hv : At d i v) :
    g (spAt net st i) = .ok v := by
  unfold speciesSeries at h
  dsimp only at h
  cases hc : comprehension g (net.getSpecies st false false true) with
  | error e => rw [hc] at h; cases h
  | ok vs =>
    rw [hc] at h
    obtain ⟨w, h1, h2⟩ := comprehension_at hc i.2
    rw [zip_at h h1 hv]
    exact h2

theorem reactions_at {β : Type} {net : Net} {st : State} {g : Reaction → Except Err β} {d : Dict Nat β}
    (h : net.reactionsSeries g st false = .ok d) {j : Fin (nr net st)} {v : β} (hv : At d j v) :
    g (reAt net st j) = .ok v := by
  unfold reactionsSeries at h
  dsimp only at h
  cases hc : comprehension g (net.getReactions st false) with
  | error e => rw [hc] at h; cases h
  | ok vs =>
    rw [hc] at h
    obtain ⟨w, h1, h2⟩ := comprehension_at hc j.2
    rw [zip_at h h1 hv]
    exact h2

theorem nominal_at {l : List Reaction} {d : Dict Nat (Option ℚ)} (h : nominalArrhA true l = .ok d) {j : ℕ} (hj : j < l.length) :
    ∃ v, d[j]? = some (l[j].id, v) ∧ l[j].getArrhA true = .ok v := by
  induction l generalizing d j with
  | nil => cases hj
  | cons r rs ih =>
    unfold nominalArrhA at h
    cases hr : r.getArrhA true with
    | error e => rw [hr] at h; cases h
    | ok v =>
      rw [hr] at h
      cases hc : nominalArrhA true rs with
      | error e => rw [hc] at h; cases h
      | ok rest =>
        rw [hc] at h
        cases h
        cases j with
        | zero => exact ⟨v, rfl, hr⟩
        | succ j => exact ih hc (by simpa using hj)

/-- the pre-exponential factor read for a reaction depends on the reaction and the stored ad-hoc factors only -/
theorem arrhA_at {net : Net} {st : State} {d : Dict Nat (Option ℚ)} (h : net.getReactionsArrhA st false true = .ok d)
    {j : Fin (nr net st)} {v : Option ℚ} (hv : At d j v) :
    ∃ u w, net.adhocToSI st.adArrhA = .ok u ∧ (reAt net st j).getArrhA true = .ok w ∧
      v = match u.get? (reAt net st j).id with
          | some x => some x
          | none => w := by
  unfold getReactionsArrhA at h
  cases hn : nominalArrhA true (net.getReactions st false) with
  | error e => rw [hn] at h; cases h
  | ok d0 =>
    rw [hn] at h
    simp only [if_true] at h
    cases hu : net.adhocToSI st.adArrhA with
    | error e => rw [hu] at h; cases h
    | ok u =>
      rw [hu] at h
      cases h
      obtain ⟨w, h1, h2⟩ := nominal_at hn j.2
      refine ⟨u, w, rfl, h2, ?_⟩
      unfold At updateSeries at hv
      rw [List.map_map, List.getElem?_map, h1] at hv
      exact (Option.some.inj hv).symm

theorem column_at {i : ℕ} {m : Method} {rs : List Reaction} {d : Dict Nat Int} (h : stoichColumn i m rs = .ok d) :
    d = rs.map fun r => (r.id, (((r.getStoichCoefs m).toOption.getD []).get? i).getD 0) := by
  induction rs generalizing d with
  | nil => cases h; rfl
  | cons r rs ih =>
    unfold stoichColumn at h
    cases hr : r.getStoichCoefs m with
    | error e => rw [hr] at h; cases h
    | ok c =>
      rw [hr] at h
      cases hc : stoichColumn i m rs with
      | error e => rw [hc] at h; cases h
      | ok rest =>
        rw [hc] at h
        cases h
        rw [ih hc, List.map_cons, hr]
        rfl

/-! ### the two systems -/

section
variable {net : Net} {st st' : State}

theorem sp_mem (i : Fin (ns net st)) : spAt net st i ∈ net.getSpecies st false false true := List.getElem_mem i.2
theorem re_mem (j : Fin (nr net st)) : reAt net st j ∈ net.getReactions st false := List.getElem_mem j.2

theorem coef_at (hr : Reachable net st) {m : Method} (hm : m = .lhs ∨ m = .rhs ∨ m = .net) {M : Dict Nat (Dict Nat Int)}
    (h : net.stoichiomatrix st false false m = .ok M) (j : Fin (nr net st)) (i : Fin (ns net st)) :
    cell M (reAt net st j).id (spAt net st i).id = Plaschem.multiplicity (reAt net st j) (spAt net st i).id m := by
  obtain ⟨M', hM, -, hrow⟩ := stoichiomatrix_entries hr false false hm
  rw [h] at hM; cases hM
  obtain ⟨row, h1, -, h2⟩ := hrow (reAt net st j) (re_mem j)
  unfold cell
  rw [h1]
  simp only
  rw [h2 _ (sp_mem i), Option.getD_some]

theorem column_entry (hr : Reachable net st) {i : ℕ} {m : Method} {d : Dict Nat Int}
    (h : stoichColumn i m (net.getReactions st false) = .ok d) (j : Fin (nr net st)) :
    (d.get? (reAt net st j).id).getD 0 = ((((reAt net st j).getStoichCoefs m).toOption.getD []).get? i).getD 0 := by
  rw [column_at h, Dict.get?_map (net.getReactions st false) Reaction.id _
    ((reachable_inv hr).1.rNodup.sublist (List.filter_sublist.map _)) (re_mem j)]
  rfl

theorem electron_at {net' : Net} (hr : Reachable net st) (hr' : Reachable net' st') (hrp : ∀ x, net'.getRp x = net.getRp x)
    {m : Method} {E E' : Dict Nat Int} (h : net.stoichElectron st false m = .ok E)
    (h' : net'.stoichElectron st' false m = .ok E') {j : Fin (nr net st)} {j' : Fin (nr net' st')}
    (hj : reAt net st j = reAt net' st' j') :
    (E'.get? (reAt net' st' j').id).getD 0 = (E.get? (reAt net st j).id).getD 0 := by
  unfold stoichElectron at h h'
  rw [hrp] at h'
  cases he : net.getRp (.name str!"e") with
  | error e => rw [he] at h; cases h
  | ok s =>
    rw [he] at h h'
    rw [column_entry hr h, column_entry hr' h', hj]

theorem arbitrary_at {net' : Net} (hr : Reachable net st) (hr' : Reachable net' st') (hrp : ∀ x, net'.getRp x = net.getRp x)
    {m : Method} {E E' : Dict Nat Int} (h : net.stoichArbitrary st false m = .ok E)
    (h' : net'.stoichArbitrary st' false m = .ok E') {j : Fin (nr net st)} {j' : Fin (nr net' st')}
    (hj : reAt net st j = reAt net' st' j') :
    (E'.get? (reAt net' st' j').id).getD 0 = (E.get? (reAt net st j).id).getD 0 := by
  unfold stoichArbitrary at h h'
  rw [hrp] at h'
  cases he : net.getRp (.name str!"M") with
  | error e =>
    rw [he] at h h'
    cases h; cases h'
    rw [Dict.get?_map (net.getReactions st false) Reaction.id _
        ((reachable_inv hr).1.rNodup.sublist (List.filter_sublist.map _)) (re_mem j),
      Dict.get?_map (net'.getReactions st' false) Reaction.id _
        ((reachable_inv hr').1.rNodup.sublist (List.filter_sublist.map _)) (re_mem j')]
  | ok s =>
    rw [he] at h h'
    rw [column_entry hr h, column_entry hr' h', hj]

theorem species_sublist (h : Shrinks net st st') :
    (net.getSpecies st' false false true).Sublist (net.getSpecies st false false true) := by
  have : net.getSpecies st' false false true =
      (net.getSpecies st false false true).filter (speciesMask st' false false true) := by
    unfold getSpecies
    rw [List.filter_filter]
    refine List.filter_congr fun s hs => ?_
    have := h.sp s hs
    cases h1 : st'.enSp s.id <;> simp_all [speciesMask]
  rw [this]
  exact List.filter_sublist

theorem reactions_sublist (h : Shrinks net st st') :
    (net.getReactions st' false).Sublist (net.getReactions st false) := by
  have : net.getReactions st' false = (net.getReactions st false).filter fun r => false || st'.enR r.id := by
    unfold getReactions
    rw [List.filter_filter]
    refine List.filter_congr fun r hr => ?_
    have := h.rx r hr
    cases h1 : st'.enR r.id <;> simp_all
  rw [this]
  exact List.filter_sublist

theorem spAt_inj (hr : Reachable net st) {i k : Fin (ns net st)} (h : spAt net st i = spAt net st k) : i = k := by
  have hn : (net.getSpecies st false false true).Nodup :=
    ((reachable_inv hr).1.spNodup.sublist (List.filter_sublist.map _)).of_map
  exact Fin.ext ((hn.getElem_inj_iff).1 h)

theorem reAt_inj (hr : Reachable net st) {i k : Fin (nr net st)} (h : reAt net st i = reAt net st k) : i = k := by
  have hn : (net.getReactions st false).Nodup :=
    ((reachable_inv hr).1.rNodup.sublist (List.filter_sublist.map _)).of_map
  exact Fin.ext ((hn.getElem_inj_iff).1 h)

theorem returned_eq (h : Shrinks net st st') (b a : RP) : returned st' b a = returned st b a := by
  unfold returned retInForce stickInForce
  rw [h.stick, h.ret]

/-- where the kept species and reactions are in the arrays of the full system -/
structure Places (net : Net) (st st' : State) (f : Fin (ns net st') → Fin (ns net st)) (g : Fin (nr net st') → Fin (nr net st)) :
    Prop where
  sp : ∀ i, spAt net st (f i) = spAt net st' i
  rx : ∀ j, reAt net st (g j) = reAt net st' j
  mono : StrictMono f
  inj : Function.Injective g

theorem places (h : Shrinks net st st') : ∃ f g, Places net st st' f g := by
  obtain ⟨f, hf⟩ := List.sublist_iff_exists_fin_orderEmbedding_get_eq.1 (species_sublist h)
  obtain ⟨g, hg⟩ := List.sublist_iff_exists_fin_orderEmbedding_get_eq.1 (reactions_sublist h)
  exact ⟨f, g, fun i => (hf i).symm, fun j => (hg j).symm, f.strictMono, g.injective⟩

theorem Places.mem_sp {f : Fin (ns net st') → Fin (ns net st)} {g : Fin (nr net st') → Fin (nr net st)}
    (h : Places net st st' f g) (hr : Reachable net st) (i : Fin (ns net st)) :
    i ∈ Set.range f ↔ st'.enSp (spAt net st i).id = true := by
  constructor
  · rintro ⟨k, rfl⟩
    rw [h.sp]
    exact (mem_heavy.1 (List.getElem_mem k.2)).2.1
  · intro he
    obtain ⟨h1, -, h3⟩ := mem_heavy.1 (List.getElem_mem (l := net.getSpecies st false false true) i.2)
    have : spAt net st i ∈ net.getSpecies st' false false true := mem_heavy.2 ⟨h1, he, h3⟩
    obtain ⟨k, hk, hk'⟩ := List.getElem_of_mem this
    exact ⟨⟨k, hk⟩, spAt_inj hr ((h.sp ⟨k, hk⟩).trans hk')⟩

theorem Places.mem_rx {f : Fin (ns net st') → Fin (ns net st)} {g : Fin (nr net st') → Fin (nr net st)}
    (h : Places net st st' f g) (hr : Reachable net st) (j : Fin (nr net st)) :
    j ∈ Set.range g ↔ st'.enR (reAt net st j).id = true := by
  constructor
  · rintro ⟨k, rfl⟩
    rw [h.rx]
    simpa using (List.mem_filter.1 (List.getElem_mem (l := net.getReactions st' false) k.2)).2
  · intro he
    have h1 := (List.mem_filter.1 (List.getElem_mem (l := net.getReactions st false) j.2)).1
    have : reAt net st j ∈ net.getReactions st' false := List.mem_filter.2 ⟨h1, by simpa using he⟩
    obtain ⟨k, hk, hk'⟩ := List.getElem_of_mem this
    exact ⟨⟨k, hk⟩, reAt_inj hr ((h.rx ⟨k, hk⟩).trans hk')⟩

/-- the coefficient of a species on the left-hand side is positive exactly if it is a reactant -/
theorem lhs_zero (hr : Reachable net st) {D : Data (ns net st) (nr net st)} (hread : Reads D) (j : Fin (nr net st))
    (i : Fin (ns net st)) : D.lhs j i = 0 ↔ spAt net st i ∉ (reAt net st j).reactants := by
  obtain ⟨hwf, -⟩ := reachable_inv hr
  obtain ⟨L, hL, hl⟩ := hread.lhs
  rw [hl, coef_at hr (by simp) hL]
  have hj : reAt net st j ∈ net.reactions := (List.mem_filter.1 (List.getElem_mem (l := net.getReactions st false) j.2)).1
  have hi : spAt net st i ∈ net.species := (mem_heavy.1 (List.getElem_mem i.2)).1
  have hc : ((reAt net st j).reactants.map RP.id).count (spAt net st i).id = (reAt net st j).reactants.count (spAt net st i) :=
    count_id fun p hp he => hwf.eq_of_id (hwf.closed _ hj _ (List.mem_append_left _ hp)) hi he
  unfold Plaschem.multiplicity
  simp only
  rw [hc]
  norm_cast
  exact List.count_eq_zero

theorem adhocToSI_congr {net' : Net} (h : ∀ i, net'.getReaction i = net.getReaction i) (d : Dict Nat ℚ) :
    net'.adhocToSI d = net.adhocToSI d := by
  induction d with
  | nil => rfl
  | cons e d ih =>
    obtain ⟨i, v⟩ := e
    unfold Net.adhocToSI
    rw [h, ih]

/-- If the species and reactions of one chemistry are among those of another, with the same ad-hoc attributes, so are the data. -/
theorem partOf_of {net' : Net} (hr : Reachable net st) (hr' : Reachable net' st') (hcl : net.RetClosed) (hcl' : net'.RetClosed)
    (hpy : PyDicts net st) (hpy' : PyDicts net' st') (hrp : ∀ x, net'.getRp x = net.getRp x)
    (hre : ∀ i, net'.getReaction i = net.getReaction i) (hstick : st'.adStick = st.adStick) (hret : st'.adRet = st.adRet)
    (harrh : st'.adArrhA = st.adArrhA) {X : RP → Extra} {P : Params} {D : Data (ns net st) (nr net st)}
    {D' : Data (ns net' st') (nr net' st')} (hD : ReadsAll X P D) (hD' : ReadsAll X P D')
    {f : Fin (ns net' st') → Fin (ns net st)} {g : Fin (nr net' st') → Fin (nr net st)}
    (hsp : ∀ i, spAt net st (f i) = spAt net' st' i) (hrx : ∀ j, reAt net st (g j) = reAt net' st' j)
    (hf : Function.Injective f) (hg : Function.Injective g)
    (hord : StrictMono f ∨ ∀ j i k, D.elc j → D.elastic j → 0 < D.lhs j i → 0 < D.lhs j k → D.mass i = D.mass k)
    (hin : ∀ j, ∀ i ∉ Set.range f, D.lhs (g j) i = 0) : D'.PartOf D f g := by
  refine
    { spInj := hf, order := hord, inj := hg, consts := hD'.consts.trans hD.consts.symm, charge := fun i => ?_, mass := fun i => ?_,
      lj := fun i => ?_, stick := fun i => ?_, arrhA := fun j => ?_, arrhB := fun j => ?_, arrhC := fun j => ?_,
      enLoss := fun j => ?_, elastic := fun j => ?_, eNet := fun j => ?_, eLhs := fun j => ?_, mLhs := fun j => ?_,
      ret := fun i k => ?_, net := fun j i => ?_, lhs := fun j i => ?_, feed := fun i => ?_,
      tempG := hD'.tempG.trans hD.tempG.symm, radius := hD'.radius.trans hD.radius.symm,
      length := hD'.length.trans hD.length.symm, p0 := hD'.p0.trans hD.p0.symm, power := hD'.power.trans hD.power.symm,
      flux := hD'.flux.trans hD.flux.symm, lhs_in := hin }
  · rw [hD'.coefs.charge, hD.coefs.charge, hsp]
  · obtain ⟨d, e, hd⟩ := hD.mass
    obtain ⟨d', e', hd'⟩ := hD'.mass
    obtain ⟨v, hv, hm⟩ := hd (f i)
    obtain ⟨v', hv', hm'⟩ := hd' i
    have h1 := species_at e hv
    have h2 := species_at e' hv'
    rw [hsp, h2] at h1
    cases h1
    rw [hm, hm']
  · obtain ⟨d, e, hd⟩ := hD.lj
    obtain ⟨d', e', hd'⟩ := hD'.lj
    obtain ⟨v, hv, hm⟩ := hd (f i)
    obtain ⟨v', hv', hm'⟩ := hd' i
    have h1 := species_at e hv
    have h2 := species_at e' hv'
    rw [hsp] at h1
    rw [h2] at h1
    cases h1
    rw [hm, hm']
  · obtain ⟨v, hv, hm⟩ := hD.stick (f i)
    obtain ⟨v', hv', hm'⟩ := hD'.stick i
    have key : ∀ {net : Net} {st : State} {k : Fin (ns net st)} {v : ℚ},
        At (net.getSpeciesStickCoef st false false true) k (some v) → stickInForce st (spAt net st k) = some v := by
      intro net st k v hk
      unfold At getSpeciesStickCoef at hk
      rw [List.map_map, List.getElem?_map, List.getElem?_eq_getElem k.2] at hk
      exact Option.some.inj hk
    have h1 := key hv
    have h2 := key hv'
    rw [hsp] at h1
    unfold stickInForce at h1 h2
    rw [hstick] at h2
    rw [h2] at h1
    cases h1
    rw [hm, hm']
  · obtain ⟨d, e, hd⟩ := hD.arrhA
    obtain ⟨d', e', hd'⟩ := hD'.arrhA
    obtain ⟨v, hv, hm⟩ := hd (g j)
    obtain ⟨v', hv', hm'⟩ := hd' j
    obtain ⟨u, w, h1, h2, h3⟩ := arrhA_at e hv
    obtain ⟨u', w', h1', h2', h3'⟩ := arrhA_at e' hv'
    rw [harrh, adhocToSI_congr hre, h1] at h1'
    cases h1'
    rw [hrx, h2'] at h2
    cases h2
    rw [hrx, ← h3'] at h3
    cases h3
    rw [hm, hm']
  · obtain ⟨d, e, hd⟩ := hD.arrhB
    obtain ⟨d', e', hd'⟩ := hD'.arrhB
    obtain ⟨v, hv, hm⟩ := hd (g j)
    obtain ⟨v', hv', hm'⟩ := hd' j
    have h1 := reactions_at e hv
    rw [hrx, reactions_at e' hv'] at h1
    cases h1
    rw [hm, hm']
  · obtain ⟨d, e, hd⟩ := hD.arrhC
    obtain ⟨d', e', hd'⟩ := hD'.arrhC
    obtain ⟨v, hv, hm⟩ := hd (g j)
    obtain ⟨v', hv', hm'⟩ := hd' j
    have h1 := reactions_at e hv
    rw [hrx, reactions_at e' hv'] at h1
    cases h1
    rw [hm, hm']
  · obtain ⟨d, e, hd⟩ := hD.enLoss
    obtain ⟨d', e', hd'⟩ := hD'.enLoss
    obtain ⟨v, hv, hm⟩ := hd (g j)
    obtain ⟨v', hv', hm'⟩ := hd' j
    have h1 := reactions_at e hv
    rw [hrx, reactions_at e' hv'] at h1
    cases h1
    rw [hm, hm']
  · obtain ⟨d, e, hd⟩ := hD.elastic
    obtain ⟨d', e', hd'⟩ := hD'.elastic
    have h1 := reactions_at e (hd (g j))
    rw [hrx, reactions_at e' (hd' j)] at h1
    exact Except.ok.inj h1
  · obtain ⟨E, e, hE⟩ := hD.coefs.eNet
    obtain ⟨E', e', hE'⟩ := hD'.coefs.eNet
    rw [hE', hE]
    exact electron_at hr hr' hrp e e' (hrx j)
  · obtain ⟨E, e, hE⟩ := hD.coefs.eLhs
    obtain ⟨E', e', hE'⟩ := hD'.coefs.eLhs
    rw [hE', hE]
    exact electron_at hr hr' hrp e e' (hrx j)
  · obtain ⟨E, e, hE⟩ := hD.coefs.mLhs
    obtain ⟨E', e', hE'⟩ := hD'.coefs.mLhs
    rw [hE', hE]
    exact arbitrary_at hr hr' hrp e e' (hrx j)
  · rw [ret_returned hr hcl hpy hD.wall, ret_returned hr' hcl' hpy' hD'.wall, hsp, hsp]
    unfold returned retInForce stickInForce
    rw [hstick, hret]
  · obtain ⟨M, e, hM⟩ := hD.coefs.netC
    obtain ⟨M', e', hM'⟩ := hD'.coefs.netC
    rw [hM', hM, coef_at hr (by simp) e, coef_at hr' (by simp) e', hrx, hsp]
  · obtain ⟨M, e, hM⟩ := hD.coefs.lhs
    obtain ⟨M', e', hM'⟩ := hD'.coefs.lhs
    rw [hM', hM, coef_at hr (by simp) e, coef_at hr' (by simp) e', hrx, hsp]
  · obtain ⟨d, e, hd⟩ := hD.feed
    obtain ⟨d', e', hd'⟩ := hD'.feed
    obtain ⟨n, hn, hm⟩ := hd (f i)
    obtain ⟨n', hn', hm'⟩ := hd' i
    have h1 := species_at e hn
    rw [hsp, species_at e' hn'] at h1
    cases h1
    rw [hm, hm']

/-- The data of the reduced chemistry are a part of those of the full one. -/
theorem partOf (hr : Reachable net st) (hr' : Reachable net st') (hcl : net.RetClosed) (hpy : PyDicts net st)
    (h : Shrinks net st st') {X : RP → Extra} {P : Params} {D : Data (ns net st) (nr net st)}
    {D' : Data (ns net st') (nr net st')} (hD : ReadsAll X P D) (hD' : ReadsAll X P D')
    {f : Fin (ns net st') → Fin (ns net st)} {g : Fin (nr net st') → Fin (nr net st)} (hp : Places net st st' f g) :
    D'.PartOf D f g := by
  have hpy' : PyDicts net st' := ⟨hpy.nominal, by rw [h.ret]; exact hpy.adhoc⟩
  refine partOf_of hr hr' hcl hcl hpy hpy' (fun _ => rfl) (fun _ => rfl) h.stick h.ret h.arrh hD hD' hp.sp hp.rx hp.mono.injective
    hp.inj (.inl hp.mono) ?_
  intro j i hi
  rw [lhs_zero hr hD.coefs, hp.rx]
  intro hmem
  apply hi
  rw [hp.mem_sp hr]
  obtain ⟨-, hinv⟩ := reachable_inv hr'
  obtain ⟨h1, h2⟩ := List.mem_filter.1 (List.getElem_mem (l := net.getReactions st' false) j.2)
  exact hinv.ok.consistent.1 _ h1 (by simpa [State.enabledPart] using h2) _ ⟨_, List.mem_append_left _ hmem, rfl⟩

theorem cut_iff (hr : Reachable net st) {D : Data (ns net st) (nr net st)} (hread : Reads D)
    {f : Fin (ns net st') → Fin (ns net st)} {g : Fin (nr net st') → Fin (nr net st)} (hp : Places net st st' f g)
    (h : Shrinks net st st') (j : Fin (nr net st)) : D.Cut f g j ↔ Cut st' (reAt net st j) := by
  obtain ⟨hwf, hinv⟩ := reachable_inv hr
  obtain ⟨h1, h2⟩ := List.mem_filter.1 (List.getElem_mem (l := net.getReactions st false) j.2)
  unfold Data.Cut Cut
  rw [hp.mem_rx hr, Bool.not_eq_true]
  refine and_congr_right fun _ => ⟨fun hall p hpm he hM => ?_, fun hall i hi => ?_⟩
  · have hen : st.enSp p.id = true :=
      hinv.ok.consistent.1 _ h1 (by simpa [State.enabledPart] using h2) _ ⟨p, List.mem_append_left _ hpm, rfl⟩
    have hps : p.isSpecial = false := by simp [RP.isSpecial, he, hM]
    have : p ∈ net.getSpecies st false false true :=
      mem_heavy.2 ⟨hwf.closed _ h1 _ (List.mem_append_left _ hpm), hen, hps⟩
    obtain ⟨k, hk, hk'⟩ := List.getElem_of_mem this
    by_contra hno
    have hnr : (⟨k, hk⟩ : Fin (ns net st)) ∉ Set.range f := by
      rw [hp.mem_sp hr]
      show ¬ st'.enSp ((net.getSpecies st false false true)[k]).id = true
      rw [hk']; exact hno
    have := (lhs_zero hr hread j ⟨k, hk⟩).1 (hall _ hnr)
    apply this
    show (net.getSpecies st false false true)[k] ∈ _
    rw [hk']; exact hpm
  · rw [lhs_zero hr hread]
    intro hmem
    apply hi
    rw [hp.mem_sp hr]
    have hs := (mem_heavy.1 (sp_mem i)).2.2
    unfold RP.isSpecial at hs
    refine hall _ hmem ?_ ?_ <;> intro he <;> rw [he] at hs <;> simp at hs

end

end Verif.Fwork.ReducedEqns
