/-
Property C123: what the runs of a Morris analysis over the rate coefficients solve. Joins the perturbed chemistries (MorrisMap,
MorrisWhole) with the equations of the global model (Pygmol.Eqns, AdhocEqns, Unique).
-/
import Verif.Fwork.MorrisWhole
import Verif.Fwork.UniqueEqns

namespace Verif.Fwork.MorrisEqns
open Finset Verif.Plaschem Verif.Plaschem.Net Verif.Pygmol
open Verif.Fwork.GraphRun (ns nr net_counts)
open Verif.Fwork.Morris (PyDicts Kind SameButArrh inForce dimension mapped speciesFactor TakesPart perturbed)
open Verif.Fwork.MorrisWhole (chemAt Rated OneRate OneSpecies)
open Verif.Fwork.ReducedEqns Verif.Fwork.AdhocEqns

variable {net : Net} {st : State} {X : RP → Extra} {P : Params}

/-! ### specification -/

/-- What a vector of factors multiplies the rate of an enabled reaction with: `2 x` for the factor of the reaction, or for the factor
of each enabled species taking part in it. -/
def scale (net : Net) (st : State) : (kind : Kind) → (Fin (dimension net st kind) → ℚ) → Fin (nr net st) → ℚ
  | .species, x, j => ∏ i : Fin (ns net st), if TakesPart (spAt net st i) (reAt net st j) then 2 * x i else 1
  | .reactions, x, j => 2 * x j

/-- Same densities and same energy: the species and reactions of the two chemistries are the same. -/
structure SameY (net : Net) (a b : State) (y : Y (ns net a)) (y' : Y (ns net b)) : Prop where
  n : ∀ i i', spAt net a i = spAt net b i' → y.n i = y'.n i'
  rho : y.rho = y'.rho

/-! ### reading the factors -/

theorem hasFactor_unique {r : Reaction} {f g : ℚ} (h : HasFactor r f) (k : HasFactor r g) : f = g := by
  obtain ⟨u, hu, hf⟩ := h
  obtain ⟨w, hw, hg⟩ := k
  rw [hu] at hw
  cases hw
  exact Option.some.inj (hf.symm.trans hg)

theorem read_factor (hwf : (net.reactions.map Reaction.id).Nodup) {D : Data (ns net st) (nr net st)} (hD : ReadsAll X P D)
    (j : Fin (nr net st)) :
    ∃ v f, inForce st (reAt net st j) = some v ∧ HasFactor (reAt net st j) f ∧ D.arrhA j = ((v * f : ℚ) : ℝ) := by
  obtain ⟨d, e, hd⟩ := hD.arrhA
  obtain ⟨a, ha, hA⟩ := hd j
  obtain ⟨u, w, h1, h2, h3⟩ := arrhA_at e ha
  unfold inForce
  rcases toSI_get h1 (reAt net st j).id with ⟨k1, k2⟩ | ⟨v, r, f, k1, k2, k3, k4⟩
  · rw [k2] at h3
    rw [k1]
    dsimp only at h3 ⊢
    subst h3
    unfold Reaction.getArrhA at h2
    split at h2
    · cases h2
    · rename_i v hv
      simp only [if_true] at h2
      split at h2
      · cases h2
      · rename_i u hu
        split at h2
        · rename_i f hf
          cases h2
          exact ⟨v, f, hv, ⟨u, hu, hf⟩, hA⟩
        · cases h2
  · obtain ⟨m1, m2⟩ := getReaction_id k2
    have : r = reAt net st j := List.inj_on_of_nodup_map hwf m1 (List.mem_filter.1 (re_mem (st := st) j)).1 m2
    subst this
    rw [k4] at h3
    rw [k1]
    cases h3
    exact ⟨v, f, rfl, k3, hA⟩

theorem rated (hr : Reachable net st) {D : Data (ns net st) (nr net st)} (hD : ReadsAll X P D) : Rated net st := by
  intro r hrm
  obtain ⟨j, hj, rfl⟩ := List.mem_iff_getElem.1 hrm
  obtain ⟨v, -, h, -⟩ := read_factor (reachable_inv hr).1.rNodup hD ⟨j, hj⟩
  exact ⟨v, h⟩

theorem same_eq {a : State} (h : SameButArrh a st) : a = { st with adArrhA := a.adArrhA } := by
  obtain ⟨h1, h2, h3, h4, h5, h6⟩ := h
  cases a
  simp only at h1 h2 h3 h4 h5 h6
  simp only [h1, h2, h3, h4, h5, h6]

/-- the data read from a chemistry that differs in the rate coefficients -/
theorem data_same (hr : Reachable net st) (hcl : net.RetClosed) (hpy : PyDicts net st) {a : Dict Nat ℚ}
    {D : Data (ns net st) (nr net st)} {D' : Data (ns net { st with adArrhA := a }) (nr net { st with adArrhA := a })}
    (hD : ReadsAll X P D) (hD' : ReadsAll X P D') {c : Fin (nr net st) → ℚ}
    (hc : ∀ j v, inForce st (reAt net st j) = some v → inForce { st with adArrhA := a } (reAt net st j) = some (v * c j)) :
    D' = ({ D with arrhA := fun j => c j * D.arrhA j } : Data (ns net st) (nr net st)) := by
  have hwf := (reachable_inv hr).1.rNodup
  have e : D'.arrhA = fun j => (c j : ℝ) * D.arrhA j := by
    funext j
    obtain ⟨v, f, h1, h2, h3⟩ := read_factor hwf hD j
    obtain ⟨v', f', h1', h2', h3'⟩ := read_factor hwf hD' j
    have h1'' : inForce { st with adArrhA := a } (reAt net st j) = some v' := h1'
    have h2'' : HasFactor (reAt net st j) f' := h2'
    rw [hc j v h1] at h1''
    cases h1''
    have := hasFactor_unique h2 h2''
    subst this
    rw [h3', h3]
    push_cast
    ring
  have k := data_arrh hr hcl hpy hD hD'
  rw [e] at k
  exact k

section
variable {n r : ℕ} (D : Data n r) (c : Fin r → ℚ)

theorem rates_scaled (y : Y n) (j : Fin r) :
    ({ D with arrhA := fun j => c j * D.arrhA j } : Data n r).pRates y j = c j * D.pRates y j := by
  rw [rates_factor D (fun j => c j * D.arrhA j), show D.pRates y j = _ from rates_factor D D.arrhA y j, mul_assoc]

end

theorem sum_one {r : ℕ} (c : Fin r → ℝ) {H L D : Fin r → ℝ} {k : Fin r} (h : ∀ j, H j - L j = if j = k then D k else 0) :
    ∑ j, c j * (H j - D j) = ∑ j, c j * (L j - D j) + c k * D k := by
  have e : ∀ j, c j * (H j - D j) = c j * (L j - D j) + if j = k then c k * D k else 0 := by
    intro j
    have := h j
    by_cases hj : j = k
    · subst hj
      rw [if_pos rfl] at this ⊢
      linear_combination c j * this
    · rw [if_neg hj] at this ⊢
      linear_combination c j * this
  rw [sum_congr rfl fun j _ => e j, sum_add_distrib, sum_ite_eq' univ k, if_pos (mem_univ k)]

theorem sum_two {r : ℕ} (c : Fin r → ℝ) {H L D : Fin r → ℝ} :
    ∑ j, c j * (H j - D j) = ∑ j, c j * (L j - D j) + ∑ j, c j * (H j - L j) := by
  rw [← sum_add_distrib]
  exact sum_congr rfl fun j _ => by ring

/-- what a change of rate coefficients does to the equations -/
theorem same_equations (hr : Reachable net st) (hcl : net.RetClosed) (hpy : PyDicts net st) {b : State} (hs : SameButArrh b st)
    {c : Fin (nr net st) → ℚ} (hc : ∀ j v, inForce st (reAt net st j) = some v → inForce b (reAt net st j) = some (v * c j))
    {D : Data (ns net st) (nr net st)} {D' : Data (ns net b) (nr net b)} (hD : ReadsAll X P D) (hD' : ReadsAll X P D')
    {y : Y (ns net st)} {y' : Y (ns net b)} (hy : SameY net st b y y') (t : ℝ) :
    (∀ j j', reAt net st j = reAt net b j' → D'.pRates y' j' = c j * D.pRates y j) ∧
    (∀ i i', spAt net st i = spAt net b i' → (D'.rhs t y').n i' = (D.rhs t y).n i + ∑ j,
      (((reAt net st j).products.count (spAt net st i) : ℝ) - (reAt net st j).reactants.count (spAt net st i)) *
        ((c j - 1) * D.pRates y j)) ∧
    (D'.rhs t y').rho = (D.rhs t y).rho -
      ∑ j, ((if 0 < D.eLhs j then D.pLoss y j else 0) + 3 / 2 * D.pTe y * D.eNet j) * ((c j - 1) * D.pRates y j) := by
  obtain ⟨a, rfl⟩ : ∃ a, b = { st with adArrhA := a } := ⟨_, same_eq hs⟩
  have hyy : y' = y := same_y (n := ns net st) (fun i => hy.n i i rfl) hy.rho
  subst hyy
  have e := data_same hr hcl hpy hD hD' hc
  have hR : ∀ j, ({ D with arrhA := fun j => c j * D.arrhA j } : Data (ns net st) (nr net st)).pRates y' j - D.pRates y' j =
      (c j - 1) * D.pRates y' j := fun j => by rw [rates_scaled D c y' j]; ring
  refine ⟨fun j j' hj => ?_, fun i i' hi => ?_, ?_⟩
  · have : j = j' := reAt_inj hr hj
    subst this
    rw [e]
    exact rates_scaled D c y' j
  · have : i = i' := spAt_inj hr hi
    subst this
    have k := dn_factor D (fun j => c j * D.arrhA j) y' i
    rw [← e] at k
    refine Eq.trans k (congrArg _ (sum_congr rfl fun j _ => ?_))
    rw [e, hR j, net_counts hr hD.coefs]
  · have k := drho_factor D (fun j => c j * D.arrhA j) t y'
    rw [← e] at k
    refine Eq.trans k (congrArg _ (sum_congr rfl fun j _ => ?_))
    rw [e, hR j]

/-! ### the chemistry at a vector of factors -/

theorem mapped_scale {kind : Kind} {x : Fin (dimension net st kind) → ℚ} {j : Fin (nr net st)} {v w : ℚ}
    (h : mapped net kind st (List.ofFn x) (reAt net st j) v w) : w = v * scale net st kind x j := by
  cases kind with
  | species =>
    have h : w = v * speciesFactor (net.getSpecies st false false true) (List.ofFn x) (reAt net st j) := h
    have e : scale net st .species x j =
        ∏ i : Fin (ns net st), (fun i : Fin (ns net st) => if TakesPart (spAt net st i) (reAt net st j) then 2 * x i else 1) i := rfl
    rw [h, e, ← List.prod_ofFn]
    unfold speciesFactor
    congr 2
    apply List.ext_getElem
    · rw [List.length_map, List.length_zip, List.length_ofFn, List.length_ofFn]
      exact min_self _
    · intro i h1 h2
      simp only [List.getElem_map, List.getElem_zip, List.getElem_ofFn]
      rfl
  | reactions =>
    refine h (reAt net st j, x j) ?_ rfl
    refine List.mem_iff_getElem.2 ⟨j.1, ?_, ?_⟩
    · rw [List.length_zip, List.length_ofFn]; exact lt_min j.2 j.2
    · rw [List.getElem_zip, List.getElem_ofFn]; rfl

theorem chem_scaled (hr : Reachable net st) (hra : Rated net st) (kind : Kind) (x : Fin (dimension net st kind) → ℚ) :
    SameButArrh (chemAt net kind st x) st ∧ ∀ j v, inForce st (reAt net st j) = some v →
      inForce (chemAt net kind st x) (reAt net st j) = some (v * scale net st kind x j) := by
  obtain ⟨-, h1, h2⟩ := MorrisWhole.chemAt_spec hr hra kind rfl x
  refine ⟨h1, fun j v hv => ?_⟩
  obtain ⟨w, w1, w2⟩ := h2 _ (re_mem j) v hv
  rw [w1, mapped_scale w2]

/-- only reactions that are enabled get a new value -/
theorem chem_keys (hr : Reachable net st) (hra : Rated net st) (kind : Kind) (x : Fin (dimension net st kind) → ℚ) :
    Reachable net (chemAt net kind st x) ∧ ∀ i v, (chemAt net kind st x).adArrhA.get? i = some v →
      i ∈ (net.getReactions st false).map Reaction.id ∨ st.adArrhA.get? i = some v := by
  obtain ⟨k, k1, k2, k3⟩ := Morris.nominal_spec hr hra
  have hlen : (List.ofFn x).length = dimension net st kind := List.length_ofFn
  have hnd : ((net.getReactions st false).map Reaction.id).Nodup :=
    (reachable_inv hr).1.rNodup.sublist (List.filter_sublist.map _)
  have hsub : ∀ i ∈ (net.getReactions st false).map Reaction.id, i ∈ net.reactions.map Reaction.id := by
    intro i hi
    obtain ⟨r, hr, rfl⟩ := List.mem_map.1 hi
    exact List.mem_map_of_mem (List.mem_filter.1 hr).1
  have main : ∀ k' : Dict Nat ℚ, k'.keys = k.keys → Morris.applyX net kind k st (List.ofFn x) = .ok (Morris.setAll net st k') →
      Reachable net (chemAt net kind st x) ∧ ∀ i v, (chemAt net kind st x).adArrhA.get? i = some v →
        i ∈ (net.getReactions st false).map Reaction.id ∨ st.adArrhA.get? i = some v := by
    intro k' m2 m1
    have hc : chemAt net kind st x = Morris.setAll net st k' := by
      unfold MorrisWhole.chemAt perturbed
      simp only [k1, Morris.applyAll, m1]
    obtain ⟨a, -, b⟩ := Morris.setAll_spec hr k' (by rw [m2, k2]; exact hsub) (by rw [m2, k2]; exact hnd)
    rw [hc]
    refine ⟨a, fun i v hv => ?_⟩
    rw [b i] at hv
    cases hg : k'.get? i with
    | none => rw [hg] at hv; exact .inr hv
    | some w => exact .inl (k2 ▸ m2 ▸ (Dict.mem_keys_iff _ _).2 ⟨w, hg⟩)
  cases kind with
  | species =>
    obtain ⟨k', m1, m2, -⟩ := Morris.mapSpecies_spec hr (x := List.ofFn x) (k := k) hlen k2
    exact main k' m2 (by unfold Morris.applyX; simp only [m1])
  | reactions =>
    obtain ⟨k', m1, m2, -⟩ := Morris.mapReactions_spec hnd (x := List.ofFn x) (k := k) hlen k2
    exact main k' m2 (by unfold Morris.applyX; simp only [m1])

/-- the getter in SI units -/
theorem arrh_si {b : State} (h : Reachable net b) (hf : ∀ r ∈ net.getReactions b false, ∃ f, HasFactor r f)
    (ha : ∀ r ∈ net.reactions, b.adArrhA.get? r.id ≠ none → ∃ f, HasFactor r f) :
    ∃ d, net.getReactionsArrhA b false true = .ok d ∧ ∀ (j : Fin (nr net b)) (f : ℚ), HasFactor (reAt net b j) f →
      At d j ((inForce b (reAt net b j)).map fun v => v * f) := by
  obtain ⟨st0, ops, h0, rfl⟩ := Morris.reachable_run h
  have hget : ∀ r ∈ net.reactions, (net.run st0 ops).adArrhA.get? r.id = ops.foldl (nextArrh r.id) none := by
    intro r hrm
    have := run_adArrh (.init h0) ops (i := r.id) (List.mem_map_of_mem hrm)
    rw [(init_spec h0).2.2.2.2.2.2.2.1] at this
    exact this
  obtain ⟨-, h2, h3⟩ := arrh_a_history h0 ops false
  obtain ⟨d, hd⟩ := h2.2 ⟨fun r hrm _ => hf r hrm, fun r hrm hne => ha r hrm (by rw [hget r hrm]; exact hne)⟩
  obtain ⟨k1, k2⟩ := h3 d hd
  refine ⟨d, hd, fun j f hjf => ?_⟩
  have hnd : d.keys.Nodup := by rw [k1]; exact (reachable_inv h).1.rNodup.sublist (List.filter_sublist.map _)
  have hlen : d.length = nr net (net.run st0 ops) := by
    have := congrArg List.length k1
    simpa [Dict.keys] using this
  have hj : j.1 < d.length := by rw [hlen]; exact j.2
  have hkey : d[j.1].1 = (reAt net (net.run st0 ops) j).id := by
    have := List.getElem_of_eq k1 (i := j.1) (by simpa [Dict.keys] using hj)
    simp only [Dict.keys, List.getElem_map] at this
    exact this
  have hm := Dict.get?_of_mem hnd (List.getElem_mem hj)
  rw [hkey, k2 _ (re_mem j) f hjf] at hm
  unfold At
  rw [List.getElem?_map, List.getElem?_eq_getElem hj, Option.map_some, ← Option.some.inj hm]
  unfold inForce
  rw [hget _ (List.mem_filter.1 (re_mem (st := net.run st0 ops) j)).1]
  rfl

/-! ### C123 -/

/-- **C123.** At every vector of factors each reaction has the rate it has in the analysed chemistry times its factor, and the
equations differ by what the reactions make more or less of each species and by the energy exchanged in them; nothing else differs. -/
theorem perturbed_equations (hr : Reachable net st) (hcl : net.RetClosed) (hpy : PyDicts net st) (kind : Kind)
    (x : Fin (dimension net st kind) → ℚ) {D : Data (ns net st) (nr net st)}
    {D' : Data (ns net (chemAt net kind st x)) (nr net (chemAt net kind st x))} (hD : ReadsAll X P D) (hD' : ReadsAll X P D')
    {y : Y (ns net st)} {y' : Y (ns net (chemAt net kind st x))} (hy : SameY net st (chemAt net kind st x) y y') (t : ℝ) :
    (∀ j j', reAt net st j = reAt net (chemAt net kind st x) j' → D'.pRates y' j' = scale net st kind x j * D.pRates y j) ∧
    (∀ i i', spAt net st i = spAt net (chemAt net kind st x) i' → (D'.rhs t y').n i' = (D.rhs t y).n i + ∑ j,
      (((reAt net st j).products.count (spAt net st i) : ℝ) - (reAt net st j).reactants.count (spAt net st i)) *
        ((scale net st kind x j - 1) * D.pRates y j)) ∧
    (D'.rhs t y').rho = (D.rhs t y).rho - ∑ j, ((if 0 < D.eLhs j then D.pLoss y j else 0) + 3 / 2 * D.pTe y * D.eNet j) *
      ((scale net st kind x j - 1) * D.pRates y j) := by
  obtain ⟨h1, h2⟩ := chem_scaled hr (rated hr hD) kind x
  exact same_equations hr hcl hpy h1 h2 hD hD' hy t

/-- **C123.** If the equations can be set up for the analysed chemistry, they can be set up at every vector of factors. -/
theorem perturbed_defined (hr : Reachable net st) (kind : Kind) (x : Fin (dimension net st kind) → ℚ)
    {D : Data (ns net st) (nr net st)} (hD : ReadsAll X P D) :
    ∃ D' : Data (ns net (chemAt net kind st x)) (nr net (chemAt net kind st x)), ReadsAll X P D' := by
  have hra := rated hr hD
  have hwf := (reachable_inv hr).1.rNodup
  obtain ⟨h1, h2⟩ := chem_scaled hr hra kind x
  obtain ⟨h3, h4⟩ := chem_keys hr hra kind x
  generalize chemAt net kind st x = b at *
  obtain ⟨a, rfl⟩ : ∃ a, b = { st with adArrhA := a } := ⟨_, same_eq h1⟩
  have hf : ∀ r ∈ net.getReactions st false, ∃ f, HasFactor r f := by
    intro r hrm
    obtain ⟨j, hj, rfl⟩ := List.mem_iff_getElem.1 hrm
    obtain ⟨-, f, -, hf, -⟩ := read_factor hwf hD ⟨j, hj⟩
    exact ⟨f, hf⟩
  obtain ⟨d, hd1, hd2⟩ := arrh_si h3 hf (by
    intro r hrm hne
    obtain ⟨v, hv⟩ := Option.ne_none_iff_exists'.1 hne
    rcases h4 _ v hv with hk | hk
    · obtain ⟨r', hr', e⟩ := List.mem_map.1 hk
      have : r' = r := List.inj_on_of_nodup_map hwf (List.mem_filter.1 hr').1 hrm e
      exact hf r (this ▸ hr')
    · obtain ⟨d, e, -⟩ := hD.arrhA
      unfold getReactionsArrhA at e
      split at e
      · cases e
      simp only [if_true] at e
      split at e
      · cases e
      rename_i u hu
      rcases toSI_get hu r.id with ⟨k1, -⟩ | ⟨-, r', f, -, k2, k3, -⟩
      · rw [hk] at k1; cases k1
      · obtain ⟨m1, m2⟩ := getReaction_id k2
        have : r' = r := List.inj_on_of_nodup_map hwf m1 hrm m2
        exact ⟨f, this ▸ k3⟩)
  refine ⟨({ D with arrhA := fun j => scale net st kind x j * D.arrhA j } : Data (ns net st) (nr net st)),
    ⟨hD.coefs.charge, hD.coefs.netC, hD.coefs.lhs, hD.coefs.eNet, hD.coefs.eLhs, hD.coefs.mLhs⟩, ⟨hD.wall.ret⟩, hD.mass,
    hD.lj, hD.stick, ⟨d, hd1, fun j => ?_⟩, hD.arrhB, hD.arrhC, hD.enLoss, hD.elastic, hD.feed, hD.consts, hD.tempG, hD.radius,
    hD.length, hD.p0, hD.power, hD.flux⟩
  obtain ⟨v, f, k1, k2, k3⟩ := read_factor hwf hD j
  refine ⟨v * scale net st kind x j * f, ?_, ?_⟩
  · have := hd2 j f k2
    have e : inForce { st with adArrhA := a } (reAt net { st with adArrhA := a } j) = some (v * scale net st kind x j) := h2 j v k1
    rw [e] at this
    exact this
  · show (scale net st kind x j : ℝ) * D.arrhA j = _
    rw [k3]
    push_cast
    ring

theorem scale_nonneg {kind : Kind} {x : Fin (dimension net st kind) → ℚ} (hx : ∀ i, 0 ≤ x i) (j : Fin (nr net st)) :
    0 ≤ scale net st kind x j := by
  cases kind with
  | species =>
    refine prod_nonneg fun i _ => ?_
    split
    · exact mul_nonneg (by norm_num) (hx i)
    · norm_num
  | reactions => exact mul_nonneg (by norm_num) (hx j)

/-- **C123.** If the data of the analysed chemistry are physical, those at every vector of factors are. -/
theorem perturbed_physical (hr : Reachable net st) (hcl : net.RetClosed) (hpy : PyDicts net st) (kind : Kind)
    {x : Fin (dimension net st kind) → ℚ} (hx : ∀ i, 0 ≤ x i) {D : Data (ns net st) (nr net st)}
    {D' : Data (ns net (chemAt net kind st x)) (nr net (chemAt net kind st x))} (hD : ReadsAll X P D) (hD' : ReadsAll X P D')
    (hph : D.Physical) : D'.Physical := by
  obtain ⟨h1, h2⟩ := chem_scaled hr (rated hr hD) kind x
  generalize chemAt net kind st x = b at *
  obtain ⟨a, rfl⟩ : ∃ a, b = { st with adArrhA := a } := ⟨_, same_eq h1⟩
  have e := data_same hr hcl hpy hD hD' h2
  rw [e]
  exact ⟨hph.tempG, hph.r, hph.z, hph.p0, hph.mass, hph.stick, hph.feed, hph.ret,
    fun j => mul_nonneg (by exact_mod_cast scale_nonneg hx j) (hph.arrhA j), hph.lhs, hph.net⟩

/-- **C123.** From a state in which the equations of the analysed chemistry are defined, the equations at every vector of factors have
exactly one time development for a while. -/
theorem perturbed_development (hr : Reachable net st) (hcl : net.RetClosed) (hpy : PyDicts net st) (kind : Kind)
    {x : Fin (dimension net st kind) → ℚ} (hx : ∀ i, 0 ≤ x i) {D : Data (ns net st) (nr net st)}
    {D' : Data (ns net (chemAt net kind st x)) (nr net (chemAt net kind st x))} (hD : ReadsAll X P D) (hD' : ReadsAll X P D')
    (hph : D.Physical) {y0 : Y (ns net st)} (hn : ∀ i, 0 < y0.n i) (hne : 0 < D.getElectronDensity y0 none) (hreg : D.Regular y0)
    {T : ℝ} (hT : 0 < T) (hP : ContinuousOn D.power (Set.Icc 0 T)) :
    ∃ ε ∈ Set.Ioc 0 T, ∃ y', D'.Solves ε y' ∧ SameY net st (chemAt net kind st x) y0 (y' 0) ∧
      (∀ t ∈ Set.Icc 0 ε, (∀ i, 0 < (y' t).n i) ∧ 0 < D'.getElectronDensity (y' t) none ∧ D'.Regular (y' t)) ∧
      ∀ z, D'.Solves ε z → SameY net st (chemAt net kind st x) y0 (z 0) → ∀ t ∈ Set.Icc 0 ε, z t = y' t := by
  have hph' := perturbed_physical hr hcl hpy kind hx hD hD' hph
  obtain ⟨h1, h2⟩ := chem_scaled hr (rated hr hD) kind x
  generalize chemAt net kind st x = b at *
  obtain ⟨a, rfl⟩ : ∃ a, b = { st with adArrhA := a } := ⟨_, same_eq h1⟩
  have e := data_same hr hcl hpy hD hD' h2
  have hne' : 0 < Data.getElectronDensity D' y0 none := by rw [e]; exact hne
  have hreg' : Data.Regular D' y0 := by rw [e]; exact ⟨hreg.nE, hreg.neutrals, hreg.mfp, hreg.posIon, hreg.wall⟩
  have hP' : ContinuousOn (Data.power D') (Set.Icc 0 T) := by rw [e]; exact hP
  obtain ⟨ε, hε, y', k1, k2, k3⟩ := Data.solution_exists hph' (y0 := y0) hn hne' hreg' hT hP'
  refine ⟨ε, hε, y', k1, ?_, k3, fun z hz hz0 => ?_⟩
  · rw [k2]
    exact ⟨fun i i' hi => by rw [spAt_inj hr hi], rfl⟩
  · refine Data.unique_of_good hph' k1 (fun t ht => ⟨(k3 t ht).1, (k3 t ht).2.1, (k3 t ht).2.2⟩) hz ?_
    rw [k2]
    exact same_y (n := ns net st) (fun i => hz0.n i i rfl) hz0.rho

theorem scale_centre {kind : Kind} {x : Fin (dimension net st kind) → ℚ} (hx : ∀ i, x i = 1 / 2) (j : Fin (nr net st)) :
    scale net st kind x j = 1 := by
  cases kind with
  | species =>
    refine prod_eq_one fun i _ => ?_
    split
    · have : x i = 1 / 2 := hx i
      rw [this]
      norm_num
    · rfl
  | reactions =>
    show 2 * x j = 1
    rw [hx j]
    norm_num

/-- **C123.** With all factors 1/2 the equations are those of the analysed chemistry, and so is the time development. -/
theorem centre_development (hr : Reachable net st) (hcl : net.RetClosed) (hpy : PyDicts net st) (kind : Kind)
    {x : Fin (dimension net st kind) → ℚ} (hx : ∀ i, x i = 1 / 2) {D : Data (ns net st) (nr net st)}
    {D' : Data (ns net (chemAt net kind st x)) (nr net (chemAt net kind st x))} (hD : ReadsAll X P D) (hD' : ReadsAll X P D')
    (hph : D.Physical) {T : ℝ} {y : ℝ → Y (ns net st)} {y' : ℝ → Y (ns net (chemAt net kind st x))} (hy : D.Solves T y)
    (h0 : ∀ i, 0 < (y 0).n i) (hin : ∀ t ∈ Set.Icc 0 T, D.Inside (y t)) (hy' : D'.Solves T y')
    (he : SameY net st (chemAt net kind st x) (y 0) (y' 0)) :
    ∀ t ∈ Set.Icc 0 T, SameY net st (chemAt net kind st x) (y t) (y' t) := by
  obtain ⟨h1, h2⟩ := chem_scaled hr (rated hr hD) kind x
  generalize chemAt net kind st x = b at *
  obtain ⟨a, rfl⟩ : ∃ a, b = { st with adArrhA := a } := ⟨_, same_eq h1⟩
  have e := data_same hr hcl hpy hD hD' h2
  have e' : D' = D := by
    rw [e]
    simp only [scale_centre hx, Rat.cast_one, one_mul]
    rfl
  have hz : D.Solves T y' := by rw [← e']; exact hy'
  have h00 : y' 0 = y 0 := same_y (n := ns net st) (fun i => he.n i i rfl) he.rho
  intro t ht
  have k := Data.unique_solution hph hy h0 hin hz h00 t ht
  refine ⟨fun i i' hi => ?_, ?_⟩
  · have : i = i' := spAt_inj hr hi
    subst this
    rw [k]
  · rw [k]

/-- **C123.** The two chemistries of an elementary effect of a reaction (`OneRate`, C112): in the second each species is made and lost
by just what the reaction does in the analysed chemistry more than in the first, and the same for the energy. -/
theorem one_rate_equations (hr : Reachable net st) (hcl : net.RetClosed) (hpy : PyDicts net st) {lo hi : State} (k : Fin (nr net st))
    (h : OneRate net st (reAt net st k) lo hi) {D : Data (ns net st) (nr net st)} {L : Data (ns net lo) (nr net lo)}
    {H : Data (ns net hi) (nr net hi)} (hD : ReadsAll X P D) (hL : ReadsAll X P L) (hH : ReadsAll X P H)
    {y : Y (ns net st)} {u : Y (ns net lo)} {v : Y (ns net hi)} (hu : SameY net st lo y u) (hv : SameY net st hi y v) (t : ℝ) :
    (∀ i i' i'', spAt net st i = spAt net lo i' → spAt net st i = spAt net hi i'' → (H.rhs t v).n i'' = (L.rhs t u).n i' +
      (((reAt net st k).products.count (spAt net st i) : ℝ) - (reAt net st k).reactants.count (spAt net st i)) * D.pRates y k) ∧
    (H.rhs t v).rho = (L.rhs t u).rho -
      ((if 0 < D.eLhs k then D.pLoss y k else 0) + 3 / 2 * D.pTe y * D.eNet k) * D.pRates y k := by
  have hwf := (reachable_inv hr).1.rNodup
  obtain ⟨w, f, hw, hf, hDk⟩ := read_factor hwf hD k
  obtain ⟨x, -, -, hlo, hhi⟩ := h.this w hw
  have ho := h.others
  have h1 := h.left
  have h2 := h.right
  clear h
  obtain ⟨a, rfl⟩ : ∃ a, lo = { st with adArrhA := a } := ⟨_, same_eq h1⟩
  obtain ⟨b, rfl⟩ : ∃ b, hi = { st with adArrhA := b } := ⟨_, same_eq h2⟩
  have hyu : u = y := same_y (n := ns net st) (fun i => hu.n i i rfl) hu.rho
  have hyv : v = y := same_y (n := ns net st) (fun i => hv.n i i rfl) hv.rho
  subst hyu
  subst hyv
  have eL := data_arrh hr hcl hpy hD hL
  have eH := data_arrh hr hcl hpy hD hH
  have hdiff : ∀ j : Fin (nr net st), H.arrhA j - L.arrhA j = if j = k then D.arrhA k else 0 := by
    intro j
    obtain ⟨p, q, p1, p2, p3⟩ := read_factor hwf hL j
    obtain ⟨p', q', p1', p2', p3'⟩ := read_factor hwf hH j
    have hqq : q' = q := hasFactor_unique (r := reAt net st j) p2' p2
    subst hqq
    by_cases hj : j = k
    · subst hj
      have e1 := Option.some.inj (hlo.symm.trans p1)
      have e2 := Option.some.inj (hhi.symm.trans p1')
      have e3 : q' = f := hasFactor_unique (r := reAt net st j) p2 hf
      rw [if_pos rfl, p3, p3', hDk, ← e1, ← e2, e3]
      push_cast
      ring
    · have hne : (reAt net st j).id ≠ (reAt net st k).id := fun he => hj (reAt_inj hr (List.inj_on_of_nodup_map hwf
        (List.mem_filter.1 (re_mem (st := st) j)).1 (List.mem_filter.1 (re_mem (st := st) k)).1 he))
      have e1 := p1.symm.trans ((ho _ (re_mem j) hne).trans p1')
      rw [if_neg hj, p3, p3', Option.some.inj e1, sub_self]
  have hrate : ∀ j : Fin (nr net st), H.pRates v j - L.pRates v j = if j = k then D.pRates v k else 0 := by
    intro j
    have e1 : H.pRates v j = H.arrhA j * unitRate D v j := by
      conv_lhs => rw [eH]
      exact rates_factor D H.arrhA v j
    have e2 : L.pRates v j = L.arrhA j * unitRate D v j := by
      conv_lhs => rw [eL]
      exact rates_factor D L.arrhA v j
    have e3 : D.pRates v j = D.arrhA j * unitRate D v j := rates_factor D D.arrhA v j
    rw [e1, e2, ← sub_mul, hdiff]
    by_cases hj : j = k
    · subst hj
      rw [if_pos rfl, if_pos rfl, e3]
    · rw [if_neg hj, if_neg hj, zero_mul]
  refine ⟨fun i i' i'' hi' hi'' => ?_, ?_⟩
  · have e1 : i = i' := spAt_inj hr hi'
    have e2 : i = i'' := spAt_inj hr hi''
    subst e1
    subst e2
    have k1 := dn_factor D L.arrhA v i
    have k2 := dn_factor D H.arrhA v i
    rw [← eL] at k1
    rw [← eH] at k2
    have k1' : (L.rhs t v).n i = _ := k1
    have k2' : (H.rhs t v).n i = _ := k2
    rw [k1', k2', ← net_counts hr hD.coefs]
    have e := sum_one (fun j : Fin (nr net st) => (D.net j i : ℝ)) hrate
    exact (congrArg (D.pDn v i + ·) e).trans (add_assoc _ _ _).symm
  · have k1 := drho_factor D L.arrhA t v
    have k2 := drho_factor D H.arrhA t v
    rw [← eL] at k1
    rw [← eH] at k2
    have k1' : (L.rhs t v).rho = _ := k1
    have k2' : (H.rhs t v).rho = _ := k2
    rw [k1', k2']
    have e := sum_one (fun j : Fin (nr net st) => (if 0 < D.eLhs j then D.pLoss v j else 0) + 3 / 2 * D.pTe v * D.eNet j) hrate
    exact (congrArg (D.pDrho t v - ·) e).trans (sub_sub _ _ _).symm

/-- **C123.** The two chemistries of an elementary effect of a species (`OneSpecies`, C112): the rates of all reactions in which the
species takes part are in one common ratio, larger than 2, and all others are equal; the equations differ accordingly. -/
theorem one_species_equations (hr : Reachable net st) (hcl : net.RetClosed) (hpy : PyDicts net st) {s : RP} {lo hi : State}
    (h : OneSpecies net st s lo hi) {D : Data (ns net st) (nr net st)} {L : Data (ns net lo) (nr net lo)}
    {H : Data (ns net hi) (nr net hi)} (hD : ReadsAll X P D) (hL : ReadsAll X P L) (hH : ReadsAll X P H)
    {y : Y (ns net st)} {u : Y (ns net lo)} {v : Y (ns net hi)} (hu : SameY net st lo y u) (hv : SameY net st hi y v) (t : ℝ) :
    ∃ ρ : ℝ, 2 < ρ ∧ (∀ j j' j'', reAt net st j = reAt net lo j' → reAt net st j = reAt net hi j'' →
      H.pRates v j'' = if TakesPart s (reAt net st j) then ρ * L.pRates u j' else L.pRates u j') ∧
    ∃ w : Fin (nr net st) → ℝ, (∀ j j', reAt net st j = reAt net lo j' →
      w j = if TakesPart s (reAt net st j) then (ρ - 1) * L.pRates u j' else 0) ∧
    (∀ i i' i'', spAt net st i = spAt net lo i' → spAt net st i = spAt net hi i'' → (H.rhs t v).n i'' = (L.rhs t u).n i' +
      ∑ j, (((reAt net st j).products.count (spAt net st i) : ℝ) - (reAt net st j).reactants.count (spAt net st i)) * w j) ∧
    (H.rhs t v).rho = (L.rhs t u).rho -
      ∑ j, ((if 0 < D.eLhs j then D.pLoss y j else 0) + 3 / 2 * D.pTe y * D.eNet j) * w j := by
  have hwf := (reachable_inv hr).1.rNodup
  obtain ⟨x, hx0, hx1, hx⟩ := h.this
  have ho := h.others
  have h1 := h.left
  have h2 := h.right
  clear h
  obtain ⟨a, rfl⟩ : ∃ a, lo = { st with adArrhA := a } := ⟨_, same_eq h1⟩
  obtain ⟨b, rfl⟩ : ∃ b, hi = { st with adArrhA := b } := ⟨_, same_eq h2⟩
  have hyu : u = y := same_y (n := ns net st) (fun i => hu.n i i rfl) hu.rho
  have hyv : v = y := same_y (n := ns net st) (fun i => hv.n i i rfl) hv.rho
  subst hyu
  subst hyv
  have eL := data_arrh hr hcl hpy hD hL
  have eH := data_arrh hr hcl hpy hD hH
  have hxr : (0 : ℝ) < x := by exact_mod_cast hx0
  have hxr1 : (x : ℝ) < 1 := by exact_mod_cast hx1
  have hfac : ∀ j : Fin (nr net st), H.arrhA j =
      if TakesPart s (reAt net st j) then ((x : ℝ) + 1) / x * L.arrhA j else L.arrhA j := by
    intro j
    obtain ⟨p, q, p1, p2, p3⟩ := read_factor hwf hL j
    obtain ⟨p', q', p1', p2', p3'⟩ := read_factor hwf hH j
    have hqq : q' = q := hasFactor_unique (r := reAt net st j) p2' p2
    subst hqq
    by_cases hj : TakesPart s (reAt net st j)
    · obtain ⟨m, m1, m2⟩ := hx _ (re_mem j) hj
      have e1 := Option.some.inj (m1.symm.trans p1)
      have e2 := Option.some.inj (m2.symm.trans p1')
      rw [if_pos hj, p3, p3', ← e1, ← e2]
      push_cast
      field_simp
    · have e1 := p1.symm.trans ((ho _ (re_mem j) hj).trans p1')
      rw [if_neg hj, p3, p3', Option.some.inj e1]
  have hrate : ∀ j : Fin (nr net st), H.pRates v j =
      if TakesPart s (reAt net st j) then ((x : ℝ) + 1) / x * L.pRates v j else L.pRates v j := by
    intro j
    have e1 : H.pRates v j = H.arrhA j * unitRate D v j := by
      conv_lhs => rw [eH]
      exact rates_factor D H.arrhA v j
    have e2 : L.pRates v j = L.arrhA j * unitRate D v j := by
      conv_lhs => rw [eL]
      exact rates_factor D L.arrhA v j
    rw [e1, e2, hfac]
    split
    · ring
    · rfl
  have hw : ∀ j : Fin (nr net st), H.pRates v j - L.pRates v j =
      if TakesPart s (reAt net st j) then (((x : ℝ) + 1) / x - 1) * L.pRates v j else 0 := by
    intro j
    rw [hrate]
    split <;> ring
  refine ⟨((x : ℝ) + 1) / x, by rw [lt_div_iff₀ hxr]; linarith, fun j j' j'' hj hj' => ?_, fun j => H.pRates v j - L.pRates v j,
    fun j j' hj => ?_, fun i i' i'' hi' hi'' => ?_, ?_⟩
  · have e1 : j = j' := reAt_inj hr hj
    have e2 : j = j'' := reAt_inj hr hj'
    subst e1
    subst e2
    exact hrate j
  · have e1 : j = j' := reAt_inj hr hj
    subst e1
    exact hw j
  · have e1 : i = i' := spAt_inj hr hi'
    have e2 : i = i'' := spAt_inj hr hi''
    subst e1
    subst e2
    have k1 := dn_factor D L.arrhA v i
    have k2 := dn_factor D H.arrhA v i
    rw [← eL] at k1
    rw [← eH] at k2
    have k1' : (L.rhs t v).n i = _ := k1
    have k2' : (H.rhs t v).n i = _ := k2
    rw [k1', k2']
    have e := sum_two (fun j : Fin (nr net st) => (D.net j i : ℝ)) (H := fun j => H.pRates v j) (L := fun j => L.pRates v j)
      (D := fun j => D.pRates v j)
    have e' : ∑ j : Fin (nr net st), (((reAt net st j).products.count (spAt net st i) : ℝ) - (reAt net st j).reactants.count (spAt net st i)) *
        (H.pRates v j - L.pRates v j) = ∑ j : Fin (nr net st), (D.net j i : ℝ) * (H.pRates v j - L.pRates v j) :=
      sum_congr rfl fun j _ => by rw [net_counts hr hD.coefs]
    exact ((congrArg (D.pDn v i + ·) e).trans (add_assoc _ _ _).symm).trans (congrArg _ e'.symm)
  · have k1 := drho_factor D L.arrhA t v
    have k2 := drho_factor D H.arrhA t v
    rw [← eL] at k1
    rw [← eH] at k2
    have k1' : (L.rhs t v).rho = _ := k1
    have k2' : (H.rhs t v).rho = _ := k2
    rw [k1', k2']
    have e := sum_two (fun j : Fin (nr net st) => (if 0 < D.eLhs j then D.pLoss v j else 0) + 3 / 2 * D.pTe v * D.eNet j)
      (H := fun j => H.pRates v j) (L := fun j => L.pRates v j) (D := fun j => D.pRates v j)
    exact (congrArg (D.pDrho t v - ·) e).trans (sub_sub _ _ _).symm

/-- a reaction without electrons -/
theorem no_electron (hr : Reachable net st) {D : Data (ns net st) (nr net st)} (hD : ReadsAll X P D) {k : Fin (nr net st)}
    (h : ∀ p ∈ (reAt net st k).rps, p.name ≠ str!"e") : D.eLhs k = 0 ∧ D.eNet k = 0 := by
  have hwf := (reachable_inv hr).1
  have hnot : ∀ s, net.getRp (.name str!"e") = .ok s →
      s.id ∉ (reAt net st k).reactants.map RP.id ++ (reAt net st k).products.map RP.id := by
    intro s hs hmem
    unfold getRp at hs
    dsimp only at hs
    split at hs
    · rename_i hf
      cases hs
      rw [← List.map_append] at hmem
      obtain ⟨p, hp, hid⟩ := List.mem_map.1 hmem
      have hk := (List.mem_filter.1 (re_mem (st := st) k)).1
      have := hwf.eq_of_id (hwf.closed _ hk p hp) (List.mem_of_find?_eq_some hf) hid
      exact h p hp (by rw [this]; simpa using List.find?_some hf)
    · cases hs
  have absent : ∀ {d : Dict Nat Int} {i : Nat}, i ∉ d.keys → (d.get? i).getD 0 = 0 := by
    intro d i h
    cases hc : d.get? i with
    | none => rfl
    | some v => exact absurd ((Dict.mem_keys_iff d i).2 ⟨v, hc⟩) h
  constructor
  · obtain ⟨E, e, hE⟩ := hD.coefs.eLhs
    unfold stoichElectron at e
    split at e
    · cases e
    · rename_i s hs
      rw [hE, column_entry hr e]
      obtain ⟨d, h1, h2, -⟩ := stoich_lhs (reAt net st k)
      rw [h1]
      exact absent fun hc => hnot s hs (List.mem_append_left _ ((h2.2.1 _).1 hc))
  · obtain ⟨E, e, hE⟩ := hD.coefs.eNet
    unfold stoichElectron at e
    split at e
    · cases e
    · rename_i s hs
      rw [hE, column_entry hr e]
      obtain ⟨d, h1, h2, -⟩ := stoich_net (reAt net st k)
      rw [h1]
      exact absent fun hc => hnot s hs ((h2.2.1 _).1 hc)

/-- **C123.** A reaction without electrons that makes and loses nothing has no elementary effect: the two chemistries have the same
time development from the same start. -/
theorem idle_reaction (hr : Reachable net st) (hcl : net.RetClosed) (hpy : PyDicts net st) {lo hi : State} (k : Fin (nr net st))
    (h : OneRate net st (reAt net st k) lo hi) {D : Data (ns net st) (nr net st)} {L : Data (ns net lo) (nr net lo)}
    {H : Data (ns net hi) (nr net hi)} (hD : ReadsAll X P D) (hL : ReadsAll X P L) (hH : ReadsAll X P H)
    (hnet : ∀ s ∈ net.species, (reAt net st k).products.count s = (reAt net st k).reactants.count s)
    (hel : ∀ p ∈ (reAt net st k).rps, p.name ≠ str!"e")
    (hph : L.Physical) {T : ℝ} {u : ℝ → Y (ns net lo)} {v : ℝ → Y (ns net hi)} (hu : L.Solves T u) (h0 : ∀ i, 0 < (u 0).n i)
    (hin : ∀ t ∈ Set.Icc 0 T, L.Inside (u t)) (hv : H.Solves T v) (he : SameY net lo hi (u 0) (v 0)) :
    ∀ t ∈ Set.Icc 0 T, SameY net lo hi (u t) (v t) := by
  have h1 := h.left
  have h2 := h.right
  obtain ⟨a, rfl⟩ : ∃ a, lo = { st with adArrhA := a } := ⟨_, same_eq h1⟩
  obtain ⟨b, rfl⟩ : ∃ b, hi = { st with adArrhA := b } := ⟨_, same_eq h2⟩
  have hz : L.Solves T v := fun t ht => by
    obtain ⟨q1, q2⟩ := one_rate_equations hr hcl hpy k h hD hL hH (y := v t) (u := v t) (v := v t)
      ⟨fun i i' hi => by rw [spAt_inj hr hi], rfl⟩ ⟨fun i i' hi => by rw [spAt_inj hr hi], rfl⟩ t
    refine ⟨fun i => ?_, ?_⟩
    · have q := q1 i i i rfl rfl
      rw [hnet _ (List.mem_filter.1 (sp_mem (st := st) i)).1, sub_self, zero_mul, add_zero] at q
      rw [← q]
      exact (hv t ht).1 i
    · rw [(no_electron hr hD hel).1, (no_electron hr hD hel).2, if_neg (lt_irrefl _), Int.cast_zero, mul_zero, add_zero, zero_mul, sub_zero] at q2
      rw [← q2]
      exact (hv t ht).2
  have h00 : v 0 = u 0 := same_y (n := ns net st) (fun i => he.n i i rfl) he.rho
  intro t ht
  have k := Data.unique_solution hph hu h0 hin hz h00 t ht
  refine ⟨fun i i' hi => ?_, ?_⟩
  · have : i = i' := spAt_inj hr hi
    subst this
    rw [k]
  · rw [k]

end Verif.Fwork.MorrisEqns
