/-
Property C124: what the runs of a Morris analysis over return coefficients solve. Joins the perturbed chemistries (MorrisRet,
MorrisWholeRet) with the equations of the global model (Pygmol.Eqns, AdhocEqns, Unique).
-/
import Verif.Fwork.MorrisWholeRet
import Verif.Fwork.MorrisEqns

namespace Verif.Fwork.MorrisRetEqns
open Finset Verif.Plaschem Verif.Plaschem.Net Verif.Pygmol
open Verif.Fwork.Rates (ReadsWall mem_heavy)
open Verif.Fwork.GraphRun (ns nr ret_returned)
open Verif.Fwork.CoupleInit (returned)
open Verif.Fwork.Morris (Pair PyDicts SameButRet coef total retDict retDict_eq ret_nodup total_eq mapRet mapRets mapRet_mapped at? retCalls
  lastFactor)
open Verif.Fwork.MorrisEval (Path)
open Verif.Fwork.MorrisWholeRet (runState Asked SameChem OneCoef Last)
open Verif.Fwork.ReducedEqns Verif.Fwork.AdhocEqns
open Verif.Fwork.MorrisEqns (SameY)

variable {net : Net} {st : State} {X : RP → Extra} {P : Params} {pw : ℚ → ℚ → ℚ}

/-! ### specification -/

/-- What a vector of factors multiplies the coefficient with which `a` returns `b` with: `range ^ (2 x - 1)` if it is one of the analysed
coefficients, else one. -/
def retScale (pw : ℚ → ℚ → ℚ) {n : ℕ} (pairs : Fin n → Pair) (x : Fin n → ℚ) (a b : Str) : ℚ :=
  ∏ q : Fin n, if (pairs q).stuck = a ∧ (pairs q).ret = b then pw (pairs q).range (2 * x q - 1) else 1

/-- How many more particles `i` come back for the particles `k` that stick, per volume and time: each particle lost to the wall (the sink
is negative) gives the coefficient in the analysed chemistry times the factor, instead of times one. -/
noncomputable def more (net : Net) (pw : ℚ → ℚ → ℚ) (st : State) {n : ℕ} (pairs : Fin n → Pair) (x : Fin n → ℚ)
    (D : Data (ns net st) (nr net st)) (y : Y (ns net st)) (k i : Fin (ns net st)) : ℝ :=
  -D.pSinks y k * D.ret i k * (retScale pw pairs x (spAt net st k).name (spAt net st i).name - 1)

/-! ### reading the coefficients -/

theorem ret_coef (hr : Reachable net st) (hcl : net.RetClosed) (hpy : PyDicts net st) {D : Data (ns net st) (nr net st)}
    (hw : ReadsWall D) (i k : Fin (ns net st)) : D.ret i k = (coef net st (spAt net st k) (spAt net st i).name : ℝ) := by
  rw [ret_returned hr hcl hpy hw]
  congr 1
  have hi := mem_heavy.1 (sp_mem (st := st) i)
  have hk := mem_heavy.1 (sp_mem (st := st) k)
  obtain ⟨nom, hn, e⟩ := retDict_eq hr hcl (sp_mem (st := st) k)
  unfold returned coef
  rw [e, hi.2.2, hk.2.2, hn]
  simp only [Bool.or_false, Bool.false_eq_true, if_false]
  cases retInForce st (spAt net st k) nom with
  | none => rfl
  | some c =>
    have : (keepEnabled net st c).get? (spAt net st i).name = c.get? (spAt net st i).name := by
      classical
      unfold keepEnabled
      exact CoupleInit.get?_filter_key c (EnabledName net st) ⟨_, hi.1, rfl, hi.2.1⟩
    simp only [Option.map_some, Option.bind_some, this]

theorem same_eq {a : State} (h : SameButRet a st) : a = { st with adRet := a.adRet } := by
  obtain ⟨h1, h2, h3, h4, h5, h6⟩ := h
  cases a
  simp only at h1 h2 h3 h4 h5 h6
  simp only [h1, h2, h3, h4, h5, h6]

/-- only the return matrix depends on the return coefficients -/
theorem data_ret (hr : Reachable net st) (hcl : net.RetClosed) (hpy : PyDicts net st) {b : Dict Nat (Dict Str ℚ)}
    {D : Data (ns net st) (nr net st)} {D' : Data (ns net { st with adRet := b }) (nr net { st with adRet := b })}
    (hD : ReadsAll X P D) (hD' : ReadsAll X P D') : D' = ({ D with ret := D'.ret } : Data (ns net st) (nr net st)) := by
  have e : D' = ({ D with stick := D'.stick, ret := D'.ret } : Data (ns net st) (nr net st)) :=
    data_wall (a := st.adStick) (b := b) hr hcl hpy hD hD'
  have hs : D'.stick = D.stick := by
    funext k
    obtain ⟨v, hv, hm⟩ := hD.stick k
    obtain ⟨v', hv', hm'⟩ := hD'.stick k
    have h1 := stick_at hv
    have h2 : stickInForce st (spAt net st k) = some v' := stick_at hv'
    rw [h1] at h2
    rw [hm, hm', Option.some.inj h2]
  rw [hs] at e
  exact e

/-- The return matrix has one row and one column for each heavy enabled species. -/
structure Closed (net : Net) (st : State) : Prop where
  names : ∀ s ∈ net.getSpecies st false false true, ∀ c, retDict net st s = some c → ∀ n ∈ c.keys,
    ∃ t ∈ net.getSpecies st false false true, t.name = n
  keys : ∀ i ∈ st.adRet.keys, ∃ t ∈ net.getSpecies st false false true, t.id = i

theorem dict_keys (hr : Reachable net st) (hcl : net.RetClosed) {d : Dict Nat (Option (Dict Str ℚ))}
    (hd : net.getSpeciesRetCoefs st false false true = .ok d) (hk : ∀ i ∈ st.adRet.keys, ∃ t ∈ net.getSpecies st false false true, t.id = i)
    (i : ℕ) : i ∈ d.keys ↔ ∃ t ∈ net.getSpecies st false false true, t.id = i := by
  obtain ⟨d', hd', -, -, -, h⟩ := ret_coefs_value hr hcl false false true
  rw [hd] at hd'; cases hd'
  rw [h]
  constructor
  · rintro (h | h | ⟨s, h1, h2, -⟩)
    · exact h
    · exact hk i h
    · exact ⟨s, h1, h2⟩
  · exact .inl

theorem retDict_get {d : Dict Nat (Option (Dict Str ℚ))} (hd : net.getSpeciesRetCoefs st false false true = .ok d) {s : RP} {c : Dict Str ℚ} :
    retDict net st s = some c ↔ d.get? s.id = some (some c) := by
  unfold retDict
  rw [hd]
  simp only
  cases d.get? s.id with
  | none => simp
  | some o => simp

theorem closed_of_reads (hr : Reachable net st) (hcl : net.RetClosed) (hpy : PyDicts net st) {D : Data (ns net st) (nr net st)}
    (hw : ReadsWall D) : Closed net st := by
  obtain ⟨hwf, -⟩ := reachable_inv hr
  obtain ⟨M, hM, h1, h2, -⟩ := hw.ret
  obtain ⟨hrows, hcols⟩ := Rates.square_of_shape hr hcl (fun d hd => ret_nodup hpy hd) hM h1 h2
  obtain ⟨d, hd, -, hval, -, hkeys⟩ := ret_coefs_value hr hcl false false true
  obtain ⟨M', hM', hc, hr', -, -⟩ := return_matrix_entries hr hcl false hd (ret_nodup hpy hd)
  rw [hM] at hM'; cases hM'
  refine ⟨fun s hs c hc' n hn => ?_, fun i hi => ?_⟩
  · have hg := (retDict_get hd).1 hc'
    obtain ⟨v, hv⟩ := (Dict.mem_keys_iff c n).1 hn
    obtain ⟨t, ht, htn, -⟩ := hval _ _ hg _ (Dict.mem_of_get? hv)
    have : t.id ∈ M.rows := (hr' _).2 (.inr ⟨t, ht, rfl, s.id, c, hg, by rw [htn]; exact hn⟩)
    rw [hrows] at this
    obtain ⟨u, hu, e⟩ := List.mem_map.1 this
    exact ⟨u, hu, by rw [hwf.eq_of_id (mem_heavy.1 hu).1 ht e]; exact htn⟩
  · have : i ∈ M.cols := by rw [hc]; exact (hkeys i).2 (.inr (.inl hi))
    rw [hcols] at this
    obtain ⟨u, hu, e⟩ := List.mem_map.1 this
    exact ⟨u, hu, e⟩

theorem shape_of_closed (hr : Reachable net st) (hcl : net.RetClosed) (hpy : PyDicts net st) (h : Closed net st) :
    ∃ M, net.getReturnMatrix st false = .ok M ∧ M.rows = M.cols ∧ M.rows.length = ns net st := by
  obtain ⟨hwf, -⟩ := reachable_inv hr
  obtain ⟨d, hd, -, -, hnd, -⟩ := ret_coefs_value hr hcl false false true
  obtain ⟨M, hM, hc, hrows, hsq, -⟩ := return_matrix_entries hr hcl false hd (ret_nodup hpy hd)
  have hk := dict_keys hr hcl hd h.keys
  have e : M.rows = M.cols := hsq fun t ht => by
    rintro ⟨j, c, hj, hn⟩
    obtain ⟨s, hs, rfl⟩ := (hk j).1 ((Dict.mem_keys_iff d j).2 ⟨_, hj⟩)
    obtain ⟨u, hu, hun⟩ := h.names s hs c ((retDict_get hd).2 hj) _ hn
    exact (hk _).2 ⟨u, hu, by rw [hwf.eq_of_name (mem_heavy.1 hu).1 ht hun]⟩
  refine ⟨M, hM, e, ?_⟩
  rw [e, hc]
  have hids : ((net.getSpecies st false false true).map RP.id).Nodup := hwf.spNodup.sublist (List.filter_sublist.map _)
  have hp : d.keys.Perm ((net.getSpecies st false false true).map RP.id) :=
    (List.perm_ext_iff_of_nodup hnd hids).2 fun i => by rw [hk, List.mem_map]
  rw [hp.length_eq, List.length_map]

/-- the number of returned particles, as a sum over the heavy enabled species -/
theorem total_heavy (hr : Reachable net st) (hcl : net.RetClosed) (hpy : PyDicts net st) (h : Closed net st) {s : RP}
    (hs : s ∈ net.getSpecies st false false true) :
    total net st s = ∑ i : Fin (ns net st), coef net st s (spAt net st i).name := by
  obtain ⟨hwf, -⟩ := reachable_inv hr
  have e : ∑ i : Fin (ns net st), coef net st s (spAt net st i).name =
      ((net.getSpecies st false false true).map fun t => coef net st s t.name).sum :=
    Fin.sum_univ_fun_getElem (net.getSpecies st false false true) fun t => coef net st s t.name
  rw [e, total_eq hr hcl hpy]
  have h0 : ∀ t ∈ net.species, t.isSpecial = true → coef net st s t.name = 0 := by
    intro t ht hsp
    unfold coef
    cases hc : retDict net st s with
    | none => rfl
    | some c =>
      simp only [Option.bind_some]
      cases hg : c.get? t.name with
      | none => rfl
      | some v =>
        obtain ⟨u, hu, hn⟩ := h.names s hs c hc _ ((Dict.mem_keys_iff c t.name).2 ⟨v, hg⟩)
        have hu' := mem_heavy.1 hu
        rw [hwf.eq_of_name hu'.1 ht hn, hsp] at hu'
        exact absurd hu'.2.2 (by simp)
  have key : ∀ L : List RP, (∀ t ∈ L, t ∈ net.species) →
      ((L.filter (speciesMask st false true true)).map fun t => coef net st s t.name).sum =
      ((L.filter (speciesMask st false false true)).map fun t => coef net st s t.name).sum := by
    intro L
    induction L with
    | nil => intro _; rfl
    | cons t L ih =>
      intro hL
      have ih := ih fun u hu => hL u (List.mem_cons_of_mem _ hu)
      have e1 : speciesMask st false true true t = st.enSp t.id := by simp [speciesMask]
      have e2 : speciesMask st false false true t = (st.enSp t.id && !t.isSpecial) := by simp [speciesMask]
      rw [List.filter_cons, List.filter_cons, e1, e2]
      cases st.enSp t.id with
      | false => simpa using ih
      | true =>
        cases hsp : t.isSpecial with
        | false => simpa using ih
        | true => simpa [h0 t (hL t (List.mem_cons_self ..)) hsp] using ih
  exact key net.species fun _ h => h

/-- what a call of `_map_a_factor_to_ret_coef` changes -/
theorem mapRet_sets {st' : State} {p : Pair} {x : ℚ} (hm : mapRet net pw st p x = .ok st') :
    ∃ s t M c, net.getRp (.name p.stuck) = .ok s ∧ net.getRp (.name p.ret) = .ok t ∧ net.getReturnMatrix st false = .ok M ∧
      t.id ∈ M.rows ∧ st' = { st with adRet := st.adRet.set s.id c } := by
  unfold mapRet at hm
  split at hm
  · cases hm
  split at hm <;> try cases hm
  rename_i s t hs ht
  split at hm
  · cases hm
  split at hm
  · cases hm
  split at hm
  · cases hm
  split at hm
  · cases hm
  split at hm
  · cases hm
  rename_i M hM
  split at hm <;> try cases hm
  rename_i o1 o2 ha1 ha2
  split at hm
  · cases hm
  split at hm
  · cases hm
  split at hm
  · cases hm
  split at hm
  · cases hm
  split at hm
  · cases hm
  split at hm <;> try cases hm
  split at hm <;> try cases hm
  rename_i hset
  have hrow : t.id ∈ M.rows := by
    unfold at? at ha1
    by_contra hn
    rw [if_neg fun h => hn h.1] at ha1
    cases ha1
  unfold setAdhocRet at hset
  split at hset
  · cases hset
  rename_i s' hs'
  have : s' = s := by
    unfold getRp at hs'
    simp only at hs'
    split at hs'
    · rename_i e
      cases hs'
      simpa using List.find?_some e
    · cases hs'
  split at hset
  · cases hset
  dsimp only at hset
  split at hset <;> cases hset
  exact ⟨s, t, M, _, hs, ht, hM, hrow, by rw [this]⟩

theorem rp_name {n : Str} {s : RP} (h : net.getRp (.name n) = .ok s) : s.name = n := by
  unfold getRp at h
  simp only at h
  split at h
  · rename_i e
    cases h
    simpa using List.find?_some e
  · cases h

theorem closed_step (hr : Reachable net st) (hcl : net.RetClosed) (hpy : PyDicts net st) (h : Closed net st) {st' : State} {p : Pair} {x : ℚ}
    (hm : mapRet net pw st p x = .ok st') : Closed net st' := by
  obtain ⟨hwf, -⟩ := reachable_inv hr
  obtain ⟨s, t, c, m⟩ := mapRet_mapped hr hcl hpy hm
  obtain ⟨s', t', M, c', hs', ht', hM, hrow, hst⟩ := mapRet_sets hm
  have e1 : s' = s := hwf.eq_of_name (getRp_mem hs') m.sMem (by rw [rp_name hs', m.sName])
  have e2 : t' = t := hwf.eq_of_name (getRp_mem ht') m.tMem (by rw [rp_name ht', m.tName])
  subst e1 e2
  have ht : ∃ u ∈ net.getSpecies st false false true, u.name = t'.name := by
    obtain ⟨d, hd, -⟩ := ret_coefs_value hr hcl false false true
    obtain ⟨M', hM', -, hr', -⟩ := return_matrix_entries hr hcl false hd (ret_nodup hpy hd)
    rw [hM] at hM'; cases hM'
    have hk := dict_keys hr hcl hd h.keys
    rcases (hr' _).1 hrow with h1 | ⟨u, h1, h2, j, c, h3, h4⟩
    · obtain ⟨u, hu, e⟩ := (hk _).1 h1
      exact ⟨u, hu, by rw [hwf.eq_of_id (mem_heavy.1 hu).1 m.tMem e]⟩
    · obtain ⟨v, hv, rfl⟩ := (hk j).1 ((Dict.mem_keys_iff d j).2 ⟨_, h3⟩)
      rw [← hwf.eq_of_id h1 m.tMem h2]
      exact h.names v hv c ((retDict_get hd).2 h3) _ h4
  have hsp := m.same.species (net := net) false false true
  refine ⟨fun u hu c₁ hc₁ n hn => ?_, fun i hi => ?_⟩
  · rw [hsp] at hu ⊢
    by_cases hus : u.id = s'.id
    · have := hwf.eq_of_id (mem_heavy.1 hu).1 m.sMem hus
      subst this
      rw [m.dict'] at hc₁
      cases hc₁
      rw [Dict.mem_keys_iff] at hn
      obtain ⟨v, hv⟩ := hn
      rw [Dict.get?_set] at hv
      split at hv
      · rename_i e
        exact ⟨u, hu, e⟩
      · rw [Dict.get?_set] at hv
        split at hv
        · rename_i e
          rw [← e]; exact ht
        · exact h.names u hu c m.dict n ((Dict.mem_keys_iff c n).2 ⟨v, hv⟩)
    · rw [m.others u hu hus] at hc₁
      exact h.names u hu c₁ hc₁ n hn
  · rw [hsp]
    rw [hst, Dict.mem_keys_iff] at hi
    obtain ⟨v, hv⟩ := hi
    rw [Dict.get?_set] at hv
    split at hv
    · rename_i e
      exact ⟨s', m.sEn, e⟩
    · exact h.keys i ((Dict.mem_keys_iff _ i).2 ⟨v, hv⟩)

theorem closed_calls (hcl : net.RetClosed) : ∀ {l : List (Pair × ℚ)} {st st' : State}, Reachable net st → PyDicts net st → Closed net st →
    mapRets net pw st l = .ok st' → Closed net st'
  | [], st, st', _, _, h, hm => by
    simp only [mapRets] at hm
    cases hm
    exact h
  | (p, x) :: l, st, st', hr, hpy, h, hm => by
    unfold mapRets at hm
    cases h1 : mapRet net pw st p x with
    | error e => rw [h1] at hm; cases hm
    | ok a =>
      rw [h1] at hm
      obtain ⟨s, t, c, m⟩ := mapRet_mapped hr hcl hpy h1
      exact closed_calls hcl m.reach m.pyDicts (closed_step hr hcl hpy h h1) hm

/-- the coefficients stay non-negative -/
theorem nonneg_calls (hpw : ∀ r y, 1 < r → 0 ≤ pw r y) (hcl : net.RetClosed) : ∀ {l : List (Pair × ℚ)} {st st' : State}, Reachable net st →
    PyDicts net st → (∀ s ∈ net.getSpecies st false false true, ∀ t ∈ net.getSpecies st false false true, 0 ≤ coef net st s t.name) →
    mapRets net pw st l = .ok st' →
    ∀ s ∈ net.getSpecies st false false true, ∀ t ∈ net.getSpecies st false false true, 0 ≤ coef net st' s t.name
  | [], st, st', _, _, h, hm => by
    simp only [mapRets] at hm
    cases hm
    exact h
  | (p, x) :: l, st, st', hr, hpy, h, hm => by
    unfold mapRets at hm
    cases h1 : mapRet net pw st p x with
    | error e => rw [h1] at hm; cases hm
    | ok a =>
      rw [h1] at hm
      obtain ⟨hwf, -⟩ := reachable_inv hr
      obtain ⟨s, t, c, m⟩ := mapRet_mapped hr hcl hpy h1
      obtain ⟨c1, c2, c3, -⟩ := m.coefs
      have hsp := m.same.species (net := net) false false true
      have key := nonneg_calls hpw hcl m.reach m.pyDicts (l := l) (st' := st') (by
        rw [hsp]
        intro u hu v hv
        by_cases hus : u.id = s.id
        · have := hwf.eq_of_id (mem_heavy.1 hu).1 m.sMem hus
          subst this
          by_cases h2 : v.name = t.name
          · rw [h2, c1]
            exact mul_nonneg m.nominal.le (hpw _ _ m.range)
          · by_cases h3 : v.name = u.name
            · have := m.self
              rw [h3, c2]
              unfold coef
              rw [m.dict]
              exact this
            · rw [c3 _ h3 h2]
              exact h u hu v hv
        · unfold coef
          rw [m.others u hu hus]
          exact h u hu v hv) hm
      rw [hsp] at key
      exact key

/-! ### the chemistry at a vector of factors -/

section
variable {n : ℕ} {pairs : Fin n → Pair} {w : Path n} {j : ℕ} {x : Fin n → ℚ} {a : State}

/-- the coefficients in a run -/
theorem run_coef (hcl : net.RetClosed) (hr : Reachable net st) (hpy : PyDicts net st) (hq : Asked net st pairs)
    (hw : Morris.Walk (1 / 2) w.1 w.2) (hp : w.point j = some x) (ha : runState net pw st pairs w j = .ok a) {s : RP}
    (hs : s ∈ net.getSpecies st false false true) {m : Str} (hm : m ≠ s.name) :
    coef net a s m = coef net st s m * retScale pw pairs x s.name m := by
  obtain ⟨-, -, -, h⟩ := Morris.ret_history hcl hr hpy ha
  obtain ⟨-, -, k⟩ := h s hs
  have hlast : Last pairs x (retCalls pairs w.1 (w.2.take j)) := by
    rw [← MorrisWholeRet.point_last hp]
    exact MorrisWholeRet.last_point hq.distinct (MorrisWholeRet.walk_take j hw) (MorrisWholeRet.last_seed hq.distinct _)
  rw [k m hm, hlast]
  unfold retScale
  cases hf : (List.finRange n).find? fun q => decide ((pairs q).stuck = s.name ∧ (pairs q).ret = m) with
  | none =>
    rw [List.find?_eq_none] at hf
    rw [prod_eq_one fun q _ => if_neg (by simpa using hf q (List.mem_finRange q)), mul_one]
    rfl
  | some q =>
    have hk : (pairs q).stuck = s.name ∧ (pairs q).ret = m := by simpa using List.find?_some hf
    rw [prod_eq_single q (fun i _ hi => if_neg fun hc => hi (hq.distinct i q (hc.1.trans hk.1.symm) (hc.2.trans hk.2.symm)))
      (fun hn => absurd (mem_univ q) hn), if_pos hk, ← hk.2, ← hq.nominal q s hs hk.1.symm]
    rfl

/-- the return matrix of a run -/
theorem run_ret (hr : Reachable net st) (hcl : net.RetClosed) (hpy : PyDicts net st) (hq : Asked net st pairs)
    (hw : Morris.Walk (1 / 2) w.1 w.2) (hp : w.point j = some x) {b : Dict Nat (Dict Str ℚ)}
    (ha : runState net pw st pairs w j = .ok { st with adRet := b }) {D : Data (ns net st) (nr net st)}
    {A : Data (ns net { st with adRet := b }) (nr net { st with adRet := b })} (hD : ReadsWall D) (hA : ReadsWall A) :
    (∀ i k : Fin (ns net st), i ≠ k → A.ret i k = D.ret i k * retScale pw pairs x (spAt net st k).name (spAt net st i).name) ∧
    ∀ k : Fin (ns net st), ∑ i : Fin (ns net st), A.ret i k = ∑ i : Fin (ns net st), D.ret i k := by
  obtain ⟨hwf, -⟩ := reachable_inv hr
  obtain ⟨ra, pa, -, h⟩ := Morris.ret_history hcl hr hpy ha
  refine ⟨fun i k hik => ?_, fun k => ?_⟩
  · have e := ret_coef ra hcl pa hA i k
    rw [ret_coef hr hcl hpy hD]
    refine e.trans ?_
    have hne : (spAt net st i).name ≠ (spAt net st k).name := fun hn => hik (spAt_inj hr
      (hwf.eq_of_name (mem_heavy.1 (sp_mem (st := st) i)).1 (mem_heavy.1 (sp_mem (st := st) k)).1 hn))
    have := run_coef hcl hr hpy hq hw hp ha (sp_mem (st := st) k) hne
    exact_mod_cast this
  · have e1 := total_heavy hr hcl hpy (closed_of_reads hr hcl hpy hD) (sp_mem (st := st) k)
    have e2 := total_heavy ra hcl pa (closed_of_reads ra hcl pa hA) (s := spAt net st k) (sp_mem (st := st) k)
    have e3 : ∑ i : Fin (ns net st), coef net { st with adRet := b } (spAt net st k) (spAt net st i).name =
        ∑ i : Fin (ns net st), coef net st (spAt net st k) (spAt net st i).name :=
      e2.symm.trans ((h _ (sp_mem k)).1.trans e1)
    have e4 : ∀ i : Fin (ns net st), A.ret i k = (coef net { st with adRet := b } (spAt net st k) (spAt net st i).name : ℝ) :=
      fun i => ret_coef ra hcl pa hA i k
    rw [sum_congr rfl fun i _ => e4 i, sum_congr rfl fun i _ => ret_coef hr hcl hpy hD i k]
    exact_mod_cast e3

end

/-! ### the equations with another return matrix -/

section data
variable {n r : ℕ} (D : Data n r) (R : Fin n → Fin n → ℝ)

theorem src_ret (y : Y n) (i : Fin n) :
    ({ D with ret := R } : Data n r).pSrc y i - D.pSrc y i = ∑ k, -D.pSinks y k * (R i k - D.ret i k) := by
  have e : ∀ E : Data n r, E.pSrc y i = E.pSinks y i + ∑ k, -E.pSinks y k * E.ret i k := fun _ => rfl
  rw [e, e]
  simp only [mul_sub, sum_sub_distrib]
  show D.pSinks y i + ∑ k, -D.pSinks y k * R i k - _ = _
  ring

/-- with the same column sums -/
theorem src_moved {M : Fin n → Fin n → ℝ} (hM : ∀ i k, i ≠ k → R i k - D.ret i k = M i k) (hsum : ∀ k, ∑ i, R i k = ∑ i, D.ret i k)
    (y : Y n) (i : Fin n) : ({ D with ret := R } : Data n r).pSrc y i - D.pSrc y i =
      ∑ k ∈ univ.erase i, (-D.pSinks y k * M i k - -D.pSinks y i * M k i) := by
  rw [src_ret, ← add_sum_erase univ _ (mem_univ i), sum_sub_distrib, ← mul_sum]
  have h1 : R i i - D.ret i i = -∑ k ∈ univ.erase i, M k i := by
    have := hsum i
    rw [← sub_eq_zero, ← sum_sub_distrib, ← add_sum_erase univ _ (mem_univ i),
      sum_congr rfl fun k hk => hM k i (mem_erase.1 hk).1] at this
    linarith
  have h2 : ∑ k ∈ univ.erase i, -D.pSinks y k * (R i k - D.ret i k) = ∑ k ∈ univ.erase i, -D.pSinks y k * M i k :=
    sum_congr rfl fun k hk => by rw [hM i k (Ne.symm (mem_erase.1 hk).1)]
  rw [h1, h2]
  ring

theorem cols_eq {R S : Fin n → Fin n → ℝ} (h : ∀ i k, i ≠ k → R i k = S i k) (hs : ∀ k, ∑ i, R i k = ∑ i, S i k) : R = S := by
  funext i k
  by_cases hik : i = k
  · subst hik
    have := hs i
    rw [← add_sum_erase univ _ (mem_univ i), ← add_sum_erase univ (fun m => S m i) (mem_univ i),
      sum_congr rfl fun m hm => h m i (mem_erase.1 hm).1] at this
    exact add_right_cancel this
  · exact h i k hik

theorem dn_ret (y : Y n) (i : Fin n) :
    ({ D with ret := R } : Data n r).pDn y i = D.pDn y i + (({ D with ret := R } : Data n r).pSrc y i - D.pSrc y i) :=
  dn_wall D D.stick R y i

theorem drho_ret (t : ℝ) (y : Y n) :
    ({ D with ret := R } : Data n r).pDrho t y = D.pDrho t y +
      ∑ i, (2 * D.pTe y * D.charge i + if 0 < D.charge i then 1 / 2 * D.pTe y + D.fSheath (D.pTe y) * D.charge i else 0) *
        (({ D with ret := R } : Data n r).pSrc y i - D.pSrc y i) :=
  drho_wall D D.stick R t y

end data

/-! ### C124 -/

section
variable {n : ℕ} {pairs : Fin n → Pair} {w : Path n} {j : ℕ} {x : Fin n → ℚ} {a : State}

/-- **C124.** If the equations can be set up for the analysed chemistry, they can be set up for each run. -/
theorem run_defined (hr : Reachable net st) (hcl : net.RetClosed) (hpy : PyDicts net st)
    (ha : runState net pw st pairs w j = .ok a) {D : Data (ns net st) (nr net st)} (hD : ReadsAll X P D) :
    ∃ A : Data (ns net a) (nr net a), ReadsAll X P A := by
  obtain ⟨ra, pa, sa, -⟩ := Morris.ret_history hcl hr hpy ha
  have hc := closed_calls hcl hr hpy (closed_of_reads hr hcl hpy hD.wall) ha
  obtain ⟨M, hM, hsq, hlen⟩ := shape_of_closed ra hcl pa hc
  have h2 : M.cols.length = ns net a := hsq ▸ hlen
  obtain ⟨b, rfl⟩ : ∃ b, a = { st with adRet := b } := ⟨_, same_eq sa⟩
  exact ⟨({ D with ret := fun i k => (M.entry (M.rows[i]'(i.2.trans_eq hlen.symm)) (M.cols[k]'(k.2.trans_eq h2.symm)) : ℝ) } :
      Data (ns net st) (nr net st)),
    ⟨hD.coefs.charge, hD.coefs.netC, hD.coefs.lhs, hD.coefs.eNet, hD.coefs.eLhs, hD.coefs.mLhs⟩,
    ⟨M, hM, hlen, h2, fun _ _ => rfl⟩, hD.mass,
    hD.lj, hD.stick, hD.arrhA, hD.arrhB, hD.arrhC, hD.enLoss, hD.elastic, hD.feed, hD.consts, hD.tempG, hD.radius,
    hD.length, hD.p0, hD.power, hD.flux⟩

/-- **C124.** At the same densities each run has the rates of the analysed chemistry, and as much of each species sticks to the wall. For
what sticks the coefficients in the analysed chemistry times the factors come back, and as many particles of the species itself less as
others come back more. The energy changes by what the charges moved in this way carry. -/
theorem run_equations (hr : Reachable net st) (hcl : net.RetClosed) (hpy : PyDicts net st) (hq : Asked net st pairs)
    (hw : Morris.Walk (1 / 2) w.1 w.2) (hp : w.point j = some x) (ha : runState net pw st pairs w j = .ok a)
    {D : Data (ns net st) (nr net st)} {A : Data (ns net a) (nr net a)} (hD : ReadsAll X P D) (hA : ReadsAll X P A)
    {y : Y (ns net st)} {y' : Y (ns net a)} (hy : SameY net st a y y') (t : ℝ) :
    (∀ m m', reAt net st m = reAt net a m' → A.pRates y' m' = D.pRates y m) ∧
    (∀ i i', spAt net st i = spAt net a i' → A.pSinks y' i' = D.pSinks y i ∧ (A.rhs t y').n i' = (D.rhs t y).n i +
      ∑ k ∈ univ.erase i, (more net pw st pairs x D y k i - more net pw st pairs x D y i k)) ∧
    (A.rhs t y').rho = (D.rhs t y).rho + ∑ i, (2 * D.pTe y * D.charge i +
        if 0 < D.charge i then 1 / 2 * D.pTe y + D.fSheath (D.pTe y) * D.charge i else 0) *
      ∑ k ∈ univ.erase i, (more net pw st pairs x D y k i - more net pw st pairs x D y i k) := by
  obtain ⟨-, -, sa, -⟩ := Morris.ret_history hcl hr hpy ha
  obtain ⟨b, rfl⟩ : ∃ b, a = { st with adRet := b } := ⟨_, same_eq sa⟩
  have hyy : y' = y := same_y (n := ns net st) (fun i => hy.n i i rfl) hy.rho
  subst hyy
  have e := data_ret hr hcl hpy hD hA
  obtain ⟨h1, h2⟩ := run_ret hr hcl hpy hq hw hp ha hD.wall hA.wall
  have hsrc : ∀ i, ({ D with ret := A.ret } : Data (ns net st) (nr net st)).pSrc y' i - D.pSrc y' i =
      ∑ k ∈ univ.erase i, (more net pw st pairs x D y' k i - more net pw st pairs x D y' i k) := fun i => by
    rw [src_moved D A.ret (M := fun i k => D.ret i k * (retScale pw pairs x (spAt net st k).name (spAt net st i).name - 1))
      (fun i k hik => by rw [h1 i k hik]; ring) h2 y' i]
    refine sum_congr rfl fun k _ => ?_
    unfold more
    ring
  refine ⟨fun m m' hm => ?_, fun i i' hi => ⟨?_, ?_⟩, ?_⟩
  · have : m = m' := reAt_inj hr hm
    subst this
    rw [e]
    rfl
  · have : i = i' := spAt_inj hr hi
    subst this
    rw [e]
    rfl
  · have : i = i' := spAt_inj hr hi
    subst this
    have q := dn_ret D A.ret y' i
    rw [hsrc, ← e] at q
    exact q
  · have q := drho_ret D A.ret t y'
    simp only [hsrc] at q
    rw [← e] at q
    exact q

/-- **C124.** In all, as many particles are lost to the wall and come back from it in each run. -/
theorem run_wall_total (hr : Reachable net st) (hcl : net.RetClosed) (hpy : PyDicts net st) (hq : Asked net st pairs)
    (hw : Morris.Walk (1 / 2) w.1 w.2) (hp : w.point j = some x) (ha : runState net pw st pairs w j = .ok a)
    {D : Data (ns net st) (nr net st)} {A : Data (ns net a) (nr net a)} (hD : ReadsAll X P D) (hA : ReadsAll X P A)
    {y : Y (ns net st)} {y' : Y (ns net a)} (hy : SameY net st a y y') : ∑ i, A.pSrc y' i = ∑ i, D.pSrc y i := by
  obtain ⟨-, -, sa, -⟩ := Morris.ret_history hcl hr hpy ha
  obtain ⟨b, rfl⟩ : ∃ b, a = { st with adRet := b } := ⟨_, same_eq sa⟩
  have hyy : y' = y := same_y (n := ns net st) (fun i => hy.n i i rfl) hy.rho
  subst hyy
  have e := data_ret hr hcl hpy hD hA
  obtain ⟨-, h2⟩ := run_ret hr hcl hpy hq hw hp ha hD.wall hA.wall
  have key : ∑ i, ({ D with ret := A.ret } : Data (ns net st) (nr net st)).pSrc y' i = ∑ i, D.pSrc y' i := by
    rw [← sub_eq_zero, ← sum_sub_distrib, sum_congr rfl fun i _ => src_ret D A.ret y' i, sum_comm]
    refine sum_eq_zero fun k _ => ?_
    rw [← mul_sum, sum_sub_distrib, h2 k, sub_self, mul_zero]
  rw [← e] at key
  exact key

/-- **C124.** If the data of the analysed chemistry are physical, those of each run are. -/
theorem run_physical (hpw : ∀ r y, 1 < r → 0 ≤ pw r y) (hr : Reachable net st) (hcl : net.RetClosed) (hpy : PyDicts net st)
    (ha : runState net pw st pairs w j = .ok a) {D : Data (ns net st) (nr net st)} {A : Data (ns net a) (nr net a)} (hD : ReadsAll X P D)
    (hA : ReadsAll X P A) (hph : D.Physical) : A.Physical := by
  obtain ⟨ra, pa, sa, -⟩ := Morris.ret_history hcl hr hpy ha
  have hn := nonneg_calls hpw hcl hr hpy (fun s hs t ht => by
    obtain ⟨k, hk, rfl⟩ := List.mem_iff_getElem.1 hs
    obtain ⟨i, hi, rfl⟩ := List.mem_iff_getElem.1 ht
    have := hph.ret ⟨i, hi⟩ ⟨k, hk⟩
    rw [ret_coef hr hcl hpy hD.wall] at this
    exact_mod_cast this) ha
  obtain ⟨b, rfl⟩ : ∃ b, a = { st with adRet := b } := ⟨_, same_eq sa⟩
  have e := data_ret hr hcl hpy hD hA
  have hret : ∀ i k : Fin (ns net st), 0 ≤ A.ret i k := fun i k => by
    have q : A.ret i k = (coef net { st with adRet := b } (spAt net st k) (spAt net st i).name : ℝ) := ret_coef ra hcl pa hA.wall i k
    rw [q]
    exact_mod_cast hn _ (sp_mem k) _ (sp_mem i)
  rw [e]
  exact ⟨hph.tempG, hph.r, hph.z, hph.p0, hph.mass, hph.stick, hph.feed, hret, hph.arrhA, hph.lhs, hph.net⟩

/-- **C124.** From a state in which the equations of the analysed chemistry are defined, those of each run have exactly one time
development for a while. -/
theorem run_development (hpw : ∀ r y, 1 < r → 0 ≤ pw r y) (hr : Reachable net st) (hcl : net.RetClosed) (hpy : PyDicts net st)
    (ha : runState net pw st pairs w j = .ok a) {D : Data (ns net st) (nr net st)} {A : Data (ns net a) (nr net a)} (hD : ReadsAll X P D)
    (hA : ReadsAll X P A) (hph : D.Physical) {y0 : Y (ns net st)} (hn : ∀ i, 0 < y0.n i) (hne : 0 < D.getElectronDensity y0 none)
    (hreg : D.Regular y0) {T : ℝ} (hT : 0 < T) (hP : ContinuousOn D.power (Set.Icc 0 T)) :
    ∃ ε ∈ Set.Ioc 0 T, ∃ y', A.Solves ε y' ∧ SameY net st a y0 (y' 0) ∧
      (∀ t ∈ Set.Icc 0 ε, (∀ i, 0 < (y' t).n i) ∧ 0 < A.getElectronDensity (y' t) none ∧ A.Regular (y' t)) ∧
      ∀ z, A.Solves ε z → SameY net st a y0 (z 0) → ∀ t ∈ Set.Icc 0 ε, z t = y' t := by
  have hph' := run_physical hpw hr hcl hpy ha hD hA hph
  obtain ⟨-, -, sa, -⟩ := Morris.ret_history hcl hr hpy ha
  obtain ⟨b, rfl⟩ : ∃ b, a = { st with adRet := b } := ⟨_, same_eq sa⟩
  have e := data_ret hr hcl hpy hD hA
  have hne' : 0 < Data.getElectronDensity A y0 none := by rw [e]; exact hne
  have hreg' : Data.Regular A y0 := by rw [e]; exact ⟨hreg.nE, hreg.neutrals, hreg.mfp, hreg.posIon, hreg.wall⟩
  have hP' : ContinuousOn (Data.power A) (Set.Icc 0 T) := by rw [e]; exact hP
  obtain ⟨ε, hε, y', k1, k2, k3⟩ := Data.solution_exists hph' (y0 := y0) hn hne' hreg' hT hP'
  refine ⟨ε, hε, y', k1, ?_, k3, fun z hz hz0 => ?_⟩
  · rw [k2]
    exact ⟨fun i i' hi => by rw [spAt_inj hr hi], rfl⟩
  · refine Data.unique_of_good hph' k1 (fun t ht => ⟨(k3 t ht).1, (k3 t ht).2.1, (k3 t ht).2.2⟩) hz ?_
    rw [k2]
    exact same_y (n := ns net st) (fun i => hz0.n i i rfl) hz0.rho

end

/-- **C124.** Chemistries that agree in all but the order in which the return coefficients are kept have the same time development. This is
what C113 asks of the solver. -/
theorem same_chem_development (hcl : net.RetClosed) {a b : State} (ra : Reachable net a) (rb : Reachable net b) (pa : PyDicts net a)
    (pb : PyDicts net b) (h : SameChem net a b) {A : Data (ns net a) (nr net a)} {B : Data (ns net b) (nr net b)} (hA : ReadsAll X P A)
    (hB : ReadsAll X P B) (hph : A.Physical) {T : ℝ} {u : ℝ → Y (ns net a)} {v : ℝ → Y (ns net b)} (hu : A.Solves T u)
    (h0 : ∀ i, 0 < (u 0).n i) (hin : ∀ t ∈ Set.Icc 0 T, A.Inside (u t)) (hv : B.Solves T v) (he : SameY net a b (u 0) (v 0)) :
    ∀ t ∈ Set.Icc 0 T, SameY net a b (u t) (v t) := by
  have hs := h.rest
  have hc := h.coefs
  obtain ⟨d, rfl⟩ : ∃ d, a = { b with adRet := d } := ⟨_, same_eq hs⟩
  have e := data_ret rb hcl pb hB hA
  have hret : A.ret = B.ret := by
    funext i k
    have q : A.ret i k = (coef net { b with adRet := d } (spAt net b k) (spAt net b i).name : ℝ) := ret_coef ra hcl pa hA.wall i k
    have hi := mem_heavy.1 (sp_mem (st := b) i)
    have q' : coef net { b with adRet := d } (spAt net b k) (spAt net b i).name = coef net b (spAt net b k) (spAt net b i).name :=
      hc _ (sp_mem (st := b) k) _ (mem_getSpecies.2 ⟨hi.1, by simp [hi.2.1]⟩)
    rw [q, q']
    exact (ret_coef rb hcl pb hB.wall i k).symm
  have e' : A = B := by
    rw [e, hret]
  have hz : A.Solves T v := by rw [e']; exact hv
  have h00 : v 0 = u 0 := same_y (n := ns net b) (fun i => he.n i i rfl) he.rho
  intro t ht
  have k := Data.unique_solution hph hu h0 hin hz h00 t ht
  refine ⟨fun i i' hi => ?_, ?_⟩
  · have : i = i' := spAt_inj rb hi
    subst this
    rw [k]
  · rw [k]

section
variable {n : ℕ} {pairs : Fin n → Pair} {x : Fin n → ℚ} {a b : State}

/-- **C124.** The time development of a run depends on its vector of factors only. -/
theorem same_vector_development (hcl : net.RetClosed) (hr : Reachable net st) (hpy : PyDicts net st) (hq : Asked net st pairs) {v w : Path n}
    (hv : Morris.Walk (1 / 2) v.1 v.2) (hw : Morris.Walk (1 / 2) w.1 w.2) {j k : ℕ} (hj : v.point j = some x) (hk : w.point k = some x)
    (ha : runState net pw st pairs v j = .ok a) (hb : runState net pw st pairs w k = .ok b) {A : Data (ns net a) (nr net a)}
    {B : Data (ns net b) (nr net b)} (hA : ReadsAll X P A) (hB : ReadsAll X P B) (hph : A.Physical) {T : ℝ} {y : ℝ → Y (ns net a)}
    {z : ℝ → Y (ns net b)} (hy : A.Solves T y) (h0 : ∀ i, 0 < (y 0).n i) (hin : ∀ t ∈ Set.Icc 0 T, A.Inside (y t)) (hz : B.Solves T z)
    (he : SameY net a b (y 0) (z 0)) : ∀ t ∈ Set.Icc 0 T, SameY net a b (y t) (z t) := by
  obtain ⟨ra, pa, -, -⟩ := Morris.ret_history hcl hr hpy ha
  obtain ⟨rb, pb, -, -⟩ := Morris.ret_history hcl hr hpy hb
  exact same_chem_development hcl ra rb pa pb (MorrisWholeRet.same_vector hcl hr hpy hq hv hw hj hk ha hb) hA hB hph hy h0 hin hz he

/-- **C124.** With all factors 1/2 the time development is that of the analysed chemistry. -/
theorem centre_development (hcl : net.RetClosed) (hr : Reachable net st) (hpy : PyDicts net st) (hq : Asked net st pairs) {w : Path n}
    (hw : Morris.Walk (1 / 2) w.1 w.2) {j : ℕ} (hj : w.point j = some x) (hx : ∀ q, x q = 1 / 2) (hpw : ∀ q, pw (pairs q).range 0 = 1)
    (ha : runState net pw st pairs w j = .ok a) {A : Data (ns net a) (nr net a)} {D : Data (ns net st) (nr net st)} (hA : ReadsAll X P A)
    (hD : ReadsAll X P D) (hph : A.Physical) {T : ℝ} {u : ℝ → Y (ns net a)} {y : ℝ → Y (ns net st)} (hu : A.Solves T u)
    (h0 : ∀ i, 0 < (u 0).n i) (hin : ∀ t ∈ Set.Icc 0 T, A.Inside (u t)) (hy : D.Solves T y) (he : SameY net a st (u 0) (y 0)) :
    ∀ t ∈ Set.Icc 0 T, SameY net a st (u t) (y t) := by
  obtain ⟨ra, pa, sa, -⟩ := Morris.ret_history hcl hr hpy ha
  obtain ⟨d, rfl⟩ : ∃ d, a = { st with adRet := d } := ⟨_, same_eq sa⟩
  obtain ⟨h1, h2⟩ := run_ret hr hcl hpy hq hw hj ha hD.wall hA.wall
  have e := data_ret hr hcl hpy hD hA
  have hsc : ∀ c d, retScale pw pairs x c d = 1 := fun c d => prod_eq_one fun q _ => by
    split
    · rw [hx q, show (2 * (1 / 2) - 1 : ℚ) = 0 by norm_num]; exact hpw q
    · rfl
  have h3 : ∀ i k : Fin (ns net st), i ≠ k → A.ret i k = D.ret i k := fun i k hik => by
    rw [h1 i k hik, hsc, Rat.cast_one, mul_one]
  have hret : A.ret = D.ret := cols_eq h3 h2
  have e' : A = D := by
    rw [e, hret]
  have hz : A.Solves T y := by rw [e']; exact hy
  have h00 : y 0 = u 0 := same_y (n := ns net st) (fun i => he.n i i rfl) he.rho
  intro t ht
  have k := Data.unique_solution hph hu h0 hin hz h00 t ht
  refine ⟨fun i i' hi => ?_, ?_⟩
  · have : i = i' := spAt_inj hr hi
    subst this
    rw [k]
  · rw [k]

private theorem one_coef_aux (hr : Reachable net st) (hcl : net.RetClosed) {p : Pair} {d b : Dict Nat (Dict Str ℚ)}
    (h : OneCoef net pw st p { st with adRet := d } { st with adRet := b })
    (rl : Reachable net { st with adRet := d }) (pl : PyDicts net { st with adRet := d }) (rh : Reachable net { st with adRet := b })
    (ph : PyDicts net { st with adRet := b }) {L H : Data (ns net st) (nr net st)} (hL : ReadsAll (st := { st with adRet := d }) X P L)
    (hH : ReadsAll (st := { st with adRet := b }) X P H) (v : Y (ns net st)) (t : ℝ) {k m : Fin (ns net st)}
    (hk : (spAt net st k).name = p.stuck) (hm : (spAt net st m).name = p.ret) (hkm : k ≠ m) :
    ∃ z c : ℚ, -1 < z ∧ z < 0 ∧ c = coef net st (spAt net st k) p.ret * (pw p.range (z + 1) - pw p.range z) ∧
      (∀ i, (H.rhs t v).n i = (L.rhs t v).n i +
        if i = m then -L.pSinks v k * c else if i = k then L.pSinks v k * c else 0) ∧
      (H.rhs t v).rho = (L.rhs t v).rho +
        ((2 * L.pTe v * L.charge m + if 0 < L.charge m then 1 / 2 * L.pTe v + L.fSheath (L.pTe v) * L.charge m else 0) -
         (2 * L.pTe v * L.charge k + if 0 < L.charge k then 1 / 2 * L.pTe v + L.fSheath (L.pTe v) * L.charge k else 0)) *
          (-L.pSinks v k * c) := by
  obtain ⟨hwf, -⟩ := reachable_inv hr
  obtain ⟨s, hs, hsn, ⟨z, z1, z2, z3, z4⟩, ht1, ht2, hoth, hspec⟩ := h.coef
  have hks : spAt net st k = s := hwf.eq_of_name (mem_heavy.1 (sp_mem (st := st) k)).1 (mem_heavy.1 hs).1 (by rw [hsn]; exact hk)
  have e : H = ({ L with ret := H.ret } : Data (ns net st) (nr net st)) :=
    data_ret (st := { st with adRet := d }) (b := b) rl hcl pl hL hH
  have qL : ∀ i k : Fin (ns net st), L.ret i k = (coef net { st with adRet := d } (spAt net st k) (spAt net st i).name : ℝ) :=
    fun i k => ret_coef rl hcl pl hL.wall i k
  have qH : ∀ i k : Fin (ns net st), H.ret i k = (coef net { st with adRet := b } (spAt net st k) (spAt net st i).name : ℝ) :=
    fun i k => ret_coef rh hcl ph hH.wall i k
  have tL := total_heavy rl hcl pl (closed_of_reads rl hcl pl hL.wall) (s := s) hs
  have tH := total_heavy rh hcl ph (closed_of_reads rh hcl ph hH.wall) (s := s) hs
  have hcol : ∑ i : Fin (ns net st), (H.ret i k - L.ret i k) = 0 := by
    rw [sum_sub_distrib, sum_congr rfl fun i _ => qH i k, sum_congr rfl fun i _ => qL i k, hks, sub_eq_zero]
    have : ∑ i : Fin (ns net st), coef net { st with adRet := b } s (spAt net st i).name =
      ∑ i : Fin (ns net st), coef net { st with adRet := d } s (spAt net st i).name := tH.symm.trans ((ht2.trans ht1.symm).trans tL)
    exact_mod_cast this
  set c : ℚ := coef net st s p.ret * (pw p.range (z + 1) - pw p.range z) with hcdef
  have hmn : (spAt net st m).name = p.ret := hm
  have hkn : (spAt net st k).name = p.stuck := hk
  have h1 : H.ret m k - L.ret m k = c := by
    rw [qH, qL, hks, hmn, z3, z4, hcdef]
    push_cast
    ring
  have h0 : ∀ i : Fin (ns net st), i ≠ m → i ≠ k → H.ret i k - L.ret i k = 0 := fun i him hik => by
    rw [qH, qL, hks, hoth, sub_self]
    · exact fun hn => hik (spAt_inj hr (hwf.eq_of_name (mem_heavy.1 (sp_mem (st := st) i)).1 (mem_heavy.1 (sp_mem (st := st) k)).1
        (hn.trans hkn.symm)))
    · exact fun hn => him (spAt_inj hr (hwf.eq_of_name (mem_heavy.1 (sp_mem (st := st) i)).1 (mem_heavy.1 (sp_mem (st := st) m)).1
        (hn.trans hmn.symm)))
  have h2 : H.ret k k - L.ret k k = -c := by
    rw [sum_eq_add k m hkm (fun i _ hi => h0 i hi.2 hi.1) (fun hn => absurd (mem_univ _) hn) (fun hn => absurd (mem_univ _) hn), h1] at hcol
    linarith
  have h3 : ∀ i l : Fin (ns net st), l ≠ k → H.ret i l - L.ret i l = 0 := fun i l hl => by
    rw [qH, qL, ← hspec _ (sp_mem (st := st) l) (fun hn => hl (spAt_inj hr (hn.trans hks.symm))), sub_self]
  have hsrc : ∀ i : Fin (ns net st), ({ L with ret := H.ret } : Data (ns net st) (nr net st)).pSrc v i - L.pSrc v i =
      if i = m then -L.pSinks v k * c else if i = k then L.pSinks v k * c else 0 := fun i => by
    rw [show _ = _ from src_ret (n := ns net st) (r := nr net st) L H.ret v i,
      sum_eq_single k (fun l _ hl => by rw [h3 i l hl, mul_zero]) (fun hn => absurd (mem_univ _) hn)]
    by_cases him : i = m
    · rw [if_pos him, him, h1]
    · rw [if_neg him]
      by_cases hik : i = k
      · rw [if_pos hik, hik, h2]; ring
      · rw [if_neg hik, h0 i him hik, mul_zero]
  refine ⟨z, c, z1, z2, by rw [hcdef]; exact congrArg (fun r => coef net st r p.ret * (pw p.range (z + 1) - pw p.range z)) hks.symm,
    fun i => ?_, ?_⟩
  · have q := dn_ret (n := ns net st) (r := nr net st) L H.ret v i
    rw [hsrc, ← e] at q
    exact q
  · have q := drho_ret (n := ns net st) (r := nr net st) L H.ret t v
    simp only [hsrc] at q
    rw [← e, sum_eq_add k m hkm (fun i _ hi => by rw [if_neg hi.2, if_neg hi.1, mul_zero]) (fun hn => absurd (mem_univ _) hn)
      (fun hn => absurd (mem_univ _) hn), if_neg hkm, if_pos rfl, if_pos rfl] at q
    refine q.trans ?_
    show L.pDrho t v + _ = L.pDrho t v + _
    ring

/-- **C124.** The two chemistries of an elementary effect of a return coefficient (`OneCoef`, C113). For each particle of the stuck species
(number `k`) that sticks, the second gives back so many particles of the returned species (number `m`) more as the coefficients differ, and
as many of the stuck species less. All else is the same, and the energy as well unless the two differ in charge. -/
theorem one_coef_equations (hr : Reachable net st) (hcl : net.RetClosed) {p : Pair} {lo hi : State} (h : OneCoef net pw st p lo hi)
    (rl : Reachable net lo) (pl : PyDicts net lo) (rh : Reachable net hi) (ph : PyDicts net hi)
    {L : Data (ns net lo) (nr net lo)} {H : Data (ns net hi) (nr net hi)} (hL : ReadsAll X P L) (hH : ReadsAll X P H)
    {u : Y (ns net lo)} {v : Y (ns net hi)} (huv : SameY net lo hi u v) (t : ℝ) {k m : Fin (ns net lo)}
    (hk : (spAt net lo k).name = p.stuck) (hm : (spAt net lo m).name = p.ret) (hkm : k ≠ m) :
    ∃ z c : ℚ, -1 < z ∧ z < 0 ∧ c = coef net st (spAt net lo k) p.ret * (pw p.range (z + 1) - pw p.range z) ∧
      (∀ i i', spAt net lo i = spAt net hi i' → (H.rhs t v).n i' = (L.rhs t u).n i +
        if i = m then -L.pSinks u k * c else if i = k then L.pSinks u k * c else 0) ∧
      (H.rhs t v).rho = (L.rhs t u).rho +
        ((2 * L.pTe u * L.charge m + if 0 < L.charge m then 1 / 2 * L.pTe u + L.fSheath (L.pTe u) * L.charge m else 0) -
         (2 * L.pTe u * L.charge k + if 0 < L.charge k then 1 / 2 * L.pTe u + L.fSheath (L.pTe u) * L.charge k else 0)) *
          (-L.pSinks u k * c) := by
  have hl := h.left
  have hh := h.right
  obtain ⟨d, rfl⟩ : ∃ d, lo = { st with adRet := d } := ⟨_, same_eq hl⟩
  obtain ⟨b, rfl⟩ : ∃ b, hi = { st with adRet := b } := ⟨_, same_eq hh⟩
  have hyy : v = u := same_y (n := ns net st) (fun i => huv.n i i rfl) huv.rho
  subst hyy
  obtain ⟨z, c, h1, h2, h3, h4, h5⟩ := one_coef_aux (pw := pw) hr hcl h rl pl rh ph hL hH v t hk hm hkm
  refine ⟨z, c, h1, h2, h3, fun i i' hi => ?_, h5⟩
  have : i = i' := spAt_inj hr hi
  subst this
  exact h4 i

end

end Verif.Fwork.MorrisRetEqns
