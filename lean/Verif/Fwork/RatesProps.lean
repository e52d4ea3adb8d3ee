/-
Properties C72, C73: the rates reported for one species are exactly the non-zero contributions of the
enabled reactions and of the wall, in descending order, and they add up to the time derivative the solver
integrated.
-/
import Verif.Fwork.Rates

namespace Verif.Fwork.Rates
open Finset Verif.Plaschem Verif.Plaschem.Net Verif.Pygmol

/-! ### lemmas -/

theorem dict_eq_map {α β : Type} {d : Dict Nat β} {l : List α} {f : α → Nat} {g : α → β}
    (hk : d.keys = l.map f) (hn : (l.map f).Nodup) (hg : ∀ a ∈ l, d.get? (f a) = some (g a)) :
    d = l.map (fun a => (f a, g a)) := by
  have hlen : d.length = l.length := by simpa [Dict.keys] using congrArg List.length hk
  refine List.ext_getElem (by simpa using hlen) fun i h1 h2 => ?_
  have h3 : i < l.length := hlen ▸ h1
  have e1 : d[i].1 = f l[i] := by
    have h4 : (Dict.keys d)[i]'(by simpa [Dict.keys] using h1) = (l.map f)[i]'(by simpa using h3) :=
      getElem_congr_coll hk
    simpa [Dict.keys] using h4
  have e2 : d.get? d[i].1 = some d[i].2 := Dict.get?_of_mem (hk ▸ hn) (List.getElem_mem h1)
  rw [e1, hg _ (List.getElem_mem h3)] at e2
  simp only [List.getElem_map]
  exact Prod.ext e1 (Option.some.inj e2).symm

theorem timesRates_iff {f : RateFrame} {l : List (Nat × Int)} :
    (∃ r, timesRates f l = .ok r) ↔ ∀ p ∈ l, Lab.id p.1 ∈ f.keys := by
  induction l with
  | nil => simp [timesRates]
  | cons p l ih =>
    obtain ⟨i, c⟩ := p
    simp only [List.mem_cons, forall_eq_or_imp]
    rw [Dict.mem_keys_iff, ← ih]
    rw [timesRates]
    cases f.get? (.id i) with
    | none => simp
    | some v =>
      cases timesRates f l with
      | error e => simp
      | ok r => simp

theorem timesRates_eq {f : RateFrame} {l : List (Nat × Int)} {r : List (Nat × ℝ)}
    (h : timesRates f l = .ok r) :
    r = l.map (fun p => (p.1, (p.2 : ℝ) * (f.get? (.id p.1)).getD 0)) := by
  induction l generalizing r with
  | nil => cases h; rfl
  | cons p l ih =>
    obtain ⟨i, c⟩ := p
    unfold timesRates at h
    split at h
    · cases h
    · rename_i v hv
      split at h
      · cases h
      · rename_i r' hr'
        cases h
        rw [ih hr']
        simp [hv]

theorem mem_sameSet {f : RateFrame} {l : List Reaction}
    (h : sameSet (l.map (fun r => Lab.id r.id)) (f.keys.filter (· ≠ .t))) (i : Nat) :
    Lab.id i ∈ f.keys ↔ ∃ r ∈ l, r.id = i := by
  constructor
  · intro hi
    have := h.2 (List.mem_filter.2 ⟨hi, by simp⟩)
    obtain ⟨r, hr, he⟩ := List.mem_map.1 this
    exact ⟨r, hr, by cases he; rfl⟩
  · rintro ⟨r, hr, rfl⟩
    exact (List.mem_filter.1 (h.1 (List.mem_map_of_mem hr))).1

theorem names_sameSet {f : RateFrame} {l : List Reaction}
    (h : sameSet (l.map (fun r => Lab.id r.id)) (f.keys.filter (· ≠ .t))) (n : Str) : Lab.name n ∉ f.keys := by
  intro hn
  obtain ⟨r, -, he⟩ := List.mem_map.1 (h.2 (List.mem_filter.2 ⟨hn, by simp⟩))
  cases he

theorem sameSet_of {f : RateFrame} {l : List Reaction}
    (h : ∀ i, Lab.id i ∈ f.keys ↔ ∃ r ∈ l, r.id = i) (hn : ∀ n, Lab.name n ∉ f.keys) :
    sameSet (l.map (fun r => Lab.id r.id)) (f.keys.filter (· ≠ .t)) := by
  refine ⟨fun x hx => ?_, fun x hx => ?_⟩
  · obtain ⟨r, hr, rfl⟩ := List.mem_map.1 hx
    exact List.mem_filter.2 ⟨(h _).2 ⟨r, hr, rfl⟩, by simp⟩
  · obtain ⟨h1, h2⟩ := List.mem_filter.1 hx
    cases x with
    | t => simp at h2
    | id i =>
      obtain ⟨r, hr, rfl⟩ := (h i).1 h1
      exact List.mem_map_of_mem (f := fun r : Reaction => Lab.id r.id) hr
    | name n => exact absurd h1 (hn n)

/-- the enabled species (special ones included) are the columns of the matrix used -/
theorem mem_cols {net : Net} {st : State} {s : RP} (hs : s ∈ net.species) :
    s.id ∈ (net.getSpecies st false true true).map RP.id ↔ st.enSp s.id = true := by
  rw [List.mem_map]
  constructor
  · rintro ⟨t, ht, he⟩
    rw [← he]
    exact (mem_getSpecies.1 ht).2
  · intro h
    exact ⟨s, mem_getSpecies.2 ⟨hs, h⟩, rfl⟩

/-- what the function computes once the checks passed -/
theorem volumetric_run (so : Sorter Nat (· ≥ ·)) {net : Net} {st : State} (hr : Reachable net st)
    {x : SpIdent} {s : RP} (hs : net.getRp x = .ok s) {f : RateFrame} (hen : st.enSp s.id = true)
    (hlab : ∀ i, Lab.id i ∈ f.keys ↔ ∃ r ∈ net.getReactions st false, r.id = i) (hname : ∀ n, Lab.name n ∉ f.keys) :
    volumetric so net st x f = .ok (so.sort (((net.getReactions st false).filter
      (fun r => Plaschem.multiplicity r s.id .net ≠ 0)).map
        (fun r => (r.id, (Plaschem.multiplicity r s.id .net : ℝ) * (f.get? (.id r.id)).getD 0)))) := by
  obtain ⟨hwf, -⟩ := reachable_inv hr
  obtain ⟨M, hM, hk, hrow⟩ := stoichiomatrix_entries hr false true (m := .net) (by simp)
  have hmem : s ∈ net.getSpecies st false true true := mem_getSpecies.2 ⟨getRp_mem hs, hen⟩
  have hMap : M.map (fun e => (e.1, (e.2.get? s.id).getD 0)) =
      (net.getReactions st false).map (fun r => (r.id, Plaschem.multiplicity r s.id .net)) := by
    have hg : ∀ r ∈ net.getReactions st false, M.get? r.id = some ((M.get? r.id).getD []) := by
      intro r hr'
      obtain ⟨row, h1, -⟩ := hrow r hr'
      rw [h1]; rfl
    rw [dict_eq_map hk (hwf.rNodup.sublist (List.filter_sublist.map _)) hg, List.map_map]
    refine List.map_congr_left fun r hr' => ?_
    obtain ⟨row, h1, -, h2⟩ := hrow r hr'
    simp only [Function.comp_apply, h1, Option.getD_some, h2 s hmem]
  unfold volumetric
  simp only [hs]
  rw [if_pos (sameSet_of hlab hname)]
  simp only [hM]
  rw [if_pos ((mem_cols (getRp_mem hs)).2 hen), hMap]
  obtain ⟨r, h⟩ := (timesRates_iff (f := f) (l := ((net.getReactions st false).map
    (fun r => (r.id, Plaschem.multiplicity r s.id .net))).filter (·.2 ≠ 0))).2 (by
      intro p hp
      obtain ⟨r, hr', rfl⟩ := List.mem_map.1 (List.mem_filter.1 hp).1
      exact (hlab _).2 ⟨r, hr', rfl⟩)
  rw [h, timesRates_eq h, List.filter_map, List.map_map]
  rfl

/-! ### C73: the volumetric rates -/

/-- **C73.** The volumetric rates of a species can be asked for exactly when the species is found and
enabled and the labels of the frame are the enabled reactions (with or without the time stamp). -/
theorem volumetric_defined (so : Sorter Nat (· ≥ ·)) {net : Net} {st : State} (hr : Reachable net st)
    (x : SpIdent) (f : RateFrame) :
    (∃ l, volumetric so net st x f = .ok l) ↔ (∃ s, net.getRp x = .ok s ∧ st.enSp s.id = true) ∧
      (∀ i, Lab.id i ∈ f.keys ↔ ∃ r ∈ net.getReactions st false, r.id = i) ∧ ∀ n, Lab.name n ∉ f.keys := by
  constructor
  · rintro ⟨l, h⟩
    unfold volumetric at h
    split at h
    · cases h
    rename_i s hs
    split at h
    · rename_i hset
      split at h
      · cases h
      split at h
      · rename_i hcol
        exact ⟨⟨s, hs, (mem_cols (getRp_mem hs)).1 hcol⟩, mem_sameSet hset, names_sameSet hset⟩
      · cases h
    · cases h
  · rintro ⟨⟨s, hs, hen⟩, hlab, hname⟩
    exact ⟨_, volumetric_run so hr hs hen hlab hname⟩

/-- **C73.** The volumetric rates of a species are, for exactly those enabled reactions that change the
number of its particles, the change per event times the rate of the reaction; each reaction is listed once
and the list is in descending order. -/
theorem volumetric_exact {so : Sorter Nat (· ≥ ·)} {net : Net} {st : State} (hr : Reachable net st)
    {x : SpIdent} {s : RP} (hs : net.getRp x = .ok s) {f : RateFrame} {l : List (Nat × ℝ)}
    (h : volumetric so net st x f = .ok l) :
    l.Pairwise (fun a b => a.2 ≥ b.2) ∧ (l.map Prod.fst).Nodup ∧
    ∀ i v, (i, v) ∈ l ↔ ∃ r ∈ net.reactions, st.enR r.id = true ∧ r.id = i ∧
      (r.products.map RP.id).count s.id ≠ (r.reactants.map RP.id).count s.id ∧
      ∃ rate, f.get? (.id i) = some rate ∧
        v = ((r.products.map RP.id).count s.id - (r.reactants.map RP.id).count s.id : ℝ) * rate := by
  obtain ⟨hwf, -⟩ := reachable_inv hr
  obtain ⟨⟨s', hs', hen⟩, hlab, hname⟩ := (volumetric_defined so hr x f).1 ⟨l, h⟩
  rw [hs] at hs'; cases hs'
  rw [volumetric_run so hr hs hen hlab hname] at h
  cases h
  refine ⟨so.ordered _, ?_, fun i v => ?_⟩
  · rw [((so.perm _).map _).nodup_iff, List.map_map]
    exact hwf.rNodup.sublist ((List.filter_sublist.trans List.filter_sublist).map _)
  · rw [(so.perm _).mem_iff, List.mem_map]
    constructor
    · rintro ⟨r, hr', he⟩
      obtain ⟨rfl, rfl⟩ := Prod.mk.inj he
      obtain ⟨h1, h2⟩ := List.mem_filter.1 hr'
      obtain ⟨rate, hrate⟩ := (Dict.mem_keys_iff f _).1 ((hlab r.id).2 ⟨r, h1, rfl⟩)
      have h2' : Plaschem.multiplicity r s.id .net ≠ 0 := by simpa using h2
      have h1' : st.enR r.id = true := by
        simpa [Net.getReactions] using (List.mem_filter.1 h1).2
      refine ⟨r, (List.mem_filter.1 h1).1, h1', rfl, ?_, rate, hrate, ?_⟩
      · unfold Plaschem.multiplicity at h2'
        intro hc; rw [hc] at h2'; simp at h2'
      · rw [hrate]
        simp [Plaschem.multiplicity]
    · rintro ⟨r, hrm, hre, rfl, hne, rate, hrate, rfl⟩
      have h1 : r ∈ net.getReactions st false := List.mem_filter.2 ⟨hrm, by simpa using hre⟩
      refine ⟨r, List.mem_filter.2 ⟨h1, ?_⟩, ?_⟩
      · have : Plaschem.multiplicity r s.id .net ≠ 0 := by
          unfold Plaschem.multiplicity
          simp only
          omega
        simpa using this
      · rw [hrate]
        simp [Plaschem.multiplicity]

/-! ### C73: the surface rates -/

theorem toIds_eq {net : Net} {f : FluxFrame} {w : List (Nat × ℝ)}
    (h : toIds net f = .ok w) :
    List.Forall₂ (fun p q => ∃ t ∈ net.species, t.name = p.1 ∧ t.id = q.1 ∧ p.2 = q.2) f w := by
  induction f generalizing w with
  | nil => cases h; exact .nil
  | cons p f ih =>
    obtain ⟨n, v⟩ := p
    rw [toIds] at h
    split at h
    · cases h
    rename_i s hs
    split at h
    · cases h
    rename_i l hl
    cases h
    refine .cons ⟨s, getRp_mem hs, ?_, rfl, rfl⟩ (ih hl)
    unfold getRp at hs
    simp only at hs
    split at hs
    · rename_i hf
      cases hs
      simpa using List.find?_some hf
    · cases hs

theorem toIds_ok {net : Net} (hwf : WF net) (l : List (RP × ℝ)) (hl : ∀ p ∈ l, p.1 ∈ net.species) :
    toIds net (l.map (fun p => (p.1.name, p.2))) = .ok (l.map (fun p => (p.1.id, p.2))) := by
  induction l with
  | nil => rfl
  | cons p l ih =>
    obtain ⟨s, v⟩ := p
    simp only [List.map_cons, toIds, find_name hwf.nameNodup (hl (s, v) (by simp)),
      ih (fun p hp => hl p (by simp [hp]))]

theorem mem_heavy {net : Net} {st : State} {s : RP} :
    s ∈ net.getSpecies st false false true ↔
      s ∈ net.species ∧ st.enSp s.id = true ∧ s.isSpecial = false := by
  simp [getSpecies, speciesMask]

/-- **C73.** The surface rates of a species, if they are returned: nothing for the electron and `M`, else for
each enabled heavy species `t` the flux of `t` to the wall times wall area over volume, minus the same times
the number of particles of the species that `t` returns (fluxes are negative); `t` itself is lost once. Only
non-zero contributions are listed, each once. The coefficients are those of the return matrix (C21), whose
rows and columns are then exactly the enabled heavy species. -/
theorem surface_exact {net : Net} {st : State} (hr : Reachable net st) {radius length : ℝ}
    {x : SpIdent} {s : RP} (hs : net.getRp x = .ok s) {f : FluxFrame} (hf : f.keys.Nodup)
    {l : List (Nat × ℝ)} (h : surface net st radius length x f = .ok l) :
    (s.isSpecial = true → l = []) ∧
    (s.isSpecial = false → st.enSp s.id = true ∧ ∃ M, net.getReturnMatrix st false = .ok M ∧ M.rows = M.cols ∧
      M.rows.Nodup ∧
      (∀ i, i ∈ M.rows ↔ ∃ t ∈ net.getSpecies st false false true, t.id = i) ∧
      (l.map Prod.fst).Nodup ∧
      ∀ i v, (i, v) ∈ l ↔ v ≠ 0 ∧ ∃ t ∈ net.getSpecies st false false true, t.id = i ∧
        ∃ flux, f.get? t.name = some flux ∧
          v = ((if t = s then 1 else 0) - (M.entry s.id t.id : ℝ)) *
            (flux * (2 * Real.pi * radius * (radius + length)) / (Real.pi * radius ^ 2 * length))) := by
  obtain ⟨hwf, -⟩ := reachable_inv hr
  have hsm := getRp_mem hs
  unfold surface at h
  simp only [hs] at h
  split at h
  swap
  · cases h
  rename_i hset
  refine ⟨fun hsp => by rw [if_pos hsp] at h; cases h; rfl, fun hsp => ?_⟩
  rw [if_neg (by simp [hsp])] at h
  split at h
  · cases h
  rename_i M hM
  split at h
  · cases h
  rename_i w hw
  split at h
  swap
  · cases h
  rename_i hsq
  split at h
  swap
  · cases h
  rename_i hrow
  cases h
  have hF := toIds_eq hw
  have hfk : (Dict.keys (f.filter (·.1 ≠ str!"t"))).Nodup := hf.sublist (List.filter_sublist.map _)
  -- the entries of `w`
  have hheavy : ∀ t ∈ net.species, t.name ∈ Dict.keys (f.filter (·.1 ≠ str!"t")) ↔
      t ∈ net.getSpecies st false false true := by
    intro t ht
    have e : Dict.keys (f.filter (·.1 ≠ str!"t")) = f.keys.filter (· ≠ str!"t") := by
      simp only [Dict.keys, List.filter_map]; rfl
    rw [e]
    constructor
    · intro hm
      obtain ⟨t', ht', hn⟩ := List.mem_map.1 (hset.2 hm)
      rw [← hwf.eq_of_name (mem_heavy.1 ht').1 ht hn]
      exact ht'
    · intro hm
      exact hset.1 (List.mem_map_of_mem hm)
  have hmem : ∀ i v, (i, v) ∈ w ↔ ∃ t ∈ net.getSpecies st false false true, t.id = i ∧
      f.get? t.name = some v := by
    intro i v
    constructor
    · intro hm
      obtain ⟨k, hk, he⟩ := List.getElem_of_mem hm
      have hk' : k < (f.filter (·.1 ≠ str!"t")).length := by rw [hF.length_eq]; exact hk
      obtain ⟨t, ht, h1, h2, h3⟩ := hF.get hk' hk
      rw [List.get_eq_getElem, List.get_eq_getElem] at *
      have hin := List.getElem_mem hk'
      refine ⟨t, (hheavy t ht).1 ?_, by rw [h2, he], ?_⟩
      · rw [h1]; exact List.mem_map_of_mem hin
      · rw [h1, Dict.get?_of_mem hf (List.mem_filter.1 hin).1, h3, he]
    · rintro ⟨t, ht, rfl, hv⟩
      have htn := (hheavy t (mem_heavy.1 ht).1).2 ht
      obtain ⟨p, hp, hpn⟩ := List.mem_map.1 htn
      obtain ⟨k, hk, he⟩ := List.getElem_of_mem hp
      have hk' : k < w.length := by rw [← hF.length_eq]; exact hk
      obtain ⟨t', ht', h1, h2, h3⟩ := hF.get hk hk'
      rw [List.get_eq_getElem] at h1 h2 h3
      have : t' = t := hwf.eq_of_name ht' (mem_heavy.1 ht).1 (by rw [h1, he]; exact hpn)
      subst this
      have hv' : p.2 = v := by
        have := Dict.get?_of_mem hf (List.mem_filter.1 hp).1
        rw [hpn, hv] at this
        exact (Option.some.inj this).symm
      have : w[k] = (t'.id, v) := Prod.ext h2.symm (by
        rw [← hv', ← he]; exact h3.symm)
      rw [← this]; exact List.getElem_mem hk'
  have hrows : ∀ i, i ∈ M.rows ↔ ∃ t ∈ net.getSpecies st false false true, t.id = i := by
    intro i
    rw [← hsq.1, List.mem_map]
    constructor
    · rintro ⟨⟨a, b⟩, hm, rfl⟩
      obtain ⟨t, ht, h1, -⟩ := (hmem _ _).1 hm
      exact ⟨t, ht, h1⟩
    · rintro ⟨t, ht, rfl⟩
      have htn := (hheavy t (mem_heavy.1 ht).1).2 ht
      obtain ⟨p, hp, hpn⟩ := List.mem_map.1 htn
      refine ⟨(t.id, p.2), (hmem _ _).2 ⟨t, ht, rfl, ?_⟩, rfl⟩
      have := Dict.get?_of_mem hf (List.mem_filter.1 hp).1
      rw [hpn] at this; exact this
  have hwn : (w.map Prod.fst).Nodup := by
    rw [List.nodup_iff_injective_get]
    intro a b hab
    have la : a.1 < w.length := a.2.trans_eq (List.length_map _)
    have lb : b.1 < w.length := b.2.trans_eq (List.length_map _)
    have la' : a.1 < (f.filter (·.1 ≠ str!"t")).length := by rw [hF.length_eq]; exact la
    have lb' : b.1 < (f.filter (·.1 ≠ str!"t")).length := by rw [hF.length_eq]; exact lb
    obtain ⟨t, ht, h1, h2, -⟩ := hF.get la' la
    obtain ⟨t', ht', h1', h2', -⟩ := hF.get lb' lb
    simp only [List.get_eq_getElem, List.getElem_map] at hab h1 h2 h1' h2'
    have htt : t = t' := hwf.eq_of_id ht ht' (by rw [h2, h2']; exact hab)
    have hnn : (Dict.keys (f.filter (·.1 ≠ str!"t")))[a.1]'(by simpa [Dict.keys] using la') =
        (Dict.keys (f.filter (·.1 ≠ str!"t")))[b.1]'(by simpa [Dict.keys] using lb') := by
      simp only [Dict.keys, List.getElem_map]
      rw [← h1, ← h1', htt]
    exact Fin.ext ((List.Nodup.getElem_inj_iff hfk).1 hnn)
  obtain ⟨s', hs', hid⟩ := (hrows s.id).1 hrow
  have hss : s' = s := hwf.eq_of_id (mem_heavy.1 hs').1 hsm hid
  refine ⟨by rw [← hss]; exact (mem_heavy.1 hs').2.1, M, hM, hsq.2, hsq.1 ▸ hwn, hrows, ?_, fun i v => ?_⟩
  · refine List.Nodup.sublist (List.filter_sublist.map _) ?_
    rw [List.map_map]
    exact hwn
  · rw [List.mem_filter, List.mem_map]
    have hcalc : ∀ t ∈ net.species, ∀ q : ℝ, ∀ a b : ℝ, (if t.id = s.id then q * a / b else 0) +
        -((M.entry s.id t.id : ℝ) * (q * a / b)) =
        ((if t = s then 1 else 0) - (M.entry s.id t.id : ℝ)) * (q * a / b) := by
      intro t ht q a b
      by_cases hts : t = s
      · subst hts; simp; ring
      · rw [if_neg hts, if_neg (fun hc => hts (hwf.eq_of_id ht hsm hc))]; ring
    constructor
    · rintro ⟨⟨⟨a, b⟩, hm, he⟩, hv⟩
      obtain ⟨rfl, rfl⟩ := Prod.mk.inj he
      obtain ⟨t, ht, rfl, hfl⟩ := (hmem _ _).1 hm
      refine ⟨by simpa using hv, t, ht, rfl, b, hfl, ?_⟩
      exact hcalc t (mem_heavy.1 ht).1 _ _ _
    · rintro ⟨hv, t, ht, rfl, flux, hfl, rfl⟩
      refine ⟨⟨(t.id, flux), (hmem _ _).2 ⟨t, ht, rfl, hfl⟩, ?_⟩, by simpa using hv⟩
      exact Prod.ext rfl (hcalc t (mem_heavy.1 ht).1 _ _ _)

/-! ### C72: the rates add up -/

/-- equations.py:178: the constructor read the return matrix into `D`, by position. (The check of its shape,
equations.py:291, passed.) -/
structure ReadsWall {net : Net} {st : State}
    (D : Data (net.getSpecies st false false true).length (net.getReactions st false).length) : Prop where
  ret : ∃ M, net.getReturnMatrix st false = .ok M ∧
    ∃ (h1 : M.rows.length = (net.getSpecies st false false true).length)
      (h2 : M.cols.length = (net.getSpecies st false false true).length),
      ∀ i k, D.ret i k = (M.entry (M.rows[i]'(i.2.trans_eq h1.symm)) (M.cols[k]'(k.2.trans_eq h2.symm)) : ℝ)

/-- A return matrix of the right shape is labelled by the enabled heavy species in construction order. -/
theorem square_of_shape {net : Net} {st : State} (hr : Reachable net st) (hcl : net.RetClosed)
    (hdict : ∀ d, net.getSpeciesRetCoefs st false false true = .ok d →
      ∀ i c, d.get? i = some (some c) → c.keys.Nodup)
    {M : RetMat} (hM : net.getReturnMatrix st false = .ok M)
    (h1 : M.rows.length = (net.getSpecies st false false true).length)
    (h2 : M.cols.length = (net.getSpecies st false false true).length) :
    M.rows = (net.getSpecies st false false true).map RP.id ∧
    M.cols = (net.getSpecies st false false true).map RP.id := by
  obtain ⟨hwf, -⟩ := reachable_inv hr
  obtain ⟨d, hd, -, -, hnd, hkeys⟩ := ret_coefs_value hr hcl false false true
  obtain ⟨M', hM', hc, hrows, hsq, -⟩ := return_matrix_entries hr hcl false hd (hdict d hd)
  rw [hM] at hM'; cases hM'
  have hids : ((net.getSpecies st false false true).map RP.id).Nodup :=
    hwf.spNodup.sublist (List.filter_sublist.map _)
  have hsub : (net.getSpecies st false false true).map RP.id ⊆ d.keys := by
    intro i hi
    obtain ⟨s, hs, rfl⟩ := List.mem_map.1 hi
    exact (hkeys _).2 (.inl ⟨s, hs, rfl⟩)
  have hperm : ((net.getSpecies st false false true).map RP.id).Perm d.keys :=
    (List.subperm_of_subset hids hsub).perm_of_length_le (by rw [← hc, h2, List.length_map])
  have hdk : d.keys = (net.getSpecies st false false true).map RP.id := by
    obtain ⟨d', hd', hk'⟩ := ret_coefs_index hr false false (fun i hi => by
      have : i ∈ d.keys := (hkeys i).2 (.inr (.inl hi))
      rw [← hperm.mem_iff, List.mem_map] at this
      exact this)
    rw [hd] at hd'; cases hd'
    exact hk'
  have hrc : M.rows = M.cols := by
    apply hsq
    intro t ht hj
    by_contra hn
    have hsub2 : t.id :: d.keys ⊆ M.rows := by
      intro i hi
      rcases List.mem_cons.1 hi with rfl | hi
      · exact (hrows _).2 (.inr ⟨t, ht, rfl, hj⟩)
      · exact (hrows _).2 (.inl hi)
    have := (List.subperm_of_subset (List.nodup_cons.2 ⟨hn, hnd⟩) hsub2).length_le
    rw [List.length_cons, h1, ← hc, h2] at this
    omega
  exact ⟨by rw [hrc, hc, hdk], by rw [hc, hdk]⟩

/-- one row of the rates log: time stamp and the rate of each enabled reaction, labelled by its id -/
def rateFrame (net : Net) (st : State) (time : ℝ) (rates : Fin (net.getReactions st false).length → ℝ) :
    RateFrame :=
  (.t, time) :: (List.finRange _).map (fun j => (.id (reAt net st j).id, rates j))

/-- one row of the wall fluxes log: time stamp and the flux of each enabled heavy species, labelled by its
name -/
def fluxFrame (net : Net) (st : State) (time : ℝ)
    (w : Fin (net.getSpecies st false false true).length → ℝ) : FluxFrame :=
  (str!"t", time) :: (List.finRange _).map (fun i => ((spAt net st i).name, w i))

theorem map_finRange {α β : Type} (l : List α) (g : α → β) :
    (List.finRange l.length).map (fun j => g l[j]) = l.map g := by
  refine List.ext_getElem (by simp) fun i h1 h2 => by simp

theorem reAt_nodup {net : Net} (hwf : WF net) (st : State) :
    ((List.finRange (net.getReactions st false).length).map (fun j => (reAt net st j).id)).Nodup := by
  rw [map_finRange (net.getReactions st false) Reaction.id]
  exact hwf.rNodup.sublist (List.filter_sublist.map _)

theorem rateFrame_get {net : Net} (hwf : WF net) (st : State) (time : ℝ)
    (rates : Fin (net.getReactions st false).length → ℝ) (j) :
    (rateFrame net st time rates).get? (.id (reAt net st j).id) = some (rates j) := by
  unfold rateFrame
  rw [Dict.get?_cons, if_neg (by simp)]
  refine Dict.get?_of_mem ?_ (List.mem_map.2 ⟨j, List.mem_finRange j, rfl⟩)
  have : Dict.keys ((List.finRange (net.getReactions st false).length).map
      (fun j => (Lab.id (reAt net st j).id, rates j))) =
      ((List.finRange (net.getReactions st false).length).map (fun j => (reAt net st j).id)).map Lab.id := by
    simp [Dict.keys, Function.comp_def]
  rw [this]
  exact (reAt_nodup hwf st).map (fun a b h => by cases h; rfl)

theorem rateFrame_keys {net : Net} (st : State) (time : ℝ)
    (rates : Fin (net.getReactions st false).length → ℝ) (i : Nat) :
    Lab.id i ∈ (rateFrame net st time rates).keys ↔ ∃ r ∈ net.getReactions st false, r.id = i := by
  unfold rateFrame
  simp only [Dict.keys, List.map_cons, List.map_map, List.mem_cons, reduceCtorEq, false_or, List.mem_map,
    List.mem_finRange, true_and, Function.comp_apply]
  constructor
  · rintro ⟨j, he⟩
    cases he
    exact ⟨_, List.getElem_mem _, rfl⟩
  · rintro ⟨r, hr, rfl⟩
    obtain ⟨k, hk, he⟩ := List.getElem_of_mem hr
    exact ⟨⟨k, hk⟩, by rw [← he]; rfl⟩

theorem sum_map_filter {α : Type} (l : List α) (p : α → Bool) (g : α → ℝ) (h : ∀ a ∈ l, p a = false → g a = 0) :
    ((l.filter p).map g).sum = (l.map g).sum := by
  induction l with
  | nil => rfl
  | cons a l ih =>
    have ih' := ih (fun b hb => h b (by simp [hb]))
    by_cases hp : p a = true
    · rw [List.filter_cons_of_pos hp, List.map_cons, List.map_cons, List.sum_cons, List.sum_cons, ih']
    · rw [List.filter_cons_of_neg hp, List.map_cons, List.sum_cons, ih', h a (by simp) (by simpa using hp),
        zero_add]

theorem sum_finRange {n : ℕ} (g : Fin n → ℝ) : ((List.finRange n).map g).sum = ∑ j, g j := by
  rw [← List.ofFn_eq_map, List.sum_ofFn]

/-- the volumetric rates of a row of the log sum to the net production of the species -/
theorem volumetric_sum (so : Sorter Nat (· ≥ ·)) {net : Net} {st : State} (hr : Reachable net st)
    {x : SpIdent} {s : RP} (hs : net.getRp x = .ok s) (hen : st.enSp s.id = true) (time : ℝ)
    (rates : Fin (net.getReactions st false).length → ℝ) :
    ∃ l, volumetric so net st x (rateFrame net st time rates) = .ok l ∧
      (l.map Prod.snd).sum = ∑ j, (Plaschem.multiplicity (reAt net st j) s.id .net : ℝ) * rates j := by
  obtain ⟨hwf, -⟩ := reachable_inv hr
  refine ⟨_, volumetric_run so hr hs hen (rateFrame_keys st time rates) (by
    simp [rateFrame, Dict.keys]), ?_⟩
  rw [((so.perm _).map Prod.snd).sum_eq, List.map_map, sum_map_filter _ _ _ (by
    intro r _ h
    have : Plaschem.multiplicity r s.id .net = 0 := by simpa using h
    simp [this])]
  rw [← map_finRange (net.getReactions st false), sum_finRange]
  refine sum_congr rfl fun j _ => ?_
  simp only [Function.comp_apply]
  rw [rateFrame_get hwf st time rates j]
  rfl

theorem fluxFrame_filter (net : Net) (st : State) (time : ℝ)
    (w : Fin (net.getSpecies st false false true).length → ℝ)
    (ht : ∀ s ∈ net.getSpecies st false false true, s.name ≠ str!"t") :
    (fluxFrame net st time w).filter (·.1 ≠ str!"t") =
      (List.finRange _).map (fun i => ((spAt net st i).name, w i)) := by
  unfold fluxFrame
  rw [List.filter_cons_of_neg (by simp), List.filter_eq_self]
  intro p hp
  obtain ⟨i, -, rfl⟩ := List.mem_map.1 hp
  simpa using ht _ (List.getElem_mem i.2)

theorem fluxFrame_labels (net : Net) (st : State) (time : ℝ)
    (w : Fin (net.getSpecies st false false true).length → ℝ)
    (ht : ∀ s ∈ net.getSpecies st false false true, s.name ≠ str!"t") :
    sameSet (net.getSpeciesName st false false true)
      ((fluxFrame net st time w).keys.filter (· ≠ str!"t")) := by
  have e : (fluxFrame net st time w).keys.filter (· ≠ str!"t") = net.getSpeciesName st false false true := by
    have : (fluxFrame net st time w).keys.filter (· ≠ str!"t") =
        ((fluxFrame net st time w).filter (·.1 ≠ str!"t")).map Prod.fst := by
      simp only [Dict.keys, List.filter_map]; rfl
    rw [this, fluxFrame_filter net st time w ht, List.map_map]
    exact map_finRange (net.getSpecies st false false true) RP.name
  rw [e]
  exact ⟨fun _ h => h, fun _ h => h⟩

/-- the surface rates of a row of the log sum to the wall source of the species -/
theorem surface_sum {net : Net} {st : State} (hr : Reachable net st) (hcl : net.RetClosed)
    (hdict : ∀ d, net.getSpeciesRetCoefs st false false true = .ok d →
      ∀ i c, d.get? i = some (some c) → c.keys.Nodup)
    (ht : ∀ s ∈ net.getSpecies st false false true, s.name ≠ str!"t")
    {D : Data (net.getSpecies st false false true).length (net.getReactions st false).length}
    (hw : ReadsWall D) {x : SpIdent} (i : Fin (net.getSpecies st false false true).length)
    (hs : net.getRp x = .ok (spAt net st i)) (time : ℝ)
    (w : Fin (net.getSpecies st false false true).length → ℝ) :
    ∃ l, surface net st D.r D.z x (fluxFrame net st time w) = .ok l ∧
      (l.map Prod.snd).sum = D.fSinks w i - ∑ k, D.fSinks w k * D.ret i k := by
  obtain ⟨hwf, -⟩ := reachable_inv hr
  obtain ⟨M, hM, h1, h2, hret⟩ := hw.ret
  obtain ⟨hrows, hcols⟩ := square_of_shape hr hcl hdict hM h1 h2
  have hret' : ∀ i k, D.ret i k = (M.entry (spAt net st i).id (spAt net st k).id : ℝ) := by
    intro i k
    rw [hret]
    have e1 : M.rows[i]'(i.2.trans_eq h1.symm) = (spAt net st i).id := by
      have : M.rows[i]'(i.2.trans_eq h1.symm) =
        ((net.getSpecies st false false true).map RP.id)[i]'(by simp) := getElem_congr_coll hrows
      rw [this]; simp
    have e2 : M.cols[k]'(k.2.trans_eq h2.symm) = (spAt net st k).id := by
      have : M.cols[k]'(k.2.trans_eq h2.symm) =
        ((net.getSpecies st false false true).map RP.id)[k]'(by simp) := getElem_congr_coll hcols
      rw [this]; simp
    rw [e1, e2]
  have hin : spAt net st i ∈ net.getSpecies st false false true := List.getElem_mem i.2
  have hfil := fluxFrame_filter net st time w ht
  have hids : toIds net ((fluxFrame net st time w).filter (·.1 ≠ str!"t")) =
      .ok ((List.finRange _).map (fun i => ((spAt net st i).id, w i))) := by
    rw [hfil]
    have := toIds_ok hwf ((List.finRange _).map (fun i => (spAt net st i, w i))) (by
      intro p hp
      obtain ⟨k, -, rfl⟩ := List.mem_map.1 hp
      exact (mem_heavy.1 (List.getElem_mem k.2)).1)
    simpa only [List.map_map, Function.comp_def] using this
  have hfst : ((List.finRange (net.getSpecies st false false true).length).map
      (fun i => ((spAt net st i).id, w i))).map Prod.fst = (net.getSpecies st false false true).map RP.id := by
    rw [List.map_map]
    exact map_finRange (net.getSpecies st false false true) RP.id
  have hset := fluxFrame_labels net st time w ht
  refine ⟨_, by
    unfold surface
    simp only [hs]
    rw [if_pos hset, if_neg (by rw [(mem_heavy.1 hin).2.2]; simp)]
    simp only [hM, hids]
    rw [if_pos ⟨by rw [hfst, hrows], by rw [hrows, hcols]⟩,
      if_pos (by rw [hrows]; exact List.mem_map_of_mem hin)], ?_⟩
  rw [sum_map_filter _ _ _ (by intro p _ h; simpa using h), List.map_map, List.map_map, sum_finRange]
  simp only [Function.comp_apply]
  rw [sum_add_distrib, sum_neg_distrib, ← sub_eq_add_neg]
  congr 1
  · rw [sum_eq_single i]
    · rw [if_pos rfl]; rfl
    · intro k _ hk
      rw [if_neg]
      intro hc
      apply hk
      have hn : ((net.getSpecies st false false true).map RP.id).Nodup :=
        hwf.spNodup.sublist (List.filter_sublist.map _)
      have := (List.Nodup.getElem_inj_iff hn (hi := by simp) (hj := by simp)
        (i := k.1) (j := i.1)).1 (by simpa using hc)
      exact Fin.ext this
    · intro h; exact absurd (mem_univ i) h
  · refine sum_congr rfl fun k _ => ?_
    rw [hret']
    exact mul_comm _ _

/-- **C72.** The contributions reported for a species add up to its time derivative: take any reachable state
of a chemistry, any equations built from it, any point `y` and time, and the rates and wall fluxes the
equations report at `y` (whatever was evaluated before). Then for every enabled heavy species, however it is
referred to, both reports succeed, and the sum of all volumetric rates, all surface rates, the flow term and
the artificial correction is the component of the right-hand side that the solver integrates. -/
theorem rates_add_up (so : Sorter Nat (· ≥ ·)) {net : Net} {st : State} (hr : Reachable net st)
    (hcl : net.RetClosed)
    (hdict : ∀ d, net.getSpeciesRetCoefs st false false true = .ok d →
      ∀ i c, d.get? i = some (some c) → c.keys.Nodup)
    (ht : ∀ s ∈ net.getSpecies st false false true, s.name ≠ str!"t")
    {D : Data (net.getSpecies st false false true).length (net.getReactions st false).length}
    (hread : Reads D) (hw : ReadsWall D) (time : ℝ) (y : Y _)
    (junk : Data.Cache _ _) (calls : List (Data.Call _ _)) {x : SpIdent}
    (i : Fin (net.getSpecies st false false true).length) (hs : net.getRp x = .ok (spAt net st i)) :
    let c := D.history junk calls
    ∃ vol surf,
      volumetric so net st x
        (rateFrame net st time ((D.getReactionRates y none none none none).run c).1) = .ok vol ∧
      surface net st D.r D.z x
        (fluxFrame net st time ((D.getWallFluxes y none none none).run c).1) = .ok surf ∧
      (vol.map Prod.snd).sum + (surf.map Prod.snd).sum + D.getFlowSourceRates y none none i
        + Data.getMinNCorrection y none i = ((D.objective time y).run c).1.n i := by
  intro c
  have hin : spAt net st i ∈ net.getSpecies st false false true := List.getElem_mem i.2
  have e0 : ((D.getReactionRates y none none none none).run c).1 = D.pRates y :=
    (D.gives_rates y _ (D.valid_history junk calls)).1
  have e1 : ((D.getWallFluxes y none none none).run c).1 = D.pWall y :=
    (D.gives_wall y _ (D.valid_history junk calls)).1
  obtain ⟨vol, hv, hvs⟩ := volumetric_sum so hr hs (mem_heavy.1 hin).2.1 time (D.pRates y)
  obtain ⟨surf, hf, hfs⟩ := surface_sum hr hcl hdict ht hw i hs time (D.pWall y)
  refine ⟨vol, surf, by rw [e0]; exact hv, by rw [e1]; exact hf, ?_⟩
  rw [D.objective_history_independent]
  have h3 : (D.rhs time y).n i = D.pVol y i + D.getFlowSourceRates y none none i + D.pSrc y i
      + Data.getMinNCorrection y none i := rfl
  have h4 : D.pVol y i = ∑ j, (D.net j i : ℝ) * D.pRates y j := rfl
  have h5 : D.pSrc y i = D.pSinks y i + ∑ k, -D.pSinks y k * D.ret i k := rfl
  have h6 : ∀ j, (D.net j i : ℝ) = (Plaschem.multiplicity (reAt net st j) (spAt net st i).id .net : ℝ) := by
    intro j
    obtain ⟨N, hN, hn⟩ := hread.netC
    obtain ⟨N', hN', -, hrow⟩ := stoichiomatrix_entries hr false false (m := .net) (by simp)
    rw [hN] at hN'; cases hN'
    obtain ⟨row, h1, -, h2⟩ := hrow (reAt net st j) (List.getElem_mem _)
    rw [hn]
    unfold cell
    rw [h1]
    simp only [h2 _ hin, Option.getD_some]
  rw [hvs, hfs, h3, h4, h5]
  simp only [h6]
  have h7 : ∑ k, -D.pSinks y k * D.ret i k = -∑ k, D.pSinks y k * D.ret i k := by
    rw [← sum_neg_distrib]
    exact sum_congr rfl fun k _ => by ring
  rw [h7]
  have h8 : D.fSinks (D.pWall y) = D.pSinks y := rfl
  rw [h8]
  ring

private theorem column_row {cols : List RP} (hn : (cols.map RP.id).Nodup) {s : RP} (hs : s ∈ cols)
    {m : Method} {rs : List Reaction} {E : Dict Nat Int} {M : Dict Nat (Dict Nat Int)}
    (hE : stoichColumn s.id m rs = .ok E) (hM : stoichRows cols m rs = .ok M) :
    E = M.map (fun e => (e.1, (e.2.get? s.id).getD 0)) := by
  induction rs generalizing E M with
  | nil => cases hE; cases hM; rfl
  | cons r rs ih =>
    rw [stoichColumn] at hE
    rw [stoichRows] at hM
    cases hc : r.getStoichCoefs m with
    | error e => rw [hc] at hE; cases hE
    | ok coefs =>
      simp only [hc] at hE hM
      cases hE' : stoichColumn s.id m rs with
      | error e => rw [hE'] at hE; cases hE
      | ok E' =>
        cases hM' : stoichRows cols m rs with
        | error e => rw [hM'] at hM; cases hM
        | ok M' =>
          rw [hE'] at hE; rw [hM'] at hM
          cases hE; cases hM
          rw [ih hE' hM', List.map_cons]
          unfold stoichRow
          rw [Dict.get?_map cols RP.id _ hn hs]
          rfl

/-- **C72.** For the electron the volumetric rates add up to the electron production rate that enters the
energy equation, and there are no surface rates. -/
theorem electron_rates_add_up (so : Sorter Nat (· ≥ ·)) {net : Net} {st : State} (hr : Reachable net st)
    (hq : net.requiresCharge = true)
    (ht : ∀ s ∈ net.getSpecies st false false true, s.name ≠ str!"t")
    {D : Data (net.getSpecies st false false true).length (net.getReactions st false).length}
    (hread : Reads D) (time : ℝ) (rates : Fin (net.getReactions st false).length → ℝ)
    (w : Fin (net.getSpecies st false false true).length → ℝ) :
    ∃ vol, volumetric so net st (.name str!"e") (rateFrame net st time rates) = .ok vol ∧
      surface net st D.r D.z (.name str!"e") (fluxFrame net st time w) = .ok [] ∧
      (vol.map Prod.snd).sum = ∑ j, (D.eNet j : ℝ) * rates j := by
  obtain ⟨hwf, hinv⟩ := reachable_inv hr
  obtain ⟨e, hem, hen, hname⟩ := hinv.ok.electron hq
  have hge : net.getRp (.name str!"e") = .ok e := hname ▸ find_name hwf.nameNodup hem
  obtain ⟨vol, hv, hvs⟩ := volumetric_sum so hr hge hen time rates
  refine ⟨vol, hv, ?_, hvs.trans (sum_congr rfl fun j _ => ?_)⟩
  · unfold surface
    simp only [hge]
    rw [if_pos (fluxFrame_labels net st time w ht), if_pos (by simp [RP.isSpecial, hname])]
  · obtain ⟨E, hE, he⟩ := hread.eNet
    obtain ⟨M, hM, hk, hrow⟩ := stoichiomatrix_entries hr false true (m := .net) (by simp)
    have hcol : e ∈ net.getSpecies st false true true := mem_getSpecies.2 ⟨hem, hen⟩
    have hn : ((net.getSpecies st false true true).map RP.id).Nodup :=
      hwf.spNodup.sublist (List.filter_sublist.map _)
    unfold stoichElectron at hE
    rw [hge] at hE
    have hEM := column_row hn hcol hE hM
    obtain ⟨row, h1, -, h2⟩ := hrow (reAt net st j) (List.getElem_mem _)
    have hkn : M.keys.Nodup := by
      rw [hk]; exact hwf.rNodup.sublist (List.filter_sublist.map _)
    have : E.get? (reAt net st j).id = some (Plaschem.multiplicity (reAt net st j) e.id .net) := by
      rw [hEM]
      have hm : ((reAt net st j).id, Plaschem.multiplicity (reAt net st j) e.id .net) ∈
          M.map (fun p => (p.1, (p.2.get? e.id).getD 0)) :=
        List.mem_map.2 ⟨_, Dict.mem_of_get? h1, by simp only [h2 e hcol, Option.getD_some]⟩
      have hk2 : Dict.keys (M.map (fun p => (p.1, (p.2.get? e.id).getD 0))) = M.keys := by
        simp [Dict.keys, Function.comp_def]
      exact Dict.get?_of_mem (hk2 ▸ hkn) hm
    rw [he, this]
    rfl

/-- **C73.** In a balanced chemistry nothing is reported for `M`: the unspecified collision partner is neither
produced nor consumed. -/
theorem arbitrary_rates_empty {so : Sorter Nat (· ≥ ·)} {net : Net} {st : State} (hr : Reachable net st)
    {F : Str → Option (Dict Str Nat)} (hFM : ∀ n d, F n = some d → d.get? str!"M" = none)
    (hb : ∀ r ∈ net.reactions, Balanced F r.reactants r.products)
    {f : RateFrame} {l : List (Nat × ℝ)} (h : volumetric so net st (.name str!"M") f = .ok l) : l = [] := by
  obtain ⟨hwf, -⟩ := reachable_inv hr
  obtain ⟨⟨s, hs, hen⟩, -⟩ := (volumetric_defined so hr _ f).1 ⟨l, h⟩
  have hsm := getRp_mem hs
  have hname : s.name = str!"M" := by
    unfold getRp at hs
    simp only at hs
    split at hs
    · rename_i hf
      cases hs
      simpa using List.find?_some hf
    · cases hs
  obtain ⟨-, -, hmem⟩ := volumetric_exact hr hs h
  refine List.eq_nil_iff_forall_not_mem.2 ?_
  rintro ⟨i, v⟩ hv
  obtain ⟨r, hrm, -, -, hne, -⟩ := (hmem i v).1 hv
  apply hne
  have hatom : ∀ t : RP, t.atomCount F str!"M" = if t.name = str!"M" then 1 else 0 := by
    intro t
    unfold RP.atomCount RP.getAtoms
    by_cases h1 : t.name = str!"e"
    · simp [h1, Dict.get?]
    · rw [if_neg h1]
      by_cases h2 : t.name = str!"M"
      · simp [h2, Dict.get?]
      · rw [if_neg h2, if_neg h2]
        cases t.getStateless with
        | error e => rfl
        | ok n =>
          simp only
          cases hF : F (stripCharge n) with
          | none => rfl
          | some d => simp [hFM _ _ hF]
  have hcount : ∀ (ps : List RP), (∀ p ∈ ps, p ∈ net.species) →
      (ps.map (fun t => t.atomCount F str!"M")).sum = (ps.map RP.id).count s.id := by
    intro ps hps
    induction ps with
    | nil => rfl
    | cons p ps ih =>
      rw [List.map_cons, List.map_cons, List.sum_cons, List.count_cons, ih (fun q hq => hps q (by simp [hq])),
        hatom, add_comm]
      congr 1
      by_cases hp : p.name = str!"M"
      · rw [if_pos hp, hwf.eq_of_name (hps p (by simp)) hsm (hp.trans hname.symm)]; simp
      · rw [if_neg hp, if_neg]
        simp only [beq_iff_eq]
        intro hc
        exact hp (by rw [hwf.eq_of_id (hps p (by simp)) hsm hc, hname])
  have hcl := hwf.closed r hrm
  have := (hb r hrm).2 str!"M"
  rw [hcount _ (fun p hp => hcl p (by simp [Reaction.rps, hp])),
    hcount _ (fun p hp => hcl p (by simp [Reaction.rps, hp]))] at this
  exact this.symm

/-! ### C73: the printed lists -/

/-- **C73.** `print_production_processes` shows the largest positive contributions in descending order: every
line shown is a positive rate (times the unit factor), and any positive rate not shown is at most as large as
all those shown; as many are shown as asked for, if there are that many, and all of them by default. -/
theorem production_exact (so : Sorter Proc (· ≥ ·)) (n : Option Nat) (vol surf : List (Nat × ℝ)) :
    let shown := production so n 1 vol surf
    let positive := (allRates vol surf).filter (fun p => p.2 > 0)
    shown.Pairwise (fun a b => a.2 ≥ b.2) ∧
    shown.length = min (n.getD positive.length) positive.length ∧
    (∃ rest, (shown ++ rest).Perm positive ∧ ∀ a ∈ shown, ∀ b ∈ rest, b.2 ≤ a.2) ∧
    (n = none → shown.Perm positive) ∧
    ∀ factor, production so n factor vol surf = shown.map (fun p => (p.1, p.2 * factor)) := by
  intro shown positive
  have hsh : shown = (so.sort positive).take (n.getD positive.length) := by
    show List.map _ _ = _
    simp only [mul_one, Prod.mk.eta, List.map_id']
    rfl
  have hord := so.ordered positive
  refine ⟨?_, ?_, ⟨(so.sort positive).drop (n.getD positive.length), ?_, ?_⟩, ?_, ?_⟩
  · rw [hsh]; exact hord.sublist (List.take_sublist _ _)
  · rw [hsh, List.length_take, (so.perm positive).length_eq]
  · rw [hsh, List.take_append_drop]; exact so.perm positive
  · rw [hsh]
    rw [← List.take_append_drop (n.getD positive.length) (so.sort positive), List.pairwise_append] at hord
    exact fun a ha b hb => hord.2.2 a ha b hb
  · rintro rfl
    rw [hsh, Option.getD_none, List.take_of_length_le (so.perm positive).length_eq.le]
    exact so.perm positive
  · intro factor
    rw [hsh]; rfl

/-- **C73.** `print_consumption_processes`: likewise for the negative contributions, strongest first. -/
theorem consumption_exact (so : Sorter Proc (· ≤ ·)) (n : Option Nat) (vol surf : List (Nat × ℝ)) :
    let shown := consumption so n 1 vol surf
    let negative := (allRates vol surf).filter (fun p => p.2 < 0)
    shown.Pairwise (fun a b => a.2 ≤ b.2) ∧
    shown.length = min (n.getD negative.length) negative.length ∧
    (∃ rest, (shown ++ rest).Perm negative ∧ ∀ a ∈ shown, ∀ b ∈ rest, a.2 ≤ b.2) ∧
    (n = none → shown.Perm negative) ∧
    ∀ factor, consumption so n factor vol surf = shown.map (fun p => (p.1, p.2 * factor)) := by
  intro shown negative
  have hsh : shown = (so.sort negative).take (n.getD negative.length) := by
    show List.map _ _ = _
    simp only [mul_one, Prod.mk.eta, List.map_id']
    rfl
  have hord := so.ordered negative
  refine ⟨?_, ?_, ⟨(so.sort negative).drop (n.getD negative.length), ?_, ?_⟩, ?_, ?_⟩
  · rw [hsh]; exact hord.sublist (List.take_sublist _ _)
  · rw [hsh, List.length_take, (so.perm negative).length_eq]
  · rw [hsh, List.take_append_drop]; exact so.perm negative
  · rw [hsh]
    rw [← List.take_append_drop (n.getD negative.length) (so.sort negative), List.pairwise_append] at hord
    exact fun a ha b hb => hord.2.2 a ha b hb
  · rintro rfl
    rw [hsh, Option.getD_none, List.take_of_length_le (so.perm negative).length_eq.le]
    exact so.perm negative
  · intro factor
    rw [hsh]; rfl

/-- **C72.** Printed production and consumption together are all the contributions: their totals add up to
the total of the volumetric and the surface rates. -/
theorem printed_add_up (so : Sorter Proc (· ≥ ·)) (so' : Sorter Proc (· ≤ ·)) (vol surf : List (Nat × ℝ)) :
    ((production so none 1 vol surf).map Prod.snd).sum + ((consumption so' none 1 vol surf).map Prod.snd).sum =
      (vol.map Prod.snd).sum + (surf.map Prod.snd).sum := by
  rw [(((production_exact so none vol surf).2.2.2.1 rfl).map Prod.snd).sum_eq,
    (((consumption_exact so' none vol surf).2.2.2.1 rfl).map Prod.snd).sum_eq]
  have key : ∀ l : List (Proc × ℝ), ((l.filter (fun p => p.2 > 0)).map Prod.snd).sum +
      ((l.filter (fun p => p.2 < 0)).map Prod.snd).sum = (l.map Prod.snd).sum := by
    intro l
    induction l with
    | nil => simp
    | cons p l ih =>
      rcases lt_trichotomy p.2 0 with h | h | h
      · rw [List.filter_cons_of_neg (by simpa using h.le), List.filter_cons_of_pos (by simpa using h),
          List.map_cons, List.map_cons, List.sum_cons, List.sum_cons, ← ih]
        ring
      · rw [List.filter_cons_of_neg (by simp [h]), List.filter_cons_of_neg (by simp [h]),
          List.map_cons, List.sum_cons, h, zero_add, ih]
      · rw [List.filter_cons_of_pos (by simpa using h), List.filter_cons_of_neg (by simpa using h.le),
          List.map_cons, List.map_cons, List.sum_cons, List.sum_cons, ← ih]
        ring
  rw [key]
  simp [allRates, Function.comp_def]

end Verif.Fwork.Rates
