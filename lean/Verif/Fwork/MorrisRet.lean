/-
Model of pygmo_fwork/optichem/morris.py, part 3: mapping factors to surface return coefficients (C46), on top of the
chemistry model.

The power `rel_range**exponent` is a parameter `pw` (its values are in general not rational); what the theorems need of
it is stated in each of them.
-/
import Verif.Plaschem.AdhocRet
import Verif.Fwork.Morris
import Mathlib.Algebra.BigOperators.Group.List.Basic

namespace Verif.Fwork.Morris
open Verif.Plaschem
open Verif.Plaschem.Net

/-! ### model -/

/-- exceptions of `_map_a_factor_to_ret_coef` -/
inductive RetErr where
  /-- `MorrisInputsError` -/
  | inputs
  | chem (e : Err)
  /-- `KeyError`: a species is not among the enabled ones -/
  | key
  /-- `TypeError` or `AttributeError` on `None` -/
  | none
  | assertion
deriving DecidableEq

/-- one factor: what is varied and how (morris.py:572-582) -/
structure Pair where
  stuck : Str
  ret : Str
  nominal : ℚ
  range : ℚ

/-- `ret_matrix.at[i, j]` -/
def at? (M : RetMat) (i j : Nat) : Option ℚ := if i ∈ M.rows ∧ j ∈ M.cols then some (M.entry i j) else none

/-- morris.py:243-329 `_map_a_factor_to_ret_coef`; the species are given by name, as in `run_trajectory` -/
def mapRet (net : Net) (pw : ℚ → ℚ → ℚ) (st : State) (p : Pair) (x : ℚ) : Except RetErr State :=
  if p.range ≤ 1 then .error .inputs
  else
    match net.getRp (.name p.stuck), net.getRp (.name p.ret) with
    | .ok s, .ok t =>
      if s.isSpecial ∨ t.isSpecial then .error .inputs
      else if ¬ 0 < p.nominal then .error .inputs
      else if s.id = t.id then .error .inputs
      else
        match (net.getSpeciesStickCoef st false false true).get? s.id with
        | none => .error .key
        | some stick =>
          match net.getReturnMatrix st false with
          | .error e => .error (.chem e)
          | .ok M =>
            match at? M t.id s.id, at? M s.id s.id with
            | some orig, some origSelf =>
              if ¬ (0 ≤ x ∧ x ≤ 1) then .error .assertion
              else
                match stick with
                | none => .error .none
                | some q =>
                  if ¬ 0 < q then .error .inputs
                  else if origSelf - (p.nominal * pw p.range (2 * x - 1) - orig) < 0 then .error .inputs
                  else
                    match net.getSpeciesRetCoefs st false false true with
                    | .error e => .error (.chem e)
                    | .ok d =>
                      match d.get? s.id with
                      | none => .error .key
                      | some none => .error .none
                      | some (some c) =>
                        match net.setAdhocRet st (.obj s)
                            ((c.set t.name (p.nominal * pw p.range (2 * x - 1))).set s.name
                              (origSelf - (p.nominal * pw p.range (2 * x - 1) - orig))) with
                        | (st', none) => .ok st'
                        | (_, some e) => .error (.chem e)
            | _, _ => .error .key
    | .error e, _ => .error (.chem e)
    | _, .error e => .error (.chem e)

/-- the calls of a trajectory, one after the other -/
def mapRets (net : Net) (pw : ℚ → ℚ → ℚ) : State → List (Pair × ℚ) → Except RetErr State
  | st, [] => .ok st
  | st, (p, x) :: l =>
    match mapRet net pw st p x with
    | .error e => .error e
    | .ok st' => mapRets net pw st' l

/-! ### specification -/

/-- The return dictionary the chemistry hands out for a species. -/
def retDict (net : Net) (st : State) (s : RP) : Option (Dict Str ℚ) :=
  match net.getSpeciesRetCoefs st false false true with
  | .ok d => (d.get? s.id).join
  | .error _ => none

/-- The coefficient with which `s` returns the species named `n`. -/
def coef (net : Net) (st : State) (s : RP) (n : Str) : ℚ := ((retDict net st s).bind (fun c => c.get? n)).getD 0

/-- How many particles `s` returns in all. -/
def total (net : Net) (st : State) (s : RP) : ℚ := ((retDict net st s).map (fun c => (c.map Prod.snd).sum)).getD 0

/-- The nominal and the ad-hoc return dictionaries have no repeated keys (as Python dictionaries do not). -/
structure PyDicts (net : Net) (st : State) : Prop where
  nominal : ∀ s ∈ net.species, ∀ c, s.getRetCoefs = .ok (some c) → c.keys.Nodup
  adhoc : ∀ e ∈ st.adRet, e.2.keys.Nodup

/-- Nothing but the ad-hoc return coefficients differs. -/
structure SameButRet (a b : State) : Prop where
  enSp : a.enSp = b.enSp
  enR : a.enR = b.enR
  protSp : a.protSp = b.protSp
  adhocSp : a.adhocSp = b.adhocSp
  stick : a.adStick = b.adStick
  arrh : a.adArrhA = b.adArrhA

/-! ### lemmas -/

theorem SameButRet.refl (a : State) : SameButRet a a := ⟨rfl, rfl, rfl, rfl, rfl, rfl⟩

theorem SameButRet.trans {a b c : State} (h : SameButRet a b) (k : SameButRet b c) : SameButRet a c :=
  ⟨h.enSp.trans k.enSp, h.enR.trans k.enR, h.protSp.trans k.protSp, h.adhocSp.trans k.adhocSp, h.stick.trans k.stick,
    h.arrh.trans k.arrh⟩

theorem SameButRet.species {net : Net} {a b : State} (h : SameButRet a b) (d s p : Bool) :
    net.getSpecies a d s p = net.getSpecies b d s p := by
  unfold getSpecies speciesMask
  simp only [h.enSp, h.protSp, h.adhocSp]

theorem sum_set {d : Dict Str ℚ} (hn : d.keys.Nodup) (k : Str) (v : ℚ) :
    ((d.set k v).map Prod.snd).sum = (d.map Prod.snd).sum - (d.get? k).getD 0 + v := by
  induction d with
  | nil => simp [Dict.set, Dict.get?]
  | cons e d ih =>
    obtain ⟨j, w⟩ := e
    simp only [Dict.keys, List.map_cons, List.nodup_cons] at hn
    rw [Dict.get?_cons]
    unfold Dict.set
    by_cases h : j = k
    · rw [if_pos h, if_pos h]
      simp
      ring
    · rw [if_neg h, if_neg h]
      simp only [List.map_cons, List.sum_cons]
      rw [ih hn.2]
      ring

theorem nodup_set {d : Dict Str ℚ} (h : d.keys.Nodup) (k : Str) (v : ℚ) : (d.set k v).keys.Nodup := by
  rw [Dict.keys_set]
  split
  · exact h
  · rename_i hk
    rw [List.nodup_append]
    refine ⟨h, by simp, ?_⟩
    rintro a ha b hb rfl
    rw [List.mem_singleton] at hb
    exact hk (hb ▸ ha)

theorem retDict_eq {net : Net} {st : State} (h : Reachable net st) (hcl : net.RetClosed) {s : RP}
    (hs : s ∈ net.getSpecies st false false true) :
    ∃ nominal, s.getRetCoefs = .ok nominal ∧
      retDict net st s = (retInForce st s nominal).map (keepEnabled net st) := by
  obtain ⟨d, hd, h1, -⟩ := ret_coefs_value h hcl false false true
  obtain ⟨nom, hn, hg⟩ := h1 s hs
  refine ⟨nom, hn, ?_⟩
  unfold retDict
  rw [hd]
  simp only [hg]
  rfl

theorem retDict_set {net : Net} {st : State} (h : Reachable net st) (hcl : net.RetClosed) {s : RP}
    (hs : s ∈ net.getSpecies st false false true) (hstick : stickInForce st s ≠ some 0) {c : Dict Str ℚ}
    (hc : ∀ p ∈ c, EnabledName net st p.1) (hr : Reachable net { st with adRet := st.adRet.set s.id c }) :
    retDict net { st with adRet := st.adRet.set s.id c } s = some c ∧
    ∀ t ∈ net.getSpecies st false false true, t.id ≠ s.id →
      retDict net { st with adRet := st.adRet.set s.id c } t = retDict net st t := by
  constructor
  · obtain ⟨nom, hn, e⟩ := retDict_eq hr hcl (s := s) hs
    rw [e]
    have : retInForce { st with adRet := st.adRet.set s.id c } s nom = some c := by
      unfold retInForce
      rw [if_neg (show stickInForce { st with adRet := st.adRet.set s.id c } s ≠ some 0 from hstick)]
      simp only [Dict.get?_set, if_true]
    rw [this]
    simp only [Option.map_some, Option.some.injEq]
    unfold keepEnabled
    rw [List.filter_eq_self]
    intro p hp
    have : EnabledName net { st with adRet := st.adRet.set s.id c } p.1 := hc p hp
    simpa using this
  · intro t ht hne
    obtain ⟨nom, hn, e⟩ := retDict_eq hr hcl (s := t) ht
    obtain ⟨nom', hn', e'⟩ := retDict_eq h hcl (s := t) ht
    rw [hn] at hn'
    cases hn'
    rw [e, e']
    have : retInForce { st with adRet := st.adRet.set s.id c } t nom = retInForce st t nom := by
      unfold retInForce
      have h1 : stickInForce { st with adRet := st.adRet.set s.id c } t = stickInForce st t := rfl
      rw [h1]
      simp only [Dict.get?_set, if_neg (Ne.symm hne)]
    rw [this]
    rfl

/-- every dictionary among the values has distinct keys -/
private def AllNodup (d : Dict Nat (Option (Dict Str ℚ))) : Prop := ∀ e ∈ d, ∀ c, e.2 = some c → c.keys.Nodup

private theorem AllNodup.set {d : Dict Nat (Option (Dict Str ℚ))} (h : AllNodup d) (k : Nat) {o : Option (Dict Str ℚ)}
    (ho : ∀ c, o = some c → c.keys.Nodup) : AllNodup (d.set k o) := by
  induction d with
  | nil =>
    intro e he c hc
    simp only [Dict.set, List.mem_singleton] at he
    subst he
    exact ho c hc
  | cons a d ih =>
    obtain ⟨j, v⟩ := a
    have ih' := ih (fun e he => h e (List.mem_cons_of_mem _ he))
    unfold Dict.set
    by_cases hj : j = k
    · rw [if_pos hj]
      intro e he c hc
      rcases List.mem_cons.1 he with rfl | he
      · exact ho c hc
      · exact h e (List.mem_cons_of_mem _ he) c hc
    · rw [if_neg hj]
      intro e he c hc
      rcases List.mem_cons.1 he with rfl | he
      · exact h _ List.mem_cons_self c hc
      · exact ih' e he c hc

private theorem nominal_nodup {l : List RP} (h : ∀ s ∈ l, ∀ c, s.getRetCoefs = .ok (some c) → c.keys.Nodup)
    {d : Dict Nat (Option (Dict Str ℚ))} (hd : nominalRet l = .ok d) : AllNodup d := by
  induction l generalizing d with
  | nil =>
    simp only [nominalRet] at hd
    cases hd
    intro e he
    cases he
  | cons s l ih =>
    unfold nominalRet at hd
    split at hd
    · cases hd
    rename_i c hc
    split at hd
    · cases hd
    rename_i rest hrest
    cases hd
    intro e he c' hc'
    rcases List.mem_cons.1 he with rfl | he
    · simp only at hc'
      subst hc'
      exact h s List.mem_cons_self c' hc
    · exact ih (fun t ht => h t (List.mem_cons_of_mem _ ht)) hrest e he c' hc'

private theorem adhoc_nodup {ad : Dict Nat (Dict Str ℚ)} (h : ∀ e ∈ ad, e.2.keys.Nodup)
    {d : Dict Nat (Option (Dict Str ℚ))} (hd : AllNodup d) : AllNodup (applyAdhocRet d ad) := by
  induction ad generalizing d with
  | nil => exact hd
  | cons a ad ih =>
    refine ih (fun e he => h e (List.mem_cons_of_mem _ he)) (d := d.set a.1 (some a.2)) (hd.set _ ?_)
    intro c hc
    cases hc
    exact h a List.mem_cons_self

private theorem zero_nodup {sticks : Dict Nat (Option ℚ)} {d : Dict Nat (Option (Dict Str ℚ))} (hd : AllNodup d) :
    AllNodup (applyZeroStick d sticks) := by
  induction sticks generalizing d with
  | nil => exact hd
  | cons a sticks ih =>
    have : applyZeroStick d (a :: sticks) = applyZeroStick (if a.2 = some 0 then d.set a.1 (some []) else d) sticks := rfl
    rw [this]
    apply ih
    split
    · refine hd.set _ ?_
      intro c hc
      cases hc
      simp [Dict.keys]
    · exact hd

private theorem purge_nodup {pool : List Str} {d : Dict Nat (Option (Dict Str ℚ))} (hd : AllNodup d) :
    AllNodup (purge pool d) := by
  intro e he c hc
  unfold purge at he
  obtain ⟨e', he', rfl⟩ := List.mem_map.1 he
  simp only at hc
  cases ho : e'.2 with
  | none => rw [ho] at hc; cases hc
  | some c' =>
    rw [ho] at hc
    simp only [Option.map_some, Option.some.injEq] at hc
    subst hc
    exact (hd e' he' c' ho).sublist (List.filter_sublist.map _)

theorem ret_nodup {net : Net} {st : State} (h : PyDicts net st) {a b c : Bool} {d : Dict Nat (Option (Dict Str ℚ))}
    (hd : net.getSpeciesRetCoefs st a b c = .ok d) : ∀ i v, d.get? i = some (some v) → v.keys.Nodup := by
  have key : AllNodup d := by
    unfold getSpeciesRetCoefs at hd
    cases h0 : nominalRet (net.getSpecies st a b c) with
    | error e => rw [h0] at hd; cases hd
    | ok d0 =>
      rw [h0] at hd
      have h2 : AllNodup (applyZeroStick (applyAdhocRet d0 st.adRet) (net.getSpeciesStickCoef st a b true)) :=
        zero_nodup (adhoc_nodup h.adhoc (nominal_nodup (fun s hs => h.nominal s (List.mem_filter.1 hs).1) h0))
      simp only at hd
      split at hd
      · cases hd; exact purge_nodup h2
      · cases hd; exact h2
  intro i v hv
  exact key _ (Dict.mem_of_get? hv) v rfl

/-- what a successful call does -/
structure Mapped (net : Net) (pw : ℚ → ℚ → ℚ) (p : Pair) (x : ℚ) (st st' : State) (s t : RP) (c : Dict Str ℚ) : Prop where
  sMem : s ∈ net.species
  tMem : t ∈ net.species
  sName : s.name = p.stuck
  tName : t.name = p.ret
  sEn : s ∈ net.getSpecies st false false true
  nameNe : s.name ≠ t.name
  nominal : 0 < p.nominal
  range : 1 < p.range
  x0 : 0 ≤ x
  x1 : x ≤ 1
  stick : ∃ q, stickInForce st s = some q ∧ 0 < q
  dict : retDict net st s = some c
  nodup : c.keys.Nodup
  self : 0 ≤ (c.get? s.name).getD 0 - (p.nominal * pw p.range (2 * x - 1) - (c.get? t.name).getD 0)
  reach : Reachable net st'
  same : SameButRet st' st
  pyDicts : PyDicts net st'
  dict' : retDict net st' s = some ((c.set t.name (p.nominal * pw p.range (2 * x - 1))).set s.name
    ((c.get? s.name).getD 0 - (p.nominal * pw p.range (2 * x - 1) - (c.get? t.name).getD 0)))
  others : ∀ u ∈ net.getSpecies st false false true, u.id ≠ s.id → retDict net st' u = retDict net st u

private theorem getRp_name {net : Net} {n : Str} {s : RP} (h : net.getRp (.name n) = .ok s) : s.name = n := by
  unfold getRp at h
  simp only at h
  split at h
  · rename_i t ht
    cases h
    have := List.find?_some ht
    simpa using this
  · cases h

theorem mapRet_mapped {net : Net} {pw : ℚ → ℚ → ℚ} {st st' : State} (h : Reachable net st) (hcl : net.RetClosed)
    (hpy : PyDicts net st) {p : Pair} {x : ℚ} (hm : mapRet net pw st p x = .ok st') :
    ∃ s t c, Mapped net pw p x st st' s t c := by
  obtain ⟨hwf, hinv⟩ := reachable_inv h
  unfold mapRet at hm
  by_cases hr : p.range ≤ 1
  · rw [if_pos hr] at hm; cases hm
  rw [if_neg hr] at hm
  cases hs : net.getRp (.name p.stuck) with
  | error e => rw [hs] at hm; simp at hm
  | ok s =>
  cases ht : net.getRp (.name p.ret) with
  | error e => rw [hs, ht] at hm; simp at hm
  | ok t =>
  rw [hs, ht] at hm
  simp only at hm
  by_cases hsp : s.isSpecial = true ∨ t.isSpecial = true
  · rw [if_pos hsp] at hm; cases hm
  rw [if_neg hsp] at hm
  by_cases hnom : ¬ 0 < p.nominal
  · rw [if_pos hnom] at hm; cases hm
  rw [if_neg hnom] at hm
  by_cases hid : s.id = t.id
  · rw [if_pos hid] at hm; cases hm
  rw [if_neg hid] at hm
  cases hst : (net.getSpeciesStickCoef st false false true).get? s.id with
  | none => rw [hst] at hm; cases hm
  | some stick =>
  rw [hst] at hm
  simp only at hm
  obtain ⟨d, hd, hd1, hd2, hd3, -⟩ := ret_coefs_value h hcl false false true
  obtain ⟨M, hM, hMc, hMr, -, hMe⟩ := return_matrix_entries h hcl false hd (ret_nodup hpy hd)
  rw [hM] at hm
  simp only at hm
  by_cases hat : (t.id ∈ M.rows ∧ s.id ∈ M.cols) ∧ (s.id ∈ M.rows ∧ s.id ∈ M.cols)
  · have e1 : at? M t.id s.id = some (M.entry t.id s.id) := if_pos hat.1
    have e2 : at? M s.id s.id = some (M.entry s.id s.id) := if_pos hat.2
    rw [e1, e2] at hm
    simp only at hm
    by_cases hx : ¬ (0 ≤ x ∧ x ≤ 1)
    · rw [if_pos hx] at hm; cases hm
    rw [if_neg hx] at hm
    rw [not_not] at hx
    cases stick with
    | none => cases hm
    | some q =>
    simp only at hm
    by_cases hq : ¬ 0 < q
    · rw [if_pos hq] at hm; cases hm
    rw [if_neg hq] at hm
    rw [not_not] at hq
    by_cases hself : M.entry s.id s.id - (p.nominal * pw p.range (2 * x - 1) - M.entry t.id s.id) < 0
    · rw [if_pos hself] at hm; cases hm
    rw [if_neg hself, hd] at hm
    simp only at hm
    cases hds : d.get? s.id with
    | none => rw [hds] at hm; cases hm
    | some o =>
    cases o with
    | none => rw [hds] at hm; cases hm
    | some c =>
    rw [hds] at hm
    simp only at hm
    have hsM := getRp_mem hs
    have htM := getRp_mem ht
    have es := hMe s hsM s.id
    have et := hMe t htM s.id
    rw [hds] at es et
    simp only at es et
    rw [es, et] at hm hself
    -- the species is enabled
    obtain ⟨s', hs', hse⟩ := List.mem_map.1 (Dict.mem_of_get? hst)
    obtain ⟨i1, i2⟩ := Prod.mk.inj hse
    have : s' = s := hwf.eq_of_id (List.mem_filter.1 hs').1 hsM i1
    subst this
    have hstick : stickInForce st s' = some q := i2
    have hnd : c.keys.Nodup := ret_nodup hpy hd s'.id c hds
    have hdict : retDict net st s' = some c := by
      unfold retDict
      rw [hd]
      simp only [hds]
      rfl
    generalize hnew : (c.set t.name (p.nominal * pw p.range (2 * x - 1))).set s'.name
      ((c.get? s'.name).getD 0 - (p.nominal * pw p.range (2 * x - 1) - (c.get? t.name).getD 0)) = c' at hm
    have hnd' : c'.keys.Nodup := by rw [← hnew]; exact nodup_set (nodup_set hnd _ _) _ _
    cases hset : net.setAdhocRet st (.obj s') c' with
    | mk st1 oe =>
    rw [hset] at hm
    cases oe with
    | some e => cases hm
    | none =>
    simp only at hm
    cases hm
    have hstep : (net.step st (.adhocRet (.obj s') c')).1 = st' := by simp only [step]; rw [hset]
    have hreach : Reachable net st' := hstep ▸ Reachable.step _ h
    obtain ⟨-, hnames, -, -⟩ := adhoc_ret_accepted h hset
    have hst1 : st' = { st with adRet := st.adRet.set s'.id c' } := by
      unfold setAdhocRet at hset
      rw [find_obj hsM] at hset
      simp only at hset
      split at hset
      · cases hset
      · split at hset
        · cases hset
        · cases hset; rfl
    subst hst1
    obtain ⟨r1, r2⟩ := retDict_set h hcl hs' (by rw [hstick]; simp only [ne_eq, Option.some.injEq]; exact ne_of_gt hq)
      hnames hreach
    refine ⟨s', t, c, hsM, htM, getRp_name hs, getRp_name ht, hs', fun hc => hid (by rw [hwf.eq_of_name hsM htM hc]),
      not_not.1 hnom, not_le.1 hr, hx.1, hx.2, ⟨q, hstick, hq⟩, hdict, hnd, not_lt.1 hself, hreach,
      ⟨rfl, rfl, rfl, rfl, rfl, rfl⟩, ⟨hpy.nominal, ?_⟩, by rw [r1, hnew], r2⟩
    intro e he
    have hk := (reachable_retKeys hreach).1
    have hge := Dict.get?_of_mem hk he
    simp only at hge
    rw [Dict.get?_set] at hge
    by_cases hke : s'.id = e.1
    · rw [if_pos hke] at hge; cases hge; exact hnd'
    · rw [if_neg hke] at hge
      exact hpy.adhoc (e.1, e.2) (Dict.mem_of_get? hge)
  · have : at? M t.id s.id = none ∨ at? M s.id s.id = none := by
      by_cases h1 : t.id ∈ M.rows ∧ s.id ∈ M.cols
      · right; exact if_neg (fun h2 => hat ⟨h1, h2⟩)
      · left; exact if_neg h1
    rcases this with hn | hn
    · rw [hn] at hm
      cases at? M s.id s.id <;> simp at hm
    · rw [hn] at hm
      cases at? M t.id s.id <;> simp at hm

/-! ### C46: one call -/

theorem Mapped.coefs {net : Net} {pw : ℚ → ℚ → ℚ} {p : Pair} {x : ℚ} {st st' : State} {s t : RP} {c : Dict Str ℚ}
    (m : Mapped net pw p x st st' s t c) :
    coef net st' s t.name = p.nominal * pw p.range (2 * x - 1) ∧
    coef net st' s s.name = coef net st s s.name - (p.nominal * pw p.range (2 * x - 1) - coef net st s t.name) ∧
    (∀ n, n ≠ s.name → n ≠ t.name → coef net st' s n = coef net st s n) ∧
    total net st' s = total net st s := by
  have hne := m.nameNe
  unfold coef total
  rw [m.dict, m.dict']
  simp only [Option.bind_some, Option.map_some, Option.getD_some, Dict.get?_set]
  refine ⟨?_, ?_, ?_, ?_⟩
  · simp only [if_neg hne, if_true, Option.getD_some]
  · simp only [if_true, Option.getD_some]
  · intro n h1 h2
    simp only [if_neg (Ne.symm h1), if_neg (Ne.symm h2)]
  · rw [sum_set (nodup_set m.nodup _ _), sum_set m.nodup, Dict.get?_set, if_neg (Ne.symm hne)]
    ring

/-- **C46.** A successful mapping of one factor to a return coefficient sets the coefficient of the stuck species for the
returned species to `nominal · range^(2x-1)`, lets the stuck species return itself with what is left, which is not
negative, and so conserves the number of returned particles; the other coefficients of the stuck species, all
coefficients of all other species and everything else in the chemistry are untouched. -/
theorem ret_factor_effect {net : Net} {pw : ℚ → ℚ → ℚ} {st st' : State} (h : Reachable net st) (hcl : net.RetClosed)
    (hpy : PyDicts net st) {p : Pair} {x : ℚ} (hm : mapRet net pw st p x = .ok st') :
    Reachable net st' ∧ SameButRet st' st ∧
    ∃ s t, s ∈ net.getSpecies st false false true ∧ t ∈ net.species ∧ s.name = p.stuck ∧ t.name = p.ret ∧ p.stuck ≠ p.ret ∧
      coef net st' s p.ret = p.nominal * pw p.range (2 * x - 1) ∧
      0 ≤ coef net st' s p.stuck ∧
      total net st' s = total net st s ∧
      (∀ n, n ≠ p.stuck → n ≠ p.ret → coef net st' s n = coef net st s n) ∧
      ∀ u ∈ net.getSpecies st false false true, u ≠ s → retDict net st' u = retDict net st u := by
  obtain ⟨hwf, -⟩ := reachable_inv h
  obtain ⟨s, t, c, m⟩ := mapRet_mapped h hcl hpy hm
  obtain ⟨c1, c2, c3, c4⟩ := m.coefs
  refine ⟨m.reach, m.same, s, t, m.sEn, m.tMem, m.sName, m.tName, ?_, ?_, ?_, c4, ?_, ?_⟩
  · rw [← m.sName, ← m.tName]; exact m.nameNe
  · rw [← m.tName]; exact c1
  · rw [← m.sName, c2]
    have := m.self
    unfold coef
    rw [m.dict]
    exact this
  · rw [← m.sName, ← m.tName]; exact c3
  · intro u hu hne
    exact m.others u hu (fun hid => hne (hwf.eq_of_id (List.mem_filter.1 hu).1 m.sMem hid))

/-- **C46.** With a power that behaves as one (`r^0 = 1`, and `1/r ≤ r^y ≤ r` for `-1 ≤ y ≤ 1`), the middle factor is the
nominal coefficient and the coefficient stays within the relative range of it. -/
theorem ret_factor_range {net : Net} {pw : ℚ → ℚ → ℚ} (pw0 : ∀ r, 1 < r → pw r 0 = 1)
    (pw1 : ∀ r y, 1 < r → -1 ≤ y → y ≤ 1 → 1 / r ≤ pw r y ∧ pw r y ≤ r)
    {st st' : State} (h : Reachable net st) (hcl : net.RetClosed)
    (hpy : PyDicts net st) {p : Pair} {x : ℚ} (hm : mapRet net pw st p x = .ok st') :
    ∃ s ∈ net.getSpecies st false false true, s.name = p.stuck ∧
      p.nominal / p.range ≤ coef net st' s p.ret ∧ coef net st' s p.ret ≤ p.nominal * p.range ∧ 0 < coef net st' s p.ret ∧
      (x = 1 / 2 → coef net st' s p.ret = p.nominal) ∧
      (x = 1 / 2 → coef net st s p.ret = p.nominal → ∀ n, coef net st' s n = coef net st s n) := by
  obtain ⟨s, t, c, m⟩ := mapRet_mapped h hcl hpy hm
  obtain ⟨c1, c2, c3, c4⟩ := m.coefs
  have hr := m.range
  have hn := m.nominal
  obtain ⟨b1, b2⟩ := pw1 p.range (2 * x - 1) hr (by linarith [m.x0]) (by linarith [m.x1])
  rw [m.tName] at c1 c2
  have half : x = 1 / 2 → coef net st' s p.ret = p.nominal := by
    rintro rfl
    rw [c1, show (2 * (1 / 2 : ℚ) - 1) = 0 by norm_num, pw0 _ hr, mul_one]
  refine ⟨s, m.sEn, m.sName, ?_, ?_, ?_, half, ?_⟩
  · rw [c1, div_eq_mul_one_div]
    exact mul_le_mul_of_nonneg_left b1 hn.le
  · rw [c1]
    exact mul_le_mul_of_nonneg_left b2 hn.le
  · rw [c1]
    exact mul_pos hn (lt_of_lt_of_le (by positivity) b1)
  · intro hx heq n
    have e1 := half hx
    by_cases h1 : n = s.name
    · subst h1
      rw [c2, ← c1, e1, heq]; ring
    · by_cases h2 : n = p.ret
      · subst h2; rw [e1, heq]
      · exact c3 n h1 (by rw [m.tName]; exact h2)

/-! ### C46: sequences of calls -/

/-- the last factor given to a pair of species -/
def lastFactor (stuck ret : Str) (l : List (Pair × ℚ)) : Option (Pair × ℚ) :=
  (l.filter (fun e => decide (e.1.stuck = stuck ∧ e.1.ret = ret))).getLast?

/-- **C46.** After any successful sequence of calls, the coefficient of a pair of different species is determined by the last
factor given to that pair (if none was given it is what it was), and every species returns as many particles as before.
There is no drift. -/
theorem ret_history {net : Net} {pw : ℚ → ℚ → ℚ} (hcl : net.RetClosed) {l : List (Pair × ℚ)} {st st' : State}
    (h : Reachable net st) (hpy : PyDicts net st) (hm : mapRets net pw st l = .ok st') :
    Reachable net st' ∧ PyDicts net st' ∧ SameButRet st' st ∧
    ∀ s ∈ net.getSpecies st false false true,
      total net st' s = total net st s ∧
      (0 ≤ coef net st s s.name → 0 ≤ coef net st' s s.name) ∧
      ∀ n, n ≠ s.name → coef net st' s n =
        match lastFactor s.name n l with
        | some (p, x) => p.nominal * pw p.range (2 * x - 1)
        | none => coef net st s n := by
  induction l generalizing st with
  | nil =>
    simp only [mapRets] at hm
    cases hm
    exact ⟨h, hpy, SameButRet.refl _, fun s _ => ⟨rfl, fun h => h, fun n _ => rfl⟩⟩
  | cons e l ih =>
    obtain ⟨p, x⟩ := e
    unfold mapRets at hm
    cases h1 : mapRet net pw st p x with
    | error e => rw [h1] at hm; cases hm
    | ok st1 =>
      rw [h1] at hm
      simp only at hm
      obtain ⟨hwf, -⟩ := reachable_inv h
      obtain ⟨s1, t1, c, m⟩ := mapRet_mapped h hcl hpy h1
      obtain ⟨c1, c2, c3, c4⟩ := m.coefs
      obtain ⟨i1, i2, i3, i4⟩ := ih m.reach m.pyDicts hm
      refine ⟨i1, i2, i3.trans m.same, fun s hs => ?_⟩
      obtain ⟨j1, j2, j3⟩ := i4 s (by rw [m.same.species]; exact hs)
      have last : ∀ n, lastFactor s.name n ((p, x) :: l) =
          match lastFactor s.name n l with
          | some e => some e
          | none => if p.stuck = s.name ∧ p.ret = n then some (p, x) else none := by
        intro n
        unfold lastFactor
        by_cases hp : p.stuck = s.name ∧ p.ret = n
        · rw [List.filter_cons_of_pos (by simpa using hp), if_pos hp]
          cases hl : l.filter (fun e => decide (e.1.stuck = s.name ∧ e.1.ret = n)) with
          | nil => rfl
          | cons a b => 
            rw [List.getLast?_cons_cons]
            cases hb : (a :: b).getLast? with
            | none => simp at hb
            | some z => rfl
        · rw [List.filter_cons_of_neg (by simpa using hp), if_neg hp]
          cases (l.filter (fun e => decide (e.1.stuck = s.name ∧ e.1.ret = n))).getLast? <;> rfl
      by_cases hss : s = s1
      · subst hss
        refine ⟨j1.trans c4, fun _ => j2 ?_, fun n hn => ?_⟩
        · rw [c2]
          have := m.self
          unfold coef
          rw [m.dict]
          exact this
        · rw [j3 n hn, last]
          cases lastFactor s.name n l with
          | some e => rfl
          | none =>
            simp only
            by_cases hp : p.stuck = s.name ∧ p.ret = n
            · rw [if_pos hp]
              simp only
              rw [← hp.2, ← m.tName]; exact c1
            · rw [if_neg hp]
              simp only
              exact c3 n hn (fun hc => hp ⟨m.sName.symm, by rw [hc, m.tName]⟩)
      · have hre := m.others s hs (fun hid => hss (hwf.eq_of_id (List.mem_filter.1 hs).1 m.sMem hid))
        have hco : ∀ n, coef net st1 s n = coef net st s n := by intro n; unfold coef; rw [hre]
        refine ⟨j1.trans (by unfold total; rw [hre]), fun h0 => j2 (by rw [hco]; exact h0), fun n hn => ?_⟩
        rw [j3 n hn, last]
        cases lastFactor s.name n l with
        | some e => rfl
        | none =>
          simp only
          have hp : ¬ (p.stuck = s.name ∧ p.ret = n) := fun hp =>
            hss (hwf.eq_of_name (List.mem_filter.1 hs).1 m.sMem (by rw [m.sName]; exact hp.1.symm))
          rw [if_neg hp]
          exact hco n

/-- the number of returned particles, as a sum over the enabled species -/
theorem total_eq {net : Net} {st : State} (h : Reachable net st) (hcl : net.RetClosed) (hpy : PyDicts net st) {s : RP} :
    total net st s = ((net.getSpecies st false true true).map (fun t => coef net st s t.name)).sum := by
  obtain ⟨hwf, -⟩ := reachable_inv h
  unfold total coef
  cases hc : retDict net st s with
  | none => simp
  | some c =>
    simp only [Option.map_some, Option.getD_some, Option.bind_some]
    obtain ⟨d, hd, hd1, hd2, -, -⟩ := ret_coefs_value h hcl false false true
    have hds : d.get? s.id = some (some c) := by
      unfold retDict at hc
      rw [hd] at hc
      simp only at hc
      cases hg : d.get? s.id with
      | none => rw [hg] at hc; cases hc
      | some o =>
        rw [hg] at hc
        rw [show o = some c from hc]
    have hnd := ret_nodup hpy hd _ _ hds
    have hen : ∀ q ∈ c, ∃ t ∈ net.getSpecies st false true true, t.name = q.1 := by
      intro q hq
      obtain ⟨t, ht, h1, h2⟩ := hd2 _ _ hds q hq
      exact ⟨t, mem_getSpecies.2 ⟨ht, h2⟩, h1⟩
    have hnn : ((net.getSpecies st false true true).map RP.name).Nodup :=
      hwf.nameNodup.sublist (List.filter_sublist.map _)
    clear hds hc hd1 hd2 hd
    generalize net.getSpecies st false true true = L at hen hnn
    have hmap : L.map (fun t => (Dict.get? c t.name).getD 0) = (L.map RP.name).map (fun n => (Dict.get? c n).getD 0) := by
      simp [Function.comp_def]
    rw [hmap]
    have hen' : ∀ q ∈ c, q.1 ∈ L.map RP.name := by
      intro q hq
      obtain ⟨t, ht, hn⟩ := hen q hq
      exact hn ▸ List.mem_map_of_mem ht
    clear hmap hen
    generalize L.map RP.name = N at hnn hen'
    induction c with
    | nil =>
      simp only [List.map_nil, List.sum_nil]
      symm
      apply List.sum_eq_zero
      intro y hy
      obtain ⟨n, -, rfl⟩ := List.mem_map.1 hy
      rfl
    | cons e c ih =>
      obtain ⟨k, v⟩ := e
      simp only [Dict.keys, List.map_cons, List.nodup_cons] at hnd
      have ih' := ih hnd.2 (fun q hq => hen' q (List.mem_cons_of_mem _ hq))
      rw [List.map_cons, List.sum_cons, ih']
      have hk := hen' (k, v) List.mem_cons_self
      simp only at hk
      have hck : Dict.get? c k = none := by
        cases hg : Dict.get? c k with
        | none => rfl
        | some w => exact absurd ((Dict.mem_keys_iff c k).2 ⟨w, hg⟩) hnd.1
      clear ih ih' hen' hnd
      induction N with
      | nil => cases hk
      | cons n N ihN =>
        rw [List.nodup_cons] at hnn
        simp only [List.map_cons, List.sum_cons]
        rw [Dict.get?_cons]
        by_cases hkn : k = n
        · subst hkn
          rw [if_pos rfl, hck]
          have : N.map (fun n => (Dict.get? ((k, v) :: c) n).getD 0) = N.map (fun n => (Dict.get? c n).getD 0) := by
            apply List.map_congr_left
            intro n hn
            rw [Dict.get?_cons, if_neg (by rintro rfl; exact hnn.1 hn)]
          rw [this]
          simp
        · rw [if_neg hkn]
          have hkN : k ∈ N := by
            rcases List.mem_cons.1 hk with h | h
            · exact absurd h hkn
            · exact h
          rw [← ihN hnn.2 hkN]
          ring

/-- **C46.** The coefficients after a sequence of calls depend on nothing but the last factor of each pair: two successful
sequences from the same chemistry that agree on these leave the same coefficients, for the stuck species itself as well. -/
theorem ret_no_drift {net : Net} {pw : ℚ → ℚ → ℚ} (hcl : net.RetClosed) {l₁ l₂ : List (Pair × ℚ)} {st st₁ st₂ : State}
    (h : Reachable net st) (hpy : PyDicts net st) (h₁ : mapRets net pw st l₁ = .ok st₁)
    (h₂ : mapRets net pw st l₂ = .ok st₂) (hlast : ∀ a b, lastFactor a b l₁ = lastFactor a b l₂) :
    ∀ s ∈ net.getSpecies st false false true, ∀ t ∈ net.getSpecies st false true true,
      coef net st₁ s t.name = coef net st₂ s t.name := by
  obtain ⟨hwf, -⟩ := reachable_inv h
  obtain ⟨r1, p1, m1, k1⟩ := ret_history hcl h hpy h₁
  obtain ⟨r2, p2, m2, k2⟩ := ret_history hcl h hpy h₂
  intro s hs t ht
  obtain ⟨a1, -, a3⟩ := k1 s hs
  obtain ⟨b1, -, b3⟩ := k2 s hs
  have other : ∀ n, n ≠ s.name → coef net st₁ s n = coef net st₂ s n := by
    intro n hn
    rw [a3 n hn, b3 n hn, hlast]
  by_cases hts : t.name = s.name
  · have e1 := total_eq r1 hcl p1 (s := s)
    have e2 := total_eq r2 hcl p2 (s := s)
    rw [m1.species] at e1
    rw [m2.species] at e2
    have heq : total net st₁ s = total net st₂ s := a1.trans b1.symm
    rw [e1, e2] at heq
    have hnn : ((net.getSpecies st false true true).map RP.name).Nodup :=
      hwf.nameNodup.sublist (List.filter_sublist.map _)
    clear e1 e2 a1 b1 a3 b3 k1 k2
    generalize net.getSpecies st false true true = L at ht hnn heq
    induction L with
    | nil => cases ht
    | cons u L ih =>
      simp only [List.map_cons, List.sum_cons, List.nodup_cons] at heq hnn
      rcases List.mem_cons.1 ht with rfl | ht'
      · have : L.map (fun v => coef net st₁ s v.name) = L.map (fun v => coef net st₂ s v.name) := by
          apply List.map_congr_left
          intro v hv
          exact other _ (fun hc => hnn.1 (by rw [hts, ← hc]; exact List.mem_map_of_mem hv))
        rw [this] at heq
        linarith
      · have hu : u.name ≠ s.name := fun hc => hnn.1 (by rw [hc, ← hts]; exact List.mem_map_of_mem ht')
        rw [other _ hu] at heq
        exact ih ht' hnn.2 (by linarith)
  · exact other _ hts

/-! ### C46: whole trajectories -/

/-- morris.py:572-582, 640-664: the calls a trajectory of return coefficients makes: every factor at the seed, then the
changed factor of each step -/
def retCalls {n : ℕ} (pairs : Fin n → Pair) (seed : Fin n → ℚ) (l : List (Step n)) : List (Pair × ℚ) :=
  (List.finRange n).map (fun j => (pairs j, seed j)) ++ l.map (fun s => (pairs s.factor, s.x s.factor))

private theorem walk_new {n : ℕ} {step : ℚ} {i : Fin n} : ∀ {l : List (Step n)} {x : Fin n → ℚ}, Walk step x l →
    (l.map Step.factor).count i = 1 → ∃ s ∈ l, s.factor = i ∧ s.x i = x i + s.delta := by
  intro l
  induction l with
  | nil => intro x _ hc; simp at hc
  | cons s l ih =>
    intro x hw hc
    obtain ⟨w1, w2, w3, w4⟩ := hw
    by_cases hs : s.factor = i
    · exact ⟨s, List.mem_cons_self, hs, hs ▸ w2⟩
    · rw [List.map_cons, List.count_cons_of_ne hs] at hc
      obtain ⟨t, ht, h1, h2⟩ := ih w4 hc
      exact ⟨t, List.mem_cons_of_mem _ ht, h1, by rw [h2, w3 i (Ne.symm hs)]⟩

/-- With the settings in the code every factor is above one half at some point of every trajectory (and so increases its
coefficient over the nominal one). -/
theorem every_factor_high {n : ℕ} (hn : 2 ≤ n) {choices : List (Fin n × Bool)}
    (hperm : (choices.map Prod.fst).Perm (List.finRange n)) {seed : Fin n → ℚ} (hs : ∀ i, seed i ∈ Setup.code.grid)
    {l : List (Step n)} (hl : Setup.code.trajectory choices seed = (l, none)) (i : Fin n) :
    1 / 2 < seed i ∨ ∃ st ∈ l, st.factor = i ∧ 1 / 2 < st.x i := by
  obtain ⟨l', h1, -, h3, h4, -, -, h7⟩ := trajectory_code hn hperm hs
  rw [hl] at h1
  cases h1
  have hne : seed i ≠ 1 / 2 ∧ 0 < seed i := by
    have : ∀ v ∈ Setup.code.grid, v ≠ 1 / 2 ∧ 0 < v := by rw [code_grid]; decide +kernel
    exact this _ (hs i)
  rcases lt_or_gt_of_ne hne.1 with hlt | hgt
  · right
    obtain ⟨st, hst, e1, e2⟩ := walk_new h4 (h3 i)
    refine ⟨st, hst, e1, ?_⟩
    rw [e2, h7 st hst, e1, if_pos hlt]
    linarith [hne.2]
  · exact .inl hgt

/-- **C46, negative part.** If the stuck species does not return itself, a factor above one half is refused; so, with a
power that behaves as one, *every* trajectory that varies only one return coefficient of such a species fails - whatever
the seed, the order of the factors, and the relative range. -/
theorem ret_zero_self_fails {net : Net} {pw : ℚ → ℚ → ℚ} (hpw : ∀ r y, 1 < r → 0 < y → 1 < pw r y)
    (hcl : net.RetClosed) {st : State} (h : Reachable net st) (hpy : PyDicts net st) {n : ℕ} (hn : 2 ≤ n)
    {choices : List (Fin n × Bool)} (hperm : (choices.map Prod.fst).Perm (List.finRange n)) {seed : Fin n → ℚ}
    (hs : ∀ i, seed i ∈ Setup.code.grid) {l : List (Step n)} (hl : Setup.code.trajectory choices seed = (l, none))
    (pairs : Fin n → Pair) {i : Fin n} {s : RP} (hsen : s ∈ net.getSpecies st false false true)
    (hstuck : (pairs i).stuck = s.name) (honly : ∀ j, (pairs j).stuck = s.name → j = i)
    (hnom : (pairs i).nominal = coef net st s (pairs i).ret) (hself : coef net st s s.name = 0) :
    ∃ e, mapRets net pw st (retCalls pairs seed l) = .error e := by
  cases hm : mapRets net pw st (retCalls pairs seed l) with
  | error e => exact ⟨e, rfl⟩
  | ok st' =>
  exfalso
  -- the call with the high factor
  have hcall : ∃ x, 1 / 2 < x ∧ (pairs i, x) ∈ retCalls pairs seed l := by
    rcases every_factor_high hn hperm hs hl i with hi | ⟨t, ht, h1, h2⟩
    · exact ⟨_, hi, List.mem_append_left _ (List.mem_map.2 ⟨i, List.mem_finRange i, rfl⟩)⟩
    · exact ⟨_, h2, List.mem_append_right _ (List.mem_map.2 ⟨t, ht, by rw [h1]⟩)⟩
  obtain ⟨x, hx, hmem⟩ := hcall
  have honly' : ∀ e ∈ retCalls pairs seed l, e.1.stuck = s.name → e.1 = pairs i := by
    intro e he hst
    rcases List.mem_append.1 he with he | he
    · obtain ⟨j, -, rfl⟩ := List.mem_map.1 he
      rw [honly j hst]
    · obtain ⟨t, -, rfl⟩ := List.mem_map.1 he
      rw [honly t.factor hst]
  generalize retCalls pairs seed l = calls at hm hmem honly'
  -- what is left for the species itself and the pair is constant
  have hsum : coef net st s s.name + coef net st s (pairs i).ret = (pairs i).nominal := by rw [hself, zero_add, hnom]
  clear hself hnom
  induction calls generalizing st with
  | nil => cases hmem
  | cons e calls ih =>
    obtain ⟨p, y⟩ := e
    unfold mapRets at hm
    cases h1 : mapRet net pw st p y with
    | error e => rw [h1] at hm; cases hm
    | ok st1 =>
      rw [h1] at hm
      simp only at hm
      obtain ⟨hwf, -⟩ := reachable_inv h
      obtain ⟨s1, t1, c, m⟩ := mapRet_mapped h hcl hpy h1
      obtain ⟨c1, c2, c3, c4⟩ := m.coefs
      by_cases hss : s1 = s
      · subst hss
        have hpi : p = pairs i := honly' (p, y) List.mem_cons_self m.sName.symm
        subst hpi
        rcases List.mem_cons.1 hmem with he | hmem'
        · obtain ⟨-, rfl⟩ := Prod.mk.inj he
          have h2 := hpw _ (2 * x - 1) m.range (by linarith)
          have h3 := m.self
          have h4 : (pairs i).nominal * 1 < (pairs i).nominal * pw (pairs i).range (2 * x - 1) :=
            mul_lt_mul_of_pos_left h2 m.nominal
          unfold coef at hsum
          rw [m.dict] at hsum
          simp only [Option.bind_some] at hsum
          rw [← m.tName] at hsum
          linarith
        · refine ih m.reach m.pyDicts (by rw [m.same.species]; exact hsen) hm hmem'
            (fun e he => honly' e (List.mem_cons_of_mem _ he)) ?_
          rw [← m.tName, c1, c2, ← hsum, ← m.tName]; ring
      · have hre := m.others s hsen (fun hid => hss (hwf.eq_of_id m.sMem (List.mem_filter.1 hsen).1 hid.symm))
        have hco : ∀ n, coef net st1 s n = coef net st s n := by intro n; unfold coef; rw [hre]
        rcases List.mem_cons.1 hmem with he | hmem'
        · obtain ⟨rfl, -⟩ := Prod.mk.inj he
          exact hss (hwf.eq_of_name m.sMem (List.mem_filter.1 hsen).1 (m.sName.trans hstuck))
        · refine ih m.reach m.pyDicts (by rw [m.same.species]; exact hsen) hm hmem'
            (fun e he => honly' e (List.mem_cons_of_mem _ he)) ?_
          rw [hco, hco]; exact hsum

/-! ### demo -/

/-- a rational function with the properties of a power that the theorems use -/
def demoPw (r y : ℚ) : ℚ := if 0 ≤ y then 1 + y * (r - 1) else 1 / (1 - y * (r - 1))

/-- the hypotheses on the power can be met -/
example : (∀ r, 1 < r → demoPw r 0 = 1) ∧ (∀ r y, 1 < r → -1 ≤ y → y ≤ 1 → 1 / r ≤ demoPw r y ∧ demoPw r y ≤ r) ∧
    (∀ r y, 1 < r → 0 < y → 1 < demoPw r y) := by
  refine ⟨fun r _ => by simp [demoPw], fun r y hr h1 h2 => ?_, fun r y hr hy => ?_⟩
  · unfold demoPw
    split
    · rename_i hy
      constructor
      · have : 1 / r ≤ 1 := by rw [div_le_one (by linarith)]; exact hr.le
        have : 0 ≤ y * (r - 1) := mul_nonneg hy (by linarith)
        linarith
      · nlinarith
    · rename_i hy
      rw [not_le] at hy
      have h0 : 1 ≤ 1 - y * (r - 1) := by nlinarith
      constructor
      · apply one_div_le_one_div_of_le (by linarith)
        nlinarith
      · have : 1 / (1 - y * (r - 1)) ≤ 1 := by rw [div_le_one (by linarith)]; exact h0
        linarith
  · unfold demoPw
    rw [if_pos hy.le]
    have : 0 < y * (r - 1) := mul_pos hy (by linarith)
    linarith

/-- Ar+ returns Ar and Ar+ one half each -/
def demoRetState : State := Demo.net.run Demo.st0 [.adhocRet (.id 2) [(str!"Ar", 1/2), (str!"Ar+", 1/2)]]

/-- the return dictionary of Ar+ after a call -/
def demoRet (r : Except RetErr State) : Option (List (Str × ℚ)) :=
  match r with
  | .ok st => retDict Demo.net st Demo.ArP
  | .error _ => none

/-- a call that succeeds, and one that is refused because Ar+ would have to return a negative number of itself -/
example : demoRet (mapRet Demo.net demoPw demoRetState ⟨str!"Ar+", str!"Ar", 1/2, 2⟩ (3/4)) =
      some [(str!"Ar", 3/4), (str!"Ar+", 1/4)] ∧
    (match mapRet Demo.net demoPw demoRetState ⟨str!"Ar+", str!"Ar", 1/2, 4⟩ (9/10) with
      | .error e => decide (e = .inputs)
      | .ok _ => false) = true := by decide +kernel

/-- in the demo chemistry itself Ar+ returns Ar only: the factor for Ar+ > Ar cannot be varied -/
example : (match mapRet Demo.net demoPw Demo.st0 ⟨str!"Ar+", str!"Ar", 1, 2⟩ (11/20) with
      | .error e => decide (e = .inputs)
      | .ok _ => false) = true ∧
    coef Demo.net Demo.st0 Demo.ArP (str!"Ar+") = 0 ∧ coef Demo.net Demo.st0 Demo.ArP (str!"Ar") = 1 := by decide +kernel

/-- the demo states meet the hypotheses -/
example : Reachable Demo.net demoRetState ∧ Demo.net.RetClosed ∧ PyDicts Demo.net demoRetState := by
  refine ⟨Reachable.run (.init rfl) _, Demo.net_retClosed, ⟨?_, ?_⟩⟩
  · intro s hs c hc
    simp only [Demo.net, List.mem_cons, List.not_mem_nil, or_false] at hs
    rcases hs with rfl | rfl | rfl | rfl | rfl | rfl <;> cases hc <;> simp [Dict.keys]
  · intro e he
    have : demoRetState.adRet = [(2, [(str!"Ar", 1/2), (str!"Ar+", 1/2)])] := rfl
    rw [this, List.mem_singleton] at he
    subst he
    decide

end Verif.Fwork.Morris
