import Verif.Plaschem.AdhocRet

/-!
# Which chemistries the constructor accepts, and the state it hands out

plaschem/chemistry.py:29-92 (`Chemistry.__init__` with species and reactions passed explicitly) together
with the consistency check of lines 121-172 that it runs. The statements below describe acceptance in
terms of the species and reactions that are passed, without reference to the masks and series the class
keeps.
-/

namespace Verif.Plaschem
namespace Net

/-- **Specification.** A collection of species and reactions is *admissible* if
* no two species share an id, no two reactions share an id and no two species share a name;
* (unless the class was told not to need charges) there is an electron and a positive ion;
* every species object of every reaction is one of the species, and every species takes part in some
  reaction;
* the return coefficients of every species can be determined;
* every return species of a species that sticks at all (or has no sticking coefficient) is one of the
  species. -/
structure Admissible (net : Net) : Prop where
  spIds : (net.species.map RP.id).Nodup
  rIds : (net.reactions.map Reaction.id).Nodup
  names : (net.species.map RP.name).Nodup
  electron : net.requiresCharge = true → ∃ s ∈ net.species, s.name = str!"e"
  ion : net.requiresCharge = true → ∃ s ∈ net.species, PositiveIon s
  closed : ∀ r ∈ net.reactions, (∀ p ∈ r.reactants, p ∈ net.species) ∧ ∀ p ∈ r.products, p ∈ net.species
  used : ∀ s ∈ net.species, ∃ r ∈ net.reactions, s ∈ r.reactants ∨ s ∈ r.products
  readable : ∀ s ∈ net.species, ∃ c, s.getRetCoefs = .ok c
  returned : ∀ s ∈ net.species, s.getStickCoef ≠ some 0 →
    ∀ c, s.getRetCoefs = .ok (some c) → ∀ p ∈ c, ∃ t ∈ net.species, t.name = p.1

/-- **Specification.** The state of a chemistry nothing has happened to: everything is enabled, no ad-hoc
value is stored, and (if charges are needed) exactly the electron and a positive ion without competitor
are protected. -/
structure Pristine (net : Net) (st : State) : Prop where
  species : ∀ i, st.enSp i = true
  reactions : ∀ i, st.enR i = true
  stick : st.adStick = []
  ret : st.adRet = []
  rate : st.adArrhA = []
  adhoc : ∀ i, st.adhocSp i = false
  protected_iff : ∀ i, st.protSp i = true ↔ net.requiresCharge = true ∧ ∃ s ∈ net.species, s.id = i ∧
    (s.name = str!"e" ∨ (PositiveIon s ∧ ∀ t ∈ net.species, PositiveIon t → t = s))

/-! ### The return-species check of a fresh chemistry -/

theorem zeroGet {sticks : Dict Nat (Option ℚ)}
    (d : Dict Nat (Option (Dict Str ℚ))) (i : Nat) :
    (applyZeroStick d sticks).get? i =
      if (i, some 0) ∈ sticks then some (some []) else d.get? i := by
  induction sticks generalizing d with
  | nil => simp [applyZeroStick]
  | cons e sticks ih =>
    obtain ⟨k, v⟩ := e
    have : applyZeroStick d ((k, v) :: sticks) =
        applyZeroStick (if v = some 0 then d.set k (some []) else d) sticks := rfl
    rw [this, ih]
    by_cases hm : (i, some 0) ∈ sticks
    · simp [hm]
    · rw [if_neg hm]
      by_cases hv : v = some 0
      · rw [if_pos hv, Dict.get?_set]
        by_cases hk : k = i
        · simp [hk, hv]
        · simp [hk, hm, Ne.symm hk]
      · rw [if_neg hv]
        have : ¬ (i, some (0 : ℚ)) ∈ (k, v) :: sticks := by
          intro hc
          rcases List.mem_cons.1 hc with hc | hc
          · exact hv (Prod.mk.inj hc).2.symm
          · exact hm hc
        rw [if_neg this]

theorem zeroKeys (sticks : Dict Nat (Option ℚ)) (d : Dict Nat (Option (Dict Str ℚ)))
    (h : d.keys.Nodup) : (applyZeroStick d sticks).keys.Nodup := by
  induction sticks generalizing d with
  | nil => exact h
  | cons e sticks ih =>
    obtain ⟨k, v⟩ := e
    have heq : applyZeroStick d ((k, v) :: sticks) =
        applyZeroStick (if v = some 0 then d.set k (some []) else d) sticks := rfl
    rw [heq]
    apply ih
    split
    · rw [Dict.keys_set]
      split
      · exact h
      · rename_i hk
        exact List.nodup_append.2 ⟨h, by simp, fun a ha b hb => by
          rw [List.mem_singleton] at hb; subst hb; intro hab; exact hk (hab ▸ ha)⟩
    · exact h

theorem nominalMem {l : List RP} {d : Dict Nat (Option (Dict Str ℚ))}
    (h : nominalRet l = .ok d) : d.keys = l.map RP.id ∧
      (∀ e ∈ d, ∃ s ∈ l, s.id = e.1 ∧ s.getRetCoefs = .ok e.2) ∧
      ∀ s ∈ l, ∀ c, s.getRetCoefs = .ok c → (s.id, c) ∈ d := by
  induction l generalizing d with
  | nil =>
    simp only [nominalRet] at h; cases h
    exact ⟨rfl, fun e he => (by cases he), fun s hs => (by cases hs)⟩
  | cons s l ih =>
    unfold nominalRet at h
    split at h
    · cases h
    rename_i c hc
    split at h
    · cases h
    rename_i rest hrest
    cases h
    obtain ⟨a, b, b'⟩ := ih hrest
    refine ⟨by simp only [Dict.keys, List.map_cons] at a ⊢; rw [a], fun e he => ?_, fun t ht c' hc' => ?_⟩
    · rcases List.mem_cons.1 he with rfl | he
      · exact ⟨s, by simp, rfl, hc⟩
      · obtain ⟨t, ht, h1, h2⟩ := b e he
        exact ⟨t, by simp [ht], h1, h2⟩
    · rcases List.mem_cons.1 ht with rfl | ht
      · rw [hc] at hc'; cases hc'; simp
      · exact List.mem_cons_of_mem _ (b' t ht c' hc')

private theorem fresh_species (net : Net) : net.getSpecies State.fresh false true true = net.species := by
  unfold getSpecies
  rw [List.filter_eq_self]
  intro a _; simp [speciesMask, State.fresh]

private theorem fresh_ret {net : Net} (hn : (net.species.map RP.id).Nodup) :
    RetOk net State.fresh ↔ (∀ s ∈ net.species, ∃ c, s.getRetCoefs = .ok c) ∧
      ∀ s ∈ net.species, s.getStickCoef ≠ some 0 →
        ∀ c, s.getRetCoefs = .ok (some c) → ∀ p ∈ c, ∃ t ∈ net.species, t.name = p.1 := by
  have hany : net.anyDisabled State.fresh = false := by simp [anyDisabled, State.fresh]
  have hsticks : net.getSpeciesStickCoef State.fresh false true true =
      net.species.map (fun s => (s.id, s.getStickCoef)) := by
    unfold getSpeciesStickCoef; rw [fresh_species]; rfl
  have hmem : ∀ s ∈ net.species,
      ((s.id, some (0 : ℚ)) ∈ net.species.map (fun s => (s.id, s.getStickCoef)) ↔ s.getStickCoef = some 0) := by
    intro s hs
    rw [List.mem_map]
    constructor
    · rintro ⟨t, ht, he⟩
      obtain ⟨h1, h2⟩ := Prod.mk.inj he
      have := List.inj_on_of_nodup_map hn ht hs h1
      rw [← this, h2]
    · intro h; exact ⟨s, hs, by rw [h]⟩
  have key : ∀ d0, nominalRet net.species = .ok d0 →
      (RetOk net State.fresh ↔ ∀ n ∈ retNames (applyZeroStick d0
        (net.species.map (fun s => (s.id, s.getStickCoef)))), n ∈ net.species.map RP.name) := by
    intro d0 hd0
    unfold RetOk getSpeciesRetCoefs
    rw [fresh_species, hd0, hany, hsticks]
    have : applyAdhocRet d0 State.fresh.adRet = d0 := rfl
    simp [this]
  constructor
  · intro h
    have hok := fresh_nominal h
    refine ⟨hok, fun s hs hst c hc p hp => ?_⟩
    obtain ⟨d0, hd0, -⟩ := nominalRet_of (P := fun _ => True) hok (fun _ _ _ _ _ _ => trivial)
    obtain ⟨a, b, b'⟩ := nominalMem hd0
    have h' := (key d0 hd0).1 h
    have hkn : d0.keys.Nodup := by rw [a]; exact hn
    have hg : (applyZeroStick d0 (net.species.map (fun s => (s.id, s.getStickCoef)))).get? s.id =
        some (some c) := by
      rw [zeroGet, if_neg (by rw [hmem s hs]; exact hst)]
      exact Dict.get?_of_mem hkn (b' s hs _ hc)
    have := h' p.1 (mem_retNames.2 ⟨_, Dict.mem_of_get? hg, c, rfl, p, hp, rfl⟩)
    obtain ⟨t, ht, hn⟩ := List.mem_map.1 this
    exact ⟨t, ht, hn⟩
  · rintro ⟨hok, hcl⟩
    obtain ⟨d0, hd0, -⟩ := nominalRet_of (P := fun _ => True) hok (fun _ _ _ _ _ _ => trivial)
    obtain ⟨a, b, b'⟩ := nominalMem hd0
    rw [key d0 hd0]
    intro n hn'
    obtain ⟨e, he, c, hc, p, hp, rfl⟩ := mem_retNames.1 hn'
    have hkn : d0.keys.Nodup := by rw [a]; exact hn
    obtain ⟨i, o⟩ := e
    simp only at hc; subst hc
    have hg := Dict.get?_of_mem (zeroKeys _ _ hkn) he
    rw [zeroGet] at hg
    split at hg
    · simp only [Option.some.injEq] at hg; subst hg; cases hp
    · rename_i hns
      obtain ⟨s, hs, hid, hret⟩ := b _ (Dict.mem_of_get? hg)
      simp only at hid hret; subst hid
      obtain ⟨t, ht, htn⟩ := hcl s hs (fun h => hns ((hmem s hs).2 h)) c hret p hp
      exact List.mem_map.2 ⟨t, ht, htn⟩

/-! ### Acceptance -/

private theorem assert_iff {net : Net} (hs : (net.species.map RP.id).Nodup)
    (hr : (net.reactions.map Reaction.id).Nodup) :
    net.assertConsistency State.fresh = .ok () ↔ net.Admissible := by
  rw [assertConsistency_iff, fresh_ret hs]
  constructor
  · rintro ⟨h, h1, h2⟩
    refine ⟨hs, hr, ?_, ?_, ?_, ?_, ?_, h1, h2⟩
    · have := h.names; rwa [fresh_species] at this
    · intro hq; obtain ⟨s, a, -, b⟩ := h.electron hq; exact ⟨s, a, b⟩
    · intro hq
      obtain ⟨s, hs⟩ := List.exists_mem_of_ne_nil _ (h.ion hq)
      obtain ⟨a, _, b⟩ := mem_positiveIons.1 hs
      exact ⟨s, a, b⟩
    · intro r hr
      refine ⟨fun p hp => (h.present r hr rfl p ?_).1, fun p hp => (h.present r hr rfl p ?_).1⟩
      · exact List.mem_append.2 (.inl hp)
      · exact List.mem_append.2 (.inr hp)
    · intro s hs
      obtain ⟨r, hr, -, hp⟩ := h.used s hs rfl
      exact ⟨r, hr, List.mem_append.1 hp⟩
  · intro h
    refine ⟨⟨?_, ?_, ?_, ?_, ?_, ?_⟩, h.readable, h.returned⟩
    · intro hq; obtain ⟨s, a, b⟩ := h.electron hq; exact ⟨s, a, rfl, b⟩
    · intro hq
      obtain ⟨s, a, b⟩ := h.ion hq
      exact List.ne_nil_of_mem (mem_positiveIons.2 ⟨a, rfl, b⟩)
    · rw [fresh_species]; exact h.names
    · rw [fresh_species]; exact h.spIds
    · intro r hr _ p hp
      rcases List.mem_append.1 hp with hp | hp
      · exact ⟨(h.closed r hr).1 p hp, rfl⟩
      · exact ⟨(h.closed r hr).2 p hp, rfl⟩
    · intro s hs _
      obtain ⟨r, hr, hp⟩ := h.used s hs
      exact ⟨r, hr, rfl, List.mem_append.2 hp⟩

private theorem getRp_obj {net : Net} {s : RP} (hs : s ∈ net.species) : net.getRp (.obj s) = .ok s := by
  unfold getRp
  simp only
  cases hf : net.species.find? (fun t => decide (t = s)) with
  | none => have := List.find?_eq_none.1 hf s hs; simp at this
  | some t => have := List.find?_some hf; simp at this; simp [this]

private theorem positiveIons_nodup {net : Net} (hn : (net.species.map RP.id).Nodup) (st : State) :
    (net.positiveIons st).Nodup := by
  have : net.species.Nodup := hn.of_map _
  exact (this.filter _).filter _

private theorem init_of_admissible {net : Net} (h : net.Admissible) : ∃ st, net.init = .ok st ∧ net.Pristine st := by
  have hac := (assert_iff h.spIds h.rIds).2 h
  unfold init
  rw [if_neg (by rw [not_or, not_not, not_not]; exact ⟨h.spIds, h.rIds⟩), hac]
  simp only
  by_cases hq : net.requiresCharge = true
  · rw [if_pos hq]
    obtain ⟨el, hel, hen⟩ := h.electron hq
    have hp1 : net.setProtected State.fresh [.name str!"e"] =
        ({ State.fresh with protSp := setMask State.fresh.protSp [el.id] true }, none) := by
      unfold setProtected
      simp only [resolveSpecies]
      rw [← hen, find_name h.names hel]
    rw [hp1]
    simp only
    have hmem : ∀ s, s ∈ net.positiveIons { State.fresh with protSp := setMask State.fresh.protSp [el.id] true } ↔
        s ∈ net.species ∧ PositiveIon s := by
      intro s; rw [mem_positiveIons]
      exact ⟨fun h => ⟨h.1, h.2.2⟩, fun h => ⟨h.1, rfl, h.2⟩⟩
    have hnd := positiveIons_nodup h.spIds
      { State.fresh with protSp := setMask State.fresh.protSp [el.id] true }
    have helu : ∀ s ∈ net.species, s.name = str!"e" → s = el := fun s hs hn =>
      List.inj_on_of_nodup_map h.names hs hel (hn.trans hen.symm)
    split
    · rename_i x s hx
      rw [hx] at hmem
      have hs := (hmem s).1 (by simp)
      have huniq : ∀ t ∈ net.species, PositiveIon t → t = s := fun t ht hp => by
        simpa using (hmem t).2 ⟨ht, hp⟩
      have hp2 : ∀ st, net.setProtected st [.obj s] =
          ({ st with protSp := setMask st.protSp [s.id] true }, none) := by
        intro st
        unfold setProtected
        simp only [resolveSpecies, getRp_obj hs.1]
      rw [hp2]
      refine ⟨_, rfl, fun _ => rfl, fun _ => rfl, rfl, rfl, rfl, fun _ => rfl, fun i => ?_⟩
      simp only [setMask_true, List.mem_singleton, hq, true_and]
      constructor
      · rintro (rfl | rfl | hc)
        · exact ⟨s, hs.1, rfl, .inr ⟨hs.2, huniq⟩⟩
        · exact ⟨el, hel, rfl, .inl hen⟩
        · simp [State.fresh] at hc
      · rintro ⟨t, ht, rfl, hc | ⟨hc, -⟩⟩
        · exact .inr (.inl (by rw [helu t ht hc]))
        · exact .inl (by rw [huniq t ht hc])
    · rename_i x hx
      refine ⟨_, rfl, fun _ => rfl, fun _ => rfl, rfl, rfl, rfl, fun _ => rfl, fun i => ?_⟩
      simp only [setMask_true, List.mem_singleton, hq, true_and]
      constructor
      · rintro (rfl | hc)
        · exact ⟨el, hel, rfl, .inl hen⟩
        · simp [State.fresh] at hc
      · rintro ⟨t, ht, rfl, hc | ⟨hc, hu⟩⟩
        · exact .inl (by rw [helu t ht hc])
        · exfalso
          apply hx t
          have hall : ∀ u ∈ net.positiveIons { State.fresh with protSp := setMask State.fresh.protSp [el.id] true },
              u = t := fun u huu => hu u ((hmem u).1 huu).1 ((hmem u).1 huu).2
          have hin := (hmem t).2 ⟨ht, hc⟩
          generalize net.positiveIons _ = l at hall hin hnd
          match l, hall, hin, hnd with
          | [u], hall, _, _ => rw [hall u (by simp)]
          | u :: v :: l, hall, _, hnd =>
            have h1 := hall u (by simp)
            have h2 := hall v (by simp)
            rw [h1, h2] at hnd
            simp at hnd
  · rw [if_neg hq]
    refine ⟨_, rfl, fun _ => rfl, fun _ => rfl, rfl, rfl, rfl, fun _ => rfl, fun i => ?_⟩
    simp [State.fresh, hq]

/-- **The constructor accepts exactly the admissible collections of species and reactions.** -/
theorem init_iff (net : Net) : (∃ st, net.init = .ok st) ↔ net.Admissible := by
  constructor
  · rintro ⟨st, h⟩
    unfold init at h
    split at h
    · cases h
    rename_i hnd
    rw [not_or, not_not, not_not] at hnd
    split at h
    · cases h
    · rename_i hac
      exact (assert_iff hnd.1 hnd.2).1 hac
  · intro h
    obtain ⟨st, hst, -⟩ := init_of_admissible h
    exact ⟨st, hst⟩

/-- **A new chemistry is pristine**: everything is enabled, nothing is overridden, and exactly the electron
and a positive ion without competitor are protected. -/
theorem init_pristine {net : Net} {st : State} (h : net.init = .ok st) : net.Pristine st := by
  obtain ⟨st', hst, hp⟩ := init_of_admissible ((init_iff net).1 ⟨st, h⟩)
  rw [h] at hst; cases hst; exact hp

/-- **A rejected collection is rejected with the consistency error**, provided the return coefficients of
the species can be determined. -/
theorem init_rejects {net : Net} (h : ∀ s ∈ net.species, ∃ c, s.getRetCoefs = .ok c) (hs : ¬ net.Admissible) :
    net.init = .error .consistency := by
  unfold init
  split
  · rfl
  rename_i hnd
  rw [not_or, not_not, not_not] at hnd
  cases hac : net.assertConsistency State.fresh with
  | ok u => exact absurd ((assert_iff hnd.1 hnd.2).1 hac) hs
  | error e => simp only; rw [assertConsistency_error h hac]

/-- **The order of the arguments does not matter**: permuting species and reactions changes neither
whether they are accepted nor the state of the new chemistry. -/
theorem init_perm {net net' : Net} (hs : net'.species.Perm net.species)
    (hr : net'.reactions.Perm net.reactions) (hq : net'.requiresCharge = net.requiresCharge)
    {st : State} (h : net.init = .ok st) : ∃ st', net'.init = .ok st' ∧
      (∀ i, st'.protSp i = st.protSp i) ∧ (∀ i, st'.enSp i = st.enSp i) ∧ (∀ i, st'.enR i = st.enR i) := by
  have hso := (init_iff net).1 ⟨st, h⟩
  have hso' : net'.Admissible := by
    refine ⟨(hs.map _).nodup_iff.2 hso.spIds, (hr.map _).nodup_iff.2 hso.rIds,
      (hs.map _).nodup_iff.2 hso.names, ?_, ?_, ?_, ?_, ?_, ?_⟩
    · intro h; obtain ⟨s, a, b⟩ := hso.electron (hq ▸ h); exact ⟨s, hs.mem_iff.2 a, b⟩
    · intro h; obtain ⟨s, a, b⟩ := hso.ion (hq ▸ h); exact ⟨s, hs.mem_iff.2 a, b⟩
    · intro r h
      obtain ⟨a, b⟩ := hso.closed r (hr.mem_iff.1 h)
      exact ⟨fun p hp => hs.mem_iff.2 (a p hp), fun p hp => hs.mem_iff.2 (b p hp)⟩
    · intro s h
      obtain ⟨r, a, b⟩ := hso.used s (hs.mem_iff.1 h)
      exact ⟨r, hr.mem_iff.2 a, b⟩
    · intro s h; exact hso.readable s (hs.mem_iff.1 h)
    · intro s h hst c hc p hp
      obtain ⟨t, a, b⟩ := hso.returned s (hs.mem_iff.1 h) hst c hc p hp
      exact ⟨t, hs.mem_iff.2 a, b⟩
  obtain ⟨st', hst', hp'⟩ := init_of_admissible hso'
  have hp := init_pristine h
  refine ⟨st', hst', fun i => ?_, fun i => ?_, fun i => ?_⟩
  · rw [Bool.eq_iff_iff, hp'.protected_iff, hp.protected_iff, hq]
    simp only [hs.mem_iff]
  · rw [hp.species, hp'.species]
  · rw [hp.reactions, hp'.reactions]

/-! ### Concrete cases -/

namespace InitDemo

/-- argon with one ion; the ion does not stick and names a return species the chemistry lacks -/
def ArP : RP := { Demo.ArP with stickCoef := some 0, retCoefs := some [(str!"Xe", 1)] }

/-- e + Ar > Ar+ + e + e and Ar+ + e > Ar -/
def net : Net :=
  { species := [Demo.e, Demo.Ar, ArP]
    reactions := [{ id := 1, reactants := [Demo.e, Demo.Ar], products := [ArP, Demo.e, Demo.e] },
                  { id := 2, reactants := [ArP, Demo.e], products := [Demo.Ar] }] }

/-- the same with the ion sticking -/
def netStick : Net :=
  { species := [Demo.e, Demo.Ar, { ArP with stickCoef := some 1 }]
    reactions := [{ id := 1, reactants := [Demo.e, Demo.Ar],
                    products := [{ ArP with stickCoef := some 1 }, Demo.e, Demo.e] }] }

/-- accepted: the unknown return species of a species that does not stick is not looked at; the electron
and the only ion are protected, argon is not. -/
theorem accepted : ∃ st, net.init = .ok st ∧ net.Admissible ∧ st.protSp 0 = true ∧ st.protSp 2 = true ∧
    st.protSp 1 = false := by
  refine ⟨_, rfl, ?_, rfl, rfl, rfl⟩
  exact (init_iff net).1 ⟨_, rfl⟩

/-- **Such a chemistry breaks as soon as its species is made to stick**: the ad-hoc value is stored, the
call raises, and the chemistry fails its own consistency check from then on. -/
theorem breaks : ∃ st, net.init = .ok st ∧
    (net.setAdhocStick st (.name str!"Ar+") 1).2 = some .consistency ∧
    (net.setAdhocStick st (.name str!"Ar+") 1).1.adStick = [(2, 1)] ∧
    (net.assertConsistency (net.setAdhocStick st (.name str!"Ar+") 1).1).toOption = none :=
  ⟨_, rfl, by decide +kernel, by decide +kernel, by decide +kernel⟩

/-- rejected: with a sticking ion the unknown return species is noticed -/
example : netStick.init = .error .consistency ∧ ¬ netStick.Admissible := by
  have h : netStick.init = .error .consistency := rfl
  refine ⟨h, fun hs => ?_⟩
  obtain ⟨st, hst⟩ := (init_iff netStick).2 hs
  rw [h] at hst; cases hst

/-- with two ions nothing but the electron is protected; without the need for charges nothing is -/
example : Demo.net.Admissible ∧ (∃ st, Demo.net.init = .ok st ∧ st.protSp 2 = false ∧ st.protSp 0 = true) ∧
    (∃ st, ({ net with requiresCharge := false } : Net).init = .ok st ∧ st.protSp 0 = false) :=
  ⟨(init_iff _).1 ⟨_, Demo.init_ok⟩, ⟨_, Demo.init_ok, rfl, rfl⟩, ⟨_, rfl, rfl⟩⟩

/-- the hypotheses of `init_rejects` and `init_perm` -/
example : (∀ s ∈ netStick.species, ∃ c, s.getRetCoefs = .ok c) ∧
    (∃ st, ({ net with species := net.species.reverse } : Net).init = .ok st ∧ st.protSp 2 = true) := by
  refine ⟨?_, ⟨_, rfl, rfl⟩⟩
  simp only [netStick, List.mem_cons, List.not_mem_nil, or_false, forall_eq_or_imp, forall_eq]
  exact ⟨⟨_, rfl⟩, ⟨_, rfl⟩, ⟨_, rfl⟩⟩

end InitDemo

end Net
end Verif.Plaschem
