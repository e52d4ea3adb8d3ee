/-
Property C21: the surface return coefficients and the return matrix.
-/
import Verif.Plaschem.Adhoc

namespace Verif.Plaschem
open Net

/-- Specification: `n` is the name of an enabled species. -/
def EnabledName (net : Net) (st : State) (n : Str) : Prop :=
  ∃ t ∈ net.species, t.name = n ∧ st.enSp t.id = true

/-- Specification: the sticking coefficient of `s`: the ad-hoc one, else the nominal one. -/
def stickInForce (st : State) (s : RP) : Option ℚ :=
  match st.adStick.get? s.id with
  | some v => some v
  | none => s.getStickCoef

open Classical in
/-- Specification: what is left of a return dictionary once disabled species are taken out. -/
noncomputable def keepEnabled (net : Net) (st : State) (c : Dict Str ℚ) : Dict Str ℚ :=
  c.filter (fun p => decide (EnabledName net st p.1))

/-! ### lemmas -/

private theorem get?_nil {κ α : Type} [DecidableEq κ] (k : κ) : Dict.get? ([] : Dict κ α) k = none := rfl

private theorem get?_none_of_not_mem {κ α : Type} [DecidableEq κ] {d : Dict κ α} {k : κ}
    (h : k ∉ d.keys) : d.get? k = none := by
  cases hc : d.get? k with
  | none => rfl
  | some v => exact absurd ((Dict.mem_keys_iff d k).2 ⟨v, hc⟩) h

private theorem keys_cons {κ α : Type} (k : κ) (v : α) (d : Dict κ α) :
    Dict.keys ((k, v) :: d) = k :: d.keys := rfl

private theorem nodup_keys_set {κ α : Type} [DecidableEq κ] {d : Dict κ α} (h : d.keys.Nodup) (k : κ)
    (v : α) : (d.set k v).keys.Nodup := by
  rw [Dict.keys_set]
  split
  · exact h
  · rename_i hk
    rw [List.nodup_append]
    refine ⟨h, by simp, ?_⟩
    rintro a ha b hb rfl
    rw [List.mem_singleton] at hb
    exact hk (hb ▸ ha)

private theorem mem_keys_set {κ α : Type} [DecidableEq κ] (d : Dict κ α) (k : κ)
    (v : α) (i : κ) : i ∈ (d.set k v).keys ↔ i ∈ d.keys ∨ i = k := by
  rw [Dict.keys_set]
  split
  · rename_i h; constructor
    · exact fun h => .inl h
    · rintro (h' | rfl)
      · exact h'
      · exact h
  · simp

private theorem adhoc_get {ad : Dict Nat (Dict Str ℚ)} (hn : ad.keys.Nodup)
    (d : Dict Nat (Option (Dict Str ℚ))) (i : Nat) :
    (applyAdhocRet d ad).get? i = match ad.get? i with
      | some c => some (some c)
      | none => d.get? i := by
  induction ad generalizing d with
  | nil => rfl
  | cons e ad ih =>
    obtain ⟨k, c⟩ := e
    rw [keys_cons, List.nodup_cons] at hn
    have : applyAdhocRet d ((k, c) :: ad) = applyAdhocRet (d.set k (some c)) ad := rfl
    rw [this, ih hn.2, Dict.get?_cons, Dict.get?_set]
    by_cases h : k = i
    · subst h
      rw [get?_none_of_not_mem hn.1]; simp
    · simp [h]

private theorem adhoc_keys (ad : Dict Nat (Dict Str ℚ)) (d : Dict Nat (Option (Dict Str ℚ))) :
    (d.keys.Nodup → (applyAdhocRet d ad).keys.Nodup) ∧
    (∀ i, i ∈ (applyAdhocRet d ad).keys ↔ i ∈ d.keys ∨ i ∈ ad.keys) ∧
    ((∀ i ∈ ad.keys, i ∈ d.keys) → (applyAdhocRet d ad).keys = d.keys) := by
  induction ad generalizing d with
  | nil => exact ⟨fun h => h, fun i => by simp [applyAdhocRet, Dict.keys], fun _ => rfl⟩
  | cons e ad ih =>
    obtain ⟨k, c⟩ := e
    have heq : applyAdhocRet d ((k, c) :: ad) = applyAdhocRet (d.set k (some c)) ad := rfl
    rw [heq, keys_cons]
    obtain ⟨a, b, c'⟩ := ih (d.set k (some c))
    refine ⟨fun h => a (nodup_keys_set h _ _), fun i => ?_, fun h => ?_⟩
    · rw [b, mem_keys_set, List.mem_cons, or_assoc]
    · have hk : (d.set k (some c)).keys = d.keys := by
        rw [Dict.keys_set, if_pos (h k (by simp))]
      rw [c' (fun i hi => by rw [hk]; exact h i (by simp [hi])), hk]

private theorem zero_get {sticks : Dict Nat (Option ℚ)}
    (d : Dict Nat (Option (Dict Str ℚ))) (i : Nat) :
    (applyZeroStick d sticks).get? i =
      if (i, some 0) ∈ sticks then some (some []) else d.get? i := by
  induction sticks generalizing d with
  | nil => simp [applyZeroStick]
  | cons e sticks ih =>
    obtain ⟨k, v⟩ := e
    have : applyZeroStick d ((k, v) :: sticks) =
        applyZeroStick (if v = some 0 then d.set k (some []) else d) sticks := rfl
    rw [this, ih]
    by_cases hm : (i, some 0) ∈ sticks
    · simp [hm]
    · rw [if_neg hm]
      by_cases hv : v = some 0
      · rw [if_pos hv, Dict.get?_set]
        by_cases hk : k = i
        · simp [hk, hv]
        · simp [hk, hm, Ne.symm hk]
      · rw [if_neg hv]
        have : ¬ (i, some (0 : ℚ)) ∈ (k, v) :: sticks := by
          intro hc
          rcases List.mem_cons.1 hc with hc | hc
          · exact hv (Prod.mk.inj hc).2.symm
          · exact hm hc
        rw [if_neg this]

private theorem zero_keys (sticks : Dict Nat (Option ℚ)) (d : Dict Nat (Option (Dict Str ℚ))) :
    (d.keys.Nodup → (applyZeroStick d sticks).keys.Nodup) ∧
    (∀ i, i ∈ (applyZeroStick d sticks).keys ↔ i ∈ d.keys ∨ (i, some 0) ∈ sticks) ∧
    ((∀ i, (i, some 0) ∈ sticks → i ∈ d.keys) → (applyZeroStick d sticks).keys = d.keys) := by
  induction sticks generalizing d with
  | nil => exact ⟨fun h => h, fun i => by simp [applyZeroStick], fun _ => rfl⟩
  | cons e sticks ih =>
    obtain ⟨k, v⟩ := e
    have heq : applyZeroStick d ((k, v) :: sticks) =
        applyZeroStick (if v = some 0 then d.set k (some []) else d) sticks := rfl
    rw [heq]
    obtain ⟨a, b, c'⟩ := ih (if v = some 0 then d.set k (some []) else d)
    by_cases hv : v = some 0
    · rw [if_pos hv] at a b c' ⊢
      refine ⟨fun h => a (nodup_keys_set h _ _), fun i => ?_, fun h => ?_⟩
      · rw [b, mem_keys_set, List.mem_cons, or_assoc]
        simp [hv]
      · have hk : (d.set k (some [])).keys = d.keys := by
          rw [Dict.keys_set, if_pos (h k (by simp [hv]))]
        rw [c' (fun i hi => by rw [hk]; exact h i (by simp [hi])), hk]
    · rw [if_neg hv] at a b c' ⊢
      refine ⟨a, fun i => ?_, fun h => c' (fun i hi => h i (by simp [hi]))⟩
      rw [b, List.mem_cons]
      constructor
      · rintro (h | h)
        · exact .inl h
        · exact .inr (.inr h)
      · rintro (h | h | h)
        · exact .inl h
        · exact absurd (Prod.mk.inj h).2.symm hv
        · exact .inr h

private theorem purge_get (pool : List Str) (d : Dict Nat (Option (Dict Str ℚ))) (i : Nat) :
    (purge pool d).get? i = (d.get? i).map (fun o => o.map (fun c => c.filter (fun p => p.1 ∈ pool))) := by
  induction d with
  | nil => rfl
  | cons e d ih =>
    obtain ⟨k, c⟩ := e
    have : purge pool ((k, c) :: d) = (k, c.map (fun c => c.filter (fun p => p.1 ∈ pool))) :: purge pool d := rfl
    rw [this, Dict.get?_cons, Dict.get?_cons, ih]
    split <;> rfl

private theorem purge_keys (pool : List Str) (d : Dict Nat (Option (Dict Str ℚ))) :
    (purge pool d).keys = d.keys := by simp [purge, Dict.keys, Function.comp_def]

private theorem nominalRet_get {l : List RP} {d : Dict Nat (Option (Dict Str ℚ))}
    (h : nominalRet l = .ok d) : d.keys = l.map RP.id ∧ ∀ e ∈ d, ∃ s ∈ l, s.id = e.1 ∧ s.getRetCoefs = .ok e.2 := by
  induction l generalizing d with
  | nil => simp only [nominalRet] at h; cases h; exact ⟨rfl, fun e he => by cases he⟩
  | cons s l ih =>
    unfold nominalRet at h
    split at h
    · cases h
    rename_i c hc
    split at h
    · cases h
    rename_i rest hrest
    cases h
    obtain ⟨a, b⟩ := ih hrest
    refine ⟨by rw [keys_cons, a]; rfl, fun e he => ?_⟩
    rcases List.mem_cons.1 he with rfl | he
    · exact ⟨s, by simp, rfl, hc⟩
    · obtain ⟨t, ht, h1, h2⟩ := b e he
      exact ⟨t, by simp [ht], h1, h2⟩

private theorem enabledName_iff {net : Net} {st : State} {n : Str} :
    n ∈ net.getSpeciesName st false true true ↔ EnabledName net st n := by
  unfold getSpeciesName EnabledName
  rw [List.mem_map]
  constructor
  · rintro ⟨t, ht, hn⟩
    exact ⟨t, (mem_getSpecies.1 ht).1, hn, (mem_getSpecies.1 ht).2⟩
  · rintro ⟨t, ht, hn, he⟩
    exact ⟨t, mem_getSpecies.2 ⟨ht, he⟩, hn⟩

private theorem not_anyDisabled {net : Net} {st : State} (ha : ¬ net.anyDisabled st = true) :
    ∀ t ∈ net.species, st.enSp t.id = true := by
  unfold anyDisabled at ha
  simp only [List.any_eq_true, not_exists, not_and, Bool.not_eq_true, Bool.not_eq_false'] at ha
  exact ha

theorem reachable_retKeys {net : Net} {st : State} (h : Reachable net st) :
    st.adRet.keys.Nodup ∧ ∀ i ∈ st.adRet.keys, i ∈ net.species.map RP.id := by
  induction h with
  | init h => rw [(init_spec h).2.2.2.2.2.2.1]; exact ⟨by simp [Dict.keys], fun i hi => by cases hi⟩
  | @step st o hr ih =>
    obtain ⟨hwf, hinv⟩ := reachable_inv hr
    cases o with
    | disable sp rx =>
      simp only [step]
      rcases disable_cases hinv sp rx with ⟨e, -, -, -, he, -⟩ | ⟨sids, -, -, he, -⟩ | ⟨sids, st', -, -, hrec, he⟩
      · rw [he]; exact ih
      · rw [he]; exact ih
      · rw [he]; simp only; rw [(cascade_of_ok hwf hrec).ret]; exact ih
    | reset => exact ih
    | protect sp => simp only [step]; rw [setProtected_spec.2.2.2.2.1]; exact ih
    | adhocStick p v =>
      simp only [step, setAdhocStick]
      split
      · exact ih
      · split <;> exact ih
    | adhocRet p v =>
      simp only [step, setAdhocRet]
      split
      · exact ih
      · rename_i s hs
        have key : (st.adRet.set s.id v).keys.Nodup ∧
            ∀ i ∈ (st.adRet.set s.id v).keys, i ∈ net.species.map RP.id := by
          refine ⟨nodup_keys_set ih.1 _ _, fun i hi => ?_⟩
          rcases (mem_keys_set _ _ _ _).1 hi with hi | rfl
          · exact ih.2 i hi
          · exact List.mem_map_of_mem (getRp_mem hs)
        split
        · exact ih
        · split <;> exact key
    | resetAdhocSpecies a b =>
      simp only [step, resetAdhocSpecies]
      split
      · exact ⟨by simp [Dict.keys], fun i hi => by cases hi⟩
      · exact ih
    | adhocArrhA r v => simp only [step, setAdhocArrhA]; split <;> exact ih
    | resetAdhocReactions => exact ih

private theorem stick_mem {net : Net} (hwf : WF net) {st : State} {a b c : Bool} {s : RP}
    (hs : s ∈ net.getSpecies st a b c) :
    (s.id, some (0 : ℚ)) ∈ net.getSpeciesStickCoef st a b c ↔
      stickInForce st s = some 0 := by
  unfold getSpeciesStickCoef
  rw [List.mem_map]
  constructor
  · rintro ⟨t, ht, he⟩
    obtain ⟨h1, h2⟩ := Prod.mk.inj he
    have : t = s := hwf.eq_of_id (List.mem_filter.1 ht).1 (List.mem_filter.1 hs).1 h1
    rw [← this]; exact h2
  · intro he; exact ⟨s, hs, Prod.ext rfl he⟩

/-! ### C21 -/

/-- Specification: the return dictionary of species `s` before disabled species are taken out: empty
for a species that does not stick, else the ad-hoc dictionary, else the nominal one. -/
def retInForce (st : State) (s : RP) (nominal : Option (Dict Str ℚ)) : Option (Dict Str ℚ) :=
  if stickInForce st s = some 0 then some []
  else match st.adRet.get? s.id with
    | some c => some c
    | none => nominal

open Classical in
theorem ret_coefs_value_of {net : Net} {st : State} (hwf : WF net) (hnom : ∀ s ∈ net.species, ∃ c, s.getRetCoefs = .ok c)
    (had : ∀ e ∈ st.adRet, ∀ p ∈ e.2, ∃ t ∈ net.species, t.name = p.1)
    (hk : st.adRet.keys.Nodup ∧ ∀ i ∈ st.adRet.keys, i ∈ net.species.map RP.id) (hcl : net.RetClosed)
    (disabled special prot : Bool) :
    ∃ d, net.getSpeciesRetCoefs st disabled special prot = .ok d ∧
      (∀ s ∈ net.getSpecies st disabled special prot, ∃ nominal, s.getRetCoefs = .ok nominal ∧
        d.get? s.id = some ((retInForce st s nominal).map (keepEnabled net st))) ∧
      (∀ i c, d.get? i = some (some c) → ∀ p ∈ c, EnabledName net st p.1) ∧
      d.keys.Nodup ∧
      (∀ i, i ∈ d.keys ↔ (∃ s ∈ net.getSpecies st disabled special prot, s.id = i) ∨ i ∈ st.adRet.keys ∨
        (∃ s ∈ net.getSpecies st disabled special true, s.id = i ∧ stickInForce st s = some 0)) := by
  obtain ⟨hkn, hks⟩ := hk
  obtain ⟨d0, hd0, hP⟩ := nominalRet_of (l := net.getSpecies st disabled special prot)
    (P := fun n => ∃ t ∈ net.species, t.name = n)
    (fun s hs => hnom s (List.mem_filter.1 hs).1) (fun s hs d hd => hcl s (List.mem_filter.1 hs).1 d hd)
  obtain ⟨n1, n2⟩ := nominalRet_get hd0
  have hnd0 : d0.keys.Nodup := by rw [n1]; exact hwf.spNodup.sublist (List.filter_sublist.map _)
  let d2 := applyZeroStick (applyAdhocRet d0 st.adRet) (net.getSpeciesStickCoef st disabled special true)
  have hnd2 : d2.keys.Nodup := (zero_keys _ _).1 ((adhoc_keys _ _).1 hnd0)
  -- the getter always filters by enabled names
  let dd := d2.map (fun e => (e.1, e.2.map (keepEnabled net st)))
  have hfil : ∀ c : Dict Str ℚ, c.filter (fun p => decide (p.1 ∈ net.getSpeciesName st false true true)) =
      keepEnabled net st c := by
    intro c
    unfold keepEnabled
    apply List.filter_congr
    intro p _
    exact decide_eq_decide.2 enabledName_iff
  have hget2 : ∀ i, d2.get? i = if (i, some 0) ∈ net.getSpeciesStickCoef st disabled special true then
      some (some []) else match st.adRet.get? i with
        | some c => some (some c)
        | none => d0.get? i := by
    intro i; rw [← adhoc_get hkn]; exact zero_get _ _
  have hres : ∃ d, net.getSpeciesRetCoefs st disabled special prot = .ok d ∧ d.keys = d2.keys ∧
      ∀ i, d.get? i = (d2.get? i).map (fun o => o.map (keepEnabled net st)) := by
    unfold getSpeciesRetCoefs
    simp only [hd0]
    by_cases ha : net.anyDisabled st = true
    · simp only [ha, if_true]
      refine ⟨_, rfl, purge_keys _ _, fun i => ?_⟩
      rw [purge_get]
      simp only [hfil]
      rfl
    · rw [if_neg ha]
      refine ⟨_, rfl, rfl, fun i => ?_⟩
      show d2.get? i = _
      cases hi : d2.get? i with
      | none => rfl
      | some o =>
        cases o with
        | none => rfl
        | some c =>
          have hn2 : NamesIn (fun n => ∃ t ∈ net.species, t.name = n) d2 := (hP.adhoc _ had).zero _
          have : keepEnabled net st c = c := by
            unfold keepEnabled
            rw [List.filter_eq_self]
            intro p hp
            obtain ⟨t, ht, htn⟩ := hn2 _ (Dict.mem_of_get? hi) c rfl p hp
            exact decide_eq_true ⟨t, ht, htn, not_anyDisabled ha t ht⟩
          simp [this]
  obtain ⟨d, hd, hk, hg⟩ := hres
  refine ⟨d, hd, ?_, ?_, by rw [hk]; exact hnd2, ?_⟩
  · intro s hs
    have hsid : s.id ∈ d0.keys := n1 ▸ List.mem_map_of_mem hs
    obtain ⟨o, ho⟩ := (Dict.mem_keys_iff d0 s.id).1 hsid
    obtain ⟨t, ht, hti, htv⟩ := n2 _ (Dict.mem_of_get? ho)
    have hts : t = s := hwf.eq_of_id (List.mem_filter.1 ht).1 (List.mem_filter.1 hs).1 hti
    subst hts
    refine ⟨o, htv, ?_⟩
    rw [hg, hget2]
    have hsel : t ∈ net.getSpecies st disabled special true := by
      obtain ⟨a, b⟩ := List.mem_filter.1 hs
      refine List.mem_filter.2 ⟨a, ?_⟩
      simp only [speciesMask, Bool.and_eq_true, Bool.true_or] at b ⊢
      exact ⟨b.1, trivial⟩
    have hz := stick_mem hwf hsel
    unfold retInForce
    by_cases hc : stickInForce st t = some 0
    · rw [if_pos (hz.2 hc), if_pos hc]; rfl
    · rw [if_neg (fun hh => hc (hz.1 hh)), if_neg hc]
      cases st.adRet.get? t.id with
      | some c => rfl
      | none => simp only [ho]; rfl
  · intro i c hc p hp
    rw [hg] at hc
    cases hi : d2.get? i with
    | none => rw [hi] at hc; cases hc
    | some o =>
      rw [hi] at hc
      cases o with
      | none => simp at hc
      | some c' =>
        simp only [Option.map_some, Option.some.injEq] at hc
        subst hc
        unfold keepEnabled at hp
        exact of_decide_eq_true (List.mem_filter.1 hp).2
  · intro i
    rw [hk, (zero_keys _ _).2.1, (adhoc_keys _ _).2.1, n1, or_assoc, List.mem_map]
    refine or_congr Iff.rfl (or_congr Iff.rfl ?_)
    constructor
    · intro hm
      obtain ⟨t, ht, he⟩ := List.mem_map.1 hm
      obtain ⟨h1, h2⟩ := Prod.mk.inj he
      exact ⟨t, ht, h1, h2⟩
    · rintro ⟨t, ht, rfl, hz⟩
      exact (stick_mem hwf ht).2 hz

open Classical in
/-- **C21.** In every reachable state the getter of return coefficients succeeds. Each selected species
gets its dictionary in force, minus the disabled species; no entry names a disabled species. The index
consists of the selected species, of species with ad-hoc coefficients (selected or not) and of the
non-sticking species hidden by `protected=False`. -/
theorem ret_coefs_value {net : Net} {st : State} (h : Reachable net st) (hcl : net.RetClosed)
    (disabled special prot : Bool) :
    ∃ d, net.getSpeciesRetCoefs st disabled special prot = .ok d ∧
      (∀ s ∈ net.getSpecies st disabled special prot, ∃ nominal, s.getRetCoefs = .ok nominal ∧
        d.get? s.id = some ((retInForce st s nominal).map (keepEnabled net st))) ∧
      (∀ i c, d.get? i = some (some c) → ∀ p ∈ c, EnabledName net st p.1) ∧
      d.keys.Nodup ∧
      (∀ i, i ∈ d.keys ↔ (∃ s ∈ net.getSpecies st disabled special prot, s.id = i) ∨ i ∈ st.adRet.keys ∨
        (∃ s ∈ net.getSpecies st disabled special true, s.id = i ∧ stickInForce st s = some 0)) :=
  ret_coefs_value_of (reachable_inv h).1 (reachable_ret h).1 (reachable_ret h).2 (reachable_retKeys h) hcl disabled special prot

theorem ret_coefs_index_of {net : Net} {st : State} (hnom : ∀ s ∈ net.species, ∃ c, s.getRetCoefs = .ok c) (disabled special : Bool)
    (hsel : ∀ i ∈ st.adRet.keys, ∃ s ∈ net.getSpecies st disabled special true, s.id = i) :
    ∃ d, net.getSpeciesRetCoefs st disabled special true = .ok d ∧
      d.keys = (net.getSpecies st disabled special true).map RP.id := by
  obtain ⟨d0, hd0, -⟩ := nominalRet_of (l := net.getSpecies st disabled special true)
    (P := fun _ => True) (fun s hs => hnom s (List.mem_filter.1 hs).1) (fun _ _ _ _ _ _ => trivial)
  obtain ⟨n1, -⟩ := nominalRet_get hd0
  have k1 : (applyAdhocRet d0 st.adRet).keys = d0.keys := (adhoc_keys _ _).2.2 (fun i hi => by
    obtain ⟨s, hs, rfl⟩ := hsel i hi
    rw [n1]; exact List.mem_map_of_mem hs)
  have k2 : (applyZeroStick (applyAdhocRet d0 st.adRet)
      (net.getSpeciesStickCoef st disabled special true)).keys = d0.keys := by
    rw [(zero_keys _ _).2.2 (fun i hi => ?_), k1]
    obtain ⟨t, ht, he⟩ := List.mem_map.1 hi
    obtain ⟨h1, -⟩ := Prod.mk.inj he
    rw [k1, n1, ← h1]; exact List.mem_map_of_mem ht
  unfold getSpeciesRetCoefs
  simp only [hd0]
  by_cases ha : net.anyDisabled st = true
  · simp only [ha, if_true]
    exact ⟨_, rfl, by rw [purge_keys, k2, n1]⟩
  · rw [if_neg ha]
    exact ⟨_, rfl, by rw [k2, n1]⟩

/-- **C21.** Without ad-hoc coefficients for species outside the selection there is exactly one entry
per selected species, in construction order (protected species included). -/
theorem ret_coefs_index {net : Net} {st : State} (h : Reachable net st) (disabled special : Bool)
    (hsel : ∀ i ∈ st.adRet.keys, ∃ s ∈ net.getSpecies st disabled special true, s.id = i) :
    ∃ d, net.getSpeciesRetCoefs st disabled special true = .ok d ∧
      d.keys = (net.getSpecies st disabled special true).map RP.id :=
  ret_coefs_index_of (reachable_ret h).1 disabled special hsel

/-! ### the return matrix -/

private theorem put_get (M : RetMat) (i j : Nat) (v : ℚ) (k : Nat × Nat) :
    (M.put i j v).cells.get? k = if (i, j) = k then some v else M.cells.get? k := Dict.get?_set _ _ _ _

private theorem putAll_spec {net : Net} (hwf : WF net) {j : Nat} {c : Dict Str ℚ} (hn : c.keys.Nodup)
    (hc : ∀ p ∈ c, ∃ t ∈ net.species, t.name = p.1) (M : RetMat) :
    ∃ M', net.putAll j M c = .ok M' ∧ M'.cols = M.cols ∧
      (∀ t ∈ net.species, ∀ k, M'.cells.get? (t.id, k) =
        if k = j then (match c.get? t.name with
          | some v => some v
          | none => M.cells.get? (t.id, k)) else M.cells.get? (t.id, k)) ∧
      (∀ i, i ∈ M'.rows ↔ i ∈ M.rows ∨ ∃ t ∈ net.species, t.id = i ∧ t.name ∈ c.keys) ∧
      ((∀ t ∈ net.species, t.name ∈ c.keys → t.id ∈ M.rows) → M'.rows = M.rows) := by
  induction c generalizing M with
  | nil =>
    refine ⟨M, rfl, rfl, fun t _ k => ?_, fun i => ?_, fun _ => rfl⟩
    · rw [get?_nil]; simp
    · simp [Dict.keys]
  | cons e c ih =>
    obtain ⟨n, v⟩ := e
    rw [keys_cons, List.nodup_cons] at hn
    obtain ⟨s, hs, hsn⟩ := hc (n, v) (by simp)
    simp only at hsn
    obtain ⟨M', h1, h2, h3, h4, h5⟩ := ih hn.2 (fun p hp => hc p (by simp [hp])) (M.put s.id j v)
    refine ⟨M', ?_, h2, ?_, ?_, ?_⟩
    · unfold putAll
      rw [← hsn, find_name hwf.nameNodup hs]
      exact h1
    · intro t ht k
      rw [h3 t ht k, put_get, Dict.get?_cons]
      by_cases hk : k = j
      · subst hk
        simp only [if_true]
        by_cases hnt : n = t.name
        · have : t = s := hwf.eq_of_name ht hs (hsn.trans hnt).symm
          subst this
          rw [if_pos hnt, ← hnt, get?_none_of_not_mem hn.1]
          simp
        · rw [if_neg hnt]
          have : s.id ≠ t.id := fun hc => hnt (by rw [← hsn, hwf.eq_of_id hs ht hc])
          have h2 : ¬ (s.id, k) = (t.id, k) := fun hc => this (Prod.mk.inj hc).1
          rw [if_neg h2]
      · have : ¬ (s.id, j) = (t.id, k) := fun hc => hk (Prod.mk.inj hc).2.symm
        simp only [if_neg hk, if_neg this]
    · intro i
      rw [h4, keys_cons]
      have : i ∈ (M.put s.id j v).rows ↔ i ∈ M.rows ∨ i = s.id := by
        unfold RetMat.put
        simp only
        split
        · rename_i hm
          constructor
          · exact fun h => .inl h
          · rintro (h | rfl)
            · exact h
            · exact hm
        · simp
      rw [this, or_assoc]
      refine or_congr Iff.rfl ?_
      constructor
      · rintro (rfl | ⟨t, ht, hi, hm⟩)
        · exact ⟨s, hs, rfl, by simp [hsn]⟩
        · exact ⟨t, ht, hi, by simp [hm]⟩
      · rintro ⟨t, ht, hi, hm⟩
        rcases List.mem_cons.1 hm with hm | hm
        · left; rw [← hi, hwf.eq_of_name ht hs (hm.trans hsn.symm)]
        · exact .inr ⟨t, ht, hi, hm⟩
    · intro hall
      have hr : (M.put s.id j v).rows = M.rows := by
        unfold RetMat.put
        simp only
        rw [if_pos (hall s hs (by rw [keys_cons, hsn]; simp))]
      rw [h5 (fun t ht hm => by rw [hr]; exact hall t ht (by rw [keys_cons]; simp [hm])), hr]

theorem putCols_spec {net : Net} (hwf : WF net) {d : Dict Nat (Option (Dict Str ℚ))}
    (hn : d.keys.Nodup) (hd : ∀ e ∈ d, ∀ c, e.2 = some c → c.keys.Nodup)
    (hc : ∀ e ∈ d, ∀ c, e.2 = some c → ∀ p ∈ c, ∃ t ∈ net.species, t.name = p.1) (M : RetMat) :
    ∃ M', net.putCols M d = .ok M' ∧ M'.cols = M.cols ∧
      (∀ t ∈ net.species, ∀ k, M'.cells.get? (t.id, k) =
        match d.get? k with
        | some (some c) => (match c.get? t.name with
          | some v => some v
          | none => M.cells.get? (t.id, k))
        | _ => M.cells.get? (t.id, k)) ∧
      (∀ i, i ∈ M'.rows ↔ i ∈ M.rows ∨ ∃ t ∈ net.species, t.id = i ∧ t.name ∈ retNames d) ∧
      ((∀ t ∈ net.species, t.name ∈ retNames d → t.id ∈ M.rows) → M'.rows = M.rows) := by
  induction d generalizing M with
  | nil =>
    refine ⟨M, rfl, rfl, fun t _ k => ?_, fun i => ?_, fun _ => rfl⟩
    · rw [get?_nil]
    · simp [retNames]
  | cons e d ih =>
    obtain ⟨j, o⟩ := e
    rw [keys_cons, List.nodup_cons] at hn
    have ih' := ih hn.2 (fun e he => hd e (by simp [he])) (fun e he => hc e (by simp [he]))
    cases o with
    | none =>
      obtain ⟨M', h1, h2, h3, h4, h5⟩ := ih' M
      refine ⟨M', h1, h2, fun t ht k => ?_, h4, h5⟩
      rw [h3 t ht k, Dict.get?_cons]
      by_cases hk : j = k
      · rw [if_pos hk]
        have : Dict.get? d k = none := get?_none_of_not_mem (hk ▸ hn.1)
        rw [this]
      · rw [if_neg hk]
    | some c =>
      obtain ⟨M1, a1, a2, a3, a4, a5⟩ := putAll_spec hwf (j := j) (hd (j, some c) (by simp) c rfl)
        (hc (j, some c) (by simp) c rfl) M
      obtain ⟨M', h1, h2, h3, h4, h5⟩ := ih' M1
      have hrn : ∀ n, n ∈ retNames ((j, some c) :: d) ↔ n ∈ c.keys ∨ n ∈ retNames d := by
        intro n; simp [retNames, Dict.keys]
      refine ⟨M', ?_, h2.trans a2, fun t ht k => ?_, fun i => ?_, fun hall => ?_⟩
      · unfold putCols; rw [a1]; exact h1
      · rw [h3 t ht k, Dict.get?_cons, a3 t ht k]
        by_cases hk : j = k
        · subst hk
          have : Dict.get? d j = none := get?_none_of_not_mem hn.1
          rw [this]
          simp
        · rw [if_neg hk, if_neg (Ne.symm hk)]
      · rw [h4, a4, or_assoc]
        refine or_congr Iff.rfl ?_
        simp only [hrn]
        constructor
        · rintro (⟨t, ht, h, h'⟩ | ⟨t, ht, h, h'⟩)
          · exact ⟨t, ht, h, .inl h'⟩
          · exact ⟨t, ht, h, .inr h'⟩
        · rintro ⟨t, ht, h, h' | h'⟩
          · exact .inl ⟨t, ht, h, h'⟩
          · exact .inr ⟨t, ht, h, h'⟩
      · have hr1 : M1.rows = M.rows := a5 (fun t ht hm => hall t ht ((hrn _).2 (.inl hm)))
        rw [h5 (fun t ht hm => by rw [hr1]; exact hall t ht ((hrn _).2 (.inr hm))), hr1]

/-- **C21.** The return matrix: its columns carry the index of the return coefficients `d`, its rows the
same index plus any further returned species; entry `(t, s)` is the coefficient with which `s` returns
`t`, zero if it does not. If every returned species is in the index the matrix is square. (The
hypothesis on keys says that the values of `d` are Python dictionaries.) -/
theorem return_matrix_entries {net : Net} {st : State} (h : Reachable net st) (hcl : net.RetClosed)
    (disabled : Bool) {d : Dict Nat (Option (Dict Str ℚ))}
    (hd : net.getSpeciesRetCoefs st disabled false true = .ok d)
    (hdict : ∀ i c, d.get? i = some (some c) → c.keys.Nodup) :
    ∃ M, net.getReturnMatrix st disabled = .ok M ∧ M.cols = d.keys ∧
      (∀ i, i ∈ M.rows ↔ i ∈ d.keys ∨
        ∃ t ∈ net.species, t.id = i ∧ ∃ j c, d.get? j = some (some c) ∧ t.name ∈ c.keys) ∧
      ((∀ t ∈ net.species, (∃ j c, d.get? j = some (some c) ∧ t.name ∈ c.keys) → t.id ∈ d.keys) →
        M.rows = M.cols) ∧
      ∀ t ∈ net.species, ∀ j, M.entry t.id j =
        (match d.get? j with
         | some (some c) => (c.get? t.name).getD 0
         | _ => 0) := by
  obtain ⟨hwf, hinv⟩ := reachable_inv h
  obtain ⟨d', hd', -, hnames, hnd, -⟩ := ret_coefs_value h hcl disabled false true
  rw [hd] at hd'
  cases hd'
  have hmem : ∀ e ∈ d, d.get? e.1 = some e.2 := fun e he => Dict.get?_of_mem hnd he
  obtain ⟨M, h1, h2, h3, h4, h5⟩ := putCols_spec hwf hnd
    (fun e he c hc => hdict e.1 c (by rw [hmem e he, hc]))
    (fun e he c hc p hp => by
      obtain ⟨t, ht, htn, -⟩ := hnames e.1 c (by rw [hmem e he, hc]) p hp
      exact ⟨t, ht, htn⟩) { rows := d.keys, cols := d.keys, cells := [] }
  have hrn : ∀ n, n ∈ retNames d ↔ ∃ j c, d.get? j = some (some c) ∧ n ∈ c.keys := by
    intro n
    rw [mem_retNames]
    constructor
    · rintro ⟨e, he, c, hc, p, hp, rfl⟩
      exact ⟨e.1, c, by rw [hmem e he, hc], List.mem_map_of_mem hp⟩
    · rintro ⟨j, c, hg, hn⟩
      obtain ⟨p, hp, hpn⟩ := List.mem_map.1 hn
      exact ⟨_, Dict.mem_of_get? hg, c, rfl, p, hp, hpn⟩
  refine ⟨M, by simp only [getReturnMatrix, hd]; exact h1, h2, fun i => ?_, fun hall => ?_, ?_⟩
  · rw [h4]; simp only [hrn]
  · rw [h2]
    exact h5 (fun t ht hm => hall t ht ((hrn _).1 hm))
  · intro t ht j
    unfold RetMat.entry
    rw [h3 t ht j]
    cases d.get? j with
    | none => rfl
    | some o =>
      cases o with
      | none => rfl
      | some c =>
        simp only
        cases Dict.get? c t.name <;> rfl

/-- the demo chemistry: Ar+ returns Ar and Ar*, the matrix is square -/
def Demo.stRet : State := Demo.net.run Demo.st0 [.adhocRet (.id 2) [(str!"Ar", 1), (str!"Ar*", 3)]]

example : Demo.net.getSpeciesRetCoefs Demo.stRet false false true = .ok
      [(1, some []), (2, some [(str!"Ar", 1), (str!"Ar*", 3)]), (3, some [(str!"Ar", 1)]),
       (4, some [(str!"Ar", 1)])] ∧
    (∃ M, Demo.net.getReturnMatrix Demo.stRet false = .ok M ∧ M.rows = [1, 2, 3, 4] ∧
      M.entry 4 2 = 3 ∧ M.entry 1 2 = 1 ∧ M.entry 2 1 = 0) ∧
    (Demo.net.getSpeciesRetCoefs (Demo.net.run Demo.stRet [.disable [.id 4] []]) false false true = .ok
      [(1, some []), (2, some [(str!"Ar", 1)]), (3, some [(str!"Ar", 1)])]) :=
  ⟨rfl, ⟨_, rfl, rfl, rfl, rfl, rfl⟩, rfl⟩

theorem Demo.net_retClosed : Demo.net.RetClosed := by
  intro s hs d hd p hp
  simp only [Demo.net, List.mem_cons, List.not_mem_nil, or_false] at hs
  rcases hs with rfl | rfl | rfl | rfl | rfl | rfl <;> cases hd <;> cases hp <;> first
    | exact ⟨Demo.Ar, by simp [Demo.net], rfl⟩
    | (rename_i h; cases h)

/-- **C21, negative part.** (a) An ad-hoc return coefficient of a species that is disabled afterwards
adds a spurious entry, row and column. (b) An ad-hoc return of the electron makes the matrix
rectangular. (c) With `protected=False` a non-sticking protected species shows up although it is
filtered out. -/
theorem ret_coefs_spurious :
    (∃ d, Demo.net.getSpeciesRetCoefs
        (Demo.net.run Demo.st0 [.adhocRet (.id 4) [(str!"Ar", 1)], .disable [.id 4] []]) false false true = .ok d ∧
      d.keys = [1, 2, 3, 4] ∧ (Demo.net.getSpecies
        (Demo.net.run Demo.st0 [.adhocRet (.id 4) [(str!"Ar", 1)], .disable [.id 4] []])
          false false true).map RP.id = [1, 2, 3]) ∧
    (∃ M, Demo.net.getReturnMatrix
        (Demo.net.run Demo.st0 [.adhocRet (.id 2) [(str!"e", 1)]]) false = .ok M ∧
      M.cols = [1, 2, 3, 4] ∧ M.rows = [1, 2, 3, 4, 0]) ∧
    (∃ d, Demo.net.getSpeciesRetCoefs
        (Demo.net.run Demo.st0 [.protect [.id 1]]) false false false = .ok d ∧
      d.keys = [2, 3, 4, 1] ∧ (Demo.net.getSpecies
        (Demo.net.run Demo.st0 [.protect [.id 1]]) false false false).map RP.id = [2, 3, 4]) :=
  ⟨⟨_, rfl, rfl, rfl⟩, ⟨_, rfl, rfl, rfl⟩, ⟨_, rfl, rfl, rfl⟩⟩

end Verif.Plaschem
