/-
Property C22, continued: when loading a dumped file fails, and what `check_coherence` decides.
-/
import Verif.Plaschem.DumpLoad
import Verif.Plaschem.KeyProps

namespace Verif.Plaschem
open Net

/-! ### failing loads -/

private theorem loadSp_masks {net : Net} (es : List AdEntry) (a : State) :
    (net.loadSp a es).1.enSp = a.enSp ∧ (net.loadSp a es).1.protSp = a.protSp ∧
    (net.loadSp a es).1.adhocSp = a.adhocSp ∧ (net.loadSp a es).1.enR = a.enR := by
  induction es generalizing a with
  | nil => exact ⟨rfl, rfl, rfl, rfl⟩
  | cons e es ih =>
    cases e with
    | stick i v =>
      have key : (net.setAdhocStick a (.id i) v).1.enSp = a.enSp ∧
          (net.setAdhocStick a (.id i) v).1.protSp = a.protSp ∧
          (net.setAdhocStick a (.id i) v).1.adhocSp = a.adhocSp ∧
          (net.setAdhocStick a (.id i) v).1.enR = a.enR := by
        unfold setAdhocStick
        split
        · exact ⟨rfl, rfl, rfl, rfl⟩
        · simp only; split <;> exact ⟨rfl, rfl, rfl, rfl⟩
      unfold loadSp
      cases hx : net.setAdhocStick a (.id i) v with
      | mk st' oe =>
        rw [hx] at key
        cases oe with
        | some e => exact key
        | none =>
          obtain ⟨k1, k2, k3, k4⟩ := key
          obtain ⟨i1, i2, i3, i4⟩ := ih st'
          exact ⟨i1.trans k1, i2.trans k2, i3.trans k3, i4.trans k4⟩
    | ret i v =>
      have key : (net.setAdhocRet a (.id i) v).1.enSp = a.enSp ∧
          (net.setAdhocRet a (.id i) v).1.protSp = a.protSp ∧
          (net.setAdhocRet a (.id i) v).1.adhocSp = a.adhocSp ∧
          (net.setAdhocRet a (.id i) v).1.enR = a.enR := by
        unfold setAdhocRet
        split
        · exact ⟨rfl, rfl, rfl, rfl⟩
        · split
          · exact ⟨rfl, rfl, rfl, rfl⟩
          · simp only; split <;> exact ⟨rfl, rfl, rfl, rfl⟩
      unfold loadSp
      cases hx : net.setAdhocRet a (.id i) v with
      | mk st' oe =>
        rw [hx] at key
        cases oe with
        | some e => exact key
        | none =>
          obtain ⟨k1, k2, k3, k4⟩ := key
          obtain ⟨i1, i2, i3, i4⟩ := ih st'
          exact ⟨i1.trans k1, i2.trans k2, i3.trans k3, i4.trans k4⟩

private theorem loadSp_bad {net : Net} (es : List AdEntry) (a : State)
    (h : ∃ i v, AdEntry.ret i v ∈ es ∧ ∃ p ∈ v, ¬ EnabledName net a p.1) :
    (net.loadSp a es).2 ≠ none := by
  have congr : ∀ (b : State), b.enSp = a.enSp → ∀ n, EnabledName net b n ↔ EnabledName net a n := by
    intro b hb n; unfold EnabledName; rw [hb]
  induction es generalizing a with
  | nil => obtain ⟨i, v, h, -⟩ := h; cases h
  | cons e es ih =>
    obtain ⟨i, v, hm, p, hp, hn⟩ := h
    cases e with
    | stick j w =>
      have hm' : AdEntry.ret i v ∈ es := by
        rcases List.mem_cons.1 hm with hc | hc
        · cases hc
        · exact hc
      have key : (net.setAdhocStick a (.id j) w).1.enSp = a.enSp := by
        unfold setAdhocStick
        split
        · rfl
        · simp only; split <;> rfl
      unfold loadSp
      cases hx : net.setAdhocStick a (.id j) w with
      | mk st' oe =>
        rw [hx] at key
        cases oe with
        | some e => simp
        | none =>
          simp only
          refine ih st' ⟨i, v, hm', p, hp, fun hc => hn ((congr st' key p.1).1 hc)⟩ ?_
          intro b hb n; unfold EnabledName; rw [hb]
    | ret j w =>
      unfold loadSp
      cases hx : net.setAdhocRet a (.id j) w with
      | mk st' oe =>
        cases oe with
        | some e => simp
        | none =>
          simp only
          have key : st'.enSp = a.enSp ∧ ∀ q ∈ w, EnabledName net a q.1 := by
            unfold setAdhocRet at hx
            split at hx
            · cases hx
            · by_cases hv : (w.all fun p => decide (p.1 ∈ net.getSpeciesName a false true true)) = true
              · rw [if_neg (not_not.2 hv)] at hx
                refine ⟨?_, fun q hq => ?_⟩
                · simp only at hx
                  split at hx <;> cases hx
                  rfl
                · have := of_decide_eq_true (List.all_eq_true.1 hv q hq)
                  obtain ⟨t, ht, htn⟩ := List.mem_map.1 this
                  exact ⟨t, (mem_getSpecies.1 ht).1, htn, (mem_getSpecies.1 ht).2⟩
              · rw [if_pos hv] at hx; cases hx
          rcases List.mem_cons.1 hm with hc | hc
          · cases hc; exact absurd (key.2 p hp) hn
          · refine ih st' ⟨i, v, hc, p, hp, fun hc => hn ((congr st' key.1 p.1).1 hc)⟩ ?_
            intro b hb n; unfold EnabledName; rw [hb]

theorem load_dump_fails_sound {net : Net} {st : State} (hwf : WF net)
    (hbad : ∃ e ∈ st.adRet, ∃ p ∈ e.2, ¬ EnabledName net st p.1)
    {path : Option Str} {hash : Str → Option Str} {file : Attrs}
    (hd : net.dump path hash st = .ok file) (cur : State) (checkHash : Bool) :
    (net.load path hash cur file checkHash).2 ≠ none ∧
    (∀ s ∈ net.species, (net.load path hash cur file checkHash).1.enSp s.id = st.enSp s.id ∧
      (net.load path hash cur file checkHash).1.protSp s.id = st.protSp s.id ∧
      (net.load path hash cur file checkHash).1.adhocSp s.id = st.adhocSp s.id) ∧
    (∀ r ∈ net.reactions, (net.load path hash cur file checkHash).1.enR r.id = st.enR r.id) := by
  unfold dump chemistryAttributes at hd
  cases hx : xmlHashOf hash path with
  | error e => rw [hx] at hd; cases hd
  | ok hv =>
    rw [hx] at hd
    simp only [Except.ok.injEq] at hd
    have hload : net.load path hash cur file checkHash = net.loadState cur file := by
      unfold load
      cases checkHash with
      | false => rfl
      | true =>
        have e1 : file.xmlPath = path := by rw [← hd]; rfl
        have e2 : file.xmlHash = hv := by rw [← hd]; rfl
        simp only [if_true, e1, e2, hx, ne_eq, not_true_eq_false, if_false]
    rw [hload]
    obtain ⟨b, hb, b1, b2, b3, b4⟩ := loadMasks_spec hwf cur st file (by rw [← hd]; rfl)
      (by rw [← hd]; rfl) (by rw [← hd]; rfl) (by rw [← hd]; rfl) (by rw [← hd]; rfl) (by rw [← hd]; rfl)
    have hsp : file.adSp = st.adStick.map (fun e => AdEntry.stick e.1 e.2) ++
        (st.adRet.map (fun e => (e.1, sortKeys e.2))).map (fun e => AdEntry.ret e.1 e.2) := by
      rw [← hd]
      simp [throughYaml, yamlEntry, Function.comp_def]
    obtain ⟨m1, m2, m3, m4⟩ := loadSp_masks (net := net) file.adSp (resetAdhocSpecies b true true)
    have hne := loadSp_bad (net := net) file.adSp (resetAdhocSpecies b true true) (by
      obtain ⟨e, he, p, hp, hn⟩ := hbad
      refine ⟨e.1, sortKeys e.2, ?_, p, (sortKeys_perm e.2).mem_iff.2 hp, fun hc => hn ?_⟩
      · rw [hsp]
        refine List.mem_append.2 (.inr ?_)
        exact List.mem_map.2 ⟨(e.1, sortKeys e.2), List.mem_map.2 ⟨e, he, rfl⟩, rfl⟩
      · obtain ⟨t, ht, htn, hte⟩ := hc
        exact ⟨t, ht, htn, by rw [← b1 t ht]; exact hte⟩)
    unfold loadState
    rw [hb]
    simp only
    cases hl : net.loadSp (resetAdhocSpecies b true true) file.adSp with
    | mk st2 oe =>
      rw [hl] at hne m1 m2 m3 m4
      cases oe with
      | none => exact absurd rfl hne
      | some e =>
        refine ⟨by simp, fun s hs => ⟨?_, ?_, ?_⟩, fun r hr => ?_⟩
        · simp only at m1 ⊢; rw [m1]; exact b1 s hs
        · simp only at m2 ⊢; rw [m2]; exact b2 s hs
        · simp only at m3 ⊢; rw [m3]; exact b3 s hs
        · simp only at m4 ⊢; rw [m4]; exact b4 r hr

/-- **C22.** If a stored ad-hoc return coefficient names a disabled species, loading the dumped file
raises, and it does so after the enabled and protected species and the enabled reactions have already
been overwritten with those of the file. -/
theorem load_dump_fails {net : Net} {st : State} (h : Reachable net st)
    (hbad : ∃ e ∈ st.adRet, ∃ p ∈ e.2, ¬ EnabledName net st p.1)
    {path : Option Str} {hash : Str → Option Str} {file : Attrs}
    (hd : net.dump path hash st = .ok file) (cur : State) (checkHash : Bool) :
    (net.load path hash cur file checkHash).2 ≠ none ∧
    (∀ s ∈ net.species, (net.load path hash cur file checkHash).1.enSp s.id = st.enSp s.id ∧
      (net.load path hash cur file checkHash).1.protSp s.id = st.protSp s.id ∧
      (net.load path hash cur file checkHash).1.adhocSp s.id = st.adhocSp s.id) ∧
    (∀ r ∈ net.reactions, (net.load path hash cur file checkHash).1.enR r.id = st.enR r.id) :=
  load_dump_fails_sound (reachable_inv h).1 hbad hd cur checkHash

/-- the round trip on the demo chemistry, into a state with other things disabled -/
def Demo.stDump : State := Demo.net.run Demo.st0
  [.adhocRet (.id 2) [(str!"Ar", 1)], .adhocStick (.id 1) 1, .adhocArrhA 1 5, .disable [.id 4] []]

example : ∃ file, Demo.net.dump none (fun _ => none) Demo.stDump = .ok file ∧
    (Demo.net.load none (fun _ => none) Demo.st0 file true).2 = none ∧
    ((Demo.net.load none (fun _ => none) Demo.st0 file true).1.enSp 4 = false) := ⟨_, rfl, rfl, rfl⟩

example : ∀ e ∈ Demo.stDump.adRet, ∀ p ∈ e.2, EnabledName Demo.net Demo.stDump p.1 := by
  intro e he p hp
  have : e = (2, [(str!"Ar", 1)]) := List.mem_singleton.1 (he : e ∈ [(2, [(str!"Ar", (1 : ℚ))])])
  subst this
  have : p = (str!"Ar", 1) := by simpa using hp
  subst this
  exact ⟨Demo.Ar, by simp [Demo.net], rfl, rfl⟩

/-- a state whose dump cannot be loaded back: Ar+ returns Ar*, then Ar* is disabled -/
def Demo.stBad : State := Demo.net.run Demo.st0
  [.adhocRet (.id 2) [(str!"Ar*", 1)], .disable [.id 4] []]

example : Reachable Demo.net Demo.stBad := Demo.reach0.run _

example : ∃ e ∈ Demo.stBad.adRet, ∃ p ∈ e.2, ¬ EnabledName Demo.net Demo.stBad p.1 := by
  refine ⟨(2, [(str!"Ar*", 1)]), List.mem_singleton.2 rfl, _, List.mem_singleton.2 rfl, ?_⟩
  rintro ⟨t, ht, hn, he⟩
  simp only [Demo.net, List.mem_cons, List.not_mem_nil, or_false] at ht
  rcases ht with rfl | rfl | rfl | rfl | rfl | rfl <;> first
    | (exact absurd hn (by decide))
    | (exact absurd (he : false = true) (by decide))

/-! ### check_coherence -/

private theorem insKey_sorted (p : Str × ℚ) {d : Dict Str ℚ}
    (h : d.Pairwise (fun a b => strLe a.1 b.1 = true)) :
    (insKey p d).Pairwise (fun a b => strLe a.1 b.1 = true) := by
  induction d with
  | nil => simp [insKey]
  | cons q d ih =>
    rw [List.pairwise_cons] at h
    unfold insKey
    split
    · rename_i hle
      rw [List.pairwise_cons, List.pairwise_cons]
      refine ⟨fun r hr => ?_, h⟩
      rcases List.mem_cons.1 hr with rfl | hr
      · exact hle
      · exact strLe_trans _ _ _ hle (h.1 r hr)
    · rename_i hle
      rw [List.pairwise_cons]
      refine ⟨fun r hr => ?_, ih h.2⟩
      rcases List.mem_cons.1 ((insKey_perm p d).mem_iff.1 hr) with rfl | hr
      · have := strLe_total r.1 q.1
        simpa [hle] using this
      · exact h.1 r hr

private theorem sortKeys_sorted (d : Dict Str ℚ) :
    (sortKeys d).Pairwise (fun a b => strLe a.1 b.1 = true) := by
  induction d with
  | nil => simp [sortKeys]
  | cons p d ih => exact insKey_sorted p ih

/-- Sorting by key is a canonical form of dictionaries. -/
theorem sortKeys_eq_iff {c d : Dict Str ℚ} (hc : c.keys.Nodup) :
    sortKeys c = sortKeys d ↔ c.Perm d := by
  constructor
  · intro h; exact (sortKeys_perm c).symm.trans (h ▸ sortKeys_perm d)
  · intro hp
    have hp' : (sortKeys c).Perm (sortKeys d) := (sortKeys_perm c).trans (hp.trans (sortKeys_perm d).symm)
    refine hp'.eq_of_pairwise ?_ (sortKeys_sorted c) (sortKeys_sorted d)
    intro a b ha hb h1 h2
    have hk : a.1 = b.1 := strLe_antisymm _ _ h1 h2
    have hb' : b ∈ c := (sortKeys_perm c).mem_iff.1 (hp'.mem_iff.2 hb)
    have ha' : a ∈ c := (sortKeys_perm c).mem_iff.1 ha
    exact List.inj_on_of_nodup_map hc ha' hb' hk

private theorem filter_ids_eq {α : Type} {l : List α} {key : α → Nat} (hn : (l.map key).Nodup)
    {p q : α → Bool} : (l.filter p).map key = (l.filter q).map key ↔ ∀ s ∈ l, p s = q s := by
  constructor
  · intro h s hs
    have mem : ∀ p : α → Bool, key s ∈ (l.filter p).map key ↔ p s = true := by
      intro p
      constructor
      · intro hm
        obtain ⟨t, ht, hts⟩ := List.mem_map.1 hm
        obtain ⟨h1, h2⟩ := List.mem_filter.1 ht
        have : t = s := List.inj_on_of_nodup_map hn h1 hs hts
        exact this ▸ h2
      · intro hp; exact List.mem_map_of_mem (List.mem_filter.2 ⟨hs, hp⟩)
    have h1 := mem p
    rw [h, mem q] at h1
    exact Bool.eq_iff_iff.2 h1.symm
  · intro h; rw [List.filter_congr h]

/-- split a list of entries into its two parts -/
private def sticks : List AdEntry → Dict Nat ℚ := List.filterMap (fun e => match e with
  | .stick i v => some (i, v)
  | .ret _ _ => none)
private def rets : List AdEntry → Dict Nat (Dict Str ℚ) := List.filterMap (fun e => match e with
  | .stick _ _ => none
  | .ret i v => some (i, v))

private theorem entries_inj {a b : Dict Nat ℚ} {c d : Dict Nat (Dict Str ℚ)}
    (h : a.map (fun e => AdEntry.stick e.1 e.2) ++ c.map (fun e => AdEntry.ret e.1 e.2) =
      b.map (fun e => AdEntry.stick e.1 e.2) ++ d.map (fun e => AdEntry.ret e.1 e.2)) :
    a = b ∧ c = d := by
  have h1 := congrArg sticks h
  have h2 := congrArg rets h
  simp only [sticks, rets, List.filterMap_append, List.filterMap_map, Function.comp_def] at h1 h2
  simp only [List.filterMap_some, Prod.mk.eta, List.filterMap_none, List.append_nil, List.nil_append] at h1 h2
  exact ⟨by simpa using h1, by simpa using h2⟩

private theorem yaml_entries (s : State) :
    (s.adStick.map (fun e => AdEntry.stick e.1 e.2) ++ s.adRet.map (fun e => AdEntry.ret e.1 e.2)).map
      yamlEntry =
    s.adStick.map (fun e => AdEntry.stick e.1 e.2) ++
      (s.adRet.map (fun e => (e.1, sortKeys e.2))).map (fun e => AdEntry.ret e.1 e.2) := by
  simp [yamlEntry, Function.comp_def]

private theorem sortKeys_idem (d : Dict Str ℚ) : sortKeys (sortKeys d) = sortKeys d := by
  have hs := sortKeys_sorted d
  generalize sortKeys d = l at hs
  induction l with
  | nil => rfl
  | cons p l ih =>
    rw [List.pairwise_cons] at hs
    unfold sortKeys
    rw [ih hs.2]
    cases l with
    | nil => rfl
    | cons q l => simp [insKey, hs.1 q (by simp)]

private theorem rets_forall₂ {a b : Dict Nat (Dict Str ℚ)} (ha : ∀ e ∈ a, e.2.keys.Nodup) :
    a.map (fun e => (e.1, sortKeys e.2)) = b.map (fun e => (e.1, sortKeys e.2)) ↔
      List.Forall₂ (fun x y => x.1 = y.1 ∧ x.2.Perm y.2) a b := by
  induction a generalizing b with
  | nil =>
    cases b with
    | nil => simp
    | cons y b => simp
  | cons x a ih =>
    cases b with
    | nil => simp
    | cons y b =>
      rw [List.map_cons, List.map_cons, List.cons.injEq, List.forall₂_cons,
        ih (fun e he => ha e (List.mem_cons_of_mem _ he)), Prod.mk.injEq,
        sortKeys_eq_iff (ha x (by simp))]

/-- **C22.** `check_coherence` with the file dumped from state `b` answers yes in state `a` exactly when
the two states agree on the chemistry. (The hypothesis on keys says that the stored return coefficients
are Python dictionaries; `path` and `hash` are the same on both occasions.) -/
theorem check_coherence_iff {net : Net} {a b : State} (ha : Reachable net a)
    (hdict : ∀ e ∈ a.adRet, e.2.keys.Nodup)
    {path : Option Str} {hash : Str → Option Str} {file : Attrs}
    (hd : net.dump path hash b = .ok file) :
    net.checkCoherence path hash a file = .ok true ↔ SameState net a b := by
  obtain ⟨hwf, -⟩ := reachable_inv ha
  unfold dump chemistryAttributes at hd
  unfold checkCoherence chemistryAttributes
  cases hx : xmlHashOf hash path with
  | error e => rw [hx] at hd; cases hd
  | ok hv =>
    rw [hx] at hd
    simp only [Except.ok.injEq] at hd
    simp only [Except.ok.injEq, attrsEq, decide_eq_true_eq]
    have hfile : throughYaml file = file := by
      rw [← hd]
      unfold throughYaml
      simp only [Attrs.mk.injEq, true_and, and_true]
      rw [List.map_map]
      apply List.map_congr_left
      intro e _
      cases e with
      | stick i v => rfl
      | ret i v => simp only [Function.comp, yamlEntry, sortKeys_idem]
    rw [hfile, ← hd]
    unfold throughYaml
    simp only [Attrs.mk.injEq, and_true]
    rw [yaml_entries a, yaml_entries b, filter_ids_eq hwf.spNodup, filter_ids_eq hwf.spNodup,
      filter_ids_eq hwf.spNodup, filter_ids_eq hwf.spNodup, filter_ids_eq hwf.rNodup,
      filter_ids_eq hwf.rNodup]
    constructor
    · rintro ⟨h1, -, h3, h4, h5, -, h7, h8⟩
      obtain ⟨e1, e2⟩ := entries_inj h7
      exact ⟨fun s hs => (h1 s hs).symm, fun s hs => (h3 s hs).symm, fun s hs => (h4 s hs).symm,
        fun r hr => (h5 r hr).symm, e1.symm, h8.symm, (rets_forall₂ hdict).1 e2.symm⟩
    · rintro ⟨h1, h2, h3, h4, h5, h6, h7⟩
      exact ⟨fun s hs => (h1 s hs).symm, fun s hs => by rw [h1 s hs], fun s hs => (h2 s hs).symm,
        fun s hs => (h3 s hs).symm, fun r hr => (h4 r hr).symm, fun r hr => by rw [h4 r hr],
        by rw [h5, (rets_forall₂ hdict).2 h7], h6.symm⟩

example : Demo.net.checkCoherence none (fun _ => none) Demo.stDump
      (match Demo.net.dump none (fun _ => none) Demo.stDump with
        | .ok f => f
        | .error _ => ⟨[], [], [], [], [], [], [], [], none, none⟩) = .ok true := by rfl

end Verif.Plaschem
