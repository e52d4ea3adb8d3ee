/-
Helper lemmas: complete characterisation of one call of `disable`, and the return-species part of the
consistency check.
-/
import Verif.Plaschem.ChemInv

namespace Verif.Plaschem
namespace Net

theorem onlyIon_iff {net : Net} (hwf : WF net) {st : State} {i : Nat} :
    OnlyIon net st i ↔ ∃ s, net.positiveIons st = [s] ∧ s.id = i := by
  constructor
  · rintro ⟨s, hs, rfl, hp, he, hu⟩
    refine ⟨s, ?_, rfl⟩
    have hmem : ∀ t, t ∈ net.positiveIons st ↔ t = s := by
      intro t
      rw [mem_positiveIons]
      constructor
      · rintro ⟨h1, h2, h3⟩; exact hu t h1 h3 h2
      · rintro rfl; exact ⟨hs, he, hp⟩
    have hnd : (net.positiveIons st).Nodup :=
      ((hwf.spNodup.of_map).sublist (List.filter_sublist.trans List.filter_sublist))
    match hl : net.positiveIons st with
    | [] => have := (hmem s).2 rfl; rw [hl] at this; cases this
    | [t] => have := (hmem t).1 (by rw [hl]; simp); rw [this]
    | t :: u :: l =>
      have h1 := (hmem t).1 (by rw [hl]; simp)
      have h2 := (hmem u).1 (by rw [hl]; simp)
      rw [hl, h1, h2] at hnd
      simp at hnd
  · rintro ⟨s, hs, rfl⟩
    have hm : s ∈ net.positiveIons st := by rw [hs]; simp
    obtain ⟨h1, h2, h3⟩ := mem_positiveIons.1 hm
    refine ⟨s, h1, rfl, h3, h2, ?_⟩
    intro t ht htp hte
    have : t ∈ net.positiveIons st := mem_positiveIons.2 ⟨ht, hte, htp⟩
    rw [hs] at this; simpa using this

theorem designates_of_getRp {net : Net} (hwf : WF net) {x : SpIdent} {s : RP}
    (h : net.getRp x = .ok s) (i : Nat) : Designates net x i ↔ i = s.id := by
  have hm := getRp_mem h
  cases x with
  | id j =>
    have hj : s.id = j := by
      unfold getRp at h; simp only at h
      split at h
      · rename_i t ht; simp at h; subst h; simpa using List.find?_some ht
      · simp at h
    constructor
    · rintro ⟨rfl, _⟩; exact hj.symm
    · rintro rfl; exact ⟨hj.symm, s, hm, rfl⟩
  | name n =>
    have hj : s.name = n := by
      unfold getRp at h; simp only at h
      split at h
      · rename_i t ht; simp at h; subst h; simpa using List.find?_some ht
      · simp at h
    constructor
    · rintro ⟨t, ht, hn, rfl⟩
      rw [hwf.eq_of_name ht hm (hn.trans hj.symm)]
    · rintro rfl; exact ⟨s, hm, hj, rfl⟩
  | obj y =>
    have hj : s = y := by
      unfold getRp at h; simp only at h
      split at h
      · rename_i t ht; simp at h; subst h; simpa using List.find?_some ht
      · simp at h
    subst hj
    constructor
    · rintro ⟨_, rfl⟩; rfl
    · rintro rfl; exact ⟨hm, rfl⟩

theorem getRp_of_designates {net : Net} {x : SpIdent} {i : Nat} (h : Designates net x i) :
    ∃ s, net.getRp x = .ok s := by
  cases x with
  | id j =>
    obtain ⟨rfl, s, hs, he⟩ := h
    unfold getRp; simp only
    cases hf : net.species.find? (fun t => decide (t.id = j)) with
    | none => have := List.find?_eq_none.1 hf s hs; simp [he] at this
    | some t => exact ⟨t, rfl⟩
  | name n =>
    obtain ⟨s, hs, he, -⟩ := h
    unfold getRp; simp only
    cases hf : net.species.find? (fun t => decide (t.name = n)) with
    | none => have := List.find?_eq_none.1 hf s hs; simp [he] at this
    | some t => exact ⟨t, rfl⟩
  | obj y =>
    exact ⟨y, find_obj h.1⟩

theorem resolveSpecies_iff {net : Net} (hwf : WF net) {xs : List SpIdent} {l : List Nat}
    (h : net.resolveSpecies xs = .ok l) (i : Nat) : i ∈ l ↔ Requested net xs i := by
  induction xs generalizing l with
  | nil => simp [resolveSpecies] at h; subst h; simp [Requested]
  | cons x xs ih =>
    unfold resolveSpecies at h
    split at h
    · simp at h
    · rename_i s hs
      split at h
      · simp at h
      · rename_i l' hl'
        simp at h; subst h
        rw [List.mem_cons, ih hl', ← designates_of_getRp hwf hs i]
        unfold Requested
        constructor
        · rintro (h | ⟨y, hy, h⟩)
          · exact ⟨x, by simp, h⟩
          · exact ⟨y, List.mem_cons_of_mem _ hy, h⟩
        · rintro ⟨y, hy, h⟩
          rcases List.mem_cons.1 hy with rfl | hy
          · exact .inl h
          · exact .inr ⟨y, hy, h⟩

theorem resolveSpecies_known {net : Net} (hwf : WF net) {xs : List SpIdent} :
    (∃ l, net.resolveSpecies xs = .ok l) ↔ ∀ x ∈ xs, ∃ i, Designates net x i := by
  induction xs with
  | nil => simp [resolveSpecies]
  | cons x xs ih =>
    simp only [List.forall_mem_cons, ← ih]
    constructor
    · rintro ⟨l, h⟩
      unfold resolveSpecies at h
      split at h
      · simp at h
      · rename_i s hs
        split at h
        · simp at h
        · rename_i l' hl'
          exact ⟨⟨s.id, (designates_of_getRp hwf hs _).2 rfl⟩, l', hl'⟩
    · rintro ⟨⟨i, hi⟩, l, hl⟩
      obtain ⟨s, hs⟩ := getRp_of_designates hi
      exact ⟨s.id :: l, by simp [resolveSpecies, hs, hl]⟩

theorem resolveReactions_known {net : Net} {xs : List Nat} :
    (net.resolveReactions xs = .ok xs) ↔ ∀ i ∈ xs, ∃ r ∈ net.reactions, r.id = i := by
  constructor
  · intro h; exact (resolveReactions_spec h).2
  · intro h
    induction xs with
    | nil => rfl
    | cons x xs ih =>
      have ih := ih (fun i hi => h i (by simp [hi]))
      obtain ⟨r, hr, hx⟩ := h x (by simp)
      unfold resolveReactions
      have : ∃ r', net.getReaction x = .ok r' := by
        unfold getReaction
        cases hf : net.reactions.find? (fun t => decide (t.id = x)) with
        | none => have := List.find?_eq_none.1 hf r hr; simp [hx] at this
        | some t => exact ⟨t, rfl⟩
      obtain ⟨r', hr'⟩ := this
      simp [hr', ih, (getReaction_spec hr').2]

/-- complete characterisation of a cascade that returns normally -/
theorem char_of_ok {net : Net} (hwf : WF net) {st st' : State} (hinv : Inv net st)
    {sids rids : List Nat} {k : Nat}
    (h : net.disableRec (k + 1) st sids rids = (st', none)) :
    (∀ i, st'.enSp i = true ↔
      st.enSp i = true ∧ ¬ ForcedS net st (fun i => i ∈ sids) (fun i => i ∈ rids) i) ∧
    (∀ i, st'.enR i = true ↔
      st.enR i = true ∧ ¬ ForcedR net st (fun i => i ∈ sids) (fun i => i ∈ rids) i) ∧
    (∀ i, st'.adhocSp i = true ↔ st.adhocSp i = true ∨
      (net.requiresCharge = true ∧
        ((∃ i ∈ sids, st.enSp i = true) ∨ (∃ i ∈ rids, st.enR i = true)) ∧ OnlyIon net st' i)) := by
  have c := cascade_of_ok hwf h
  have hinv' := inv_of_cascade hwf hinv c
  obtain ⟨f1, f2, f3⟩ := forced_of_removed hinv.ok.consistent (Mid.start net st sids rids) h
  have nf := not_forced_of_consistent (net := net) (st0 := st) (S0 := fun i => i ∈ sids)
    (R0 := fun i => i ∈ rids) (X := st'.enabledPart)
    ⟨fun s _ h => c.monoS _ h, fun r _ h => c.monoR _ h⟩ hinv'.ok.consistent
    ⟨fun i hi => by simp [State.enabledPart, c.goneS i hi],
     fun i hi => by simp [State.enabledPart, c.goneR i hi]⟩
  refine ⟨?_, ?_, ?_⟩
  · intro i
    constructor
    · intro hi; exact ⟨c.monoS i hi, fun hf => nf.1 i hf hi⟩
    · rintro ⟨h1, h2⟩
      by_contra hc
      exact h2 (f1 i h1 (by simpa using hc))
  · intro i
    constructor
    · intro hi; exact ⟨c.monoR i hi, fun hf => nf.2 i hf hi⟩
    · rintro ⟨h1, h2⟩
      by_contra hc
      exact h2 (f2 i h1 (by simpa using hc))
  · intro i
    by_cases hno : (∀ i ∈ sids, st.enSp i = false) ∧ (∀ i ∈ rids, st.enR i = false)
    · rw [disableRec_succ, if_pos hno] at h
      simp only [Prod.mk.injEq, and_true] at h
      subst h
      constructor
      · exact Or.inl
      · rintro (h | ⟨-, ⟨j, hj, hje⟩ | ⟨j, hj, hje⟩, -⟩)
        · exact h
        · rw [hno.1 j hj] at hje; cases hje
        · rw [hno.2 j hj] at hje; cases hje
    · have hno' : (∃ i ∈ sids, st.enSp i = true) ∨ (∃ i ∈ rids, st.enR i = true) := by
        by_contra hc
        rw [not_or] at hc
        apply hno
        constructor
        · intro j hj; by_contra h1; exact hc.1 ⟨j, hj, by simpa using h1⟩
        · intro j hj; by_contra h1; exact hc.2 ⟨j, hj, by simpa using h1⟩
      have hout : (net.requiresCharge = true → net.positiveIons st' ≠ []) ∧
          (net.requiresCharge = true → ∀ s, net.positiveIons st' = [s] → st'.adhocSp s.id = true) := by
        rcases c.outcome with heq | ho
        · exfalso
          apply hno
          subst heq
          exact ⟨c.goneS, c.goneR⟩
        · exact ho.2.2
      constructor
      · intro hi
        rcases f3 i hi with h0 | ⟨hq, he, hall⟩
        · exact .inl h0
        · right
          refine ⟨hq, hno', ?_⟩
          obtain ⟨s, hs⟩ := List.exists_mem_of_ne_nil _ (hout.1 hq)
          have hid : ∀ t ∈ net.positiveIons st', t.id = i := by
            intro t ht
            obtain ⟨t1, t2, t3⟩ := mem_positiveIons.1 ht
            by_contra hne
            exact nf.1 _ (hall t (mem_positiveIons.2 ⟨t1, c.monoS _ t2, t3⟩) hne) t2
          obtain ⟨s1, s2, s3⟩ := mem_positiveIons.1 hs
          have hsi := hid s hs
          refine ⟨s, s1, hsi, s3, hsi ▸ s2, ?_⟩
          intro t t1 t3 t2
          have := hid t (mem_positiveIons.2 ⟨t1, t2, t3⟩)
          exact hwf.eq_of_id t1 s1 (this.trans hsi.symm)
      · rintro (h0 | ⟨hq, -, ho⟩)
        · exact c.adhoc i h0
        · obtain ⟨s, hs, rfl⟩ := (onlyIon_iff hwf).1 ho
          exact hout.2 hq s hs

/-! ### return species -/

/-- all return species names in a table satisfy `P` -/
def NamesIn (P : Str → Prop) (d : Dict Nat (Option (Dict Str ℚ))) : Prop :=
  ∀ e ∈ d, ∀ c, e.2 = some c → ∀ p ∈ c, P p.1

theorem mem_set {κ α : Type} [DecidableEq κ] {d : Dict κ α} {k : κ} {v : α} {e : κ × α}
    (h : e ∈ d.set k v) : e = (k, v) ∨ e ∈ d := by
  induction d with
  | nil => simp [Dict.set] at h; exact .inl h
  | cons x d ih =>
    obtain ⟨k', v'⟩ := x
    unfold Dict.set at h
    split at h
    · rcases List.mem_cons.1 h with h | h
      · exact .inl h
      · exact .inr (List.mem_cons_of_mem _ h)
    · rcases List.mem_cons.1 h with h | h
      · right; rw [h]; simp
      · rcases ih h with h | h
        · exact .inl h
        · exact .inr (List.mem_cons_of_mem _ h)

theorem NamesIn.set {P : Str → Prop} {d : Dict Nat (Option (Dict Str ℚ))} (h : NamesIn P d) (k : Nat)
    (v : Option (Dict Str ℚ)) (hv : ∀ c, v = some c → ∀ p ∈ c, P p.1) : NamesIn P (d.set k v) := by
  intro e he c hc p hp
  rcases mem_set he with rfl | he
  · exact hv c hc p hp
  · exact h e he c hc p hp

theorem NamesIn.adhoc {P : Str → Prop} {d : Dict Nat (Option (Dict Str ℚ))} (h : NamesIn P d)
    (ad : Dict Nat (Dict Str ℚ)) (had : ∀ e ∈ ad, ∀ p ∈ e.2, P p.1) : NamesIn P (applyAdhocRet d ad) := by
  unfold applyAdhocRet
  induction ad generalizing d with
  | nil => exact h
  | cons e ad ih =>
    refine ih (h.set e.1 (some e.2) ?_) (fun e' he' => had e' (List.mem_cons_of_mem _ he'))
    intro c hc p hp
    simp at hc; subst hc
    exact had e (by simp) p hp

theorem NamesIn.zero {P : Str → Prop} {d : Dict Nat (Option (Dict Str ℚ))} (h : NamesIn P d)
    (sticks : Dict Nat (Option ℚ)) : NamesIn P (applyZeroStick d sticks) := by
  unfold applyZeroStick
  induction sticks generalizing d with
  | nil => exact h
  | cons e sticks ih =>
    refine ih ?_
    simp only
    split
    · refine h.set _ _ ?_
      intro c hc p hp
      simp at hc; subst hc; cases hp
    · exact h

theorem nominalRet_ok {l : List RP} {d : Dict Nat (Option (Dict Str ℚ))} (h : nominalRet l = .ok d) :
    ∀ s ∈ l, ∃ c, s.getRetCoefs = .ok c := by
  induction l generalizing d with
  | nil => simp
  | cons s l ih =>
    unfold nominalRet at h
    split at h
    · simp at h
    · rename_i c hc
      split at h
      · simp at h
      · rename_i rest hrest
        intro t ht
        rcases List.mem_cons.1 ht with rfl | ht
        · exact ⟨c, hc⟩
        · exact ih hrest t ht

theorem nominalRet_of {l : List RP} (h : ∀ s ∈ l, ∃ c, s.getRetCoefs = .ok c) {P : Str → Prop}
    (hP : ∀ s ∈ l, ∀ d, s.getRetCoefs = .ok (some d) → ∀ p ∈ d, P p.1) :
    ∃ d, nominalRet l = .ok d ∧ NamesIn P d := by
  induction l with
  | nil => exact ⟨[], rfl, by intro e he; cases he⟩
  | cons s l ih =>
    obtain ⟨d, hd, hn⟩ := ih (fun t ht => h t (List.mem_cons_of_mem _ ht))
      (fun t ht => hP t (List.mem_cons_of_mem _ ht))
    obtain ⟨c, hc⟩ := h s (by simp)
    refine ⟨(s.id, c) :: d, by simp [nominalRet, hc, hd], ?_⟩
    intro e he c' hc' p hp
    rcases List.mem_cons.1 he with rfl | he
    · simp at hc'; subst hc'
      exact hP s (by simp) c' hc p hp
    · exact hn e he c' hc' p hp

theorem mem_retNames {d : Dict Nat (Option (Dict Str ℚ))} {n : Str} :
    n ∈ retNames d ↔ ∃ e ∈ d, ∃ c, e.2 = some c ∧ ∃ p ∈ c, p.1 = n := by
  unfold retNames
  rw [List.mem_flatMap]
  constructor
  · rintro ⟨e, he, hn⟩
    cases hc : e.2 with
    | none => simp [hc] at hn
    | some c =>
      simp only [hc] at hn
      obtain ⟨p, hp, hpn⟩ := List.mem_map.1 hn
      exact ⟨e, he, c, hc, p, hp, hpn⟩
  · rintro ⟨e, he, c, hc, p, hp, rfl⟩
    refine ⟨e, he, ?_⟩
    simp only [hc]
    exact List.mem_map.2 ⟨p, hp, rfl⟩

theorem purge_names {pool : List Str} {d : Dict Nat (Option (Dict Str ℚ))} {n : Str}
    (h : n ∈ retNames (purge pool d)) : n ∈ pool := by
  obtain ⟨e, he, c, hc, p, hp, rfl⟩ := mem_retNames.1 h
  unfold purge at he
  obtain ⟨e0, he0, rfl⟩ := List.mem_map.1 he
  cases h0 : e0.2 with
  | none => simp [h0] at hc
  | some c0 =>
    simp [h0] at hc
    subst hc
    simpa using (List.mem_filter.1 hp).2

/-- if nominal and ad-hoc return species all exist, the return-species check passes in every state -/
theorem retOk_of {net : Net} {st : State}
    (hnom : ∀ s ∈ net.species, ∃ c, s.getRetCoefs = .ok c) (hcl : net.RetClosed)
    (had : ∀ e ∈ st.adRet, ∀ p ∈ e.2, ∃ t ∈ net.species, t.name = p.1) : RetOk net st := by
  unfold RetOk getSpeciesRetCoefs
  have hsub : ∀ s ∈ net.getSpecies st false true true, s ∈ net.species := fun s hs =>
    (mem_getSpecies.1 hs).1
  obtain ⟨d, hd, hn⟩ := nominalRet_of (l := net.getSpecies st false true true)
    (P := fun n => ∃ t ∈ net.species, t.name = n)
    (fun s hs => hnom s (hsub s hs)) (fun s hs d hd => hcl s (hsub s hs) d hd)
  simp only [hd]
  by_cases ha : net.anyDisabled st = true
  · simp only [ha, if_true]
    exact ⟨_, rfl, fun n hn => purge_names hn⟩
  · rw [if_neg ha]
    refine ⟨_, rfl, ?_⟩
    intro n hnm
    obtain ⟨e, he, c, hc, p, hp, rfl⟩ := mem_retNames.1 hnm
    obtain ⟨t, ht, htn⟩ := ((hn.adhoc _ had).zero _) e he c hc p hp
    refine List.mem_map.2 ⟨t, mem_getSpecies.2 ⟨ht, ?_⟩, htn⟩
    unfold anyDisabled at ha
    simp only [List.any_eq_true, not_exists, not_and, Bool.not_eq_true, Bool.not_eq_false'] at ha
    exact ha t ht

theorem fresh_nominal {net : Net} (h : RetOk net State.fresh) :
    ∀ s ∈ net.species, ∃ c, s.getRetCoefs = .ok c := by
  obtain ⟨d, hd, -⟩ := h
  unfold getSpeciesRetCoefs at hd
  split at hd
  · simp at hd
  · rename_i d0 hd0
    intro s hs
    exact nominalRet_ok hd0 s (mem_getSpecies.2 ⟨hs, rfl⟩)

theorem getSpeciesRetCoefs_ok {net : Net} {st : State} {a b c : Bool}
    (h : ∀ s ∈ net.species, ∃ c, s.getRetCoefs = .ok c) :
    ∃ d, net.getSpeciesRetCoefs st a b c = .ok d := by
  obtain ⟨d, hd, -⟩ := nominalRet_of (l := net.getSpecies st a b c) (P := fun _ => True)
    (fun s hs => h s (List.mem_filter.1 hs).1) (fun _ _ _ _ _ _ => trivial)
  unfold getSpeciesRetCoefs
  simp only [hd]
  split <;> exact ⟨_, rfl⟩

theorem assertConsistency_error {net : Net} {st : State}
    (h : ∀ s ∈ net.species, ∃ c, s.getRetCoefs = .ok c) {e : Err}
    (he : net.assertConsistency st = .error e) : e = .consistency := by
  obtain ⟨d, hd⟩ := getSpeciesRetCoefs_ok (st := st) (a := false) (b := true) (c := true) h
  unfold assertConsistency at he
  simp only [hd] at he
  repeat' split at he
  all_goals first | (cases he; rfl) | cases he

/-- reachable states only store ad-hoc return species that exist in the chemistry -/
theorem reachable_ret {net : Net} {st : State} (h : Reachable net st) :
    (∀ s ∈ net.species, ∃ c, s.getRetCoefs = .ok c) ∧
    (∀ e ∈ st.adRet, ∀ p ∈ e.2, ∃ t ∈ net.species, t.name = p.1) := by
  induction h with
  | init h =>
    have := init_spec h
    refine ⟨fresh_nominal this.2.2.2.2.2.2.2.2, ?_⟩
    rw [this.2.2.2.2.2.2.1]; intro e he; cases he
  | @step st o hr ih =>
    refine ⟨ih.1, ?_⟩
    obtain ⟨hwf, hinv⟩ := reachable_inv hr
    cases o with
    | disable sp rx =>
      simp only [step]
      rcases disable_cases hinv sp rx with ⟨e, -, -, -, he, -⟩ | ⟨sids, -, -, he, -⟩ | ⟨sids, st', -, -, hrec, he⟩
      · rw [he]; exact ih.2
      · rw [he]; exact ih.2
      · rw [he]; simp only; rw [(cascade_of_ok hwf hrec).ret]; exact ih.2
    | reset => exact ih.2
    | protect sp =>
      simp only [step]
      rw [setProtected_spec.2.2.2.2.1]; exact ih.2
    | adhocStick p v =>
      simp only [step, setAdhocStick]
      split
      · exact ih.2
      · split <;> exact ih.2
    | adhocRet p v =>
      simp only [step, setAdhocRet]
      split
      · exact ih.2
      · rename_i s hs
        by_cases hv : (v.all fun p => decide (p.1 ∈ net.getSpeciesName st false true true)) = true
        · rw [if_neg (not_not.2 hv)]
          have key : ∀ e ∈ st.adRet.set s.id v, ∀ p ∈ e.2, ∃ t ∈ net.species, t.name = p.1 := by
            intro e he p hp
            rcases mem_set he with rfl | he
            · have := List.all_eq_true.1 hv p hp
              have := of_decide_eq_true this
              obtain ⟨t, ht, htn⟩ := List.mem_map.1 this
              exact ⟨t, (mem_getSpecies.1 ht).1, htn⟩
            · exact ih.2 e he p hp
          split <;> exact key
        · rw [if_pos hv]; exact ih.2
    | resetAdhocSpecies a b =>
      simp only [step, resetAdhocSpecies]
      split
      · intro e he; cases he
      · exact ih.2
    | adhocArrhA r v =>
      simp only [step, setAdhocArrhA]
      split <;> exact ih.2
    | resetAdhocReactions => exact ih.2

end Net
end Verif.Plaschem
