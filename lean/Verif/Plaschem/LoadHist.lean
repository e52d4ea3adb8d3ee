/-
Property C108: histories of calls that also dump the state of the chemistry and load it again, in the same or in another
process (plaschem/chemistry.py:447-582). Such histories lead to no other states than histories without files, and a chemistry
that was restored behaves as the one that was dumped.
-/
import Verif.Plaschem.Restore
import Mathlib.Data.Option.Basic

namespace Verif.Plaschem
open Net

/-! ### specification -/

/-- Specification: states a chemistry can be in when calls alternate with loads of files. A file is what some chemistry with the
same species and reactions wrote in such a state (it, too, may have loaded files); it is read under any path and with any content
of the xml file, with the hash check or without. Calls and loads that raise are included: the exception is caught by the caller and
the history goes on. -/
inductive ReachableWithLoads (net : Net) : State → Prop
  | init {st : State} : net.init = .ok st → ReachableWithLoads net st
  | step {st : State} (o : Net.Op) : ReachableWithLoads net st → ReachableWithLoads net (net.step st o).1
  | load {cur dumped : State} {path path' : Option Str} {hash hash' : Str → Option Str} {file : Attrs} (checkHash : Bool) :
      ReachableWithLoads net cur → ReachableWithLoads net dumped → net.dump path hash dumped = .ok file →
      ReachableWithLoads net (net.load path' hash' cur file checkHash).1

/-- Specification: what the caller sees of a history of calls: the exceptions, one entry for each call. -/
def outcomes (net : Net) (st : State) : List Net.Op → List (Option Err)
  | [] => []
  | o :: os => (net.step st o).2 :: outcomes net (net.step st o).1 os

/-- Specification: series of return coefficients agree if they have the same index and at each place the same dictionary (order of
its items disregarded) or both `None`. -/
def SameRet (c d : Dict Nat (Option (Dict Str ℚ))) : Prop :=
  List.Forall₂ (fun x y => x.1 = y.1 ∧ Option.Rel List.Perm x.2 y.2) c d

/-- Specification: both raise the same exception, or both return, and the results are related. -/
def SameResult {α : Type} (R : α → α → Prop) : Except Err α → Except Err α → Prop
  | .ok x, .ok y => R x y
  | .error e, .error e' => e = e'
  | _, _ => False

/-! ### agreeing states look the same -/

namespace SameState
variable {net : Net} {a b : State}

theorem refl (net : Net) (a : State) : SameState net a a :=
  ⟨fun _ _ => rfl, fun _ _ => rfl, fun _ _ => rfl, fun _ _ => rfl, rfl, rfl,
    List.forall₂_same.2 fun _ _ => ⟨rfl, .refl _⟩⟩

theorem symm (h : SameState net a b) : SameState net b a :=
  ⟨fun s hs => (h.enSp s hs).symm, fun s hs => (h.protSp s hs).symm, fun s hs => (h.adhocSp s hs).symm,
    fun s hs => (h.enR s hs).symm, h.stick.symm, h.arrh.symm, by
      have := h.ret
      generalize a.adRet = c at this
      generalize b.adRet = d at this
      induction this with
      | nil => exact .nil
      | cons h _ ih => exact .cons ⟨h.1.symm, h.2.symm⟩ ih⟩

theorem trans {c : State} (h : SameState net a b) (k : SameState net b c) : SameState net a c :=
  ⟨fun s hs => (h.enSp s hs).trans (k.enSp s hs), fun s hs => (h.protSp s hs).trans (k.protSp s hs),
    fun s hs => (h.adhocSp s hs).trans (k.adhocSp s hs), fun s hs => (h.enR s hs).trans (k.enR s hs),
    h.stick.trans k.stick, h.arrh.trans k.arrh, by
      have h1 := h.ret
      have h2 := k.ret
      generalize a.adRet = x at h1
      generalize b.adRet = y at h1 h2
      generalize c.adRet = z at h2
      induction h1 generalizing z with
      | nil => cases h2; exact .nil
      | cons p _ ih =>
        cases h2 with
        | cons q qs => exact .cons ⟨p.1.trans q.1, p.2.trans q.2⟩ (ih _ qs)⟩

theorem getSpecies (h : SameState net a b) (d s p : Bool) : net.getSpecies a d s p = net.getSpecies b d s p := by
  unfold Net.getSpecies
  apply List.filter_congr
  intro x hx
  unfold speciesMask
  rw [h.enSp x hx, h.protSp x hx, h.adhocSp x hx]

theorem getReactions (h : SameState net a b) (d : Bool) : net.getReactions a d = net.getReactions b d := by
  unfold Net.getReactions
  apply List.filter_congr
  intro x hx
  rw [h.enR x hx]

theorem positiveIons (h : SameState net a b) : net.positiveIons a = net.positiveIons b := by
  unfold Net.positiveIons
  rw [h.getSpecies]

theorem protectedIds (h : SameState net a b) : net.protectedIds a = net.protectedIds b := by
  unfold Net.protectedIds
  congr 1
  apply List.filter_congr
  intro x hx
  rw [h.protSp x hx, h.adhocSp x hx]

theorem anyDisabled (h : SameState net a b) : net.anyDisabled a = net.anyDisabled b := by
  unfold Net.anyDisabled
  rw [Bool.eq_iff_iff, List.any_eq_true, List.any_eq_true]
  constructor
  · rintro ⟨s, hs, he⟩; exact ⟨s, hs, by rw [← h.enSp s hs]; exact he⟩
  · rintro ⟨s, hs, he⟩; exact ⟨s, hs, by rw [h.enSp s hs]; exact he⟩

theorem disconnectedSpecies (h : SameState net a b) : net.disconnectedSpecies a = net.disconnectedSpecies b := by
  unfold Net.disconnectedSpecies
  rw [List.filter_congr (fun s hs => h.enSp s hs), List.filter_congr (fun r hr => h.enR r hr)]

theorem disconnectedReactions (h : SameState net a b) : net.disconnectedReactions a = net.disconnectedReactions b := by
  unfold Net.disconnectedReactions
  rw [List.filter_congr (fun r hr => h.enR r hr),
    List.filter_congr (p := fun s => !a.enSp s.id) (fun s hs => congrArg (! ·) (h.enSp s hs))]

theorem getSpeciesStickCoef (h : SameState net a b) (d s p : Bool) :
    net.getSpeciesStickCoef a d s p = net.getSpeciesStickCoef b d s p := by
  unfold Net.getSpeciesStickCoef
  rw [h.getSpecies, h.stick]

private theorem set_same {c d : Dict Nat (Option (Dict Str ℚ))} (h : SameRet c d) (i : Nat)
    {x y : Option (Dict Str ℚ)} (hxy : Option.Rel List.Perm x y) : SameRet (c.set i x) (d.set i y) := by
  induction h with
  | nil => exact .cons ⟨rfl, hxy⟩ .nil
  | @cons p q l m hpq _ ih =>
    obtain ⟨k, v⟩ := p
    obtain ⟨k', v'⟩ := q
    obtain ⟨rfl, hv⟩ := hpq
    show SameRet (Dict.set ((k, v) :: l) i x) (Dict.set ((k, v') :: m) i y)
    unfold Dict.set
    by_cases hk : k = i
    · rw [if_pos hk, if_pos hk]; exact .cons ⟨rfl, hxy⟩ ‹_›
    · rw [if_neg hk, if_neg hk]; exact .cons ⟨rfl, hv⟩ ih

private theorem adhoc_same {c d : Dict Nat (Option (Dict Str ℚ))} (h : SameRet c d) {x y : Dict Nat (Dict Str ℚ)}
    (hxy : List.Forall₂ (fun x y => x.1 = y.1 ∧ x.2.Perm y.2) x y) : SameRet (applyAdhocRet c x) (applyAdhocRet d y) := by
  induction hxy generalizing c d with
  | nil => exact h
  | @cons p q l m hpq _ ih =>
    show SameRet (applyAdhocRet (c.set p.1 (some p.2)) l) (applyAdhocRet (d.set q.1 (some q.2)) m)
    rw [hpq.1]
    exact ih (set_same h _ (.some hpq.2))

private theorem zero_same {c d : Dict Nat (Option (Dict Str ℚ))} (h : SameRet c d) (s : Dict Nat (Option ℚ)) :
    SameRet (applyZeroStick c s) (applyZeroStick d s) := by
  induction s generalizing c d with
  | nil => exact h
  | cons e s ih =>
    show SameRet (applyZeroStick (if e.2 = some 0 then c.set e.1 (some []) else c) s)
      (applyZeroStick (if e.2 = some 0 then d.set e.1 (some []) else d) s)
    split
    · exact ih (set_same h _ (.some (.refl _)))
    · exact ih h

private theorem purge_same (pool : List Str) {c d : Dict Nat (Option (Dict Str ℚ))} (h : SameRet c d) :
    SameRet (purge pool c) (purge pool d) := by
  induction h with
  | nil => exact .nil
  | @cons p q l m hpq _ ih =>
    refine .cons ⟨hpq.1, ?_⟩ ih
    obtain ⟨k, v⟩ := p
    obtain ⟨k', v'⟩ := q
    rcases hpq.2 with ⟨hp⟩ | _
    · exact .some (hp.filter _)
    · exact .none

private theorem sameRet_refl (c : Dict Nat (Option (Dict Str ℚ))) : SameRet c c :=
  List.forall₂_same.2 fun x _ => ⟨rfl, by cases x.2 with | none => exact .none | some y => exact .some (.refl y)⟩

theorem getSpeciesRetCoefs (h : SameState net a b) (d s p : Bool) :
    SameResult SameRet (net.getSpeciesRetCoefs a d s p) (net.getSpeciesRetCoefs b d s p) := by
  unfold Net.getSpeciesRetCoefs
  rw [h.getSpecies, h.anyDisabled, h.getSpeciesStickCoef]
  unfold getSpeciesName
  rw [h.getSpecies]
  cases nominalRet (net.getSpecies b d s p) with
  | error e => exact rfl
  | ok d0 =>
    dsimp only
    have key := zero_same (adhoc_same (sameRet_refl d0) h.ret) (net.getSpeciesStickCoef b d s true)
    split
    · exact purge_same _ key
    · exact key

private theorem retNames_same {c d : Dict Nat (Option (Dict Str ℚ))} (h : SameRet c d) (n : Str) :
    n ∈ retNames c ↔ n ∈ retNames d := by
  unfold retNames
  induction h with
  | nil => rfl
  | @cons p q l m hpq _ ih =>
    rw [List.flatMap_cons, List.flatMap_cons, List.mem_append, List.mem_append, ih]
    obtain ⟨k, v⟩ := p
    obtain ⟨k', v'⟩ := q
    rcases hpq.2 with ⟨hp⟩ | _
    · exact or_congr_left (hp.map _).mem_iff
    · exact Iff.rfl

theorem assertConsistency (h : SameState net a b) : net.assertConsistency a = net.assertConsistency b := by
  unfold Net.assertConsistency reactionSpeciesPresent confirmed
  rw [h.getSpecies, h.positiveIons, h.getReactions]
  have key := h.getSpeciesRetCoefs false true true
  cases hx : net.getSpeciesRetCoefs a false true true with
  | error e =>
    cases hy : net.getSpeciesRetCoefs b false true true with
    | error e' => rw [hx, hy] at key; rw [show e = e' from key]
    | ok d => rw [hx, hy] at key; exact key.elim
  | ok c =>
    cases hy : net.getSpeciesRetCoefs b false true true with
    | error e' => rw [hx, hy] at key; exact key.elim
    | ok d =>
      rw [hx, hy] at key
      have : ((retNames c).all fun n => decide (n ∈ (net.getSpecies b false true true).map RP.name)) =
          (retNames d).all fun n => decide (n ∈ (net.getSpecies b false true true).map RP.name) := by
        rw [Bool.eq_iff_iff, List.all_eq_true, List.all_eq_true]
        exact ⟨fun hh n hn => hh n ((retNames_same key n).2 hn), fun hh n hn => hh n ((retNames_same key n).1 hn)⟩
      simp only [this]

theorem getReactionsArrhA (h : SameState net a b) (d si : Bool) :
    net.getReactionsArrhA a d si = net.getReactionsArrhA b d si := by
  unfold Net.getReactionsArrhA
  rw [h.getReactions, h.arrh]

/-! ### and behave in the same way -/

private theorem enSp_id (h : SameState net a b) {i : Nat} (hi : i ∈ net.species.map RP.id) : a.enSp i = b.enSp i := by
  obtain ⟨s, hs, rfl⟩ := List.mem_map.1 hi
  exact h.enSp s hs

private theorem enR_id (h : SameState net a b) {i : Nat} (hi : i ∈ net.reactions.map Reaction.id) : a.enR i = b.enR i := by
  obtain ⟨s, hs, rfl⟩ := List.mem_map.1 hi
  exact h.enR s hs

private theorem off (h : SameState net a b) (x y : List Nat) :
    SameState net { a with enSp := setMask a.enSp x false, enR := setMask a.enR y false }
      { b with enSp := setMask b.enSp x false, enR := setMask b.enR y false } :=
  ⟨fun s hs => by simp only [setMask, h.enSp s hs], h.protSp, h.adhocSp,
    fun r hr => by simp only [setMask, h.enR r hr], h.stick, h.arrh, h.ret⟩

private theorem chargeStep (h : SameState net a b) :
    SameResult (SameState net) (net.chargeStep a) (net.chargeStep b) := by
  unfold Net.chargeStep
  rw [h.positiveIons]
  split
  · split
    · exact rfl
    · exact ⟨h.enSp, h.protSp, fun s hs => by simp only [setMask, h.adhocSp s hs], h.enR, h.stick, h.arrh, h.ret⟩
    · exact h
  · exact h

private theorem disableRec (k : Nat) (h : SameState net a b) {sids rids : List Nat}
    (hs : ∀ i ∈ sids, i ∈ net.species.map RP.id) (hr : ∀ i ∈ rids, i ∈ net.reactions.map Reaction.id) :
    (net.disableRec k a sids rids).2 = (net.disableRec k b sids rids).2 ∧
      SameState net (net.disableRec k a sids rids).1 (net.disableRec k b sids rids).1 := by
  induction k generalizing a b sids rids with
  | zero => exact ⟨rfl, h⟩
  | succ k ih =>
    unfold Net.disableRec
    dsimp only
    rw [List.filter_congr (fun i hi => h.enSp_id (hs i hi)), List.filter_congr (fun i hi => h.enR_id (hr i hi)),
      h.protectedIds]
    split
    · exact ⟨rfl, h⟩
    · split
      · exact ⟨rfl, h⟩
      · have h1 := h.off (sids.filter fun i => b.enSp i) (rids.filter fun i => b.enR i)
        have h2 := h1.chargeStep
        revert h1 h2
        generalize ({ a with enSp := _, enR := _ } : State) = a1
        generalize ({ b with enSp := _, enR := _ } : State) = b1
        intro h1 h2
        cases hx : net.chargeStep a1 with
        | error e =>
          cases hy : net.chargeStep b1 with
          | error e' => rw [hx, hy] at h2; exact ⟨congrArg some h2, h1⟩
          | ok d => rw [hx, hy] at h2; exact h2.elim
        | ok c =>
          cases hy : net.chargeStep b1 with
          | error e' => rw [hx, hy] at h2; exact h2.elim
          | ok d =>
            rw [hx, hy] at h2
            have h3 : SameState net c d := h2
            dsimp only
            rw [h3.disconnectedSpecies, h3.disconnectedReactions]
            split
            · exact ⟨rfl, h3⟩
            · refine ih h3 (fun i hi => ?_) fun i hi => ?_
              · obtain ⟨s, hs, rfl⟩ := List.mem_map.1 hi
                exact List.mem_map_of_mem (List.mem_filter.1 (List.mem_filter.1 hs).1).1
              · obtain ⟨s, hs, rfl⟩ := List.mem_map.1 hi
                exact List.mem_map_of_mem (List.mem_filter.1 (List.mem_filter.1 hs).1).1

private theorem resolved_sp {l : List SpIdent} {ids : List Nat} (h : net.resolveSpecies l = .ok ids) :
    ∀ i ∈ ids, i ∈ net.species.map RP.id := by
  induction l generalizing ids with
  | nil => cases h; intro i hi; cases hi
  | cons x xs ih =>
    unfold resolveSpecies at h
    split at h
    · cases h
    · rename_i s hs
      split at h
      · cases h
      · rename_i l hl
        cases h
        intro i hi
        rcases List.mem_cons.1 hi with rfl | hi
        · exact List.mem_map_of_mem (getRp_mem hs)
        · exact ih hl i hi

private theorem resolved_rx {l ids : List Nat} (h : net.resolveReactions l = .ok ids) :
    ∀ i ∈ ids, i ∈ net.reactions.map Reaction.id := by
  induction l generalizing ids with
  | nil => cases h; intro i hi; cases hi
  | cons x xs ih =>
    unfold resolveReactions at h
    split at h
    · cases h
    · rename_i s hs
      split at h
      · cases h
      · rename_i l hl
        cases h
        intro i hi
        rcases List.mem_cons.1 hi with rfl | hi
        · refine List.mem_map_of_mem ?_
          unfold Net.getReaction at hs
          split at hs
          · cases hs; exact List.mem_of_find?_eq_some ‹_›
          · cases hs
        · exact ih hl i hi

private theorem disable (h : SameState net a b) (sp : List SpIdent) (rx : List Nat) :
    (net.disable a sp rx).2 = (net.disable b sp rx).2 ∧ SameState net (net.disable a sp rx).1 (net.disable b sp rx).1 := by
  unfold Net.disable
  cases hs : net.resolveSpecies sp with
  | error e => exact ⟨rfl, h⟩
  | ok sids =>
    cases hr : net.resolveReactions rx with
    | error e => exact ⟨rfl, h⟩
    | ok rids =>
      dsimp only
      obtain ⟨h1, h2⟩ := disableRec net.fuelBound h (resolved_sp hs) (resolved_rx hr)
      cases hx : net.disableRec net.fuelBound a sids rids with
      | mk x ex =>
        cases hy : net.disableRec net.fuelBound b sids rids with
        | mk y ey =>
          rw [hx, hy] at h1 h2
          dsimp only at h1 h2
          subst h1
          cases ex with
          | none =>
            dsimp only
            rw [h2.assertConsistency]
            cases net.assertConsistency y with
            | error e => exact ⟨rfl, h2⟩
            | ok u => exact ⟨rfl, h2⟩
          | some e =>
            by_cases he : e = .disable
            · subst he
              exact ⟨rfl, h.enSp, h.protSp, h.adhocSp, h.enR, h2.stick, h2.arrh, h2.ret⟩
            · cases e <;> first | exact ⟨rfl, h2⟩ | exact absurd rfl he

private theorem dict_set_same {c d : Dict Nat (Dict Str ℚ)}
    (h : List.Forall₂ (fun x y => x.1 = y.1 ∧ x.2.Perm y.2) c d) (i : Nat) (v : Dict Str ℚ) :
    List.Forall₂ (fun x y => x.1 = y.1 ∧ x.2.Perm y.2) (Dict.set c i v) (Dict.set d i v) := by
  induction h with
  | nil => exact .cons ⟨rfl, .refl _⟩ .nil
  | @cons p q l m hpq hlm ih =>
    obtain ⟨k, x⟩ := p
    obtain ⟨k', y⟩ := q
    obtain ⟨rfl, hv⟩ := hpq
    unfold Dict.set
    by_cases hk : k = i
    · rw [if_pos hk, if_pos hk]; exact .cons ⟨rfl, .refl _⟩ hlm
    · rw [if_neg hk, if_neg hk]; exact .cons ⟨rfl, hv⟩ ih

theorem step (h : SameState net a b) (o : Net.Op) :
    (net.step a o).2 = (net.step b o).2 ∧ SameState net (net.step a o).1 (net.step b o).1 := by
  cases o with
  | disable sp rx => exact h.disable sp rx
  | reset =>
    exact ⟨rfl, fun _ _ => rfl, h.protSp, fun _ _ => rfl, fun _ _ => rfl, h.stick, h.arrh, h.ret⟩
  | protect sp =>
    simp only [Net.step, setProtected]
    cases net.resolveSpecies sp with
    | error e => exact ⟨rfl, h⟩
    | ok ids =>
      exact ⟨rfl, h.enSp, fun s hs => by simp only [setMask, h.protSp s hs], h.adhocSp, h.enR, h.stick, h.arrh, h.ret⟩
  | adhocStick p v =>
    simp only [Net.step, setAdhocStick]
    cases net.getRp p with
    | error e => exact ⟨rfl, h⟩
    | ok s =>
      dsimp only
      have h1 : SameState net { a with adStick := a.adStick.set s.id v } { b with adStick := b.adStick.set s.id v } :=
        ⟨h.enSp, h.protSp, h.adhocSp, h.enR, by show Dict.set _ _ _ = Dict.set _ _ _; rw [h.stick], h.arrh, h.ret⟩
      rw [h1.assertConsistency]
      cases net.assertConsistency { b with adStick := b.adStick.set s.id v } with
      | error e => exact ⟨rfl, h1⟩
      | ok u => exact ⟨rfl, h1⟩
  | adhocRet p v =>
    simp only [Net.step, setAdhocRet]
    cases net.getRp p with
    | error e => exact ⟨rfl, h⟩
    | ok s =>
      dsimp only
      unfold getSpeciesName
      rw [h.getSpecies]
      split
      · exact ⟨rfl, h⟩
      · have h1 : SameState net { a with adRet := a.adRet.set s.id v } { b with adRet := b.adRet.set s.id v } :=
          ⟨h.enSp, h.protSp, h.adhocSp, h.enR, h.stick, h.arrh, dict_set_same h.ret _ _⟩
        rw [h1.assertConsistency]
        cases net.assertConsistency { b with adRet := b.adRet.set s.id v } with
        | error e => exact ⟨rfl, h1⟩
        | ok u => exact ⟨rfl, h1⟩
  | resetAdhocSpecies x y =>
    refine ⟨rfl, h.enSp, h.protSp, h.adhocSp, h.enR, ?_, h.arrh, ?_⟩
    · simp only [Net.step, resetAdhocSpecies, h.stick]
    · simp only [Net.step, resetAdhocSpecies]
      split
      · exact .nil
      · exact h.ret
  | adhocArrhA r v =>
    simp only [Net.step, setAdhocArrhA]
    split
    · exact ⟨rfl, h.enSp, h.protSp, h.adhocSp, h.enR, h.stick, by show Dict.set _ _ _ = Dict.set _ _ _; rw [h.arrh], h.ret⟩
    · exact ⟨rfl, h⟩
  | resetAdhocReactions => exact ⟨rfl, h.enSp, h.protSp, h.adhocSp, h.enR, h.stick, rfl, h.ret⟩

end SameState

/-! ### C108 -/

/-- **C108.** Chemistries in states that agree cannot be told apart: the getters return the same, every history of calls
raises the same exceptions and leads to states that agree. -/
theorem same_behaviour {net : Net} {a b : State} (h : SameState net a b) :
    (∀ d s p, net.getSpecies a d s p = net.getSpecies b d s p) ∧ (∀ d, net.getReactions a d = net.getReactions b d) ∧
    net.protectedIds a = net.protectedIds b ∧
    (∀ d s p, net.getSpeciesStickCoef a d s p = net.getSpeciesStickCoef b d s p) ∧
    (∀ d s p, SameResult SameRet (net.getSpeciesRetCoefs a d s p) (net.getSpeciesRetCoefs b d s p)) ∧
    (∀ d si, net.getReactionsArrhA a d si = net.getReactionsArrhA b d si) ∧
    (∀ ops, outcomes net a ops = outcomes net b ops ∧ SameState net (net.run a ops) (net.run b ops)) := by
  refine ⟨h.getSpecies, h.getReactions, h.protectedIds, h.getSpeciesStickCoef, h.getSpeciesRetCoefs, h.getReactionsArrhA, ?_⟩
  intro ops
  induction ops generalizing a b with
  | nil => exact ⟨rfl, h⟩
  | cons o os ih =>
    obtain ⟨h1, h2⟩ := h.step o
    obtain ⟨h3, h4⟩ := ih h2
    exact ⟨by unfold outcomes; rw [h1, h3], h4⟩

private theorem loadMasks_keeps (net : Net) (st : State) (f : Attrs) :
    (net.loadMasks st f).1.adStick = st.adStick ∧ (net.loadMasks st f).1.adRet = st.adRet ∧
      (net.loadMasks st f).1.adArrhA = st.adArrhA := by
  unfold loadMasks
  dsimp only
  repeat' (split; · exact ⟨rfl, rfl, rfl⟩)
  exact ⟨rfl, rfl, rfl⟩

/-- a state that agrees with a reachable one -/
private def Like (net : Net) (st : State) : Prop := ∃ r, Reachable net r ∧ SameState net st r

private theorem Like.step {net : Net} {st : State} (h : Like net st) (o : Net.Op) : Like net (net.step st o).1 := by
  obtain ⟨r, hr, hs⟩ := h
  exact ⟨_, .step o hr, (hs.step o).2⟩

private theorem Like.loadSp {net : Net} {st : State} (h : Like net st) (l : List AdEntry) : Like net (net.loadSp st l).1 := by
  induction l generalizing st with
  | nil => exact h
  | cons e l ih =>
    cases e with
    | stick i v =>
      have h1 := h.step (.adhocStick (.id i) v)
      simp only [Net.step] at h1
      unfold Net.loadSp
      split
      · rename_i hx; rw [hx] at h1; exact h1
      · rename_i hx; rw [hx] at h1; exact ih h1
    | ret i v =>
      have h1 := h.step (.adhocRet (.id i) v)
      simp only [Net.step] at h1
      unfold Net.loadSp
      split
      · rename_i hx; rw [hx] at h1; exact h1
      · rename_i hx; rw [hx] at h1; exact ih h1

private theorem Like.loadR {net : Net} {st : State} (h : Like net st) (l : List (Nat × ℚ)) : Like net (net.loadR st l).1 := by
  induction l generalizing st with
  | nil => exact h
  | cons e l ih =>
    obtain ⟨i, v⟩ := e
    have h1 := h.step (.adhocArrhA i v)
    simp only [Net.step] at h1
    unfold Net.loadR
    split
    · rename_i hx; rw [hx] at h1; exact h1
    · rename_i hx; rw [hx] at h1; exact ih h1

/-- the factors of one state can be set in any other -/
private theorem set_arrh {net : Net} {st : State} (h : Reachable net st) {l : Dict Nat ℚ} (hl : l.keys.Nodup)
    (hk : ∀ i ∈ l.keys, i ∈ net.reactions.map Reaction.id) : Reachable net { st with adArrhA := l } := by
  have key : ∀ (post pre : Dict Nat ℚ), l = pre ++ post → Reachable net { st with adArrhA := pre } →
      Reachable net { st with adArrhA := l } := by
    intro post
    induction post with
    | nil => intro pre hp hr; rw [hp, List.append_nil]; exact hr
    | cons e post ih =>
      intro pre hp hr
      refine ih (pre ++ [e]) (by rw [hp]; simp) ?_
      have h1 := Reachable.step (.adhocArrhA e.1 e.2) hr
      have hm : e.1 ∈ net.reactions.map Reaction.id := hk e.1 (by rw [hp]; simp [Dict.keys])
      have hn : e.1 ∉ Dict.keys pre := by
        intro hc
        rw [hp] at hl
        simp only [Dict.keys, List.map_append, List.map_cons] at hl hc
        exact (List.nodup_append.1 hl).2.2 _ hc _ (List.mem_cons_self ..) rfl
      have hset : ∀ d : Dict Nat ℚ, e.1 ∉ Dict.keys d → Dict.set d e.1 e.2 = d ++ [e] := by
        intro d hd
        induction d with
        | nil => rfl
        | cons q d ihd =>
          obtain ⟨k, v⟩ := q
          have hk : k ≠ e.1 := fun hc => hd (by simp [Dict.keys, hc])
          unfold Dict.set
          rw [if_neg hk, ihd (fun hc => hd (List.mem_cons_of_mem _ hc))]; rfl
      simp only [Net.step, setAdhocArrhA] at h1
      rw [if_pos hm, hset pre hn] at h1
      exact h1
  exact key l [] rfl (.step .resetAdhocReactions h)

/-- **C108.** Loading adds no states: after any history of calls and loads, successful or not, the chemistry is in a state in
which a history of calls alone, without files, could have left it. So everything that is proved of those holds. -/
theorem no_new_states {net : Net} {st : State} (h : ReachableWithLoads net st) :
    ∃ r, Reachable net r ∧ SameState net st r := by
  induction h with
  | init h => exact ⟨_, .init h, .refl _ _⟩
  | step o _ ih => exact Like.step ih o
  | @load cur dumped path path' hash hash' file checkHash _ _ hd ihc ihd =>
    have key : Like net (net.loadState cur file).1 := by
      obtain ⟨rc, hrc, sc⟩ := ihc
      obtain ⟨rd, hrd, sd⟩ := ihd
      unfold dump chemistryAttributes at hd
      cases hx : xmlHashOf hash path with
      | error e => rw [hx] at hd; cases hd
      | ok hv =>
        rw [hx] at hd
        simp only [Except.ok.injEq] at hd
        obtain ⟨b, hb, b1, b2, b3, b4⟩ := loadMasks_spec (reachable_inv hrc).1 cur dumped file (by rw [← hd]; rfl)
          (by rw [← hd]; rfl) (by rw [← hd]; rfl) (by rw [← hd]; rfl) (by rw [← hd]; rfl) (by rw [← hd]; rfl)
        obtain ⟨-, -, k3⟩ := loadMasks_keeps net cur file
        rw [hb] at k3
        have start : Like net (resetAdhocSpecies b true true) := by
          have ⟨n1, n2⟩ := reachable_arrhKeys' hrc
          refine ⟨_, set_arrh (Reachable.step (.resetAdhocSpecies true true) hrd) n1 n2, ?_⟩
          exact ⟨fun s hs => (b1 s hs).trans (sd.enSp s hs), fun s hs => (b2 s hs).trans (sd.protSp s hs),
            fun s hs => (b3 s hs).trans (sd.adhocSp s hs), fun r hr => (b4 r hr).trans (sd.enR r hr), rfl,
            k3.trans sc.arrh, .nil⟩
        unfold loadState
        rw [hb]
        dsimp only
        have h1 := start.loadSp file.adSp
        split
        · rename_i hy; rw [hy] at h1; exact h1
        · rename_i hy
          rw [hy] at h1
          have h2 := (h1.step .resetAdhocReactions).loadR file.adR
          simp only [Net.step] at h2
          split
          · rename_i hz; rw [hz] at h2; exact h2
          · rename_i hz
            rw [hz] at h2
            split
            · exact h2
            · exact h2
    unfold Net.load
    split
    · split
      · exact ihc
      · split
        · exact ihc
        · split
          · exact ihc
          · exact key
    · exact key

/-- **C108.** Work can be interrupted: a chemistry that has loaded a file continues as the chemistry that wrote it would have
continued. Every further history of calls raises the same exceptions and leads to states that agree. -/
theorem continued {net : Net} (hcl : net.RetClosed) {cur dumped st : State} (h : ReachableWithLoads net dumped)
    {path : Option Str} {hash : Str → Option Str} {file : Attrs} (hd : net.dump path hash dumped = .ok file) {checkHash : Bool}
    (hl : net.load path hash cur file checkHash = (st, none)) (ops : List Net.Op) :
    outcomes net st ops = outcomes net dumped ops ∧ SameState net (net.run st ops) (net.run dumped ops) := by
  obtain ⟨r, hr, hs⟩ := no_new_states h
  exact (same_behaviour (((Sound.of_reachable hr).same hs).load_same hcl hd hl)).2.2.2.2.2.2 ops

/-- **C108.** The file can be loaded exactly if no stored ad-hoc return coefficient names a species that is disabled. -/
theorem loads_iff {net : Net} (hcl : net.RetClosed) {cur dumped : State} (h : ReachableWithLoads net dumped)
    {path : Option Str} {hash : Str → Option Str} {file : Attrs} (hd : net.dump path hash dumped = .ok file) (checkHash : Bool) :
    (net.load path hash cur file checkHash).2 = none ↔ ∀ e ∈ dumped.adRet, ∀ p ∈ e.2, EnabledName net dumped p.1 := by
  obtain ⟨r, hr, hs⟩ := no_new_states h
  have snd := (Sound.of_reachable hr).same hs
  constructor
  · intro hn
    by_contra hc
    push Not at hc
    exact (load_dump_fails_sound snd.wf hc hd cur checkHash).1 hn
  · intro he
    obtain ⟨s, h1, -⟩ := load_dump_sound snd hcl he hd cur checkHash
    rw [h1]

/-- **C108.** The restored chemistry writes the same file again (return coefficients are dictionaries). -/
theorem dumped_again {net : Net} (hcl : net.RetClosed) {cur dumped st : State} (h : ReachableWithLoads net dumped)
    (hdict : ∀ e ∈ dumped.adRet, e.2.keys.Nodup) {path : Option Str} {hash : Str → Option Str} {file : Attrs}
    (hd : net.dump path hash dumped = .ok file) {checkHash : Bool}
    (hl : net.load path hash cur file checkHash = (st, none)) : net.dump path hash st = .ok file := by
  obtain ⟨r, hr, hs⟩ := no_new_states h
  have hs := ((Sound.of_reachable hr).same hs).load_same hcl hd hl
  rw [← hd]
  unfold dump chemistryAttributes
  cases xmlHashOf hash path with
  | error e => rfl
  | ok hv =>
    have key : st.adRet.map (fun e => (e.1, sortKeys e.2)) = dumped.adRet.map (fun e => (e.1, sortKeys e.2)) := by
      have := hs.ret
      generalize st.adRet = x at this
      revert hdict
      generalize dumped.adRet = y at this
      induction this with
      | nil => intro _; rfl
      | @cons p q l m hpq _ ih =>
        intro hd
        have h2 := (sortKeys_eq_iff (hd q (by simp))).2 hpq.2.symm
        rw [List.map_cons, List.map_cons, ih (fun e he => hd e (List.mem_cons_of_mem _ he)), hpq.1, h2]
    have key' : (st.adRet.map (fun e => AdEntry.ret e.1 e.2)).map yamlEntry =
        (dumped.adRet.map (fun e => AdEntry.ret e.1 e.2)).map yamlEntry := by
      have := congrArg (List.map fun e : Nat × Dict Str ℚ => AdEntry.ret e.1 e.2) key
      simpa [yamlEntry, Function.comp_def] using this
    dsimp only [throughYaml]
    rw [List.map_append, List.map_append, key', hs.stick, hs.arrh, List.filter_congr (fun s hm => hs.enSp s hm),
      List.filter_congr (p := fun s => !st.enSp s.id) (fun s hm => congrArg (! ·) (hs.enSp s hm)),
      List.filter_congr (fun s hm => hs.protSp s hm), List.filter_congr (fun s hm => hs.adhocSp s hm),
      List.filter_congr (fun s hm => hs.enR s hm),
      List.filter_congr (p := fun r => !st.enR r.id) (fun s hm => congrArg (! ·) (hs.enR s hm))]

/-! ### concrete cases -/

/-- a history with a load in it: disable, dump, reset, load, and then an attempt to disable the electron -/
example : ∃ file, Demo.net.dump none (fun _ => none) Demo.stDump = .ok file ∧
    ReachableWithLoads Demo.net (Demo.net.load none (fun _ => none) (Demo.net.step Demo.stDump .reset).1 file true).1 ∧
    (Demo.net.load none (fun _ => none) (Demo.net.step Demo.stDump .reset).1 file true).2 = none ∧
    outcomes Demo.net (Demo.net.load none (fun _ => none) (Demo.net.step Demo.stDump .reset).1 file true).1
      [.disable [.name str!"e"] [], .adhocRet (.id 2) [(str!"Ar*", 1)]] = [some .disable, some .consistency] := by
  have h : ReachableWithLoads Demo.net Demo.stDump :=
    .step (.disable [.id 4] []) (.step (.adhocArrhA 1 5) (.step (.adhocStick (.id 1) 1)
      (.step (.adhocRet (.id 2) [(str!"Ar", 1)]) (.init Demo.init_ok))))
  exact ⟨_, rfl, .load (path := none) (hash := fun _ => none) true (.step .reset h) h rfl, rfl, rfl⟩

/-- a load that raises half-way (Ar+ returns Ar*, which is disabled): the chemistry has the species of the file, but not its ad-hoc
values; it is in order nevertheless -/
example : ∃ file, Demo.net.dump none (fun _ => none) Demo.stBad = .ok file ∧
    (Demo.net.load none (fun _ => none) Demo.st0 file true).2 = some .consistency ∧
    (Demo.net.load none (fun _ => none) Demo.st0 file true).1.enSp 4 = false ∧
    (Demo.net.load none (fun _ => none) Demo.st0 file true).1.adRet = [] ∧
    Demo.net.assertConsistency (Demo.net.load none (fun _ => none) Demo.st0 file true).1 = .ok () :=
  ⟨_, rfl, rfl, rfl, rfl, rfl⟩

/-- **Finding.** This is so only for files that a chemistry with the same species and reactions wrote. Another file (here one in
which the electron is disabled) is refused after it has been put in force: the call raises, and the chemistry is left without
electrons. -/
theorem foreign_file : ∃ (file : Attrs) (st : State), Demo.net.load none (fun _ => none) Demo.st0 file true = (st, some .consistency) ∧
    st.enSp 0 = false ∧ (Demo.net.assertConsistency st).toOption = none ∧
    Demo.net.assertConsistency Demo.st0 = .ok () :=
  ⟨{ enabledSp := [], disabledSp := [0], protSp := [], adhocSp := [], enabledR := [], disabledR := [], adSp := [], adR := [],
     xmlPath := none, xmlHash := none }, _, rfl, rfl, rfl, rfl⟩

end Verif.Plaschem
