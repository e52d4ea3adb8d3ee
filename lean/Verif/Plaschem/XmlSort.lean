/-
C71: `sort_elements` of the XML builder.
-/
import Verif.Plaschem.XmlDemo
import Verif.Plaschem.SpeciesOrder

namespace Verif.Plaschem.Xml
open Verif.Plaschem Classify

variable {F : Type} {C : Codec F} {A : Str → Option (Dict Str Nat)}

/-! ### sorting by a list of ids -/

theorem sortByIds_ok {ids : List Str} {l : List Elem} (hn : ids.Nodup) (hp : (l.map Elem.id).Perm ids) :
    ∃ l', sortByIds ids l = .ok l' ∧ l'.Perm l ∧ l'.map Elem.id = ids := by
  have hmem : ∀ e ∈ l, e.id ∈ ids := fun e he => hp.mem_iff.1 (List.mem_map_of_mem he)
  obtain ⟨ks, hks⟩ := collect_ok (f := strKey ids) (l := l) fun e he =>
    ⟨ids.idxOf e.id, by unfold strKey; rw [if_pos (hmem e he)]⟩
  have hkeys := collect_keys 0 hks
  have hz : ks.zip l = l.map fun e => (ids.idxOf e.id, e) := by
    rw [hkeys]
    clear hkeys hks hp
    induction l with
    | nil => rfl
    | cons e l ih =>
      simp only [List.map_cons, List.zip_cons_cons]
      rw [ih fun q hq => hmem q (List.mem_cons_of_mem _ hq)]
      unfold strKey
      rw [if_pos (hmem e (by simp))]
      rfl
  have hs : sortPairs (fun i j => decide (i ≤ j)) (ks.zip l) =
      l.mergeSort fun a b => decide (ids.idxOf a.id ≤ ids.idxOf b.id) := by
    rw [hz]
    refine sortPairs_eq ?_ ?_ _ _
    · intro a b c h1 h2
      simp only [decide_eq_true_eq] at *
      omega
    · intro a b
      simp only [Bool.or_eq_true, decide_eq_true_eq]
      omega
  refine ⟨_, by unfold sortByIds; rw [hks], ?_, ?_⟩
  · rw [hs]; exact List.mergeSort_perm _ _
  · rw [hs]
    refine List.Perm.eq_of_pairwise (le := fun a b => ids.idxOf a ≤ ids.idxOf b) ?_ ?_ ?_ ?_
    · intro a b ha hb h1 h2
      refine (List.idxOf_inj ?_).1 (Nat.le_antisymm h1 h2)
      exact hp.mem_iff.1 ((List.mergeSort_perm _ _).map Elem.id |>.mem_iff.1 ha)
    · rw [List.pairwise_map]
      have := List.pairwise_mergeSort (le := fun a b : Elem => decide (ids.idxOf a.id ≤ ids.idxOf b.id)) (by
        intro a b c h1 h2
        simp only [decide_eq_true_eq] at *
        omega) (by
        intro a b
        simp only [Bool.or_eq_true, decide_eq_true_eq]
        omega) l
      exact this.imp fun h => by simpa using h
    · rw [List.pairwise_iff_getElem]
      intro i j hi hj hij
      rw [hn.idxOf_getElem, hn.idxOf_getElem]
      omega
    · exact ((List.mergeSort_perm _ _).map Elem.id).trans hp

/-! ### ids of what is parsed -/

theorem parseRp_id {e : Elem} {rp : Rp F} (h : parseRp C e = .ok rp) : C.readI e.id = some (rp.id : Int) := by
  unfold parseRp at h
  cases hr : C.readI e.id with
  | none => rw [hr] at h; cases h
  | some i =>
    rw [hr] at h
    simp only at h
    unfold Rp.init at h
    have hkeep : ∀ (attrs : Dict Str (Val F)) (ret) (units) (l : List Str) (q q' : Rp F),
        Rp.setAll attrs ret units l q = .ok q' → q'.id = q.id := by
      intro attrs ret units l
      induction l with
      | nil => intro q q' h; cases h; rfl
      | cons a l ih =>
        intro q q' h
        unfold Rp.setAll at h
        split at h
        · cases h
        · rename_i q1 hq1
          rw [ih q1 q' h]
          split at hq1
          · unfold Rp.setRet at hq1
            split at hq1
            · cases hq1
            · cases hq1; rfl
          · unfold Rp.set at hq1
            split at hq1
            · cases hq1
            · split at hq1
              · cases hq1
              · split at hq1
                · cases hq1; rfl
                · cases hq1
    repeat' split at h
    all_goals first | (cases h) | skip
    rw [hkeep _ _ _ _ _ _ h]
    simp only [Rp.blank]
    congr 1
    omega

theorem parseRx_id {d : Dict Str (Rp F)} {e : Elem} {x : Rx F} (h : parseRx C A d e = .ok x) :
    C.readI e.id = some (x.id : Int) := by
  unfold parseRx at h
  cases hr : C.readI e.id with
  | none => rw [hr] at h; cases h
  | some i =>
    rw [hr] at h
    simp only [bind, Except.bind] at h
    split at h
    · cases h
    split at h
    · cases h
    have hkeep : ∀ (attrs : Dict Str (Val F)) (units) (l : List Str) (q q' : Rx F),
        Rx.setAll C attrs units l q = .ok q' → q'.id = q.id := by
      intro attrs units l
      induction l with
      | nil => intro q q' h; cases h; rfl
      | cons a l ih =>
        intro q q' h
        unfold Rx.setAll at h
        split at h
        · cases h
        · rename_i q1 hq1
          rw [ih q1 q' h, (Rx.set_iff.1 hq1).2]
    unfold Rx.init at h
    repeat' split at h
    all_goals first | (cases h) | skip
    have hs := ‹Rx.setAll C _ _ _ _ = .ok x›
    rw [hkeep _ _ _ _ _ hs]
    simp only
    congr 1
    omega

theorem parseSpecies_ids {l : List Elem} {d d' : Dict Str (Rp F)} {rps : List (Rp F)}
    (h : parseSpecies C l d = .ok (rps, d')) :
    List.Forall₂ (fun e rp => C.readI e.id = some (rp.id : Int)) l rps := by
  induction l generalizing d d' rps with
  | nil => cases h; exact .nil
  | cons e l ih =>
    unfold parseSpecies at h
    simp only [bind, Except.bind] at h
    cases hp : parseRp C e with
    | error _ => rw [hp] at h; cases h
    | ok rp =>
      rw [hp] at h
      simp only at h
      cases hn : rp.getName C with
      | error _ => rw [hn] at h; cases h
      | ok n =>
        rw [hn] at h
        simp only at h
        cases hl : parseSpecies C l (d.set n rp) with
        | error _ => rw [hl] at h; cases h
        | ok q =>
          rw [hl] at h
          obtain ⟨q1, q2⟩ := q
          cases h
          exact .cons (parseRp_id hp) (ih hl)

theorem forall₂_collect {α β : Type} {f : α → Except Err β} : ∀ {l : List α} {m : List β}, collect f l = .ok m →
    List.Forall₂ (fun a b => f a = .ok b) l m
  | [], m, h => by cases h; exact .nil
  | a :: l, m, h => by
    unfold collect at h
    cases ha : f a with
    | error e => rw [ha] at h; cases h
    | ok b =>
      rw [ha] at h
      cases hl : collect f l with
      | error e => rw [hl] at h; cases h
      | ok bs =>
        rw [hl] at h
        cases h
        exact .cons ha (forall₂_collect hl)

theorem parse_ids {sp rx : List Elem} {rps : List (Rp F)} {rxs : List (Rx F)} (h : parse C A sp rx = .ok (rps, rxs)) :
    List.Forall₂ (fun e rp => C.readI e.id = some (rp.id : Int)) sp rps ∧
    List.Forall₂ (fun e x => C.readI e.id = some (x.id : Int)) rx rxs := by
  unfold parse at h
  simp only [bind, Except.bind] at h
  cases hs : parseSpecies C sp [] with
  | error _ => rw [hs] at h; cases h
  | ok q =>
    obtain ⟨q1, d⟩ := q
    rw [hs] at h
    simp only at h
    cases hx : collect (parseRx C A d) rx with
    | error _ => rw [hx] at h; cases h
    | ok xs =>
      rw [hx] at h
      cases h
      exact ⟨parseSpecies_ids hs, (forall₂_collect hx).imp fun _ _ h => parseRx_id h⟩

theorem forall₂_map_eq {α β γ : Type} {f : α → γ} {g : β → γ} {l : List α} {m : List β}
    (h : List.Forall₂ (fun a b => g b = f a) l m) : m.map g = l.map f := by
  induction h with
  | nil => rfl
  | cons h _ ih => rw [List.map_cons, List.map_cons, h, ih]

theorem cores_ids {rps : List (Rp F)} {rxs : List (Rx F)} {S : List RP} {R : List Reaction}
    (h : cores C rps rxs = .ok (S, R)) :
    S.map RP.id = rps.map Rp.id ∧ R.map Reaction.id = rxs.map Rx.id ∧ ∀ r ∈ R, ∀ s ∈ r.rps, s ∈ S := by
  unfold cores at h
  simp only [bind, Except.bind] at h
  split at h
  · cases h
  · rename_i sps hs
    split at h
    · cases h
    · rename_i rs hr
      cases h
      refine ⟨?_, ?_, ?_⟩
      · have h1 : S.map RP.id = rps.zipIdx.map fun p => p.1.id := by
          refine forall₂_map_eq ((forall₂_collect hs).imp ?_)
          intro p s hps
          unfold Rp.core at hps
          simp only [bind, Except.bind] at hps
          split at hps
          · cases hps
          · split at hps
            · cases hps
            · cases hps; rfl
        rw [h1, show (fun p : Rp F × Nat => p.1.id) = Rp.id ∘ Prod.fst from rfl, ← List.map_map, List.zipIdx_map_fst]
      · refine forall₂_map_eq ((forall₂_collect hr).imp ?_)
        intro x r hxr
        split at hxr
        · cases hxr
        · split at hxr
          · cases hxr
          · unfold Rx.core at hxr
            simp only [bind, Except.bind] at hxr
            split at hxr
            · cases hxr
            · split at hxr
              · cases hxr
              · cases hxr; rfl
      · intro r hrm s hsm
        obtain ⟨x, hx, hxr⟩ := (collect_mem hr r).1 hrm
        split at hxr
        · cases hxr
        · rename_i as ha
          split at hxr
          · cases hxr
          · rename_i bs hb
            have hrp : r.rps = as ++ bs := by
              unfold Rx.core at hxr
              simp only [bind, Except.bind] at hxr
              split at hxr
              · cases hxr
              · split at hxr
                · cases hxr
                · cases hxr; rfl
            rw [hrp] at hsm
            rcases List.mem_append.1 hsm with hsm | hsm
            · obtain ⟨rp, -, hrp⟩ := (collect_mem ha s).1 hsm
              split at hrp
              · cases hrp
              · split at hrp
                · rename_i t ht
                  cases hrp
                  exact List.mem_reverse.1 (List.mem_of_find?_eq_some ht)
                · cases hrp
            · obtain ⟨rp, -, hrp⟩ := (collect_mem hb s).1 hsm
              split at hrp
              · cases hrp
              · split at hrp
                · rename_i t ht
                  cases hrp
                  exact List.mem_reverse.1 (List.mem_of_find?_eq_some ht)
                · cases hrp

/-! ### theorems -/

/-- ids as `str` writes them -/
def Canonical (C : Codec F) (l : List Elem) : Prop := ∀ e ∈ l, ∃ n : Int, e.id = C.showI n

theorem shown_ids (hC : C.Lawful) {α : Type} {i : α → Nat} {l : List Elem} {m : List α} (hc : Canonical C l)
    (h : List.Forall₂ (fun e a => C.readI e.id = some (i a : Int)) l m) :
    l.map Elem.id = m.map fun a => C.showI (i a) := by
  symm
  refine forall₂_map_eq (Forall₂.imp_mem h fun e he a h => ?_)
  obtain ⟨n, hn⟩ := hc e he
  rw [hn, hC.int] at h
  rw [hn, Option.some.inj h]

/-- the species and reactions that the elements stand for, as the classifier sees them -/
def Stands (C : Codec F) (A : Str → Option (Dict Str Nat)) (b : Builder F) (S : List RP) (R : List Reaction) : Prop :=
  ∃ rps rxs, parse C A b.species b.reactions = .ok (rps, rxs) ∧ cores C rps rxs = .ok (S, R)

/-- **C71.** Elements with distinct ids, written as `str` writes them, that can be parsed, all of whose species have a
sort key and all of whose reactions can be classified: `sort_elements` succeeds and only changes the order. The
species are then in the order of the classifier, and the reactions by class in the order of the scheme, those of one
class by the positions of their reactants and products among the species. -/
theorem sort_elements_order (hC : C.Lawful) {b : Builder F} {S : List RP} {R : List Reaction}
    (hst : Stands C A b S R) (h1 : Canonical C b.species) (h2 : Canonical C b.reactions)
    (hn1 : (b.species.map Elem.id).Nodup) (hn2 : (b.reactions.map Elem.id).Nodup)
    (hk : ∀ s ∈ S, ∃ v, speciesKey A s = .ok v) (hcl : ∀ r ∈ R, ∃ k, classify r = .ok k) :
    ∃ b', b.sort C A = (.ok (), b') ∧ b'.species.Perm b.species ∧ b'.reactions.Perm b.reactions ∧
      b'.names = b.names ∧
      ∃ S' R' L, SortedBy (keyOf A) (· ≤ ·) S S' ∧ b'.species.map Elem.id = S'.map (fun s => C.showI s.id) ∧
        SortedBy (posKey S') (fun a b => keyLe a b = true) R R' ∧ IsListing R' L ∧
        b'.reactions.map Elem.id = L.flat.map (fun r => C.showI r.id) := by
  obtain ⟨rps, rxs, hp, hcore⟩ := hst
  obtain ⟨p1, p2⟩ := parse_ids hp
  obtain ⟨c1, c2, c3⟩ := cores_ids hcore
  have i1 : b.species.map Elem.id = S.map fun s => C.showI s.id := by
    rw [shown_ids hC h1 p1, show (fun a : Rp F => C.showI a.id) = (fun n : Nat => C.showI n) ∘ Rp.id from rfl,
      ← List.map_map, ← c1, List.map_map]
    rfl
  have i2 : b.reactions.map Elem.id = R.map fun r => C.showI r.id := by
    rw [shown_ids hC h2 p2, show (fun a : Rx F => C.showI a.id) = (fun n : Nat => C.showI n) ∘ Rx.id from rfl,
      ← List.map_map, ← c2, List.map_map]
    rfl
  have hI : Ids S R := by
    refine ⟨?_, ?_, c3⟩
    · intro s hs t ht e
      rw [i1] at hn1
      exact List.inj_on_of_nodup_map hn1 hs ht (by rw [e])
    · intro s hs t ht e
      rw [i2] at hn2
      exact List.inj_on_of_nodup_map hn2 hs ht (by rw [e])
  obtain ⟨-, -, hsp, -⟩ := sorting_of_history (F := A) hI (ops := []) (by simp)
  obtain ⟨s1, s2⟩ := hsp hk
  have s2' : SortedBy (keyOf A) (· ≤ ·) S ((Clf.new S R).sortSpecies A).2.species := s2
  obtain ⟨-, r0, -, -, r1, r2⟩ := sorting_of_history (F := A) hI (ops := [.sortSpecies]) (by simp [Clf.Op.On])
  obtain ⟨l1, l2, -⟩ := listing_of_history (F := A) hI (ops := [.sortSpecies, .sortReactions]) (by simp [Clf.Op.On])
  have hrun1 : (Clf.new S R).run A [.sortSpecies] = ((Clf.new S R).sortSpecies A).2 := rfl
  have hrun2 : (Clf.new S R).run A [.sortSpecies, .sortReactions] =
      (((Clf.new S R).sortSpecies A).2.sortReactions).2 := rfl
  rw [hrun1] at r0 r1 r2
  rw [hrun2] at l1 l2
  have hreac : ((Clf.new S R).sortSpecies A).2.reactions = R := (Clf.sortSpecies_rest A (Clf.new S R)).2.2.1
  rw [hreac] at r2
  have s1' : ((Clf.new S R).sortSpecies A).1 = .ok () := s1
  obtain ⟨L, hL⟩ := l1.2 hcl
  obtain ⟨hL1, hL2⟩ := l2 L hL
  have hsorted : sortedIds C A b.species b.reactions = .ok
      (((Clf.new S R).sortSpecies A).2.species.map (fun s => C.showI s.id), L.flat.map (fun r => C.showI r.id)) := by
    unfold sortedIds
    simp only [bind, Except.bind]
    rw [hp]
    simp only
    rw [hcore]
    simp only
    generalize hq : (Clf.new S R).sortSpecies A = q at s1' r1 hL
    obtain ⟨q1, q2⟩ := q
    simp only at s1' r1 hL ⊢
    subst s1'
    simp only
    generalize hq' : q2.sortReactions = q' at r1 hL
    obtain ⟨q1', q2'⟩ := q'
    simp only at r1 hL ⊢
    subst r1
    simp only
    generalize hq'' : q2'.getClassified = q'' at hL
    obtain ⟨q1'', q2''⟩ := q''
    simp only at hL ⊢
    subst hL
    rfl
  have hpS : ((b.species.map Elem.id)).Perm (((Clf.new S R).sortSpecies A).2.species.map (fun s => C.showI s.id)) := by
    rw [i1]
    exact (s2'.perm.map _).symm
  have hpR : ((b.reactions.map Elem.id)).Perm (L.flat.map (fun r => C.showI r.id)) := by
    rw [i2]
    exact (hL2.map _).symm
  obtain ⟨sp, e1, e2, e3⟩ := sortByIds_ok (hpS.nodup_iff.1 hn1) hpS
  obtain ⟨rx, e4, e5, e6⟩ := sortByIds_ok (hpR.nodup_iff.1 hn2) hpR
  refine ⟨{ b with species := sp, reactions := rx }, ?_, e2, e5, rfl, _, _, L, s2', e3, r2, hL1, e6⟩
  unfold Builder.sort
  simp only [hn1, hn2, decide_true, Bool.not_true, Bool.false_eq_true, if_false, hsorted, e1, e4]

/-- **C71.** If the species are such that the order of keys is known (Sortable), they end up in that order. -/
theorem sort_elements_species (hC : C.Lawful) {b : Builder F} {S : List RP} {R : List Reaction}
    (hst : Stands C A b S R) (h1 : Canonical C b.species) (h2 : Canonical C b.reactions)
    (hn1 : (b.species.map Elem.id).Nodup) (hn2 : (b.reactions.map Elem.id).Nodup)
    (hk : ∀ s ∈ S, s.name = str!"M" ∨ ∃ a q, Sortable A s a q) (hcl : ∀ r ∈ R, ∃ k, classify r = .ok k) :
    ∃ b', b.sort C A = (.ok (), b') ∧ ∃ S' : List RP, S'.Perm S ∧ S'.Pairwise (Before A) ∧
      b'.species.map Elem.id = S'.map (fun s => C.showI s.id) := by
  obtain ⟨b', e1, -, -, -, S', R', L, e2, e3, -⟩ := sort_elements_order hC hst h1 h2 hn1 hn2
    (fun s hs => by obtain ⟨x, _, hx, -, -⟩ := key_order (hk s hs) (hk s hs); exact ⟨x, hx⟩) hcl
  refine ⟨b', e1, S', e2.perm, ?_, e3⟩
  refine e2.sorted.imp_of_mem ?_
  intro s t hs ht hle
  obtain ⟨x, y, hx, hy, hxy⟩ := key_order (hk s (e2.perm.mem_iff.1 hs)) (hk t (e2.perm.mem_iff.1 ht))
  apply hxy.1
  unfold keyOf at hle
  rw [hx, hy] at hle
  exact hle

/-- **C71.** If ids are not distinct, they are assigned before and after: the outcome is that of assigning ids,
sorting, and assigning ids again. -/
theorem sort_elements_reassigns {b b1 : Builder F} (hd1 : ¬ (b.species.map Elem.id).Nodup)
    (hd2 : ¬ (b.reactions.map Elem.id).Nodup) (ha : b.assign C = (.ok (), b1)) (hn1 : (b1.species.map Elem.id).Nodup)
    (hn2 : (b1.reactions.map Elem.id).Nodup) :
    b.sort C A = match b1.sort C A with
      | (.ok (), b2) => b2.assign C
      | (.error e, b2) => (.error e, b2) := by
  have ha' := ha
  unfold Builder.assign at ha'
  generalize hq : b.assignSpecies C = q at ha'
  obtain ⟨r, b0⟩ := q
  cases r with
  | error e => cases ha'
  | ok _ =>
    simp only at ha'
    cases ha'
    unfold Builder.sort
    simp only [hd1, hd2, hn1, hn2, decide_true, decide_false, Bool.not_true, Bool.not_false, Bool.false_eq_true,
      if_false, if_true, hq]
    cases sortedIds C A (b0.assignReactions C).species (b0.assignReactions C).reactions with
    | error e => rfl
    | ok p =>
      simp only
      cases sortByIds p.1 (b0.assignReactions C).species with
      | error e => rfl
      | ok sp =>
        simp only
        cases sortByIds p.2 (b0.assignReactions C).reactions with
        | error e => rfl
        | ok rx =>
          simp only [Builder.assign]

end Verif.Plaschem.Xml

/-! ### concrete cases -/

namespace Verif.Plaschem.DemoX
open Verif.Plaschem Xml Classify

/-- the species in the order of the reaction -/
def b : Builder Int := (Builder.addRxInstance C ({} : Builder Int) x).2

def coreS : List RP :=
  [{ oid := 0, id := 0, name := str!"e", charge := some (-1) }, { oid := 1, id := 1, name := str!"Ar", charge := none },
   { oid := 2, id := 2, name := str!"Ar+", charge := some 1 }]

def coreR : List Reaction :=
  [{ id := 7, reactants := [coreS[0], coreS[1]], products := [coreS[0], coreS[0], coreS[2]], elastic := some false,
     elEnLoss := some 16 }]

theorem stands : Stands C DemoR.F b coreS coreR := ⟨_, _, rfl, rfl⟩

theorem sortable_core : ∀ s ∈ coreS, s.name = str!"M" ∨ ∃ a q, Sortable DemoR.F s a q := by
  intro s hs
  simp only [coreS, List.mem_cons, List.not_mem_nil, or_false] at hs
  rcases hs with rfl | rfl | rfl
  · exact .inr ⟨[], -1, rfl, rfl, by decide, by decide, by decide, by decide⟩
  · exact .inr ⟨[(str!"Ar", 1)], 0, rfl, rfl, by decide, by decide, by decide, by decide⟩
  · exact .inr ⟨[(str!"Ar", 1)], 1, rfl, rfl, by decide, by decide, by decide, by decide⟩

theorem classified_core : ∀ r ∈ coreR, ∃ k, classify r = .ok k := by
  intro r hr
  simp only [coreR, List.mem_singleton] at hr
  subst hr
  exact ⟨(.electron, .ionization), by decide +kernel⟩

example : ∃ b', b.sort C DemoR.F = (.ok (), b') ∧ ∃ S' : List RP, S'.Perm coreS ∧ S'.Pairwise (Before DemoR.F) ∧
    b'.species.map Elem.id = S'.map (fun s => C.showI s.id) :=
  sort_elements_species lawful stands
    (by
      have : b.species.map Elem.id = [C.showI 0, C.showI 1, C.showI 2] := by decide +kernel
      intro e he
      have := this ▸ List.mem_map_of_mem (f := Elem.id) he
      simp only [List.mem_cons, List.not_mem_nil, or_false] at this
      rcases this with h | h | h <;> exact ⟨_, h⟩)
    (by
      have : b.reactions.map Elem.id = [C.showI 7] := by decide +kernel
      intro e he
      have := this ▸ List.mem_map_of_mem (f := Elem.id) he
      exact ⟨7, List.mem_singleton.1 this⟩)
    (by decide +kernel) (by decide +kernel) sortable_core classified_core

/-- An id that is not written as `str` writes it, such as `07`: sorting raises, although parsing does not. -/
theorem padded_id_breaks :
    let el : Elem := { rpElem C 7 [(str!"name", .str str!"Ar"), (str!"mass", .float 40)] none [] with id := str!"07" }
    let b : Builder Int := { species := [el], names := [.str str!"Ar"] }
    history C DemoR.F [.xml [el] []] = b ∧ (parse C DemoR.F b.species b.reactions).isOk = true ∧
    (b.sort C DemoR.F).1 = .error .valueError :=
  ⟨rfl, by decide +kernel, of_err? (by decide +kernel)⟩

/-! ### more than 998 ordinary species -/

theorem addSpeciesXml_new {F : Type} [DecidableEq F] {b : Builder F} {l : List Elem} {ns : List Str}
    (h : l.map Elem.name = ns.map some) (hn : ns.Nodup) (hb : ∀ n ∈ ns, Val.str n ∉ b.names) :
    b.addSpeciesXml l = (.ok (), { b with species := b.species ++ l, names := b.names ++ ns.map Val.str }) := by
  induction l generalizing b ns with
  | nil =>
    cases ns with
    | nil => simp [Builder.addSpeciesXml]
    | cons n ns => cases h
  | cons e l ih =>
    cases ns with
    | nil => cases h
    | cons n ns =>
      rw [List.map_cons, List.map_cons, List.cons.injEq] at h
      rw [List.nodup_cons] at hn
      unfold Builder.addSpeciesXml
      have he := h.1
      unfold Elem.name at he
      cases hf : e.find str!"name" with
      | none => rw [hf] at he; cases he
      | some s =>
        have hs : s.text = some n := by rw [hf] at he; exact he
        simp only [hs, textVal]
        rw [if_neg (hb n (by simp))]
        rw [ih h.2 hn.2]
        · simp
        · intro m hm hc
          rcases List.mem_append.1 hc with hc | hc
          · exact hb m (List.mem_cons_of_mem _ hm) hc
          · rw [List.mem_singleton] at hc
            cases hc
            exact hn.1 hm

/-- `n` ordinary species and M -/
def many (n : Nat) : List Str := str!"M" :: (List.range n).map fun i : Nat => 'X' :: showInt (i : Int)

theorem many_nodup (n : Nat) : (many n).Nodup := by
  unfold many
  rw [List.nodup_cons]
  constructor
  · intro h
    obtain ⟨i, -, hi⟩ := List.mem_map.1 h
    cases hi
  · refine List.Nodup.map ?_ List.nodup_range
    intro i j h
    have h' : C.showI (i : Int) = C.showI (j : Int) := (List.cons.inj h).2
    have := lawful.showI_inj h'
    omega

def named (s : Str) : Elem := { id := str!"1", subs := [{ tag := str!"name", text := some s }] }

theorem named_name (s : Str) : (named s).name = some s := rfl

/-- With M and 999 or more ordinary species, two species get the id 999. -/
theorem ids_collide (n : Nat) (hn : 999 ≤ n) : ∃ ops : List (Op Int), (∀ op ∈ ops, op.Named) ∧
    (history C DemoR.F ops).species.length = n + 1 ∧
    (∃ b', (history C DemoR.F ops).step C DemoR.F .assign = (.ok (), b') ∧ ¬ (b'.species.map Elem.id).Nodup) := by
  have hops : ∀ op ∈ [Op.xml (F := Int) ((many n).map named) []], op.Named := by
    intro op hop
    rw [List.mem_singleton.1 hop]
    intro e he
    obtain ⟨s, hs, rfl⟩ := List.mem_map.1 he
    refine ⟨s, ?_, rfl⟩
    unfold many at hs
    rcases List.mem_cons.1 hs with rfl | hs
    · decide
    · obtain ⟨i, -, rfl⟩ := List.mem_map.1 hs
      exact List.cons_ne_nil _ _
  have hsp : (history C DemoR.F [Op.xml (F := Int) ((many n).map named) []]).species = (many n).map named := by
    show ((({} : Builder Int).addXml ((many n).map named) []).2).species = _
    unfold Builder.addXml
    rw [addSpeciesXml_new (ns := many n) (by simp [List.map_map, Function.comp_def, named_name]) (many_nodup n)
      (by simp)]
    simp
  refine ⟨_, hops, by rw [hsp]; simp [many], ?_⟩
  obtain ⟨b', h1, -⟩ := ids_assigned (C := C) (A := DemoR.F) hops
  refine ⟨b', h1, ?_⟩
  have h2 := (ids_distinct (A := DemoR.F) lawful hops).1
  simp only [h1] at h2
  rw [h2, hsp, not_or]
  constructor
  · have : ordinary ((many n).map named) = n := by
      unfold ordinary many
      rw [List.map_cons, List.countP_cons_of_neg (by decide), List.map_map, List.countP_map, List.countP_eq_length.2]
      · simp
      · intro i _
        simp [Ordinary, named_name]
    omega
  · intro h
    exact h (named str!"M") (List.mem_map_of_mem (by simp [many])) rfl

end Verif.Plaschem.DemoX
