/-
The order in which the species and reactions of a chemistry are listed (property C119): two chemistries with the same species
and reactions in another order go through the same states with the same exceptions.
-/
import Verif.Plaschem.ChemInit

namespace Verif.Plaschem
namespace Net

/-- `net'` has the species and reactions of `net`, in another order. -/
structure Shuffled (net net' : Net) : Prop where
  charge : net'.requiresCharge = net.requiresCharge
  species : net'.species.Perm net.species
  reactions : net'.reactions.Perm net.reactions

namespace Shuffled
variable {net net' : Net} {st : State}

theorem symm (h : Shuffled net net') : Shuffled net' net := ⟨h.charge.symm, h.species.symm, h.reactions.symm⟩

theorem wf (h : Shuffled net net') (w : WF net) : WF net' where
  spNodup := (h.species.map _).nodup_iff.2 w.spNodup
  rNodup := (h.reactions.map _).nodup_iff.2 w.rNodup
  nameNodup := (h.species.map _).nodup_iff.2 w.nameNodup
  closed := fun r hr p hp => h.species.mem_iff.2 (w.closed r (h.reactions.mem_iff.1 hr) p hp)
  used := fun s hs => by
    obtain ⟨r, hr, ho⟩ := w.used s (h.species.mem_iff.1 hs)
    exact ⟨r, h.reactions.mem_iff.2 hr, ho⟩
  electron := fun hc => by
    obtain ⟨s, hs, hn⟩ := w.electron (h.charge ▸ hc)
    exact ⟨s, h.species.mem_iff.2 hs, hn⟩
  ion := fun hc => by
    obtain ⟨s, hs, hn⟩ := w.ion (h.charge ▸ hc)
    exact ⟨s, h.species.mem_iff.2 hs, hn⟩

theorem find_perm {α : Type} {l l' : List α} (h : l'.Perm l) (p : α → Bool)
    (hu : ∀ a ∈ l, ∀ b ∈ l, p a = true → p b = true → a = b) : l'.find? p = l.find? p := by
  cases e : l.find? p with
  | none =>
    rw [List.find?_eq_none] at e ⊢
    exact fun x hx => e x (h.mem_iff.1 hx)
  | some a =>
    cases e' : l'.find? p with
    | none =>
      rw [List.find?_eq_none] at e'
      exact absurd (List.find?_some e) (e' a (h.mem_iff.2 (List.mem_of_find?_eq_some e)))
    | some b =>
      rw [hu b (h.mem_iff.1 (List.mem_of_find?_eq_some e')) a (List.mem_of_find?_eq_some e) (List.find?_some e')
        (List.find?_some e)]

theorem getRp (h : Shuffled net net') (w : WF net) (x : SpIdent) : net'.getRp x = net.getRp x := by
  cases x with
  | id i =>
    unfold Net.getRp
    simp only
    rw [find_perm h.species _ fun a ha b hb h1 h2 => w.eq_of_id ha hb
      ((of_decide_eq_true h1).trans (of_decide_eq_true h2).symm)]
  | name n =>
    unfold Net.getRp
    simp only
    rw [find_perm h.species _ fun a ha b hb h1 h2 => w.eq_of_name ha hb
      ((of_decide_eq_true h1).trans (of_decide_eq_true h2).symm)]
  | obj x =>
    unfold Net.getRp
    simp only
    rw [find_perm h.species _ fun a ha b hb h1 h2 => (of_decide_eq_true h1).trans (of_decide_eq_true h2).symm]

theorem getReaction (h : Shuffled net net') (w : WF net) (i : Nat) : net'.getReaction i = net.getReaction i := by
  unfold Net.getReaction
  rw [find_perm h.reactions _ fun a ha b hb h1 h2 => List.inj_on_of_nodup_map w.rNodup ha hb
    ((of_decide_eq_true h1).trans (of_decide_eq_true h2).symm)]

theorem resolveSpecies (h : Shuffled net net') (w : WF net) (xs : List SpIdent) :
    net'.resolveSpecies xs = net.resolveSpecies xs := by
  induction xs with
  | nil => rfl
  | cons x xs ih => unfold Net.resolveSpecies; rw [h.getRp w, ih]

theorem resolveReactions (h : Shuffled net net') (w : WF net) (xs : List Nat) :
    net'.resolveReactions xs = net.resolveReactions xs := by
  induction xs with
  | nil => rfl
  | cons x xs ih => unfold Net.resolveReactions; rw [h.getReaction w, ih]

theorem getSpecies (h : Shuffled net net') (st : State) (a b c : Bool) :
    (net'.getSpecies st a b c).Perm (net.getSpecies st a b c) := h.species.filter _

theorem getReactions (h : Shuffled net net') (st : State) (a : Bool) :
    (net'.getReactions st a).Perm (net.getReactions st a) := h.reactions.filter _

theorem positiveIons (h : Shuffled net net') (st : State) : (net'.positiveIons st).Perm (net.positiveIons st) :=
  (h.getSpecies st false false true).filter _

theorem protectedIds (h : Shuffled net net') (st : State) (i : Nat) : i ∈ net'.protectedIds st ↔ i ∈ net.protectedIds st :=
  ((h.species.filter _).map _).mem_iff

theorem disconnectedSpecies (h : Shuffled net net') (st : State) :
    (net'.disconnectedSpecies st).Perm (net.disconnectedSpecies st) := by
  unfold Net.disconnectedSpecies
  have : ∀ i, ((net'.reactions.filter fun r => st.enR r.id).map fun r => network r i).sum =
      ((net.reactions.filter fun r => st.enR r.id).map fun r => network r i).sum := fun i =>
    ((h.reactions.filter _).map _).sum_nat
  simp only [this]
  exact ((h.species.filter _).filter _).map _

theorem disconnectedReactions (h : Shuffled net net') (st : State) :
    (net'.disconnectedReactions st).Perm (net.disconnectedReactions st) := by
  unfold Net.disconnectedReactions
  have : ∀ r, ((net'.species.filter fun s => !st.enSp s.id).map fun s => network r s.id).sum =
      ((net.species.filter fun s => !st.enSp s.id).map fun s => network r s.id).sum := fun r =>
    ((h.species.filter _).map _).sum_nat
  simp only [this]
  exact ((h.reactions.filter _).filter _).map _

theorem chargeStep (h : Shuffled net net') (st : State) : net'.chargeStep st = net.chargeStep st := by
  unfold Net.chargeStep
  rw [h.charge]
  have hp := h.positiveIons st
  split
  · cases e : net.positiveIons st with
    | nil => rw [e] at hp; rw [hp.eq_nil]
    | cons a l =>
      cases l with
      | nil => rw [e] at hp; rw [List.perm_singleton.1 hp]
      | cons b l =>
        cases e' : net'.positiveIons st with
        | nil => rw [e, e'] at hp; exact absurd hp.symm.eq_nil (by simp)
        | cons a' l' =>
          cases l' with
          | nil => rw [e, e'] at hp; exact absurd hp.length_eq (by simp)
          | cons b' l' => rfl
  · rfl

theorem setMask_congr (f : Nat → Bool) {l l' : List Nat} (h : ∀ i, i ∈ l' ↔ i ∈ l) (b : Bool) :
    setMask f l' b = setMask f l b := by
  funext i
  unfold setMask
  exact if_congr (h i) rfl rfl

theorem eq_nil_congr {l l' : List Nat} (h : ∀ i, i ∈ l' ↔ i ∈ l) : l' = [] ↔ l = [] := by
  rw [List.eq_nil_iff_forall_not_mem, List.eq_nil_iff_forall_not_mem]
  exact forall_congr' fun i => not_congr (h i)

theorem disableRec (h : Shuffled net net') (k : Nat) (st : State) {sids sids' rids rids' : List Nat}
    (hs : ∀ i, i ∈ sids' ↔ i ∈ sids) (hr : ∀ i, i ∈ rids' ↔ i ∈ rids) :
    net'.disableRec k st sids' rids' = net.disableRec k st sids rids := by
  induction k generalizing st sids sids' rids rids' with
  | zero => rfl
  | succ k ih =>
    unfold Net.disableRec
    have h1 : ∀ i, i ∈ sids'.filter (fun i => st.enSp i) ↔ i ∈ sids.filter (fun i => st.enSp i) := fun i => by
      rw [List.mem_filter, List.mem_filter, hs]
    have h2 : ∀ i, i ∈ rids'.filter (fun i => st.enR i) ↔ i ∈ rids.filter (fun i => st.enR i) := fun i => by
      rw [List.mem_filter, List.mem_filter, hr]
    simp only
    refine if_congr (and_congr (eq_nil_congr h1) (eq_nil_congr h2)) rfl ?_
    have h3 : (sids'.any fun i => decide (i ∈ net'.protectedIds st)) = sids.any fun i => decide (i ∈ net.protectedIds st) := by
      rw [Bool.eq_iff_iff, List.any_eq_true, List.any_eq_true]
      refine exists_congr fun i => and_congr (hs i) ?_
      rw [decide_eq_true_iff, decide_eq_true_iff, h.protectedIds]
    rw [h3, setMask_congr _ h1, setMask_congr _ h2, h.chargeStep]
    split
    · rfl
    · generalize net.chargeStep _ = x
      cases x with
      | error e => rfl
      | ok st2 =>
        dsimp only
        have h4 := h.disconnectedSpecies st2
        have h5 := h.disconnectedReactions st2
        rw [ih st2 (fun i => h4.mem_iff) fun i => h5.mem_iff]
        exact if_congr (and_congr (eq_nil_congr fun i => h4.mem_iff) (eq_nil_congr fun i => h5.mem_iff)) rfl rfl

/-! ### the consistency check -/

theorem netOk (h : Shuffled net net') (n : NetOk net st) : NetOk net' st where
  electron := fun hc => by
    obtain ⟨s, hs, hn⟩ := n.electron (h.charge ▸ hc)
    exact ⟨s, h.species.mem_iff.2 hs, hn⟩
  ion := fun hc he => n.ion (h.charge ▸ hc) (by have := h.positiveIons st; rw [he] at this; exact this.symm.eq_nil)
  names := ((h.getSpecies st false true true).map _).nodup_iff.2 n.names
  ids := ((h.getSpecies st false true true).map _).nodup_iff.2 n.ids
  present := fun r hr he p hp => by
    obtain ⟨h1, h2⟩ := n.present r (h.reactions.mem_iff.1 hr) he p hp
    exact ⟨h.species.mem_iff.2 h1, h2⟩
  used := fun s hs he => by
    obtain ⟨r, hr, h1⟩ := n.used s (h.species.mem_iff.1 hs) he
    exact ⟨r, h.reactions.mem_iff.2 hr, h1⟩

/-- two dictionaries with the same values -/
def SameDict {β : Type} (c d : Dict Nat β) : Prop := c.keys.Nodup ∧ d.keys.Nodup ∧ ∀ i, c.get? i = d.get? i

theorem set_nodup {β : Type} {c : Dict Nat β} (h : c.keys.Nodup) (i : Nat) (v : β) : (c.set i v).keys.Nodup := by
  rw [Dict.keys_set]
  split
  · exact h
  · rename_i hk
    exact List.nodup_append.2 ⟨h, by simp, fun a ha b hb => by
      rw [List.mem_singleton] at hb; subst hb; intro hab; exact hk (hab ▸ ha)⟩

theorem SameDict.adhoc {c d : Dict Nat (Option (Dict Str ℚ))} (h : SameDict c d) (ad : Dict Nat (Dict Str ℚ)) :
    SameDict (applyAdhocRet c ad) (applyAdhocRet d ad) := by
  induction ad generalizing c d with
  | nil => exact h
  | cons e ad ih =>
    refine ih (c := c.set e.1 (some e.2)) (d := d.set e.1 (some e.2)) ⟨set_nodup h.1 _ _, set_nodup h.2.1 _ _, fun i => ?_⟩
    rw [Dict.get?_set, Dict.get?_set, h.2.2]

theorem SameDict.zero {c d : Dict Nat (Option (Dict Str ℚ))} (h : SameDict c d) {s s' : Dict Nat (Option ℚ)} (hs : s.Perm s') :
    SameDict (applyZeroStick c s) (applyZeroStick d s') := by
  refine ⟨zeroKeys _ _ h.1, zeroKeys _ _ h.2.1, fun i => ?_⟩
  rw [zeroGet, zeroGet, h.2.2]
  exact if_congr hs.mem_iff rfl rfl

theorem keys_purge (pool : List Str) (c : Dict Nat (Option (Dict Str ℚ))) : (purge pool c).keys = c.keys := by
  unfold purge Dict.keys
  rw [List.map_map]
  rfl

theorem get_purge (pool : List Str) (c : Dict Nat (Option (Dict Str ℚ))) (i : Nat) :
    (purge pool c).get? i = (c.get? i).map fun o => o.map fun x => x.filter fun p => decide (p.1 ∈ pool) := by
  induction c with
  | nil => rfl
  | cons e c ih =>
    obtain ⟨k, v⟩ := e
    show Dict.get? ((k, v.map fun x => x.filter fun p => decide (p.1 ∈ pool)) :: purge pool c) i = _
    rw [Dict.get?_cons, Dict.get?_cons, ih]
    split <;> rfl

theorem SameDict.purge {c d : Dict Nat (Option (Dict Str ℚ))} (h : SameDict c d) {p p' : List Str}
    (hp : ∀ n, n ∈ p ↔ n ∈ p') : SameDict (purge p c) (purge p' d) := by
  refine ⟨by rw [keys_purge]; exact h.1, by rw [keys_purge]; exact h.2.1, fun i => ?_⟩
  rw [get_purge, get_purge, h.2.2]
  simp only [hp]

theorem SameDict.retNames {c d : Dict Nat (Option (Dict Str ℚ))} (h : SameDict c d) {n : Str} (hn : n ∈ Net.retNames c) :
    n ∈ Net.retNames d := by
  obtain ⟨e, he, x, hx, p, hp, rfl⟩ := mem_retNames.1 hn
  obtain ⟨i, o⟩ := e
  have := Dict.get?_of_mem h.1 he
  rw [h.2.2] at this
  exact mem_retNames.2 ⟨_, Dict.mem_of_get? this, x, hx, p, hp, rfl⟩

theorem nominal {l l' : List RP} (h : l'.Perm l) (hn : (l.map RP.id).Nodup) {d : Dict Nat (Option (Dict Str ℚ))}
    (hd : nominalRet l = .ok d) : ∃ d', nominalRet l' = .ok d' ∧ SameDict d' d := by
  obtain ⟨d', hd', -⟩ := nominalRet_of (l := l') (P := fun _ => True)
    (fun s hs => nominalRet_ok hd s (h.mem_iff.1 hs)) (fun _ _ _ _ _ _ => trivial)
  refine ⟨d', hd', ?_⟩
  obtain ⟨a, b, c⟩ := nominalMem hd
  obtain ⟨a', b', c'⟩ := nominalMem hd'
  have k : d.keys.Nodup := by rw [a]; exact hn
  have k' : d'.keys.Nodup := by rw [a']; exact (h.map _).nodup_iff.2 hn
  refine ⟨k', k, fun i => ?_⟩
  cases e : d.get? i with
  | none =>
    cases e' : d'.get? i with
    | none => rfl
    | some v =>
      obtain ⟨s, hs, h1, h2⟩ := b' _ (Dict.mem_of_get? e')
      have := Dict.get?_of_mem k (c s (h.mem_iff.1 hs) _ h2)
      rw [h1] at this
      simp only at this
      rw [e] at this; cases this
  | some v =>
    obtain ⟨s, hs, h1, h2⟩ := b _ (Dict.mem_of_get? e)
    have := Dict.get?_of_mem k' (c' s (h.mem_iff.2 hs) _ h2)
    rw [h1] at this
    exact this

/-- the return coefficients of the species in force, by id -/
theorem getSpeciesRetCoefs (h : Shuffled net net') (w : WF net) (a b c : Bool) {d : Dict Nat (Option (Dict Str ℚ))}
    (hd : net.getSpeciesRetCoefs st a b c = .ok d) : ∃ d', net'.getSpeciesRetCoefs st a b c = .ok d' ∧ SameDict d' d := by
  unfold Net.getSpeciesRetCoefs at hd ⊢
  cases e : nominalRet (net.getSpecies st a b c) with
  | error x => rw [e] at hd; cases hd
  | ok d0 =>
    rw [e] at hd
    obtain ⟨d0', e', hs⟩ := nominal (h.getSpecies st a b c) (w.spNodup.sublist (List.filter_sublist.map _)) e
    rw [e']
    have hst : (net'.getSpeciesStickCoef st a b true).Perm (net.getSpeciesStickCoef st a b true) :=
      (h.getSpecies st a b true).map _
    have hany : net'.anyDisabled st = net.anyDisabled st := by
      unfold anyDisabled
      rw [Bool.eq_iff_iff, List.any_eq_true, List.any_eq_true]
      exact exists_congr fun s => and_congr_left fun _ => h.species.mem_iff
    have key := (hs.adhoc st.adRet).zero hst
    dsimp only at hd ⊢
    rw [hany]
    split at hd
    · rename_i hh
      cases hd
      rw [if_pos hh]
      exact ⟨_, rfl, key.purge fun n => ((h.getSpecies st false true true).map _).mem_iff⟩
    · rename_i hh
      cases hd
      rw [if_neg hh]
      exact ⟨_, rfl, key⟩

theorem retOk (h : Shuffled net net') (w : WF net) (n : RetOk net st) : RetOk net' st := by
  obtain ⟨d, hd, hn⟩ := n
  obtain ⟨d', hd', hs⟩ := h.getSpeciesRetCoefs w false true true hd
  exact ⟨d', hd', fun n hn' => ((h.getSpecies st false true true).map _).mem_iff.2 (hn n (hs.retNames hn'))⟩

theorem assertConsistency_ok (h : Shuffled net net') (w : WF net) (n : net.assertConsistency st = .ok ()) :
    net'.assertConsistency st = .ok () := by
  obtain ⟨h1, h2⟩ := assertConsistency_iff.1 n
  exact assertConsistency_iff.2 ⟨h.netOk h1, h.retOk w h2⟩

theorem assertConsistency (h : Shuffled net net') (w : WF net) (hn : ∀ s ∈ net.species, ∃ c, s.getRetCoefs = .ok c)
    (st : State) : net'.assertConsistency st = net.assertConsistency st := by
  cases e : net.assertConsistency st with
  | ok u => exact h.assertConsistency_ok w e
  | error x =>
    cases e' : net'.assertConsistency st with
    | ok u => rw [h.symm.assertConsistency_ok (h.wf w) e'] at e; cases e
    | error y =>
      rw [assertConsistency_error hn e, assertConsistency_error (fun s hs => hn s (h.species.mem_iff.1 hs)) e']

/-! ### the calls -/

theorem disable (h : Shuffled net net') (w : WF net) (hn : ∀ s ∈ net.species, ∃ c, s.getRetCoefs = .ok c)
    (st : State) (sp : List SpIdent) (rx : List Nat) : net'.disable st sp rx = net.disable st sp rx := by
  unfold Net.disable
  have hf : net'.fuelBound = net.fuelBound := by
    unfold fuelBound; rw [h.species.length_eq, h.reactions.length_eq]
  have key : ∀ sids rids, net'.disableRec net.fuelBound st sids rids = net.disableRec net.fuelBound st sids rids :=
    fun _ _ => h.disableRec _ _ (fun _ => Iff.rfl) fun _ => Iff.rfl
  simp only [h.resolveSpecies w, h.resolveReactions w, hf, key, h.assertConsistency w hn]

theorem setProtected (h : Shuffled net net') (w : WF net) (st : State) (sp : List SpIdent) :
    net'.setProtected st sp = net.setProtected st sp := by
  unfold Net.setProtected
  rw [h.resolveSpecies w]

theorem step (h : Shuffled net net') (w : WF net) (hn : ∀ s ∈ net.species, ∃ c, s.getRetCoefs = .ok c)
    (st : State) (o : Op) : net'.step st o = net.step st o := by
  cases o with
  | disable sp rx => exact h.disable w hn st sp rx
  | reset => rfl
  | protect sp => exact h.setProtected w st sp
  | adhocStick p v =>
    simp only [Net.step, setAdhocStick, h.getRp w, h.assertConsistency w hn]
  | adhocRet p v =>
    have : ∀ n, n ∈ net'.getSpeciesName st false true true ↔ n ∈ net.getSpeciesName st false true true := fun n =>
      ((h.getSpecies st false true true).map _).mem_iff
    simp only [Net.step, setAdhocRet, h.getRp w, h.assertConsistency w hn, this]
  | resetAdhocSpecies a b => rfl
  | adhocArrhA r v =>
    have : r ∈ net'.reactions.map Reaction.id ↔ r ∈ net.reactions.map Reaction.id := (h.reactions.map _).mem_iff
    simp only [Net.step, setAdhocArrhA, this]
  | resetAdhocReactions => rfl

theorem init_ok (h : Shuffled net net') (hi : net.init = .ok st) : net'.init = .ok st := by
  have hs := init_spec hi
  obtain ⟨w, -⟩ := hs
  have w' := h.wf w
  unfold Net.init at hi ⊢
  rw [if_neg (by rw [not_or, not_not, not_not]; exact ⟨w'.spNodup, w'.rNodup⟩)]
  rw [if_neg (by rw [not_or, not_not, not_not]; exact ⟨w.spNodup, w.rNodup⟩)] at hi
  cases e : net.assertConsistency State.fresh with
  | error x => rw [e] at hi; cases hi
  | ok u =>
    rw [e] at hi
    rw [h.assertConsistency_ok w e, h.charge]
    dsimp only at hi ⊢
    split at hi
    · rename_i hc
      rw [if_pos hc, h.setProtected w]
      cases e1 : net.setProtected State.fresh [.name str!"e"] with
      | mk st1 o =>
        rw [e1] at hi
        cases o with
        | some x => cases hi
        | none =>
          dsimp only at hi ⊢
          have hp := h.positiveIons st1
          cases e2 : net.positiveIons st1 with
          | nil => rw [e2] at hp hi; rw [hp.eq_nil]; exact hi
          | cons a l =>
            cases l with
            | nil => rw [e2] at hp hi; rw [List.perm_singleton.1 hp]; simp only [h.setProtected w]; exact hi
            | cons b l =>
              rw [e2] at hp hi
              cases e' : net'.positiveIons st1 with
              | nil => rw [e'] at hp; exact absurd hp.symm.eq_nil (by simp)
              | cons a' l' =>
                cases l' with
                | nil => rw [e'] at hp; exact absurd hp.length_eq (by simp)
                | cons b' l' => exact hi
    · rename_i hc
      rw [if_neg hc]
      exact hi

end Shuffled

variable {net net' : Net}

/-- **C119.** A chemistry is accepted or refused whatever the order in which its species and reactions are listed, and is handed
out in the same state. -/
theorem order_of_construction (h : Shuffled net net') : net'.init.toOption = net.init.toOption := by
  cases e : net.init with
  | ok st => rw [h.init_ok e]
  | error x =>
    cases e' : net'.init with
    | ok st => rw [h.symm.init_ok e'] at e; cases e
    | error y => rfl

/-- **C119.** After any history of calls, each call has the same effect on the masks and the ad-hoc attributes, and raises the
same exception or none, whatever the order. -/
theorem order_of_call {st : State} (h : Shuffled net net') (hr : Reachable net st) (o : Op) :
    net'.step st o = net.step st o :=
  h.step (reachable_inv hr).1 (reachable_ret hr).1 st o

/-- **C119.** Whole histories: the states and all exceptions are those of the other order. -/
theorem order_of_history {st : State} (h : Shuffled net net') (hr : Reachable net st) (os : List Op) :
    net'.run st os = net.run st os := by
  induction os generalizing st with
  | nil => rfl
  | cons o os ih =>
    show net'.run (net'.step st o).1 os = net.run (net.step st o).1 os
    rw [order_of_call h hr o]
    exact ih (.step o hr)

theorem Shuffled.reachable {st : State} (h : Shuffled net net') (hr : Reachable net st) : Reachable net' st := by
  induction hr with
  | init hi => exact .init (h.init_ok hi)
  | step o hr ih =>
    have := order_of_call h hr o
    rw [← this]
    exact .step o ih

/-- **C119.** The species and reactions selected are the same but for their order. -/
theorem order_of_lists (h : Shuffled net net') (st : State) (a b c : Bool) :
    (net'.getSpecies st a b c).Perm (net.getSpecies st a b c) ∧ (net'.getReactions st a).Perm (net.getReactions st a) :=
  ⟨h.getSpecies st a b c, h.getReactions st a⟩

end Net
end Verif.Plaschem
