/-
Property C23: chemistries related by copying behave as independent values.
-/
import Verif.Plaschem.Copy

namespace Verif.Plaschem
open Net Heap

private theorem State.ext' {a b : State} (h1 : a.enSp = b.enSp) (h2 : a.protSp = b.protSp)
    (h3 : a.adhocSp = b.adhocSp) (h4 : a.enR = b.enR) (h5 : a.adStick = b.adStick)
    (h6 : a.adRet = b.adRet) (h7 : a.adArrhA = b.adArrhA) : a = b := by
  cases a; cases b; simp_all

private theorem newMask_at (h : Heap) (m : Nat → Bool) : (h.newMask m).mask h.next = m := by
  simp [Heap.newMask, Heap.setMask, Heap.grow]

private theorem frame_refl {h : Heap} {o : Obj} (g : Good h o) : Frame h o h o :=
  ⟨le_rfl, fun a _ _ => agree_refl h a, fun _ ha => .inl ha, g.1⟩

private theorem nodup_rebind {n m : Nat} (l : List (Nat × Nat)) (h1 : (l.map Prod.fst).Nodup)
    (h2 : ∀ p ∈ l, p.1 < n) (h3 : ∀ p ∈ l, p.2 = p.1 ∨ (n ≤ p.2 ∧ p.2 < m))
    (h4 : l.Pairwise (fun p q => p.2 = p.1 ∨ q.2 = q.1 ∨ p.2 ≠ q.2)) : (l.map Prod.snd).Nodup := by
  induction l with
  | nil => simp
  | cons p l ih =>
    simp only [List.map_cons, List.nodup_cons, List.pairwise_cons] at h1 h4 ⊢
    refine ⟨fun hc => ?_, ih h1.2 (fun q hq => h2 q (by simp [hq])) (fun q hq => h3 q (by simp [hq])) h4.2⟩
    obtain ⟨q, hq, he⟩ := List.mem_map.1 hc
    have a1 := h2 p (by simp)
    have a2 := h2 q (by simp [hq])
    have a3 := h3 p (by simp)
    have a4 := h3 q (by simp [hq])
    have a5 := h4.1 q hq
    have a6 : q.1 ≠ p.1 := fun hx => h1.1 (List.mem_map.2 ⟨q, hq, hx⟩)
    omega

/-- a rebound object: the seven references are old ones in place or new, the dictionaries are old -/
private theorem frame_rebind {h h' : Heap} {o o' : Obj} (g : Good h o) (hgrow : h.next ≤ h'.next)
    (same : ∀ a < h.next, a ∉ footprint h o → Agree h h' a)
    (hr : ∀ a ∈ (h'.refs o'.ret).map Prod.snd, a ∈ (h.refs o.ret).map Prod.snd)
    (hrn : ((h'.refs o'.ret).map Prod.snd).Nodup)
    (fresh : ∀ p ∈ [(o.enSp, o'.enSp), (o.protSp, o'.protSp), (o.adhocSp, o'.adhocSp), (o.enR, o'.enR),
      (o.stick, o'.stick), (o.ret, o'.ret), (o.arrh, o'.arrh)],
      p.2 = p.1 ∨ (h.next ≤ p.2 ∧ p.2 < h'.next))
    (hn' : [(o.enSp, o'.enSp), (o.protSp, o'.protSp), (o.adhocSp, o'.adhocSp), (o.enR, o'.enR),
      (o.stick, o'.stick), (o.ret, o'.ret), (o.arrh, o'.arrh)].Pairwise
        (fun p q => p.2 = p.1 ∨ q.2 = q.1 ∨ p.2 ≠ q.2)) :
    Frame h o h' o' := by
  have hn : [o'.enSp, o'.protSp, o'.adhocSp, o'.enR, o'.stick, o'.ret, o'.arrh].Nodup :=
    nodup_rebind (n := h.next) (m := h'.next)
      [(o.enSp, o'.enSp), (o.protSp, o'.protSp), (o.adhocSp, o'.adhocSp), (o.enR, o'.enR),
      (o.stick, o'.stick), (o.ret, o'.ret), (o.arrh, o'.arrh)] (List.nodup_append.1 g.1).1
      (fun p hp => g.2 _ (by
        simp only [footprint]
        refine List.mem_append_left _ ?_
        have := List.mem_map_of_mem (f := Prod.fst) hp
        exact this)) fresh hn'
  have f : ∀ x ∈ [o'.enSp, o'.protSp, o'.adhocSp, o'.enR, o'.stick, o'.ret, o'.arrh],
      x ∈ [o.enSp, o.protSp, o.adhocSp, o.enR, o.stick, o.ret, o.arrh] ∨ (h.next ≤ x ∧ x < h'.next) := by
    intro x hx
    simp only [List.mem_cons, List.not_mem_nil, or_false, forall_eq_or_imp, forall_eq] at hx fresh ⊢
    obtain ⟨f1, f2, f3, f4, f5, f6, f7⟩ := fresh
    rcases hx with rfl | rfl | rfl | rfl | rfl | rfl | rfl
    · rcases f1 with f | f <;> [(rw [f]; simp); exact .inr f]
    · rcases f2 with f | f <;> [(rw [f]; simp); exact .inr f]
    · rcases f3 with f | f <;> [(rw [f]; simp); exact .inr f]
    · rcases f4 with f | f <;> [(rw [f]; simp); exact .inr f]
    · rcases f5 with f | f <;> [(rw [f]; simp); exact .inr f]
    · rcases f6 with f | f <;> [(rw [f]; simp); exact .inr f]
    · rcases f7 with f | f <;> [(rw [f]; simp); exact .inr f]
  refine ⟨hgrow, same, fun a ha => ?_, ?_⟩
  · unfold footprint at ha ⊢
    rcases List.mem_append.1 ha with h1 | h1
    · rcases f a h1 with h2 | h2
      · exact .inl (List.mem_append_left _ h2)
      · exact .inr h2
    · exact .inl (List.mem_append_right _ (hr a h1))
  · unfold footprint
    refine List.nodup_append.2 ⟨hn, hrn, fun x hx y hy hxy => ?_⟩
    subst hxy
    rcases f x hx with h2 | h2
    · exact (List.nodup_append.1 g.1).2.2 x h2 x (hr x hy) rfl
    · have := g.2 x (List.mem_append_right _ (hr x hy))
      omega

/-! ### one call on one object -/

private theorem hdisable_spec {net : Net} {h : Heap} {o : Obj} (g : Good h o) (s : List SpIdent)
    (r : List Nat) :
    view (net.hdisable h o s r).1 (net.hdisable h o s r).2.1 = (net.disable (view h o) s r).1 ∧
    (net.hdisable h o s r).2.2 = (net.disable (view h o) s r).2 ∧
    Frame h o (net.hdisable h o s r).1 (net.hdisable h o s r).2.1 := by
  obtain ⟨⟨l1, l2, l3, l4, l5, l6, l7, l8⟩, ⟨n1, n2, n3, n4, n5, n6⟩, n7, n8⟩ := good_facts g
  set b1 := h.newMask (h.mask o.enR) with hb1
  set b2 := b1.newMask (b1.mask o.enSp) with hb2
  set b3 := b2.newMask (b2.mask o.protSp) with hb3
  set b4 := b3.newMask (b3.mask o.adhocSp) with hb4
  have x1 : b1.next = h.next + 1 := rfl
  have x2 : b2.next = h.next + 2 := rfl
  have x3 : b3.next = h.next + 3 := rfl
  have x4 : b4.next = h.next + 4 := rfl
  have ag : ∀ a < h.next, Agree h b4 a := fun a ha =>
    (agree_newMask (h := h) ha).trans ((agree_newMask (h := b1) (by omega)).trans
      ((agree_newMask (h := b2) (by omega)).trans (agree_newMask (h := b3) (by omega))))
  have hv : view b4 o = view h o := view_congr fun a ha => ag a (g.2 a ha)
  have hfr : Frame h o b4 o :=
    frame_rebind g (by omega) (fun a ha _ => ag a ha) (fun a ha => ha) n8
      (by simp) (by simp)
  unfold hdisable disable
  simp only [← hb1, ← hb2, ← hb3, ← hb4]
  cases net.resolveSpecies s with
  | error e => exact ⟨hv, rfl, hfr⟩
  | ok sids =>
    cases net.resolveReactions r with
    | error e => exact ⟨hv, rfl, hfr⟩
    | ok rids =>
      simp only
      rw [hv]
      obtain ⟨k1, k2, k3, k4⟩ := disableRec_keeps net net.fuelBound (view h o) sids rids
      generalize hq : net.disableRec net.fuelBound (view h o) sids rids = q at *
      obtain ⟨st', oe⟩ := q
      simp only at k1 k2 k3 k4
      set w := ((b4.setMask o.enSp st'.enSp).setMask o.enR st'.enR).setMask o.adhocSp st'.adhocSp with hw
      have agw : ∀ a, a ≠ o.enSp → a ≠ o.enR → a ≠ o.adhocSp → Agree b4 w a := fun a h1 h2 h3 =>
        (agree_setMask h1).trans ((agree_setMask h2).trans (agree_setMask h3))
      have hwv : view w o = st' := by
        refine State.ext' ?_ ?_ ?_ ?_ ?_ ?_ ?_
        · show w.mask o.enSp = _
          simp [hw, Heap.setMask, Function.update_apply, n2, n3]
        · show w.mask o.protSp = _
          rw [(agw o.protSp (Ne.symm n1) n5 n4).1, k1]
          exact congrArg State.protSp hv
        · show w.mask o.adhocSp = _
          simp [hw, Heap.setMask]
        · show w.mask o.enR = _
          simp [hw, Heap.setMask, Function.update_apply, Ne.symm n6]
        · rw [k2]; exact (congrArg State.adStick hv : (view b4 o).adStick = _)
        · rw [k3]; exact (congrArg State.adRet hv : (view b4 o).adRet = _)
        · rw [k4]; exact (congrArg State.adArrhA hv : (view b4 o).adArrhA = _)
      have agw' : ∀ a < h.next, a ∉ footprint h o → Agree h w a := by
        intro a ha hn
        refine (ag a ha).trans (agw a ?_ ?_ ?_) <;> rintro rfl <;> exact hn (by simp [footprint])
      have hfw : Frame h o w o := frame_rebind g (by show _ ≤ b4.next; omega) agw' (fun a ha => ha) n8
        (by simp) (by simp)
      have wn : w.next = h.next + 4 := rfl
      cases oe with
      | none =>
        simp only [hwv]
        cases net.assertConsistency st' with
        | error e => exact ⟨hwv, rfl, hfw⟩
        | ok u => exact ⟨hwv, rfl, hfw⟩
      | some e =>
        by_cases he : e = .disable
        · subst he
          refine ⟨?_, rfl, ?_⟩
          · refine State.ext' ?_ ?_ ?_ ?_ ?_ ?_ ?_
            · show w.mask b1.next = h.mask o.enSp
              rw [(agw b1.next (by omega) (by omega) (by omega)).1]
              have : b4.mask b1.next = b2.mask b1.next :=
                ((agree_newMask (h := b2) (by omega)).trans (agree_newMask (h := b3) (by omega))).1
              rw [this, ← (agree_newMask (h := h) (m := h.mask o.enR) l1).1]
              exact newMask_at _ _
            · show w.mask b2.next = h.mask o.protSp
              rw [(agw b2.next (by omega) (by omega) (by omega)).1]
              have : b4.mask b2.next = b3.mask b2.next := (agree_newMask (h := b3) (by omega)).1
              rw [this, ← ((agree_newMask (h := h) (m := h.mask o.enR) l2).trans
                (agree_newMask (h := b1) (m := b1.mask o.enSp) (by omega))).1]
              exact newMask_at _ _
            · show w.mask b3.next = h.mask o.adhocSp
              rw [(agw b3.next (by omega) (by omega) (by omega)).1]
              rw [← ((agree_newMask (h := h) (m := h.mask o.enR) l3).trans
                ((agree_newMask (h := b1) (m := b1.mask o.enSp) (by omega)).trans
                  (agree_newMask (h := b2) (m := b2.mask o.protSp) (by omega)))).1]
              exact newMask_at _ _
            · show w.mask h.next = h.mask o.enR
              rw [(agw h.next (by omega) (by omega) (by omega)).1]
              have : b4.mask h.next = b1.mask h.next :=
                ((agree_newMask (h := b1) (by omega)).trans
                  ((agree_newMask (h := b2) (by omega)).trans (agree_newMask (h := b3) (by omega)))).1
              rw [this]
              exact newMask_at _ _
            · exact (congrArg State.adStick hwv : (view w o).adStick = st'.adStick)
            · exact (congrArg State.adRet hwv : (view w o).adRet = st'.adRet)
            · exact (congrArg State.adArrhA hwv : (view w o).adArrhA = st'.adArrhA)
          · show Frame h o w { o with enR := h.next, enSp := b1.next, protSp := b2.next, adhocSp := b3.next }
            refine frame_rebind g (by omega) agw' (fun a ha => ha) n8 ?_ ?_
            · simp only [List.mem_cons, List.not_mem_nil, or_false, forall_eq_or_imp, forall_eq,
          true_or, and_true, true_and]
              omega
            · simp [x1, x2, x3]
        · cases e <;> first | exact absurd rfl he | exact ⟨hwv, rfl, hfw⟩

private theorem map_set_fresh (d : Dict Nat Nat) (f : Nat → Dict Str ℚ) (i a : Nat) (v : Dict Str ℚ)
    (hl : ∀ e ∈ d, e.2 ≠ a) :
    (d.set i a).map (fun e => (e.1, Function.update f a v e.2)) =
      Dict.set (d.map (fun e => (e.1, f e.2))) i v := by
  induction d with
  | nil => simp [Dict.set]
  | cons e d ih =>
    have h1 : ∀ e ∈ d, e.2 ≠ a := fun x hx => hl x (by simp [hx])
    have h2 := hl e (by simp)
    obtain ⟨k, b⟩ := e
    simp only [Dict.set, List.map_cons]
    split
    · simp only [List.map_cons, Function.update_self, List.cons.injEq, true_and]
      apply List.map_congr_left
      intro x hx
      rw [Function.update_of_ne (h1 x hx)]
    · simp only [List.map_cons, List.cons.injEq, Function.update_of_ne h2, true_and]
      exact ih h1

private theorem mem_set_snd (d : Dict Nat Nat) (i a : Nat) :
    ∀ x ∈ (d.set i a).map Prod.snd, x = a ∨ x ∈ d.map Prod.snd := by
  induction d with
  | nil => simp [Dict.set]
  | cons e d ih =>
    obtain ⟨k, b⟩ := e
    simp only [Dict.set]
    split
    · intro x hx
      simp only [List.map_cons, List.mem_cons] at hx ⊢
      tauto
    · intro x hx
      simp only [List.map_cons, List.mem_cons] at hx ⊢
      rcases hx with hx | hx
      · exact .inr (.inl hx)
      · rcases ih x hx with h | h
        · exact .inl h
        · exact .inr (.inr h)

private theorem nodup_set_snd (d : Dict Nat Nat) (i a : Nat) (hn : (d.map Prod.snd).Nodup)
    (ha : a ∉ d.map Prod.snd) : ((d.set i a).map Prod.snd).Nodup := by
  induction d with
  | nil => simp [Dict.set]
  | cons e d ih =>
    obtain ⟨k, b⟩ := e
    simp only [List.map_cons, List.nodup_cons, List.mem_cons, not_or] at hn ha
    simp only [Dict.set]
    split
    · simp only [List.map_cons, List.nodup_cons]
      exact ⟨ha.2, hn.2⟩
    · simp only [List.map_cons, List.nodup_cons]
      refine ⟨fun hc => ?_, ih hn.2 ha.2⟩
      rcases mem_set_snd d i a b hc with h | h
      · exact ha.1 h.symm
      · exact hn.1 h

/-- the frame of a call that writes into one of the object's cells only -/
private theorem frame_write {h w : Heap} {o : Obj} (g : Good h o) {x : Nat} (hx : x ∈ footprint h o)
    (hnext : w.next = h.next) (hag : ∀ a, a ≠ x → Agree h w a) (hf : w.refs o.ret = h.refs o.ret) :
    Frame h o w o := by
  have : footprint w o = footprint h o := by unfold footprint; rw [hf]
  refine ⟨hnext.ge, fun a _ hn => hag a (by rintro rfl; exact hn hx), fun a ha => .inl (this ▸ ha), ?_⟩
  rw [this]; exact g.1

private theorem hstep_spec {net : Net} {h : Heap} {o : Obj} (g : Good h o) (op : Op) :
    view (net.hstep h o op).1 (net.hstep h o op).2.1 = (net.step (view h o) op).1 ∧
    (net.hstep h o op).2.2 = (net.step (view h o) op).2 ∧
    Frame h o (net.hstep h o op).1 (net.hstep h o op).2.1 := by
  obtain ⟨⟨l1, l2, l3, l4, l5, l6, l7, l8⟩, ⟨n1, n2, n3, n4, n5, n6⟩, n7, n8⟩ := good_facts g
  cases op with
  | disable s r => exact hdisable_spec g s r
  | reset =>
    unfold hstep step reset
    simp only
    set h1 := h.newMask (fun _ => true) with hh1
    set h2 := h1.newMask (fun _ => true) with hh2
    set h3 := h2.newMask (fun _ => false) with hh3
    have x1 : h1.next = h.next + 1 := rfl
    have x2 : h2.next = h.next + 2 := rfl
    have x3 : h3.next = h.next + 3 := rfl
    have ag : ∀ a < h.next, Agree h h3 a := fun a ha =>
      (agree_newMask (h := h) ha).trans ((agree_newMask (h := h1) (by omega)).trans
        (agree_newMask (h := h2) (by omega)))
    refine ⟨?_, trivial, ?_⟩
    · refine State.ext' ?_ ?_ ?_ ?_ ?_ ?_ ?_
      · show h3.mask h.next = _
        rw [((agree_newMask (h := h1) (m := fun _ => true) (a := h.next) (by omega)).trans
          (agree_newMask (h := h2) (m := fun _ => false) (by omega))).1]
        simp [hh1, Heap.newMask, Heap.setMask, Heap.grow]
      · exact (ag _ l2).1
      · show h3.mask h2.next = _
        simp [hh3, Heap.newMask, Heap.setMask, Heap.grow]
      · show h3.mask h1.next = _
        rw [(agree_newMask (h := h2) (m := fun _ => false) (by omega)).1]
        simp [hh2, Heap.newMask, Heap.setMask, Heap.grow]
      · rfl
      · rfl
      · rfl
    · refine frame_rebind g (by omega) (fun a ha _ => ag a ha) (fun a ha => ha) n8 ?_ ?_
      · simp only [List.mem_cons, List.not_mem_nil, or_false, forall_eq_or_imp, forall_eq,
          true_or, and_true, true_and]
        omega
      · simp [x1, x2]
  | protect args =>
    unfold hstep step setProtected
    simp only
    cases net.resolveSpecies args with
    | error e => exact ⟨rfl, rfl, frame_refl g⟩
    | ok ids =>
      refine ⟨?_, rfl, frame_write g (x := o.protSp) (by simp [footprint]) rfl
        (fun a ha => agree_setMask ha) rfl⟩
      refine State.ext' ?_ ?_ ?_ ?_ rfl rfl rfl
      · exact (agree_setMask n1).1
      · show (Heap.setMask _ _ _).mask o.protSp = _
        simp [Heap.setMask, view]
      · exact (agree_setMask (Ne.symm n4)).1
      · exact (agree_setMask (Ne.symm n5)).1
  | adhocStick rp v =>
    unfold hstep step setAdhocStick
    simp only
    cases net.getRp rp with
    | error e => exact ⟨rfl, rfl, frame_refl g⟩
    | ok s =>
      simp only
      set w := h.setNum o.stick ((h.num o.stick).set s.id v) with hw
      have hwv : view w o = { view h o with adStick := Dict.set (view h o).adStick s.id v } := by
        refine State.ext' rfl rfl rfl rfl ?_ rfl ?_
        · show w.num o.stick = _
          simp [hw, Heap.setNum, view]
        · exact (agree_setNum (Ne.symm n7)).2.1
      have hf : Frame h o w o := frame_write g (x := o.stick) (by simp [footprint]) rfl
        (fun a ha => agree_setNum ha) rfl
      rw [hwv]
      cases net.assertConsistency _ with
      | error e => exact ⟨hwv, rfl, hf⟩
      | ok u => exact ⟨hwv, rfl, hf⟩
  | adhocRet rp v =>
    unfold hstep step setAdhocRet
    simp only
    cases net.getRp rp with
    | error e => exact ⟨rfl, rfl, frame_refl g⟩
    | ok s =>
      simp only
      split
      · exact ⟨rfl, rfl, frame_refl g⟩
      · set w := (h.newDict v).setRefs o.ret ((h.refs o.ret).set s.id h.next) with hw
        have hrefs : w.refs o.ret = (h.refs o.ret).set s.id h.next := by simp [hw, Heap.setRefs]
        have hfr : h.next ∉ (h.refs o.ret).map Prod.snd := by
          intro hc
          obtain ⟨e, he, hx⟩ := List.mem_map.1 hc
          have := l8 e he
          omega
        have hwv : view w o = { view h o with adRet := Dict.set (view h o).adRet s.id v } := by
          refine State.ext' rfl rfl rfl rfl rfl ?_ rfl
          show (w.refs o.ret).map (fun e => (e.1, w.dict e.2)) = _
          rw [hrefs]
          exact map_set_fresh (h.refs o.ret) h.dict s.id h.next v
            (fun e he => Nat.ne_of_lt (l8 e he))
        have hf : Frame h o w o := by
          refine ⟨Nat.le_succ _, fun a ha hn => ?_, fun a ha => ?_, ?_⟩
          · refine (agree_newDict ha).trans (agree_setRefs ?_)
            rintro rfl; exact hn (by simp [footprint])
          · unfold footprint at ha
            rw [hrefs] at ha
            rcases List.mem_append.1 ha with h1 | h1
            · exact .inl (List.mem_append_left _ h1)
            · rcases mem_set_snd _ _ _ a h1 with rfl | h2
              · exact .inr ⟨le_rfl, Nat.lt_succ_self _⟩
              · exact .inl (List.mem_append_right _ h2)
          · unfold footprint
            rw [hrefs]
            have hg := List.nodup_append.1 g.1
            refine List.nodup_append.2 ⟨hg.1, nodup_set_snd _ _ _ n8 hfr, fun x hx y hy hxy => ?_⟩
            subst hxy
            rcases mem_set_snd _ _ _ x hy with rfl | h2
            · have := g.2 h.next (List.mem_append_left _ hx)
              omega
            · exact hg.2.2 x hx x h2 rfl
        rw [hwv]
        cases net.assertConsistency _ with
        | error e => exact ⟨hwv, rfl, hf⟩
        | ok u => exact ⟨hwv, rfl, hf⟩
  | resetAdhocSpecies a b =>
    unfold hstep step resetAdhocSpecies
    cases a <;> cases b <;> simp only [if_true, if_false, Bool.false_eq_true]
    · exact ⟨trivial, trivial, frame_refl g⟩
    · refine ⟨?_, trivial, frame_rebind g (Nat.le_succ _) (fun a ha _ => agree_newRefs ha) ?_ ?_ ?_ ?_⟩
      · refine State.ext' rfl rfl rfl rfl rfl ?_ rfl
        simp [view, Heap.newRefs, Heap.setRefs, Heap.grow]
      · simp [Heap.newRefs, Heap.setRefs, Heap.grow]
      · simp [Heap.newRefs, Heap.setRefs, Heap.grow]
      · have : (h.newRefs []).next = h.next + 1 := rfl
        simp only [List.mem_cons, List.not_mem_nil, or_false, forall_eq_or_imp, forall_eq,
          true_or, and_true, true_and]
        omega
      · simp
    · refine ⟨?_, trivial, frame_rebind g (Nat.le_succ _) (fun a ha _ => agree_newNum ha)
        (fun a ha => ha) n8 ?_ ?_⟩
      · refine State.ext' rfl rfl rfl rfl ?_ rfl (agree_newNum l7).2.1
        simp [view, Heap.newNum, Heap.setNum, Heap.grow]
      · have : (h.newNum []).next = h.next + 1 := rfl
        simp only [List.mem_cons, List.not_mem_nil, or_false, forall_eq_or_imp, forall_eq,
          true_or, and_true, true_and]
        omega
      · simp
    · have hn1 : (h.newNum []).next = h.next + 1 := rfl
      have hn2 : ((h.newNum []).newRefs []).next = h.next + 2 := rfl
      refine ⟨?_, trivial, frame_rebind g (by omega) (fun a ha _ =>
        (agree_newNum ha).trans (agree_newRefs (by omega))) ?_ ?_ ?_ ?_⟩
      · refine State.ext' rfl rfl rfl rfl ?_ ?_ ((agree_newNum l7).2.1)
        · simp [view, Heap.newNum, Heap.newRefs, Heap.setRefs, Heap.setNum, Heap.grow]
        · simp [view, Heap.newNum, Heap.newRefs, Heap.setRefs, Heap.setNum, Heap.grow]
      · simp [Heap.newRefs, Heap.setRefs, Heap.grow]
      · simp [Heap.newRefs, Heap.setRefs, Heap.grow]
      · simp only [List.mem_cons, List.not_mem_nil, or_false, forall_eq_or_imp, forall_eq,
          true_or, and_true, true_and]
        omega
      · simp [hn1]
  | adhocArrhA r v =>
    unfold hstep step setAdhocArrhA
    simp only
    split
    · refine ⟨?_, rfl, frame_write g (x := o.arrh) (by simp [footprint]) rfl
        (fun a ha => agree_setNum ha) rfl⟩
      refine State.ext' rfl rfl rfl rfl (agree_setNum n7).2.1 rfl ?_
      simp [Heap.setNum, view]
    · exact ⟨rfl, rfl, frame_refl g⟩
  | resetAdhocReactions =>
    show view (h.newNum []) { o with arrh := h.next } = { view h o with adArrhA := [] } ∧ _ ∧
      Frame h o (h.newNum []) { o with arrh := h.next }
    refine ⟨?_, rfl, frame_rebind g (Nat.le_succ _) (fun a ha _ => agree_newNum ha)
      (fun a ha => ha) n8 ?_ ?_⟩
    · refine State.ext' rfl rfl rfl rfl (agree_newNum l5).2.1 rfl ?_
      simp [view, Heap.newNum, Heap.setNum, Heap.grow]
    · have : (h.newNum []).next = h.next + 1 := rfl
      simp only [List.mem_cons, List.not_mem_nil, or_false, forall_eq_or_imp, forall_eq,
          true_or, true_and]
      omega
    · simp

/-! ### changing a stored dictionary in place -/

private theorem get?_view (d : Dict Nat Nat) (f : Nat → Dict Str ℚ) (i : Nat) :
    Dict.get? (d.map (fun e => (e.1, f e.2))) i = (d.get? i).map f := by
  induction d with
  | nil => rfl
  | cons e d ih =>
    obtain ⟨k, b⟩ := e
    rw [List.map_cons, Dict.get?_cons, Dict.get?_cons]
    split
    · rfl
    · exact ih

private theorem map_poke (d : Dict Nat Nat) (f : Nat → Dict Str ℚ) (i a : Nat) (v : Dict Str ℚ)
    (hn : (d.map Prod.snd).Nodup) (hg : d.get? i = some a) :
    d.map (fun e => (e.1, Function.update f a v e.2)) =
      Dict.set (d.map (fun e => (e.1, f e.2))) i v := by
  induction d with
  | nil => cases hg
  | cons e d ih =>
    obtain ⟨k, b⟩ := e
    rw [Dict.get?_cons] at hg
    simp only [List.map_cons, List.nodup_cons] at hn
    simp only [List.map_cons, Dict.set]
    by_cases hk : k = i
    · rw [if_pos hk] at hg ⊢
      cases hg
      rw [Function.update_self, hk, List.cons.injEq]
      refine ⟨rfl, List.map_congr_left fun e he => ?_⟩
      rw [Function.update_of_ne]
      rintro rfl
      exact hn.1 (List.mem_map_of_mem he)
    · rw [if_neg hk] at hg ⊢
      have hb : b ≠ a := by
        rintro rfl
        exact hn.1 (List.mem_map.2 ⟨_, Dict.mem_of_get? hg, rfl⟩)
      rw [Function.update_of_ne hb, ih hn.2 hg]

private theorem hpoke_spec {h : Heap} {o : Obj} (g : Good h o) (i : Nat) (name : Str) (v : ℚ) :
    (match (view h o).adRet.get? i with
      | none => view (hpoke h o i name v).1 o = view h o ∧ (hpoke h o i name v).2 = some .keyError
      | some d => view (hpoke h o i name v).1 o =
          { view h o with adRet := (view h o).adRet.set i (d.set name v) } ∧ (hpoke h o i name v).2 = none) ∧
    Frame h o (hpoke h o i name v).1 o := by
  obtain ⟨-, -, -, n8⟩ := good_facts g
  have hg : (view h o).adRet.get? i = ((h.refs o.ret).get? i).map h.dict := get?_view _ _ _
  rw [hg]
  unfold hpoke
  cases hr : (h.refs o.ret).get? i with
  | none => exact ⟨⟨rfl, rfl⟩, frame_refl g⟩
  | some a =>
    refine ⟨⟨State.ext' rfl rfl rfl rfl rfl ?_ rfl, rfl⟩,
      frame_write g (x := a) ?_ rfl (fun b hb => agree_setDict hb) rfl⟩
    · exact map_poke _ _ _ _ _ n8 hr
    · exact List.mem_append_right _ (List.mem_map.2 ⟨_, Dict.mem_of_get? hr, rfl⟩)

/-! ### copying -/

private theorem copyDicts_spec (d : Dict Nat Nat) (h : Heap) (hl : ∀ e ∈ d, e.2 < h.next) :
    (h.copyDicts d).1.next = h.next + d.length ∧
    (h.copyDicts d).1.mask = h.mask ∧ (h.copyDicts d).1.num = h.num ∧ (h.copyDicts d).1.refs = h.refs ∧
    (∀ a < h.next, (h.copyDicts d).1.dict a = h.dict a) ∧
    (h.copyDicts d).2.map Prod.snd = List.range' h.next d.length ∧
    (h.copyDicts d).2.map (fun e => (e.1, (h.copyDicts d).1.dict e.2)) =
      d.map (fun e => (e.1, h.dict e.2)) := by
  induction d generalizing h with
  | nil => simp [copyDicts]
  | cons e d ih =>
    have hn : (h.newDict (h.dict e.2)).next = h.next + 1 := rfl
    obtain ⟨i1, i2, i3, i4, i5, i6, i7⟩ := ih (h.newDict (h.dict e.2))
      (fun x hx => by rw [hn]; exact Nat.lt_succ_of_lt (hl x (by simp [hx])))
    simp only [copyDicts]
    refine ⟨?_, i2, i3, i4, fun a ha => ?_, ?_, ?_⟩
    · rw [i1, hn, List.length_cons]; omega
    · rw [i5 a (by omega), (agree_newDict ha).2.2.2]
    · rw [List.map_cons, i6, hn, List.length_cons, List.range'_succ]
    · rw [List.map_cons, List.map_cons, i7, i5 h.next (by omega)]
      congr 1
      · simp [Heap.newDict, Heap.setDict, Heap.grow]
      · apply List.map_congr_left
        intro x hx
        rw [(agree_newDict (hl x (by simp [hx]))).2.2.2]

private theorem hcopy_spec {h : Heap} {o : Obj} (g : Good h o) :
    view (hcopy h o).1 (hcopy h o).2 = view h o ∧ Good (hcopy h o).1 (hcopy h o).2 ∧
    h.next ≤ (hcopy h o).1.next ∧ (∀ a < h.next, Agree h (hcopy h o).1 a) ∧
    (∀ a ∈ footprint (hcopy h o).1 (hcopy h o).2, h.next ≤ a) := by
  obtain ⟨⟨l1, l2, l3, l4, l5, l6, l7, l8⟩, -, -, -⟩ := good_facts g
  unfold hcopy
  simp only
  set h1 := h.newMask (h.mask o.enSp) with e1
  set h2 := h1.newMask (h1.mask o.protSp) with e2
  set h3 := h2.newMask (h2.mask o.adhocSp) with e3
  set h4 := h3.newMask (h3.mask o.enR) with e4
  set h5 := h4.newNum (h4.num o.stick) with e5
  have x1 : h1.next = h.next + 1 := rfl
  have x2 : h2.next = h.next + 2 := rfl
  have x3 : h3.next = h.next + 3 := rfl
  have x4 : h4.next = h.next + 4 := rfl
  have x5 : h5.next = h.next + 5 := rfl
  have r5 : h5.refs = h.refs := rfl
  have d5 : h5.dict = h.dict := rfl
  obtain ⟨c1, c2, c3, c4, c5, c6, c7⟩ := copyDicts_spec (h5.refs o.ret) h5
    (fun e he => by rw [x5]; have := l8 e he; omega)
  generalize hR : h5.copyDicts (h5.refs o.ret) = R at *
  obtain ⟨R1, R2⟩ := R
  simp only at c1 c2 c3 c4 c5 c6 c7 ⊢
  set h6 := R1.newRefs R2 with e6
  set h7 := h6.newNum (h6.num o.arrh) with e7
  set L := (h5.refs o.ret).length with hL
  have x6 : h6.next = h.next + 6 + L := by show R1.next + 1 = _; omega
  have x7 : h7.next = h.next + 7 + L := by show h6.next + 1 = _; omega
  have a1 : ∀ a < h.next + 1, Agree h1 h4 a := fun a ha =>
    (agree_newMask (h := h1) (by omega)).trans ((agree_newMask (h := h2) (by omega)).trans
      (agree_newMask (h := h3) (by omega)))
  have mask7 : h7.mask = h4.mask := by
    show R1.mask = _; rw [c2]; rfl
  have ag : ∀ a < h.next, Agree h h7 a := by
    intro a ha
    have s1 : Agree h h5 a := ((agree_newMask (h := h) ha).trans (a1 a (by omega))).trans
      (agree_newNum (h := h4) (by omega))
    have s2 : Agree h5 R1 a := ⟨by rw [c2], by rw [c3], by rw [c4], c5 a (by omega)⟩
    have s3 : Agree R1 h7 a := (agree_newRefs (h := R1) (by omega)).trans (agree_newNum (h := h6) (by omega))
    exact s1.trans (s2.trans s3)
  have refs7 : h7.refs R1.next = R2 := by
    show h6.refs R1.next = R2
    simp [e6, Heap.newRefs, Heap.setRefs, Heap.grow]
  have foot : footprint h7 ⟨h.next, h1.next, h2.next, h3.next, h4.next, R1.next, h6.next⟩ =
      [h.next, h1.next, h2.next, h3.next, h4.next, R1.next, h6.next] ++ List.range' h5.next L := by
    unfold footprint
    rw [refs7, c6]
  refine ⟨?_, ⟨?_, ?_⟩, by omega, ag, ?_⟩
  · refine State.ext' ?_ ?_ ?_ ?_ ?_ ?_ ?_
    · show h7.mask h.next = h.mask o.enSp
      rw [mask7, (a1 h.next (by omega)).1]
      exact newMask_at _ _
    · show h7.mask h1.next = h.mask o.protSp
      rw [mask7, ((agree_newMask (h := h2) (by omega)).trans (agree_newMask (h := h3) (by omega))).1,
        ← (agree_newMask (h := h) (m := h.mask o.enSp) l2).1]
      exact newMask_at _ _
    · show h7.mask h2.next = h.mask o.adhocSp
      rw [mask7, (agree_newMask (h := h3) (by omega)).1,
        ← ((agree_newMask (h := h) (m := h.mask o.enSp) l3).trans
          (agree_newMask (h := h1) (m := h1.mask o.protSp) (by omega))).1]
      exact newMask_at _ _
    · show h7.mask h3.next = h.mask o.enR
      rw [mask7, ← ((agree_newMask (h := h) (m := h.mask o.enSp) l4).trans
          ((agree_newMask (h := h1) (m := h1.mask o.protSp) (by omega)).trans
            (agree_newMask (h := h2) (m := h2.mask o.adhocSp) (by omega)))).1]
      exact newMask_at _ _
    · show h7.num h4.next = h.num o.stick
      rw [(agree_newNum (h := h6) (by omega)).2.1]
      show R1.num h4.next = _
      rw [c3]
      show (h4.newNum (h4.num o.stick)).num h4.next = h4.num o.stick
      simp [Heap.newNum, Heap.setNum, Heap.grow]
    · show (h7.refs R1.next).map (fun e => (e.1, h7.dict e.2)) = _
      rw [refs7]
      exact c7
    · show h7.num h6.next = h.num o.arrh
      have : h7.num h6.next = h6.num o.arrh := by simp [e7, Heap.newNum, Heap.setNum, Heap.grow]
      rw [this]
      show R1.num o.arrh = _
      rw [c3]
      show (h4.newNum (h4.num o.stick)).num o.arrh = h4.num o.arrh
      exact (agree_newNum (h := h4) (by omega)).2.1
  · rw [foot]
    refine List.nodup_append.2 ⟨?_, List.nodup_range', fun x hx y hy hxy => ?_⟩
    · rw [x1, x2, x3, x4, x6, c1, x5]
      simp only [List.nodup_cons, List.mem_cons, List.not_mem_nil, not_or, List.nodup_nil,
        or_false, not_false_eq_true, and_true, ← ne_eq]
      omega
    · rw [List.mem_range'_1] at hy
      simp only [List.mem_cons, List.not_mem_nil, or_false] at hx
      omega
  · intro a ha
    rw [foot, List.mem_append, List.mem_range'_1] at ha
    simp only [List.mem_cons, List.not_mem_nil, or_false] at ha
    omega
  · intro a ha
    rw [foot, List.mem_append, List.mem_range'_1] at ha
    simp only [List.mem_cons, List.not_mem_nil, or_false] at ha
    omega

private theorem hinit_spec (h : Heap) (st : State) (h1 : st.adStick = []) (h2 : st.adRet = [])
    (h3 : st.adArrhA = []) :
    view (hinit h st).1 (hinit h st).2 = st ∧ Good (hinit h st).1 (hinit h st).2 := by
  unfold hinit
  refine ⟨State.ext' ?_ ?_ ?_ ?_ ?_ ?_ ?_, ?_, ?_⟩
  · simp [view, Heap.newMask, Heap.newNum, Heap.newRefs, Heap.setMask, Heap.setNum, Heap.setRefs,
      Heap.grow, Function.update_apply]
    rw [if_neg (by omega), if_neg (by omega)]
  · simp [view, Heap.newMask, Heap.newNum, Heap.newRefs, Heap.setMask, Heap.setNum, Heap.setRefs,
      Heap.grow, Function.update_apply]
  · simp [view, Heap.newMask, Heap.newNum, Heap.newRefs, Heap.setMask, Heap.setNum, Heap.setRefs,
      Heap.grow, Function.update_apply]
  · simp [view, Heap.newMask, Heap.newNum, Heap.newRefs, Heap.setMask, Heap.setNum, Heap.setRefs,
      Heap.grow, Function.update_apply]
  · simp [view, Heap.newMask, Heap.newNum, Heap.newRefs, Heap.setMask, Heap.setNum, Heap.setRefs,
      Heap.grow, Function.update_apply, h1]
  · simp [view, Heap.newMask, Heap.newNum, Heap.newRefs, Heap.setMask, Heap.setNum, Heap.setRefs,
      Heap.grow, Function.update_apply, h2]
  · simp [view, Heap.newMask, Heap.newNum, Heap.newRefs, Heap.setMask, Heap.setNum, Heap.setRefs,
      Heap.grow, Function.update_apply, h3]
  · simp [footprint, Heap.newMask, Heap.newNum, Heap.newRefs, Heap.setMask, Heap.setNum, Heap.setRefs,
      Heap.grow, Function.update_apply]
    omega
  · intro a ha
    simp [footprint, Heap.newMask, Heap.newNum, Heap.newRefs, Heap.setMask, Heap.setNum, Heap.setRefs,
      Heap.grow, Function.update_apply] at ha
    simp only [Heap.newMask, Heap.newNum, Heap.newRefs, Heap.setMask, Heap.setNum, Heap.setRefs, Heap.grow]
    omega

/-! ### whole programs -/

/-- the objects are separate, and look like the given values -/
structure Sys (h : Heap) (os : List Obj) (sts : List State) : Prop where
  good : ∀ (i : Nat) (o : Obj), os[i]? = some o → Good h o
  disj : ∀ (i j : Nat) (a b : Obj), os[i]? = some a → os[j]? = some b → i ≠ j → ∀ x ∈ footprint h a, x ∉ footprint h b
  views : os.map (view h) = sts

private theorem Sys.step {h : Heap} {os : List Obj} {sts : List State} (S : Sys h os sts) {k : Nat}
    {o o' : Obj} {h' : Heap} (hk : os[k]? = some o) (f : Frame h o h' o') :
    Sys h' (os.set k o') (sts.set k (view h' o')) := by
  have other : ∀ i p, os[i]? = some p → i ≠ k → ∀ x ∈ footprint h p, Agree h h' x := by
    intro i p hp hne x hx
    exact f.same x ((S.good i p hp).2 x hx) (S.disj i k p o hp hk hne x hx)
  have get : ∀ i p, (os.set k o')[i]? = some p → (i = k ∧ p = o') ∨ (i ≠ k ∧ os[i]? = some p) := by
    intro i p hp
    rw [List.getElem?_set] at hp
    by_cases hik : k = i
    · rw [if_pos hik] at hp
      split at hp
      · cases hp; exact .inl ⟨hik.symm, rfl⟩
      · cases hp
    · rw [if_neg hik] at hp; exact .inr ⟨Ne.symm hik, hp⟩
  refine ⟨fun i p hp => ?_, fun i j a b ha hb hne x hx hxb => ?_, ?_⟩
  · rcases get i p hp with ⟨-, rfl⟩ | ⟨hne, hp⟩
    · exact f.good (S.good k o hk)
    · have g := S.good i p hp
      have hf := footprint_congr (other i p hp hne)
      exact ⟨hf ▸ g.1, fun a ha => lt_of_lt_of_le (g.2 a (hf ▸ ha)) f.grow⟩
  · rcases get i a ha with ⟨rfl, rfl⟩ | ⟨h1, ha'⟩ <;> rcases get j b hb with ⟨rfl, rfl⟩ | ⟨h2, hb'⟩
    · exact hne rfl
    · rw [footprint_congr (other j b hb' h2)] at hxb
      rcases f.foot x hx with h3 | h3
      · exact S.disj _ j o b hk hb' hne x h3 hxb
      · have := (S.good j b hb').2 x hxb; omega
    · rw [footprint_congr (other i a ha' h1)] at hx
      rcases f.foot x hxb with h3 | h3
      · exact S.disj i _ a o ha' hk hne x hx h3
      · have := (S.good i a ha').2 x hx; omega
    · rw [footprint_congr (other i a ha' h1)] at hx
      rw [footprint_congr (other j b hb' h2)] at hxb
      exact S.disj i j a b ha' hb' hne x hx hxb
  · rw [← S.views]
    apply List.ext_getElem?
    intro i
    rw [List.getElem?_map, List.getElem?_set, List.getElem?_set, List.getElem?_map, List.length_map]
    split
    · split <;> rfl
    · rename_i hne
      cases hp : os[i]? with
      | none => rfl
      | some p => simp [view_congr (other i p hp (Ne.symm hne))]

private theorem Sys.step' {h : Heap} {os : List Obj} {sts : List State} (S : Sys h os sts) {k : Nat}
    {o : Obj} {h' : Heap} (hk : os[k]? = some o) (f : Frame h o h' o) :
    Sys h' os (sts.set k (view h' o)) := by
  have := S.step hk f
  rwa [show os.set k o = os by
    apply List.ext_getElem?; intro i; rw [List.getElem?_set]
    split
    · rename_i hki
      subst hki
      split
      · exact hk.symm
      · rename_i hl
        rw [List.getElem?_eq_none (by omega)]
    · rfl] at this

private theorem set_self {α : Type} {l : List α} {k : Nat} {x : α} (h : l[k]? = some x) :
    l.set k x = l := by
  apply List.ext_getElem?; intro i; rw [List.getElem?_set]
  split
  · rename_i hki
    subst hki
    split
    · exact h.symm
    · rename_i hl
      rw [List.getElem?_eq_none (by omega)]
  · rfl

private theorem cmd_refines {net : Net} {h : Heap} {os : List Obj} {sts : List State}
    (S : Sys h os sts) (c : Cmd) :
    (heapCmd net h os c).2 = (specCmd net sts c).2 ∧
    Sys (heapCmd net h os c).1.1 (heapCmd net h os c).1.2 (specCmd net sts c).1 := by
  have get : ∀ k : Nat, sts[k]? = (os[k]?).map (view h) := by
    intro k; rw [← S.views, List.getElem?_map]
  cases c with
  | call k op =>
    unfold heapCmd specCmd
    simp only [get k]
    cases hk : os[k]? with
    | none => exact ⟨rfl, S⟩
    | some o =>
      obtain ⟨v, e, f⟩ := hstep_spec (net := net) (S.good k o hk) op
      refine ⟨e, ?_⟩
      have := S.step hk f
      rw [v] at this
      exact this
  | poke k i name v =>
    unfold heapCmd specCmd
    simp only [get k]
    cases hk : os[k]? with
    | none => exact ⟨rfl, S⟩
    | some o =>
      obtain ⟨hv, f⟩ := hpoke_spec (S.good k o hk) i name v
      have S' := S.step' hk f
      simp only [Option.map_some]
      cases hd : (view h o).adRet.get? i with
      | none =>
        rw [hd] at hv
        rw [hv.1, set_self (by rw [get k, hk]; rfl)] at S'
        exact ⟨hv.2, S'⟩
      | some d =>
        rw [hd] at hv
        rw [hv.1] at S'
        exact ⟨hv.2, S'⟩
  | copy k =>
    unfold heapCmd specCmd Net.copy
    simp only [get k]
    cases hk : os[k]? with
    | none => exact ⟨rfl, S⟩
    | some o =>
      simp only [Option.map_some]
      cases ({ net with requiresCharge := true } : Net).init with
      | error e => exact ⟨rfl, S⟩
      | ok st =>
        refine ⟨rfl, ?_⟩
        obtain ⟨v, g, hn, ag, fr⟩ := hcopy_spec (S.good k o hk)
        have cong : ∀ i p, os[i]? = some p → ∀ x ∈ footprint h p, Agree h (hcopy h o).1 x :=
          fun i p hp x hx => ag x ((S.good i p hp).2 x hx)
        have get : ∀ i p, (os ++ [(hcopy h o).2])[i]? = some p →
            os[i]? = some p ∨ (i = os.length ∧ p = (hcopy h o).2) := by
          intro i p hp
          rw [List.getElem?_append] at hp
          split at hp
          · exact .inl hp
          · rename_i hl
            have : i - os.length < 1 := by
              by_contra hc
              rw [List.getElem?_eq_none (by simp only [List.length_singleton]; omega)] at hp
              cases hp
            have h0 : i = os.length := by omega
            subst h0
            simp only [Nat.sub_self, List.getElem?_cons_zero, Option.some.injEq] at hp
            exact .inr ⟨rfl, hp.symm⟩
        refine ⟨fun i p hp => ?_, fun i j a b ha hb hne x hx hxb => ?_, ?_⟩
        · rcases get i p hp with hp | ⟨-, rfl⟩
          · have hf := footprint_congr (cong i p hp)
            have gp := S.good i p hp
            exact ⟨hf ▸ gp.1, fun a ha => lt_of_lt_of_le (gp.2 a (hf ▸ ha)) hn⟩
          · exact g
        · rcases get i a ha with ha | ⟨h1, rfl⟩ <;> rcases get j b hb with hb | ⟨h2, rfl⟩
          · rw [footprint_congr (cong i a ha)] at hx
            rw [footprint_congr (cong j b hb)] at hxb
            exact S.disj i j a b ha hb hne x hx hxb
          · rw [footprint_congr (cong i a ha)] at hx
            have := (S.good i a ha).2 x hx
            have := fr x hxb
            omega
          · rw [footprint_congr (cong j b hb)] at hxb
            have := (S.good j b hb).2 x hxb
            have := fr x hx
            omega
          · omega
        · rw [List.map_append, List.map_singleton, v, ← S.views]
          congr 1
          apply List.map_congr_left
          intro p hp
          obtain ⟨i, hi, hip⟩ := List.getElem_of_mem hp
          exact view_congr (cong i p (by rw [List.getElem?_eq_getElem hi, hip]))

/-- **C23.** Take any program that starts with one chemistry and then, in any order, calls the
state-changing methods, copies chemistries (copies of copies too) and writes into stored ad-hoc
dictionaries, on any of the chemistries created so far. Every command has the outcome, and every
chemistry ends in the state, that it would have if each chemistry were a value of its own: nothing done
to one shows in another. -/
theorem copies_independent {net : Net} {st0 : State} (hi : net.init = .ok st0) (h : Heap)
    (prog : List Cmd) :
    let start := hinit h st0
    let run := heapProg net start.1 [start.2] prog
    run.1.2.map (view run.1.1) = (specProg net [st0] prog).1 ∧
    run.2 = (specProg net [st0] prog).2 := by
  have key : ∀ (prog : List Cmd) (h : Heap) (os : List Obj) (sts : List State), Sys h os sts →
      (heapProg net h os prog).1.2.map (view (heapProg net h os prog).1.1) = (specProg net sts prog).1 ∧
      (heapProg net h os prog).2 = (specProg net sts prog).2 := by
    intro prog
    induction prog with
    | nil => intro h os sts S; exact ⟨S.views, rfl⟩
    | cons c cs ih =>
      intro h os sts S
      obtain ⟨e, S'⟩ := cmd_refines (net := net) S c
      obtain ⟨i1, i2⟩ := ih _ _ _ S'
      exact ⟨i1, by simp only [heapProg, specProg]; rw [e, i2]⟩
  obtain ⟨-, -, -, -, -, hst⟩ := init_spec hi
  obtain ⟨v, g⟩ := hinit_spec h st0 hst.1 hst.2.1 hst.2.2.1
  refine key prog _ _ _ ⟨fun i o ho => ?_, fun i j a b ha hb hne => ?_, by simp [v]⟩
  · cases i with
    | zero => cases ho; exact g
    | succ i => cases ho
  · cases i with
    | zero =>
      cases j with
      | zero => exact absurd rfl hne
      | succ j => cases hb
    | succ i => cases ha

/-- a program with a copy: both chemistries change afterwards, and the copied dictionary is written to -/
def Demo.prog : List Cmd :=
  [.call 0 (.adhocRet (.id 2) [(str!"Ar", 1)]), .copy 0, .poke 1 2 str!"Ar*" 3,
    .call 0 (.disable [.name str!"Ar*"] []), .call 0 (.disable [.name str!"Ar+"] []),
    .call 1 (.adhocStick (.id 1) 1), .copy 1, .call 2 .reset]

example : ((specProg Demo.net [Demo.st0] Demo.prog).1.map State.adRet =
      [[(2, [(str!"Ar", 1)])], [(2, [(str!"Ar", 1), (str!"Ar*", 3)])],
        [(2, [(str!"Ar", 1), (str!"Ar*", 3)])]]) ∧
    ((specProg Demo.net [Demo.st0] Demo.prog).1.map (fun s => s.enSp 4) = [false, true, true]) ∧
    (specProg Demo.net [Demo.st0] Demo.prog).2 =
      [none, none, none, none, some .disable, none, none, none] := ⟨rfl, rfl, rfl⟩

/-- **C23.** Copying a chemistry of the base class succeeds in every reachable state, and the copy has
the same species, reactions and state. -/
theorem copy_ok {net : Net} {st : State} (h : Reachable net st) (hc : net.requiresCharge = true) :
    net.copy st = .ok (net, st) := by
  have hnet : ({ net with requiresCharge := true } : Net) = net := by
    cases net; simp_all
  have hi : ∃ st0, net.init = .ok st0 := by
    induction h with
    | init hi => exact ⟨_, hi⟩
    | step o _ ih => exact ih
  obtain ⟨st0, hi⟩ := hi
  unfold Net.copy
  rw [hnet, hi]

example : Demo.net.copy Demo.st0 = .ok (Demo.net, Demo.st0) := copy_ok Demo.reach0 rfl

/-- **C23** (defect). Copying a neutral chemistry always raises `ChemistryConsistencyError`, whatever its
state: the copy is constructed as a base class `Chemistry`, which insists on electrons. -/
theorem copy_neutral_fails {net : Net} {st : State}
    (hneutral : ∀ s ∈ net.species, isPos s = false) : net.copy st = .error .consistency := by
  unfold Net.copy Net.init
  by_cases hnd : ¬ (net.species.map RP.id).Nodup ∨ ¬ (net.reactions.map Reaction.id).Nodup
  · simp only [hnd, if_true]
  · simp only [hnd, if_false]
    have hp : ({ net with requiresCharge := true } : Net).positiveIons State.fresh = [] := by
      unfold positiveIons getSpecies
      rw [List.filter_eq_nil_iff]
      intro s hs
      rw [hneutral s (List.mem_of_mem_filter hs)]
      simp
    have : ({ net with requiresCharge := true } : Net).assertConsistency State.fresh =
        .error .consistency := by
      unfold assertConsistency
      simp only [hp, true_and, and_self, if_true]
      split <;> rfl
    rw [this]

/-- a neutral chemistry that can be constructed but not copied -/
def Demo.neutral : Net where
  requiresCharge := false
  species := [Demo.Ar, Demo.ArX]
  reactions := [{ id := 1, reactants := [Demo.Ar, Demo.ArX], products := [Demo.Ar, Demo.Ar] }]

example : (∃ st, Demo.neutral.init = .ok st) ∧ ∀ s ∈ Demo.neutral.species, isPos s = false :=
  ⟨⟨_, rfl⟩, by decide⟩

end Verif.Plaschem
