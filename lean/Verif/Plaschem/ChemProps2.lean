/-
Properties C04-C09 and C18: disabling and enabling of species and reactions, continued.
-/
import Verif.Plaschem.ChemProps

namespace Verif.Plaschem
open Net

private theorem req_eq' {net : Net} (hwf : WF net) {xs : List SpIdent} {l : List Nat}
    (h : net.resolveSpecies xs = .ok l) : (fun i => i ∈ l) = Requested net xs := by
  funext i; exact propext (resolveSpecies_iff hwf h i)

private theorem forcedS_enabled {net : Net} {st : State} {S R : Nat → Prop} {i : Nat}
    (h : ForcedS net st S R i) : st.enSp i = true := by
  cases h <;> assumption

private theorem forcedS_mem {net : Net} {st : State} {S R : Nat → Prop} {i : Nat}
    (hS : ∀ i, S i → ∃ s ∈ net.species, s.id = i)
    (h : ForcedS net st S R i) : ∃ s ∈ net.species, s.id = i := by
  cases h with
  | requested h1 _ => exact hS _ h1
  | isolated h1 _ _ => exact ⟨_, h1, rfl⟩

private theorem requested_mem {net : Net} {xs : List SpIdent} {i : Nat} (h : Requested net xs i) :
    ∃ s ∈ net.species, s.id = i := by
  obtain ⟨x, -, hx⟩ := h
  cases x with
  | id j => exact hx.2
  | name n => obtain ⟨s, hs, -, he⟩ := hx; exact ⟨s, hs, he⟩
  | obj y => exact ⟨y, hx.1, hx.2⟩

/-! ### C04 -/

/-- **C04.** A charged chemistry always has an enabled positive ion. -/
theorem positive_ion_survives {net : Net} {st : State} (h : Reachable net st)
    (hq : net.requiresCharge = true) :
    ∃ s ∈ net.species, PositiveIon s ∧ st.enSp s.id = true := by
  obtain ⟨hwf, hinv⟩ := reachable_inv h
  obtain ⟨s, hs⟩ := List.exists_mem_of_ne_nil _ (hinv.ok.ion hq)
  obtain ⟨h1, h2, h3⟩ := mem_positiveIons.1 hs
  exact ⟨s, h1, h3, h2⟩

/-- **C04.** In every reachable state the only remaining positive ion is protected, and no `disable`
(whatever its outcome) can remove it. -/
theorem last_ion_protected {net : Net} {st : State} (h : Reachable net st)
    (hq : net.requiresCharge = true) {i : Nat} (ho : OnlyIon net st i) :
    st.Protected i ∧ ∀ species reactions, (net.disable st species reactions).1.enSp i = true := by
  obtain ⟨hwf, hinv⟩ := reachable_inv h
  obtain ⟨s, hs, rfl⟩ := (onlyIon_iff hwf).1 ho
  have hp := hinv.last hq s hs
  obtain ⟨t, ht, hid, -, he, -⟩ := ho
  have hts := hwf.eq_of_id ht (mem_positiveIons.1 (by rw [hs]; simp : s ∈ net.positiveIons st)).1 hid
  subst hts
  exact ⟨hp, fun sp rx => protected_survives_disable h sp rx ht hp he⟩

/-- Ar+ is the only positive ion left once Ar++ is disabled, and is then protected automatically -/
example : let st := (Demo.net.disable Demo.st0 [.id 3] []).1
    (Demo.net.disable Demo.st0 [.id 3] []).2 = none ∧ OnlyIon Demo.net st 2 ∧ st.protSp 2 = false ∧
    st.adhocSp 2 = true := by
  refine ⟨rfl, ?_, rfl, rfl⟩
  exact (onlyIon_iff (reachable_inv (Demo.reach0.step (.disable [.id 3] []))).1).2 ⟨Demo.ArP, rfl, rfl⟩

/-! ### C05 -/

/-- The reasons for refusing a request: a requested species is protected, a forced removal is
protected, or no positive ion would survive. -/
def Refused (net : Net) (st : State) (S R : Nat → Prop) : Prop :=
  (∃ i, S i ∧ st.Protected i) ∨
  (∃ i, ForcedS net st S R i ∧ st.Protected i) ∨
  (net.requiresCharge = true ∧
    ∀ s ∈ net.species, PositiveIon s → st.enSp s.id = true → ForcedS net st S R s.id)

/-- Something requested is currently enabled. -/
def Effective (st : State) (S R : Nat → Prop) : Prop :=
  (∃ i, S i ∧ st.enSp i = true) ∨ (∃ i, R i ∧ st.enR i = true)

private theorem effective_iff {net : Net} (hwf : WF net) {st : State} {xs : List SpIdent}
    {rs l : List Nat} (h : net.resolveSpecies xs = .ok l) :
    Effective st (Requested net xs) (ReqR rs) ↔
      ¬ ((∀ i ∈ l, st.enSp i = false) ∧ (∀ i ∈ rs, st.enR i = false)) := by
  unfold Effective
  rw [not_and_or]
  simp only [not_forall, Bool.not_eq_false, exists_prop, resolveSpecies_iff hwf h]

private theorem blocked_iff {net : Net} (hwf : WF net) {st : State} {xs : List SpIdent}
    {rs l : List Nat} (h : net.resolveSpecies xs = .ok l) :
    Blocked net st (fun i => i ∈ l) (fun i => i ∈ rs) ↔
      Refused net st (Requested net xs) (ReqR rs) := by
  rw [req_eq' hwf h]
  unfold Blocked Refused
  have hm : ∀ i, Requested net xs i → ∃ s ∈ net.species, s.id = i := fun i hi => requested_mem hi
  constructor
  · rintro (⟨i, h1, h2⟩ | ⟨i, h1, h2⟩ | ⟨hq, hall⟩)
    · exact .inl ⟨i, h1, (mem_protectedIds.1 h2).2⟩
    · exact .inr (.inl ⟨i, h1, (mem_protectedIds.1 h2).2⟩)
    · exact .inr (.inr ⟨hq, fun s hs hp he => hall s (mem_positiveIons.2 ⟨hs, he, hp⟩)⟩)
  · rintro (⟨i, h1, h2⟩ | ⟨i, h1, h2⟩ | ⟨hq, hall⟩)
    · exact .inl ⟨i, h1, mem_protectedIds.2 ⟨hm i h1, h2⟩⟩
    · exact .inr (.inl ⟨i, h1, mem_protectedIds.2 ⟨forcedS_mem hm h1, h2⟩⟩)
    · refine .inr (.inr ⟨hq, fun s hs => ?_⟩)
      obtain ⟨h1, h2, h3⟩ := mem_positiveIons.1 hs
      exact hall s h1 h3 h2

private theorem known_iff {net : Net} (hwf : WF net) {xs : List SpIdent} {rs : List Nat} :
    Known net xs rs ↔ (∃ l, net.resolveSpecies xs = .ok l) ∧ net.resolveReactions rs = .ok rs := by
  unfold Known
  rw [resolveSpecies_known hwf, resolveReactions_known]

private theorem not_refused_of_ok {net : Net} (hwf : WF net) {st st' : State} (hinv : Inv net st)
    {xs : List SpIdent} {rs l : List Nat} (hs : net.resolveSpecies xs = .ok l)
    (hrec : net.disableRec net.fuelBound st l rs = (st', none))
    (heff : Effective st (Requested net xs) (ReqR rs)) :
    ¬ Refused net st (Requested net xs) (ReqR rs) := by
  have c := cascade_of_ok hwf hrec
  have hc := char_of_ok hwf hinv hrec
  rw [req_eq' hwf hs] at hc
  have hm : ∀ i, Requested net xs i → ∃ s ∈ net.species, s.id = i := fun i hi => requested_mem hi
  rintro (⟨i, h1, h2⟩ | ⟨i, h1, h2⟩ | ⟨hq, hall⟩)
  · rcases c.outcome with heq | ⟨hnp, -⟩
    · subst heq
      exact (effective_iff hwf hs).1 heff ⟨c.goneS, c.goneR⟩
    · exact hnp i ((resolveSpecies_iff hwf hs i).2 h1) (hm i h1) h2
  · have := c.keeps i (forcedS_mem hm h1) h2 (forcedS_enabled h1)
    exact ((hc.1 i).1 this).2 h1
  · have hinv' := inv_of_cascade hwf hinv c
    obtain ⟨s, hs'⟩ := List.exists_mem_of_ne_nil _ (hinv'.ok.ion hq)
    obtain ⟨h1, h2, h3⟩ := mem_positiveIons.1 hs'
    exact ((hc.1 _).1 h2).2 (hall s h1 h3 (c.monoS _ h2))

/-- **C05.** `disable` raises `ChemistryDisableError` exactly if all identifiers are known, something
requested is enabled and one of the three reasons for refusal holds. -/
theorem disable_refused_iff {net : Net} {st : State} (h : Reachable net st)
    (species : List SpIdent) (reactions : List Nat) :
    (net.disable st species reactions).2 = some .disable ↔
      Known net species reactions ∧ Effective st (Requested net species) (ReqR reactions) ∧
      Refused net st (Requested net species) (ReqR reactions) := by
  obtain ⟨hwf, hinv⟩ := reachable_inv h
  rcases disable_cases hinv species reactions with
    ⟨e, h1, -, -, hd, hres⟩ | ⟨sids, hs, hr, hd, heff, hb⟩ | ⟨sids, st'', hs, hr, hrec, hd⟩
  · rw [hd]
    simp only [Option.some.injEq, h1, false_iff, not_and]
    intro hk
    obtain ⟨⟨l, hl⟩, hr⟩ := (known_iff hwf).1 hk
    rcases hres with h | h
    · rw [hl] at h; cases h
    · rw [hr] at h; cases h
  · rw [hd]
    simp only [true_iff]
    exact ⟨(known_iff hwf).2 ⟨⟨sids, hs⟩, hr⟩, (effective_iff hwf hs).2 heff, (blocked_iff hwf hs).1 hb⟩
  · rw [hd]
    constructor
    · intro he
      simp only at he
      split at he
      · rename_i e hac
        simp only [Option.some.injEq] at he
        subst he
        exact absurd (assertConsistency_error (reachable_ret h).1 hac) (by decide)
      · cases he
    · rintro ⟨-, heff, href⟩
      exact absurd href (not_refused_of_ok hwf hinv hs hrec heff)

/-- **C05.** If the return species of the nominal data exist, `disable` succeeds exactly if all
identifiers are known and either nothing requested is enabled or no reason for refusal holds. -/
theorem disable_succeeds_iff {net : Net} {st : State} (h : Reachable net st) (hcl : net.RetClosed)
    (species : List SpIdent) (reactions : List Nat) :
    (net.disable st species reactions).2 = none ↔
      Known net species reactions ∧
      (¬ Effective st (Requested net species) (ReqR reactions) ∨
       ¬ Refused net st (Requested net species) (ReqR reactions)) := by
  obtain ⟨hwf, hinv⟩ := reachable_inv h
  rcases disable_cases hinv species reactions with
    ⟨e, h1, -, -, hd, hres⟩ | ⟨sids, hs, hr, hd, heff, hb⟩ | ⟨sids, st'', hs, hr, hrec, hd⟩
  · rw [hd]
    simp only [reduceCtorEq, false_iff, not_and]
    intro hk
    obtain ⟨⟨l, hl⟩, hr⟩ := (known_iff hwf).1 hk
    rcases hres with h | h
    · rw [hl] at h; cases h
    · rw [hr] at h; cases h
  · rw [hd]
    simp only [reduceCtorEq, false_iff, not_and, not_or, not_not]
    exact fun _ => ⟨(effective_iff hwf hs).2 heff, (blocked_iff hwf hs).1 hb⟩
  · rw [hd]
    have hac : net.assertConsistency st'' = .ok () := by
      refine assertConsistency_iff.2 ⟨(inv_of_cascade hwf hinv (cascade_of_ok hwf hrec)).ok, ?_⟩
      obtain ⟨hn, ha⟩ := reachable_ret h
      refine retOk_of hn hcl ?_
      rw [(cascade_of_ok hwf hrec).ret]; exact ha
    simp only [hac, true_iff]
    refine ⟨(known_iff hwf).2 ⟨⟨sids, hs⟩, hr⟩, ?_⟩
    by_cases heff : Effective st (Requested net species) (ReqR reactions)
    · exact .inr (not_refused_of_ok hwf hinv hs hrec heff)
    · exact .inl heff

private theorem state_ext {a b : State} (h1 : a.enSp = b.enSp) (h2 : a.protSp = b.protSp)
    (h3 : a.adhocSp = b.adhocSp) (h4 : a.enR = b.enR) (h5 : a.adStick = b.adStick)
    (h6 : a.adRet = b.adRet) (h7 : a.adArrhA = b.adArrhA) : a = b := by
  cases a; cases b; simp_all

/-- **C05.** The outcome of `disable` (state and exception) depends only on the set of requested species
and reactions, not on order, duplicates or the kind of identifier used. -/
theorem disable_request_as_set {net : Net} {st : State} (h : Reachable net st)
    {xs ys : List SpIdent} {rs qs : List Nat} (hk : Known net xs rs) (hk' : Known net ys qs)
    (hS : ∀ i, Requested net xs i ↔ Requested net ys i) (hR : ∀ i, i ∈ rs ↔ i ∈ qs) :
    net.disable st xs rs = net.disable st ys qs := by
  obtain ⟨hwf, hinv⟩ := reachable_inv h
  have hSe : Requested net xs = Requested net ys := funext fun i => propext (hS i)
  have hRe : ReqR rs = ReqR qs := funext fun i => propext (hR i)
  obtain ⟨⟨l, hl⟩, hrr⟩ := (known_iff hwf).1 hk
  obtain ⟨⟨m, hm⟩, hqq⟩ := (known_iff hwf).1 hk'
  have e1 := disable_refused_iff h xs rs
  have e2 := disable_refused_iff h ys qs
  by_cases hd : (net.disable st xs rs).2 = some .disable
  · obtain ⟨-, h1, h2⟩ := e1.1 hd
    have hd' : (net.disable st ys qs).2 = some .disable :=
      e2.2 ⟨hk', by rw [← hSe, ← hRe]; exact h1, by rw [← hSe, ← hRe]; exact h2⟩
    exact Prod.ext ((disable_error_atomic h _ _ hd).trans (disable_error_atomic h _ _ hd').symm)
      (hd.trans hd'.symm)
  · have hd' : ¬ (net.disable st ys qs).2 = some .disable := by
      intro hc
      obtain ⟨-, h1, h2⟩ := e2.1 hc
      exact hd (e1.2 ⟨hk, by rw [hSe, hRe]; exact h1, by rw [hSe, hRe]; exact h2⟩)
    rcases disable_cases hinv xs rs with
      ⟨e, -, -, -, hd1, hres⟩ | ⟨sids, -, -, hd1, -⟩ | ⟨sids, s1, hs, hr, hrec, hd1⟩
    · rcases hres with h | h
      · rw [hl] at h; cases h
      · rw [hrr] at h; cases h
    · rw [hd1] at hd; exact absurd rfl hd
    · rcases disable_cases hinv ys qs with
        ⟨e, -, -, -, hd2, hres⟩ | ⟨tids, -, -, hd2, -⟩ | ⟨tids, s2, ht, hr2, hrec2, hd2⟩
      · rcases hres with h | h
        · rw [hm] at h; cases h
        · rw [hqq] at h; cases h
      · rw [hd2] at hd'; exact absurd rfl hd'
      · have c1 := char_of_ok hwf hinv hrec
        have c2 := char_of_ok hwf hinv hrec2
        have k1 := cascade_of_ok hwf hrec
        have k2 := cascade_of_ok hwf hrec2
        have memEq : ∀ i, i ∈ sids ↔ i ∈ tids := by
          intro i; rw [resolveSpecies_iff hwf hs, resolveSpecies_iff hwf ht, hS]
        have f1 : (fun i => i ∈ sids) = (fun i => i ∈ tids) := funext fun i => propext (memEq i)
        have f2 : (fun i => i ∈ rs) = (fun i => i ∈ qs) := funext fun i => propext (hR i)
        have en : s1.enSp = s2.enSp := by
          funext i; rw [Bool.eq_iff_iff, c1.1, c2.1, f1, f2]
        have enr : s1.enR = s2.enR := by
          funext i; rw [Bool.eq_iff_iff, c1.2.1, c2.2.1, f1, f2]
        have ad : s1.adhocSp = s2.adhocSp := by
          funext i; rw [Bool.eq_iff_iff, c1.2.2, c2.2.2]
          simp only [memEq, hR, OnlyIon, en]
        have : s1 = s2 := state_ext en (k1.prot.trans k2.prot.symm) ad enr (k1.stick.trans k2.stick.symm)
          (k1.ret.trans k2.ret.symm) (k1.arrh.trans k2.arrh.symm)
        rw [hd1, hd2, this]

/-- **C05, refused corner case.** A species that was disabled and then protected makes a joint request
fail although both single requests succeed. -/
theorem disable_joint_refused :
    ∃ net st x y, Reachable net st ∧ (net.disable st [x] []).2 = none ∧
      (net.disable st [y] []).2 = none ∧ (net.disable st [x, y] []).2 = some .disable :=
  ⟨Demo.net, (Demo.net.step (Demo.net.step Demo.st0 (.disable [.id 4] [])).1 (.protect [.id 4])).1,
    .id 4, .id 3, (Demo.reach0.step _).step _, rfl, rfl, rfl⟩

/-- both outcomes of the characterisation occur -/
example : (Demo.net.disable Demo.st0 [.id 3] []).2 = none ∧
    (Demo.net.disable Demo.st0 [.id 3, .id 2] []).2 = some .disable := ⟨rfl, rfl⟩

/-! ### C06 -/

/-- **C06.** Repeating a successful `disable` changes nothing and succeeds. -/
theorem disable_idempotent {net : Net} {st st' : State} (h : Reachable net st)
    {species : List SpIdent} {reactions : List Nat}
    (hd : net.disable st species reactions = (st', none)) :
    net.disable st' species reactions = (st', none) := by
  obtain ⟨hwf, hinv⟩ := reachable_inv h
  rcases disable_cases hinv species reactions with
    ⟨e, -, -, -, he, -⟩ | ⟨sids, -, -, he, -⟩ | ⟨sids, s1, hs, hr, hrec, he⟩
  · rw [he] at hd; simp at hd
  · rw [he] at hd; simp at hd
  · rw [he] at hd
    obtain ⟨rfl, hac⟩ := Prod.mk.inj hd
    have c := cascade_of_ok hwf hrec
    unfold disable
    have : net.disableRec net.fuelBound s1 sids reactions = (s1, none) := by
      unfold fuelBound
      rw [disableRec_succ, if_pos ⟨c.goneS, c.goneR⟩]
    simp only [hs, hr, this]
    cases h' : net.assertConsistency s1 with
    | error e => simp [h'] at hac
    | ok u => rfl

private theorem requested_append {net : Net} {xs ys : List SpIdent} {i : Nat} :
    Requested net (xs ++ ys) i ↔ Requested net xs i ∨ Requested net ys i := by
  unfold Requested
  simp only [List.mem_append]
  constructor
  · rintro ⟨x, h | h, hd⟩
    · exact .inl ⟨x, h, hd⟩
    · exact .inr ⟨x, h, hd⟩
  · rintro (⟨x, h, hd⟩ | ⟨x, h, hd⟩)
    · exact ⟨x, .inl h, hd⟩
    · exact ⟨x, .inr h, hd⟩

private theorem seq_greatest {net : Net} {st s1 s2 : State} (h : Reachable net st)
    {xs ys : List SpIdent} {rs qs : List Nat}
    (h1 : net.disable st xs rs = (s1, none)) (h2 : net.disable s1 ys qs = (s2, none)) :
    s2.enabledPart.Consistent net ∧ s2.enabledPart.Le net st.enabledPart ∧
    s2.enabledPart.Avoids (Requested net (xs ++ ys)) (ReqR (rs ++ qs)) ∧
    ∀ X : Sub, X.Consistent net → X.Le net st.enabledPart →
      X.Avoids (Requested net (xs ++ ys)) (ReqR (rs ++ qs)) → X.Le net s2.enabledPart := by
  have hr1 : Reachable net s1 := by
    have := h.step (.disable xs rs); simp only [step, h1] at this; exact this
  obtain ⟨a1, a2, a3, a4⟩ := disable_greatest h h1
  obtain ⟨b1, b2, b3, b4⟩ := disable_greatest hr1 h2
  have hwf := (reachable_inv h).1
  refine ⟨b1, ⟨fun s hs hh => a2.1 s hs (b2.1 s hs hh), fun s hs hh => a2.2 s hs (b2.2 s hs hh)⟩, ?_, ?_⟩
  · refine ⟨fun i hi hsp => ?_, fun i hi hrx => ?_⟩
    · rcases requested_append.1 hi with h | h
      · obtain ⟨s, hs, rfl⟩ := requested_mem h
        exact a3.1 _ h (b2.1 s hs hsp)
      · exact b3.1 _ h hsp
    · rcases List.mem_append.1 hi with h' | h'
      · have hkn := (disable_cases (reachable_inv h).2 xs rs)
        rcases hkn with ⟨e, -, -, -, he, -⟩ | ⟨sids, -, -, he, -⟩ | ⟨sids, s1', hs, hr, hrec, he⟩
        · rw [he] at h1; simp at h1
        · rw [he] at h1; simp at h1
        · obtain ⟨r, hrm, rfl⟩ := (resolveReactions_spec hr).2 i h'
          exact a3.2 _ h' (b2.2 r hrm hrx)
      · exact b3.2 _ h' hrx
  · intro X hX hle hav
    refine b4 X hX (a4 X hX hle ⟨fun i hi => hav.1 i (requested_append.2 (.inl hi)),
      fun i hi => hav.2 i (List.mem_append.2 (.inl hi))⟩)
      ⟨fun i hi => hav.1 i (requested_append.2 (.inr hi)),
      fun i hi => hav.2 i (List.mem_append.2 (.inr hi))⟩

/-- **C06.** Disabling one request after another gives the same enabled network as disabling both at
once. -/
theorem disable_sequential_eq_joint {net : Net} {st s1 s2 s3 : State} (h : Reachable net st)
    {xs ys : List SpIdent} {rs qs : List Nat}
    (h1 : net.disable st xs rs = (s1, none)) (h2 : net.disable s1 ys qs = (s2, none))
    (h3 : net.disable st (xs ++ ys) (rs ++ qs) = (s3, none)) :
    (∀ s ∈ net.species, s2.enSp s.id = s3.enSp s.id) ∧
    (∀ r ∈ net.reactions, s2.enR r.id = s3.enR r.id) := by
  obtain ⟨a1, a2, a3, a4⟩ := seq_greatest h h1 h2
  obtain ⟨b1, b2, b3, b4⟩ := disable_greatest h h3
  have l1 := b4 _ a1 a2 a3
  have l2 := a4 _ b1 b2 b3
  exact ⟨fun s hs => Bool.eq_iff_iff.2 ⟨l1.1 s hs, l2.1 s hs⟩,
    fun r hr => Bool.eq_iff_iff.2 ⟨l1.2 r hr, l2.2 r hr⟩⟩

/-- **C06.** The order of two successive requests does not matter for the resulting network. -/
theorem disable_order_independent {net : Net} {st s1 s2 t1 t2 : State} (h : Reachable net st)
    {xs ys : List SpIdent} {rs qs : List Nat}
    (h1 : net.disable st xs rs = (s1, none)) (h2 : net.disable s1 ys qs = (s2, none))
    (k1 : net.disable st ys qs = (t1, none)) (k2 : net.disable t1 xs rs = (t2, none)) :
    (∀ s ∈ net.species, s2.enSp s.id = t2.enSp s.id) ∧
    (∀ r ∈ net.reactions, s2.enR r.id = t2.enR r.id) := by
  obtain ⟨a1, a2, a3, a4⟩ := seq_greatest h h1 h2
  obtain ⟨b1, b2, b3, b4⟩ := seq_greatest h k1 k2
  have comm : ∀ X : Sub, X.Avoids (Requested net (xs ++ ys)) (ReqR (rs ++ qs)) ↔
      X.Avoids (Requested net (ys ++ xs)) (ReqR (qs ++ rs)) := by
    intro X
    unfold Sub.Avoids ReqR
    simp only [requested_append, List.mem_append, or_comm]
  have l1 := b4 _ a1 a2 ((comm _).1 a3)
  have l2 := a4 _ b1 b2 ((comm _).2 b3)
  exact ⟨fun s hs => Bool.eq_iff_iff.2 ⟨l1.1 s hs, l2.1 s hs⟩,
    fun r hr => Bool.eq_iff_iff.2 ⟨l1.2 r hr, l2.2 r hr⟩⟩

private theorem forced_mono {net : Net} {st : State} {S R S' R' : Nat → Prop}
    (hS : ∀ i, S i → S' i) (hR : ∀ i, R i → R' i) :
    ∀ i, ForcedS net st S R i → ForcedS net st S' R' i := by
  intro i h
  refine ForcedS.rec (motive_1 := fun i _ => ForcedS net st S' R' i)
    (motive_2 := fun i _ => ForcedR net st S' R' i) ?_ ?_ ?_ ?_ h
  · intro i h1 h2; exact .requested (hS i h1) h2
  · intro s h1 h2 h3 ih; exact .isolated h1 h2 ih
  · intro i h1 h2; exact .requested (hR i h1) h2
  · intro r i h1 h2 h3 _ ih; exact .incomplete h1 h2 h3 ih

/-- **C06.** A part of an acceptable request is acceptable. -/
theorem disable_subrequest {net : Net} {st : State} (h : Reachable net st) (hcl : net.RetClosed)
    {xs ys : List SpIdent} {rs qs : List Nat} (hk : Known net xs rs)
    (hS : ∀ i, Requested net xs i → Requested net ys i) (hR : ∀ i, i ∈ rs → i ∈ qs)
    (hd : (net.disable st ys qs).2 = none) : (net.disable st xs rs).2 = none := by
  rw [disable_succeeds_iff h hcl] at hd ⊢
  refine ⟨hk, ?_⟩
  by_contra hc
  rw [not_or, not_not, not_not] at hc
  obtain ⟨heff, href⟩ := hc
  have heff' : Effective st (Requested net ys) (ReqR qs) := by
    rcases heff with ⟨i, h1, h2⟩ | ⟨i, h1, h2⟩
    · exact .inl ⟨i, hS i h1, h2⟩
    · exact .inr ⟨i, hR i h1, h2⟩
  have href' : Refused net st (Requested net ys) (ReqR qs) := by
    rcases href with ⟨i, h1, h2⟩ | ⟨i, h1, h2⟩ | ⟨hq, hall⟩
    · exact .inl ⟨i, hS i h1, h2⟩
    · exact .inr (.inl ⟨i, forced_mono hS hR i h1, h2⟩)
    · exact .inr (.inr ⟨hq, fun s hs hp he => forced_mono hS hR _ (hall s hs hp he)⟩)
  rcases hd.2 with h' | h'
  · exact h' heff'
  · exact h' href'

/-- all requests of the theorem succeed on the demo chemistry -/
example : (Demo.net.disable Demo.st0 [.id 3] []).2 = none ∧
    (Demo.net.disable (Demo.net.disable Demo.st0 [.id 3] []).1 [] [3]).2 = none ∧
    (Demo.net.disable Demo.st0 [.id 3] [3]).2 = none ∧
    (Demo.net.disable (Demo.net.disable Demo.st0 [] [3]).1 [.id 3] []).2 = none := ⟨rfl, rfl, rfl, rfl⟩

/-! ### C07 -/

/-- **C07.** In every reachable state the enabled network is consistent: enabled reactions only involve
enabled species and every enabled species occurs in an enabled reaction. -/
theorem reachable_consistent {net : Net} {st : State} (h : Reachable net st) :
    st.enabledPart.Consistent net := (reachable_inv h).2.ok.consistent

/-- **C07.** If the return species named in the nominal data exist in the chemistry then
`assert_consistency` passes in every reachable state, so that `disable` only ever fails by refusing the
request or by an unknown identifier. -/
theorem consistency_check_passes {net : Net} {st : State} (h : Reachable net st) (hcl : net.RetClosed) :
    net.assertConsistency st = .ok () ∧
    ∀ species reactions, (net.disable st species reactions).2 ∈
      [none, some .disable, some .speciesNotPresent, some .reactionNotPresent] := by
  obtain ⟨hwf, hinv⟩ := reachable_inv h
  obtain ⟨hn, ha⟩ := reachable_ret h
  refine ⟨assertConsistency_iff.2 ⟨hinv.ok, retOk_of hn hcl ha⟩, ?_⟩
  intro species reactions
  by_cases h0 : (net.disable st species reactions).2 = none
  · simp [h0]
  by_cases h1 : (net.disable st species reactions).2 = some .disable
  · simp [h1]
  have hk : ¬ Known net species reactions := by
    intro hk
    rw [disable_succeeds_iff h hcl] at h0
    rw [disable_refused_iff h] at h1
    apply h0
    refine ⟨hk, ?_⟩
    by_contra hc
    rw [not_or, not_not, not_not] at hc
    exact h1 ⟨hk, hc.1, hc.2⟩
  rw [known_iff hwf, not_and_or] at hk
  unfold disable
  cases hs : net.resolveSpecies species with
  | error e =>
    simp only
    have := resolveSpecies_error hs
    simp [this]
  | ok l =>
    cases hr : net.resolveReactions reactions with
    | error e =>
      simp only
      have := resolveReactions_error hr
      simp [this]
    | ok m =>
      exfalso
      rcases hk with h' | h'
      · exact h' ⟨l, hs⟩
      · obtain ⟨rfl, -⟩ := resolveReactions_spec hr
        exact h' hr

/-- the demo chemistry with a species O which names the missing O2 as its return species -/
def Demo.O : RP := { oid := 9, id := 7, name := str!"O", mass := some 16, stickCoef := some 0,
                     retCoefs := some [(str!"O2", 1)] }
def Demo.r9 : Reaction := { id := 9, reactants := [Demo.O, Demo.Ar], products := [Demo.O, Demo.Ar] }
def Demo.netO : Net := { species := Demo.net.species ++ [Demo.O],
                         reactions := Demo.net.reactions ++ [Demo.r9] }
theorem Demo.initO_ok : Demo.netO.init = .ok Demo.st0 := by rfl

/-- **C07, limit.** Without that hypothesis the check can fail: a species with sticking coefficient 0 may
name a missing return species; an ad-hoc sticking coefficient is then rejected but stays stored, and
every later `disable` raises `ChemistryConsistencyError` even for an empty request. -/
theorem consistency_check_can_fail :
    ∃ net st, Reachable net st ∧ (net.disable st [] []).2 = some .consistency :=
  ⟨Demo.netO, (Demo.netO.step Demo.st0 (.adhocStick (.id 7) 1)).1, .step _ (.init Demo.initO_ok), rfl⟩

/-- the demo chemistry satisfies the hypothesis -/
example : Demo.net.RetClosed := by
  intro s hs d hd p hp
  have : ∀ s ∈ Demo.net.species, ∀ d ∈ (match s.getRetCoefs with
      | .ok (some d) => [d] | _ => []), ∀ p ∈ d, ∃ t ∈ Demo.net.species, t.name = p.1 := by
    decide
  exact this s hs d (by simp [hd]) p hp

/-! ### C08 -/

/-- **C08.** After `reset` nothing is disabled, the automatic protection is gone, and the user protection
and the ad-hoc attributes are what they were. -/
theorem reset_enables_all (net : Net) (st : State) :
    net.getDisabledSpecies (reset st) = [] ∧ net.getDisabledReactions (reset st) = [] ∧
    (∀ i, (reset st).adhocSp i = false) ∧ (reset st).protSp = st.protSp ∧
    (reset st).adStick = st.adStick ∧ (reset st).adRet = st.adRet ∧ (reset st).adArrhA = st.adArrhA := by
  refine ⟨?_, ?_, fun _ => rfl, rfl, rfl, rfl, rfl⟩
  · simp [getDisabledSpecies, reset]
  · simp [getDisabledReactions, reset]

/-- **C08.** Any history of `disable` and `reset` calls on a new chemistry, whatever their outcomes, is
undone completely by a final `reset`. -/
theorem reset_undoes_disables {net : Net} {st0 : State} (h : net.init = .ok st0) (ops : List Op)
    (hops : ∀ o ∈ ops, (∃ sp rx, o = .disable sp rx) ∨ o = .reset) :
    reset (net.run st0 ops) = st0 := by
  have key : ∀ st, Reachable net st → st.protSp = st0.protSp → st.adStick = st0.adStick →
      st.adRet = st0.adRet → st.adArrhA = st0.adArrhA → reset (net.run st ops) = st0 := by
    induction ops with
    | nil =>
      intro st _ h1 h2 h3 h4
      have hi := init_spec h
      exact state_ext hi.2.2.1.symm h1 hi.2.2.2.2.1.symm hi.2.2.2.1.symm h2 h3 h4
    | cons o ops ih =>
      intro st hr h1 h2 h3 h4
      have ho := hops o (by simp)
      have hr' := hr.step o
      have hsame : (net.step st o).1.protSp = st.protSp ∧ (net.step st o).1.adStick = st.adStick ∧
          (net.step st o).1.adRet = st.adRet ∧ (net.step st o).1.adArrhA = st.adArrhA := by
        rcases ho with ⟨sp, rx, rfl⟩ | rfl
        · obtain ⟨hwf, hinv⟩ := reachable_inv hr
          simp only [step]
          rcases disable_cases hinv sp rx with
            ⟨e, -, -, -, he, -⟩ | ⟨sids, -, -, he, -⟩ | ⟨sids, s1, hs, _, hrec, he⟩
          · rw [he]; exact ⟨rfl, rfl, rfl, rfl⟩
          · rw [he]; exact ⟨rfl, rfl, rfl, rfl⟩
          · rw [he]
            have c := cascade_of_ok hwf hrec
            exact ⟨c.prot, c.stick, c.ret, c.arrh⟩
        · exact ⟨rfl, rfl, rfl, rfl⟩
      exact ih (fun o' ho' => hops o' (by simp [ho'])) _ hr' (hsame.1.trans h1) (hsame.2.1.trans h2)
        (hsame.2.2.1.trans h3) (hsame.2.2.2.trans h4)
  exact key st0 (.init h) rfl rfl rfl rfl

example : reset (Demo.net.run Demo.st0 [.disable [.id 3] [], .disable [.id 1] [], .reset,
    .disable [.id 4] [2]]) = Demo.st0 :=
  reset_undoes_disables Demo.init_ok _ (by
    intro o ho
    rcases List.mem_cons.1 ho with rfl | ho
    · exact .inl ⟨_, _, rfl⟩
    rcases List.mem_cons.1 ho with rfl | ho
    · exact .inl ⟨_, _, rfl⟩
    rcases List.mem_cons.1 ho with rfl | ho
    · exact .inr rfl
    rcases List.mem_cons.1 ho with rfl | ho
    · exact .inl ⟨_, _, rfl⟩
    cases ho)

/-! ### C09 -/

/-- **C09.** The cascade never needs more than (number of species + number of reactions + 1) nested
rounds: allowing more rounds gives the same result, and the model never runs out of rounds. -/
theorem disable_terminates {net : Net} {st : State} (h : Reachable net st) (species : List SpIdent)
    (reactions : List Nat) :
    (net.disable st species reactions).2 ≠ some .fuel ∧
    ∀ sids rids, (∀ i ∈ sids, ∃ s ∈ net.species, s.id = i) → (∀ i ∈ rids, ∃ r ∈ net.reactions, r.id = i) →
      ∀ n, net.species.length + net.reactions.length + 1 ≤ n →
        net.disableRec n st sids rids =
          net.disableRec (net.species.length + net.reactions.length + 1) st sids rids := by
  obtain ⟨hwf, hinv⟩ := reachable_inv h
  constructor
  · rcases disable_cases hinv species reactions with
      ⟨e, -, h1, -, he, -⟩ | ⟨sids, -, -, he, -⟩ | ⟨sids, s1, hs, _, hrec, he⟩
    · rw [he]; simpa using h1
    · rw [he]; simp
    · rw [he]
      simp only
      split
      · rename_i e hac
        rw [assertConsistency_error (reachable_ret h).1 hac]; simp
      · simp
  · intro sids rids hmS hmR n hn
    have hmeas : net.measure st < net.species.length + net.reactions.length + 1 := by
      have l1 := List.length_filter_le (fun s : RP => st.enSp s.id) net.species
      have l2 := List.length_filter_le (fun s : Reaction => st.enR s.id) net.reactions
      unfold Net.measure; omega
    exact disableRec_fuel hmS hmR (by omega) hmeas

/-- the cascade really needs several rounds on the demo chemistry -/
example : (Demo.net.disableRec 2 Demo.st0 [1] []).2 = some .fuel ∧
    (Demo.net.disableRec 12 Demo.st0 [1] []).2 = none := ⟨rfl, rfl⟩

/-! ### C18 -/

/-- **C18.** The species filter returns, in construction order and without duplicates, exactly the
species that pass all three conditions. -/
theorem getSpecies_exact {net : Net} {st : State} (h : Reachable net st) (disabled special prot : Bool) :
    (net.getSpecies st disabled special prot).Sublist net.species ∧
    ((net.getSpecies st disabled special prot).map RP.id).Nodup ∧
    ∀ s, s ∈ net.getSpecies st disabled special prot ↔
      s ∈ net.species ∧ (disabled = false → st.enSp s.id = true) ∧
      (special = false → s.name ≠ str!"e" ∧ s.name ≠ str!"M") ∧
      (prot = false → ¬ st.Protected s.id) := by
  obtain ⟨hwf, hinv⟩ := reachable_inv h
  refine ⟨List.filter_sublist, hwf.spNodup.sublist (List.filter_sublist.map _), ?_⟩
  intro s
  unfold getSpecies speciesMask State.Protected
  simp only [List.mem_filter, Bool.and_eq_true, Bool.or_eq_true, Bool.not_eq_true',
    special_false_iff, Bool.or_eq_false_iff, not_or, Bool.not_eq_true]
  cases disabled <;> cases special <;> cases prot <;> simp [and_assoc]

example : (Demo.net.getSpecies (Demo.net.disable Demo.st0 [.id 4] []).1 false false true).map RP.id =
    [1, 2, 3] := rfl

end Verif.Plaschem
