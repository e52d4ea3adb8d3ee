/-
Helper lemmas about the disabling cascade.
-/
import Verif.Plaschem.ChemLemmas

namespace Verif.Plaschem
namespace Net

theorem setMask_true {f : Nat → Bool} {ids : List Nat} {i : Nat} :
    setMask f ids true i = true ↔ i ∈ ids ∨ f i = true := by
  unfold setMask; split <;> simp_all

theorem setMask_false {f : Nat → Bool} {ids : List Nat} {i : Nat} :
    setMask f ids false i = true ↔ i ∉ ids ∧ f i = true := by
  unfold setMask; split <;> simp_all

/-- the state after one round of masking -/
def masked (st : State) (sids rids : List Nat) : State :=
  { st with enSp := setMask st.enSp (sids.filter (fun i => st.enSp i)) false,
            enR := setMask st.enR (rids.filter (fun i => st.enR i)) false }

theorem masked_enSp {st : State} {sids rids : List Nat} {i : Nat} :
    (masked st sids rids).enSp i = true ↔ st.enSp i = true ∧ i ∉ sids := by
  simp only [masked, setMask_false, List.mem_filter]; tauto

theorem masked_enR {st : State} {sids rids : List Nat} {i : Nat} :
    (masked st sids rids).enR i = true ↔ st.enR i = true ∧ i ∉ rids := by
  simp only [masked, setMask_false, List.mem_filter]; tauto

/-- the possible outcomes of the charge check -/
theorem chargeStep_ok {net : Net} {st st2 : State} (h : net.chargeStep st = .ok st2) :
    st2.enSp = st.enSp ∧ st2.enR = st.enR ∧ st2.protSp = st.protSp ∧
    st2.adStick = st.adStick ∧ st2.adRet = st.adRet ∧ st2.adArrhA = st.adArrhA ∧
    (net.requiresCharge = true → net.positiveIons st ≠ []) ∧
    (∀ i, st2.adhocSp i = true ↔
      st.adhocSp i = true ∨ (net.requiresCharge = true ∧ ∃ s, net.positiveIons st = [s] ∧ s.id = i)) := by
  unfold chargeStep at h
  split at h
  · rename_i hq
    split at h
    · simp at h
    · rename_i s hs
      simp at h; subst h
      refine ⟨rfl, rfl, rfl, rfl, rfl, rfl, by simp [hs], ?_⟩
      intro i
      rw [setMask_true]
      simp only [List.mem_singleton, hs, hq, true_and, List.cons.injEq, and_true, exists_eq_left']
      rw [or_comm, eq_comm (a := i)]
    · rename_i h1 h2
      simp at h; subst h
      refine ⟨rfl, rfl, rfl, rfl, rfl, rfl, fun _ => h1, ?_⟩
      intro i
      refine ⟨Or.inl, ?_⟩
      rintro (h | ⟨_, s, hs, _⟩)
      · exact h
      · exact absurd hs (h2 s)
  · rename_i hq
    simp at h; subst h
    refine ⟨rfl, rfl, rfl, rfl, rfl, rfl, fun h => absurd h hq, ?_⟩
    intro i; simp [hq]

theorem chargeStep_err {net : Net} {st : State} {e : Err} (h : net.chargeStep st = .error e) :
    e = .disable ∧ net.requiresCharge = true ∧ net.positiveIons st = [] := by
  unfold chargeStep at h
  split at h
  · rename_i hq
    split at h
    · rename_i hp; simp at h; exact ⟨h.symm, hq, hp⟩
    · simp at h
    · simp at h
  · simp at h

theorem positiveIons_congr {net : Net} {st st2 : State} (h : st2.enSp = st.enSp) :
    net.positiveIons st2 = net.positiveIons st := by
  unfold positiveIons getSpecies speciesMask; simp [h]

/-- unfolding of one round of the cascade -/
theorem disableRec_succ (net : Net) (k : Nat) (st : State) (sids rids : List Nat) :
    net.disableRec (k + 1) st sids rids =
      if (∀ i ∈ sids, st.enSp i = false) ∧ (∀ i ∈ rids, st.enR i = false) then (st, none)
      else if ∃ i ∈ sids, i ∈ net.protectedIds st then (st, some .disable)
      else match net.chargeStep (masked st sids rids) with
        | .error e => (masked st sids rids, some e)
        | .ok st2 =>
          if net.disconnectedSpecies st2 = [] ∧ net.disconnectedReactions st2 = [] then (st2, none)
          else net.disableRec k st2 (net.disconnectedSpecies st2) (net.disconnectedReactions st2) := by
  conv_lhs => unfold disableRec
  simp only [List.filter_eq_nil_iff, Bool.not_eq_true, List.any_eq_true, decide_eq_true_eq]
  rfl

/-- consistency of the enabled part after a cascade -/
theorem consistent_of_connected {net : Net} (hwf : WF net) {st : State}
    (h1 : net.disconnectedSpecies st = []) (h2 : net.disconnectedReactions st = []) :
    st.enabledPart.Consistent net := by
  constructor
  · intro r hr he i ho
    by_contra hc
    obtain ⟨s, hs, rfl, -⟩ := hwf.occurs_mem hr ho
    have : r.id ∈ net.disconnectedReactions st :=
      mem_disconnectedReactions.2 ⟨r, hr, rfl, he, s, hs, by simpa [State.enabledPart] using hc, ho⟩
    simp [h2] at this
  · intro s hs he
    by_contra hc
    have : s.id ∈ net.disconnectedSpecies st := by
      refine mem_disconnectedSpecies.2 ⟨s, hs, rfl, he, ?_⟩
      intro r hr her ho
      exact hc ⟨r, hr, her, ho⟩
    simp [h1] at this

/-- everything known about a cascade that returns normally -/
structure Cascade (net : Net) (st st' : State) (sids rids : List Nat) : Prop where
  monoS : ∀ i, st'.enSp i = true → st.enSp i = true
  monoR : ∀ i, st'.enR i = true → st.enR i = true
  prot : st'.protSp = st.protSp
  adhoc : ∀ i, st.adhocSp i = true → st'.adhocSp i = true
  stick : st'.adStick = st.adStick
  ret : st'.adRet = st.adRet
  arrh : st'.adArrhA = st.adArrhA
  keeps : ∀ i, (∃ s ∈ net.species, s.id = i) → st.Protected i → st.enSp i = true → st'.enSp i = true
  goneS : ∀ i ∈ sids, st'.enSp i = false
  goneR : ∀ i ∈ rids, st'.enR i = false
  outcome : st' = st ∨
    ((∀ i ∈ sids, (∃ s ∈ net.species, s.id = i) → ¬ st.Protected i) ∧
     st'.enabledPart.Consistent net ∧
     (net.requiresCharge = true → net.positiveIons st' ≠ []) ∧
     (net.requiresCharge = true → ∀ s, net.positiveIons st' = [s] → st'.adhocSp s.id = true))

theorem cascade_of_ok {net : Net} (hwf : WF net) {k : Nat} {st st' : State} {sids rids : List Nat}
    (h : net.disableRec k st sids rids = (st', none)) : Cascade net st st' sids rids := by
  induction k generalizing st sids rids with
  | zero => simp [disableRec] at h
  | succ k ih =>
    rw [disableRec_succ] at h
    split at h
    · rename_i hno
      simp at h; subst h
      exact ⟨fun _ h => h, fun _ h => h, rfl, fun _ h => h, rfl, rfl, rfl, fun _ _ _ h => h,
        hno.1, hno.2, .inl rfl⟩
    · rename_i hno
      split at h
      · simp at h
      · rename_i hnp
        have hnp' : ∀ i ∈ sids, (∃ s ∈ net.species, s.id = i) → ¬ st.Protected i := by
          intro i hi hs hp
          exact hnp ⟨i, hi, mem_protectedIds.2 ⟨hs, hp⟩⟩
        cases hcs : net.chargeStep (masked st sids rids) with
        | error e => simp [hcs] at h
        | ok st2 =>
          simp only [hcs] at h
          obtain ⟨e1, e2, e3, e4, e5, e6, hpos, had⟩ := chargeStep_ok hcs
          have hS : ∀ i, st2.enSp i = true ↔ st.enSp i = true ∧ i ∉ sids := by
            intro i; rw [e1]; exact masked_enSp
          have hR : ∀ i, st2.enR i = true ↔ st.enR i = true ∧ i ∉ rids := by
            intro i; rw [e2]; exact masked_enR
          have hadm : ∀ i, st.adhocSp i = true → st2.adhocSp i = true := by
            intro i hi; exact (had i).2 (.inl hi)
          have hprot : st2.protSp = st.protSp := e3
          have hkeep : ∀ i, (∃ s ∈ net.species, s.id = i) → st.Protected i → st.enSp i = true →
              st2.enSp i = true := by
            intro i hs hp he
            exact (hS i).2 ⟨he, fun hi => hnp' i hi hs hp⟩
          have hadsing : net.requiresCharge = true → ∀ s, net.positiveIons st2 = [s] →
              st2.adhocSp s.id = true := by
            intro hq s hs
            rw [positiveIons_congr e1] at hs
            exact (had s.id).2 (.inr ⟨hq, s, hs, rfl⟩)
          split at h
          · rename_i hconn
            simp at h; subst h
            refine ⟨fun i hi => ((hS i).1 hi).1, fun i hi => ((hR i).1 hi).1, hprot, hadm, e4, e5, e6,
              hkeep, ?_, ?_, .inr ⟨hnp', consistent_of_connected hwf hconn.1 hconn.2, ?_, hadsing⟩⟩
            · intro i hi; by_contra hc; exact ((hS i).1 (by simpa using hc)).2 hi
            · intro i hi; by_contra hc; exact ((hR i).1 (by simpa using hc)).2 hi
            · intro hq; rw [positiveIons_congr e1]; exact hpos hq
          · rename_i hconn
            have c := ih h
            refine ⟨fun i hi => ((hS i).1 (c.monoS i hi)).1, fun i hi => ((hR i).1 (c.monoR i hi)).1,
              by rw [c.prot, hprot], fun i hi => c.adhoc i (hadm i hi), by rw [c.stick, e4]; rfl,
              by rw [c.ret, e5]; rfl, by rw [c.arrh, e6]; rfl, ?_, ?_, ?_, .inr ⟨hnp', ?_⟩⟩
            · intro i hs hp he
              refine c.keeps i hs ?_ (hkeep i hs hp he)
              rcases hp with hp | hp
              · left; rw [hprot]; exact hp
              · right; exact hadm i hp
            · intro i hi; by_contra hc
              exact ((hS i).1 (c.monoS i (by simpa using hc))).2 hi
            · intro i hi; by_contra hc
              exact ((hR i).1 (c.monoR i (by simpa using hc))).2 hi
            · rcases c.outcome with heq | ho
              · -- the recursive call always finds something to disable
                exfalso
                apply hconn
                subst heq
                constructor
                · rw [List.eq_nil_iff_forall_not_mem]
                  intro i hi
                  have h1 := c.goneS i hi
                  obtain ⟨s, hs, rfl, he, -⟩ := mem_disconnectedSpecies.1 hi
                  rw [he] at h1; cases h1
                · rw [List.eq_nil_iff_forall_not_mem]
                  intro i hi
                  have h1 := c.goneR i hi
                  obtain ⟨s, hs, rfl, he, -⟩ := mem_disconnectedReactions.1 hi
                  rw [he] at h1; cases h1
              · exact ho.2

/-! ### forced removals -/

/-- what is known about an intermediate state of a cascade started in `st0` -/
structure Mid (net : Net) (st0 : State) (S0 R0 : Nat → Prop) (st : State) (sids rids : List Nat) :
    Prop where
  prot : st.protSp = st0.protSp
  monoS : ∀ i, st.enSp i = true → st0.enSp i = true
  monoR : ∀ i, st.enR i = true → st0.enR i = true
  remS : ∀ i, st0.enSp i = true → st.enSp i = false → ForcedS net st0 S0 R0 i
  remR : ∀ i, st0.enR i = true → st.enR i = false → ForcedR net st0 S0 R0 i
  reqS : ∀ i ∈ sids, S0 i ∨ ForcedS net st0 S0 R0 i
  reqR : ∀ i ∈ rids, R0 i ∨ ForcedR net st0 S0 R0 i
  adhoc : ∀ i, st.adhocSp i = true → st0.adhocSp i = true ∨
    (net.requiresCharge = true ∧ st0.enSp i = true ∧
      ∀ s ∈ net.positiveIons st0, s.id ≠ i → ForcedS net st0 S0 R0 s.id)

theorem Mid.start (net : Net) (st : State) (S0 R0 : List Nat) :
    Mid net st (fun i => i ∈ S0) (fun i => i ∈ R0) st S0 R0 :=
  ⟨rfl, fun _ h => h, fun _ h => h, fun i h1 h2 => (by rw [h1] at h2; cases h2),
   fun i h1 h2 => (by rw [h1] at h2; cases h2), fun _ h => .inl h, fun _ h => .inl h, fun _ h => .inl h⟩

theorem Mid.forcedS {net : Net} {st0 : State} {S0 R0 : Nat → Prop} {st : State} {sids rids : List Nat}
    (m : Mid net st0 S0 R0 st sids rids) {i : Nat} (hi : i ∈ sids) (he : st0.enSp i = true) :
    ForcedS net st0 S0 R0 i := by
  rcases m.reqS i hi with h | h
  · exact .requested h he
  · exact h

theorem Mid.forcedR {net : Net} {st0 : State} {S0 R0 : Nat → Prop} {st : State} {sids rids : List Nat}
    (m : Mid net st0 S0 R0 st sids rids) {i : Nat} (hi : i ∈ rids) (he : st0.enR i = true) :
    ForcedR net st0 S0 R0 i := by
  rcases m.reqR i hi with h | h
  · exact .requested h he
  · exact h

theorem Mid.next {net : Net} {st0 : State} (hcons : st0.enabledPart.Consistent net)
    {S0 R0 : Nat → Prop} {st st2 : State}
    {sids rids : List Nat} (m : Mid net st0 S0 R0 st sids rids)
    (hcs : net.chargeStep (masked st sids rids) = .ok st2) :
    Mid net st0 S0 R0 st2 (net.disconnectedSpecies st2) (net.disconnectedReactions st2) := by
  obtain ⟨e1, e2, e3, e4, e5, e6, hpos, had⟩ := chargeStep_ok hcs
  have hS : ∀ i, st2.enSp i = true ↔ st.enSp i = true ∧ i ∉ sids := by
    intro i; rw [e1]; exact masked_enSp
  have hR : ∀ i, st2.enR i = true ↔ st.enR i = true ∧ i ∉ rids := by
    intro i; rw [e2]; exact masked_enR
  have hremS : ∀ i, st0.enSp i = true → st2.enSp i = false → ForcedS net st0 S0 R0 i := by
    intro i h0 h2
    by_cases hs : st.enSp i = true
    · have : i ∈ sids := by
        by_contra hc; rw [(hS i).2 ⟨hs, hc⟩] at h2; cases h2
      exact m.forcedS this h0
    · exact m.remS i h0 (by simpa using hs)
  have hremR : ∀ i, st0.enR i = true → st2.enR i = false → ForcedR net st0 S0 R0 i := by
    intro i h0 h2
    by_cases hs : st.enR i = true
    · have : i ∈ rids := by
        by_contra hc; rw [(hR i).2 ⟨hs, hc⟩] at h2; cases h2
      exact m.forcedR this h0
    · exact m.remR i h0 (by simpa using hs)
  refine ⟨by rw [e3]; exact m.prot, fun i hi => m.monoS i ((hS i).1 hi).1,
    fun i hi => m.monoR i ((hR i).1 hi).1, hremS, hremR, ?_, ?_, ?_⟩
  · intro i hi
    obtain ⟨s, hs, rfl, he, hno⟩ := mem_disconnectedSpecies.1 hi
    right
    refine .isolated hs (m.monoS _ ((hS _).1 he).1) ?_
    intro r hr her ho
    refine hremR _ her ?_
    by_contra hc
    exact hno r hr (by simpa using hc) ho
  · intro i hi
    obtain ⟨r, hr, rfl, he, s, hs, hes, ho⟩ := mem_disconnectedReactions.1 hi
    right
    have h0 := m.monoR _ ((hR _).1 he).1
    refine .incomplete hr h0 ho (hremS _ ?_ hes)
    exact hcons.1 r hr h0 _ ho
  · intro i hi
    rcases (had i).1 hi with h | ⟨hq, s, hs, rfl⟩
    · exact m.adhoc i h
    · right
      have hsm : s ∈ net.positiveIons (masked st sids rids) := by rw [hs]; simp
      obtain ⟨h1, h2, h3⟩ := mem_positiveIons.1 hsm
      refine ⟨hq, m.monoS _ (masked_enSp.1 h2).1, ?_⟩
      intro t ht hne
      obtain ⟨t1, t2, t3⟩ := mem_positiveIons.1 ht
      refine hremS _ t2 ?_
      by_contra hc
      rw [e1] at hc
      have : t ∈ net.positiveIons (masked st sids rids) :=
        mem_positiveIons.2 ⟨t1, by simpa using hc, t3⟩
      rw [hs] at this
      simp at this
      exact hne (by rw [this])

/-- why a request is refused -/
def Blocked (net : Net) (st0 : State) (S0 R0 : Nat → Prop) : Prop :=
  (∃ i, S0 i ∧ i ∈ net.protectedIds st0) ∨
  (∃ i, ForcedS net st0 S0 R0 i ∧ i ∈ net.protectedIds st0) ∨
  (net.requiresCharge = true ∧ ∀ s ∈ net.positiveIons st0, ForcedS net st0 S0 R0 s.id)

/-- number of enabled items -/
def measure (net : Net) (st : State) : Nat :=
  (net.species.filter (fun s => st.enSp s.id)).length +
  (net.reactions.filter (fun r => st.enR r.id)).length

theorem filter_length_le {α : Type} (l : List α) (p q : α → Bool) (h : ∀ a ∈ l, p a = true → q a = true) :
    (l.filter p).length ≤ (l.filter q).length := by
  induction l with
  | nil => simp
  | cons a l ih =>
    have ih := ih (fun b hb => h b (by simp [hb]))
    have ha := h a (by simp)
    by_cases hp : p a = true
    · simp [hp, ha hp]; exact ih
    · by_cases hq : q a = true
      · simp [hp, hq]; omega
      · simp [hp, hq]; exact ih

theorem filter_length_lt {α : Type} (l : List α) (p q : α → Bool) (h : ∀ a ∈ l, p a = true → q a = true)
    (b : α) (hb : b ∈ l) (hpb : p b = false) (hqb : q b = true) :
    (l.filter p).length < (l.filter q).length := by
  induction l with
  | nil => simp at hb
  | cons a l ih =>
    rcases List.mem_cons.1 hb with rfl | hb
    · have := filter_length_le l p q (fun c hc => h c (by simp [hc]))
      simp [hpb, hqb]; omega
    · have ih := ih (fun c hc => h c (by simp [hc])) hb
      have ha := h a (by simp)
      by_cases hp : p a = true
      · simp [hp, ha hp]; exact ih
      · by_cases hq : q a = true
        · simp [hp, hq]; omega
        · simp [hp, hq]; exact ih

theorem measure_lt {net : Net} {st st2 : State} {sids rids : List Nat}
    (hmS : ∀ i ∈ sids, ∃ s ∈ net.species, s.id = i) (hmR : ∀ i ∈ rids, ∃ r ∈ net.reactions, r.id = i)
    (hS : ∀ i, st2.enSp i = true ↔ st.enSp i = true ∧ i ∉ sids)
    (hR : ∀ i, st2.enR i = true ↔ st.enR i = true ∧ i ∉ rids)
    (hno : ¬ ((∀ i ∈ sids, st.enSp i = false) ∧ (∀ i ∈ rids, st.enR i = false))) :
    net.measure st2 < net.measure st := by
  unfold measure
  have l1 := filter_length_le net.species (fun s => st2.enSp s.id) (fun s => st.enSp s.id)
    (fun s _ h => ((hS _).1 h).1)
  have l2 := filter_length_le net.reactions (fun s => st2.enR s.id) (fun s => st.enR s.id)
    (fun s _ h => ((hR _).1 h).1)
  rw [not_and_or] at hno
  rcases hno with h | h
  · simp only [not_forall] at h
    obtain ⟨i, hi, he⟩ := h
    obtain ⟨s, hs, rfl⟩ := hmS i hi
    have := filter_length_lt net.species (fun s => st2.enSp s.id) (fun s => st.enSp s.id)
      (fun s _ h => ((hS _).1 h).1) s hs (by
        by_contra hc; exact ((hS _).1 (by simpa using hc)).2 hi) (by simpa using he)
    omega
  · simp only [not_forall] at h
    obtain ⟨i, hi, he⟩ := h
    obtain ⟨s, hs, rfl⟩ := hmR i hi
    have := filter_length_lt net.reactions (fun s => st2.enR s.id) (fun s => st.enR s.id)
      (fun s _ h => ((hR _).1 h).1) s hs (by
        by_contra hc; exact ((hR _).1 (by simpa using hc)).2 hi) (by simpa using he)
    omega

theorem blocked_of_err {net : Net} {st0 : State}
    (hcons : st0.enabledPart.Consistent net) {S0 R0 : Nat → Prop}
    {k : Nat} {st st' : State} {sids rids : List Nat} {e : Err}
    (m : Mid net st0 S0 R0 st sids rids)
    (hmS : ∀ i ∈ sids, ∃ s ∈ net.species, s.id = i) (hmR : ∀ i ∈ rids, ∃ r ∈ net.reactions, r.id = i)
    (hk : net.measure st < k)
    (h : net.disableRec k st sids rids = (st', some e)) :
    e = .disable ∧ Blocked net st0 S0 R0 ∧
      st'.adStick = st.adStick ∧ st'.adRet = st.adRet ∧ st'.adArrhA = st.adArrhA := by
  induction k generalizing st sids rids with
  | zero => omega
  | succ k ih =>
    rw [disableRec_succ] at h
    split at h
    · simp at h
    rename_i hno
    split at h
    · rename_i hp
      obtain ⟨i, hi, hpi⟩ := hp
      simp at h
      refine ⟨h.2.symm, ?_, by rw [h.1], by rw [h.1], by rw [h.1]⟩
      obtain ⟨hsp, hpr⟩ := mem_protectedIds.1 hpi
      rcases hpr with hpr | hpr
      · have : i ∈ net.protectedIds st0 := mem_protectedIds.2 ⟨hsp, .inl (by rw [← m.prot]; exact hpr)⟩
        rcases m.reqS i hi with h' | h'
        · exact .inl ⟨i, h', this⟩
        · exact .inr (.inl ⟨i, h', this⟩)
      · rcases m.adhoc i hpr with h0 | ⟨hq, he, hall⟩
        · have : i ∈ net.protectedIds st0 := mem_protectedIds.2 ⟨hsp, .inr h0⟩
          rcases m.reqS i hi with h' | h'
          · exact .inl ⟨i, h', this⟩
          · exact .inr (.inl ⟨i, h', this⟩)
        · right; right
          refine ⟨hq, fun s hs => ?_⟩
          by_cases hsi : s.id = i
          · rw [hsi]; exact m.forcedS hi he
          · exact hall s hs hsi
    · rename_i hnp
      cases hcs : net.chargeStep (masked st sids rids) with
      | error e' =>
        simp [hcs] at h
        obtain ⟨he, hq, hpos⟩ := chargeStep_err hcs
        refine ⟨by rw [← h.2, he], .inr (.inr ⟨hq, ?_⟩), by rw [← h.1]; rfl, by rw [← h.1]; rfl,
          by rw [← h.1]; rfl⟩
        intro s hs
        obtain ⟨s1, s2, s3⟩ := mem_positiveIons.1 hs
        by_cases hen : st.enSp s.id = true
        · have : s.id ∈ sids := by
            by_contra hc
            have : s ∈ net.positiveIons (masked st sids rids) :=
              mem_positiveIons.2 ⟨s1, masked_enSp.2 ⟨hen, hc⟩, s3⟩
            rw [hpos] at this; cases this
          exact m.forcedS this s2
        · exact m.remS _ s2 (by simpa using hen)
      | ok st2 =>
        simp only [hcs] at h
        split at h
        · simp at h
        · obtain ⟨e1, e2, e3, e4, e5, e6, hpos, had⟩ := chargeStep_ok hcs
          have hS : ∀ i, st2.enSp i = true ↔ st.enSp i = true ∧ i ∉ sids := by
            intro i; rw [e1]; exact masked_enSp
          have hR : ∀ i, st2.enR i = true ↔ st.enR i = true ∧ i ∉ rids := by
            intro i; rw [e2]; exact masked_enR
          have hlt := measure_lt hmS hmR hS hR hno
          have := ih (m.next hcons hcs)
            (fun i hi => by
              obtain ⟨s, hs, h1, -⟩ := mem_disconnectedSpecies.1 hi; exact ⟨s, hs, h1⟩)
            (fun i hi => by
              obtain ⟨s, hs, h1, -⟩ := mem_disconnectedReactions.1 hi; exact ⟨s, hs, h1⟩)
            (by omega) h
          refine ⟨this.1, this.2.1, ?_, ?_, ?_⟩
          · rw [this.2.2.1, e4]; rfl
          · rw [this.2.2.2.1, e5]; rfl
          · rw [this.2.2.2.2, e6]; rfl

/-- the number of rounds is bounded by the number of enabled items -/
theorem disableRec_fuel {net : Net} {st : State} {sids rids : List Nat} {m n : Nat}
    (hmS : ∀ i ∈ sids, ∃ s ∈ net.species, s.id = i) (hmR : ∀ i ∈ rids, ∃ r ∈ net.reactions, r.id = i)
    (hm : net.measure st < m) (hn : net.measure st < n) :
    net.disableRec m st sids rids = net.disableRec n st sids rids := by
  induction m generalizing n st sids rids with
  | zero => omega
  | succ m ih =>
    cases n with
    | zero => omega
    | succ n =>
      rw [disableRec_succ, disableRec_succ]
      split
      · rfl
      · rename_i hno
        split
        · rfl
        · cases hcs : net.chargeStep (masked st sids rids) with
          | error e => rfl
          | ok st2 =>
            simp only
            split
            · rfl
            · obtain ⟨e1, e2, -⟩ := chargeStep_ok hcs
              have hlt := measure_lt (st2 := st2) hmS hmR (fun i => by rw [e1]; exact masked_enSp)
                (fun i => by rw [e2]; exact masked_enR) hno
              exact ih
                (fun i hi => by
                  obtain ⟨s, hs, h1, -⟩ := mem_disconnectedSpecies.1 hi; exact ⟨s, hs, h1⟩)
                (fun i hi => by
                  obtain ⟨s, hs, h1, -⟩ := mem_disconnectedReactions.1 hi; exact ⟨s, hs, h1⟩)
                (by omega) (by omega)

/-- after a cascade only forced items are gone -/
theorem forced_of_removed {net : Net} {st0 : State}
    (hcons : st0.enabledPart.Consistent net) {S0 R0 : Nat → Prop}
    {k : Nat} {st st' : State} {sids rids : List Nat}
    (m : Mid net st0 S0 R0 st sids rids)
    (h : net.disableRec k st sids rids = (st', none)) :
    (∀ i, st0.enSp i = true → st'.enSp i = false → ForcedS net st0 S0 R0 i) ∧
    (∀ i, st0.enR i = true → st'.enR i = false → ForcedR net st0 S0 R0 i) ∧
    (∀ i, st'.adhocSp i = true → st0.adhocSp i = true ∨
      (net.requiresCharge = true ∧ st0.enSp i = true ∧
        ∀ s ∈ net.positiveIons st0, s.id ≠ i → ForcedS net st0 S0 R0 s.id)) := by
  induction k generalizing st sids rids with
  | zero => simp [disableRec] at h
  | succ k ih =>
    rw [disableRec_succ] at h
    split at h
    · simp at h; subst h; exact ⟨m.remS, m.remR, m.adhoc⟩
    split at h
    · simp at h
    · cases hcs : net.chargeStep (masked st sids rids) with
      | error e' => simp [hcs] at h
      | ok st2 =>
        simp only [hcs] at h
        have m2 := m.next hcons hcs
        split at h
        · simp at h; subst h; exact ⟨m2.remS, m2.remR, m2.adhoc⟩
        · exact ih m2 h

/-- forced items do not survive in any consistent part that avoids the request -/
theorem not_forced_of_consistent {net : Net} {st0 : State} {S0 R0 : Nat → Prop} {X : Sub}
    (hle : X.Le net st0.enabledPart) (hX : X.Consistent net) (hav : X.Avoids S0 R0) :
    (∀ i, ForcedS net st0 S0 R0 i → ¬ X.sp i) ∧ (∀ i, ForcedR net st0 S0 R0 i → ¬ X.rx i) := by
  constructor
  · intro i h
    refine ForcedS.rec (motive_1 := fun i _ => ¬ X.sp i) (motive_2 := fun i _ => ¬ X.rx i)
      ?_ ?_ ?_ ?_ h
    · intro i hi _; exact hav.1 i hi
    · intro s hs he hall ih hsp
      obtain ⟨r, hr, hrx, ho⟩ := hX.2 s hs hsp
      exact ih r hr (hle.2 r hr hrx) ho hrx
    · intro i hi _; exact hav.2 i hi
    · intro r i hr he ho _ ih hrx
      exact ih (hX.1 r hr hrx i ho)
  · intro i h
    refine ForcedR.rec (motive_1 := fun i _ => ¬ X.sp i) (motive_2 := fun i _ => ¬ X.rx i)
      ?_ ?_ ?_ ?_ h
    · intro i hi _; exact hav.1 i hi
    · intro s hs he hall ih hsp
      obtain ⟨r, hr, hrx, ho⟩ := hX.2 s hs hsp
      exact ih r hr (hle.2 r hr hrx) ho hrx
    · intro i hi _; exact hav.2 i hi
    · intro r i hr he ho _ ih hrx
      exact ih (hX.1 r hr hrx i ho)

end Net
end Verif.Plaschem
