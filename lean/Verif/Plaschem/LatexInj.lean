/-
The LaTeX names of different species are different.
-/
import Verif.Plaschem.Latex

namespace Verif.Plaschem.Latex

/-- not one of the characters that the code inserts as markup -/
def noMark (c : Char) : Bool := !(c == '^' || c == '_' || c == '{' || c == '}')

/-- two neighbours -/
def hasPair (x y : Char) : Str → Bool
  | a :: b :: t => (a == x && b == y) || hasPair x y (b :: t)
  | _ => false

theorem hasPair_iff {x y : Char} {s : Str} : hasPair x y s = true ↔ [x, y] <:+: s := by
  induction s with
  | nil => simp [hasPair]
  | cons a t ih =>
    cases t with
    | nil =>
      simp only [hasPair, Bool.false_eq_true, false_iff]
      intro h
      have := h.length_le
      simp at this
    | cons b t =>
      rw [hasPair, Bool.or_eq_true, ih, List.infix_cons_iff (a := a), Bool.and_eq_true, beq_iff_eq, beq_iff_eq]
      apply or_congr_left
      constructor
      · rintro ⟨rfl, rfl⟩
        exact ⟨t, rfl⟩
      · rintro ⟨r, hr⟩
        simp only [List.cons_append, List.nil_append, List.cons.injEq] at hr
        exact ⟨hr.1.symm, hr.2.1.symm⟩

/-- what all rules for scripts have in common -/
def ruleOk (r : Str × Str) : Bool :=
  !r.1.isEmpty && r.2.filter noMark == r.1.filter noMark && r.2.head? == r.1.head? &&
  !hasPair '{' '2' r.2 && !hasPair '{' '3' r.2 && !(r.2.getLast? == some '{') &&
  !r.2.contains '\\' && !r.2.contains '(' && !r.2.contains ')'

theorem rules_ok : (supRules ++ subRules).all ruleOk = true := by decide +kernel

theorem ruleOk_iff {r : Str × Str} (h : ruleOk r = true) : r.1 ≠ [] ∧ r.2.filter noMark = r.1.filter noMark ∧
    r.2.head? = r.1.head? ∧ ¬ ['{', '2'] <:+: r.2 ∧ ¬ ['{', '3'] <:+: r.2 ∧ r.2.getLast? ≠ some '{' ∧
    '\\' ∉ r.2 ∧ '(' ∉ r.2 ∧ ')' ∉ r.2 := by
  simp only [ruleOk, Bool.and_eq_true, Bool.not_eq_true', ← Bool.not_eq_true, List.isEmpty_iff, beq_iff_eq,
    hasPair_iff, List.contains_iff_mem] at h
  obtain ⟨⟨⟨⟨⟨⟨⟨⟨h1, h2⟩, h3⟩, h4⟩, h5⟩, h6⟩, h7⟩, h8⟩, h9⟩ := h
  exact ⟨h1, h2, h3, h4, h5, h6, h7, h8, h9⟩

/-- what the passes for scripts preserve -/
theorem applyRules_ok {rules : List (Str × Str)} (hr : rules.all ruleOk = true) (s : Str) :
    (applyRules rules s).filter noMark = s.filter noMark ∧
    (¬ ['{', '2'] <:+: s → ¬ ['{', '2'] <:+: applyRules rules s) ∧
    (¬ ['{', '3'] <:+: s → ¬ ['{', '3'] <:+: applyRules rules s) ∧
    ∀ x, x = '\\' ∨ x = '(' ∨ x = ')' → x ∉ s → x ∉ applyRules rules s := by
  induction rules generalizing s with
  | nil => simp [applyRules]
  | cons r rules ih =>
    rw [List.all_cons, Bool.and_eq_true] at hr
    obtain ⟨h1, h2, h3, h4, h5, h6, h7, h8, h9⟩ := ruleOk_iff hr.1
    have := ih hr.2 (replaceAll r.1 r.2 s)
    change ((applyRules rules (replaceAll r.1 r.2 s)).filter noMark = _ ∧ _) 
    refine ⟨this.1.trans (filter_replaceAll h1 _ h2 s), fun h => this.2.1 fun hp => ?_,
      fun h => this.2.2.1 fun hp => ?_, fun x hx h => this.2.2.2 x hx fun hm => ?_⟩
    · rcases pair_replaceAll h1 h3 hp with h' | h' | h'
      · exact h h'
      · exact h4 h'
      · exact h6 h'
    · rcases pair_replaceAll h1 h3 hp with h' | h' | h'
      · exact h h'
      · exact h5 h'
      · exact h6 h'
    · rcases mem_replaceAll h1 hm with h' | h'
      · exact h h'
      · rcases hx with rfl | rfl | rfl
        · exact h7 h'
        · exact h8 h'
        · exact h9 h'

/-! ### The pass for multiple ions -/

section fix
variable {o n : Str}

theorem prefix_replaceAll {p s : Str} (hp : '^' ∉ p) (h : p <+: replaceAll ('^' :: o) ('^' :: n) s) : p <+: s := by
  induction p generalizing s with
  | nil => exact List.nil_prefix
  | cons c p ih =>
    cases s with
    | nil => exact h
    | cons d s =>
      by_cases hd : ('^' :: o) <+: d :: s
      · obtain ⟨t, ht⟩ := hd
        rw [← ht, replaceAll_hit (by simp), List.cons_append] at h
        have := (List.cons_prefix_cons.mp h).1
        exact absurd (by rw [this]; simp) hp
      · rw [replaceAll_miss hd] at h
        obtain ⟨rfl, h'⟩ := List.cons_prefix_cons.mp h
        exact List.cons_prefix_cons.mpr ⟨rfl, ih (fun hm => hp (List.mem_cons_of_mem _ hm)) h'⟩

theorem undo {s : Str} (hn : '^' ∉ n) (h : ¬ ('^' :: n) <:+: s) :
    replaceAll ('^' :: n) ('^' :: o) (replaceAll ('^' :: o) ('^' :: n) s) = s := by
  revert h
  refine (scan_induction (old := '^' :: o) (new := '^' :: n)
    (P := fun s r => ¬ ('^' :: n) <:+: s → replaceAll ('^' :: n) ('^' :: o) r = s) (by simp) ?_ ?_ ?_ s)
  · intro _; rfl
  · intro t ih h
    rw [replaceAll_hit (by simp), ih fun h' => h (h'.trans (List.suffix_append _ _).isInfix)]
  · intro c t _ ih h
    rw [replaceAll_miss, ih fun h' => h (h'.trans (List.suffix_cons _ _).isInfix)]
    intro hp
    obtain ⟨rfl, hp'⟩ := List.cons_prefix_cons.mp hp
    exact h (List.cons_prefix_cons.mpr ⟨rfl, prefix_replaceAll hn hp'⟩).isInfix

theorem infix_replaceAll {p s : Str} (hp : '^' ∉ p) (hl : p.length ≤ n.length)
    (h : ('^' :: p) <:+: replaceAll ('^' :: o) ('^' :: n) s) (hn : '^' ∉ n) :
    ('^' :: p) <:+: s ∨ p <+: n := by
  have key : ∀ {m r : Str}, '^' ∉ m → ('^' :: p) <:+: m ++ r → ('^' :: p) <:+: r := by
    intro m r hm h
    induction m with
    | nil => exact h
    | cons c m ih =>
      rw [List.cons_append, List.infix_cons_iff] at h
      rcases h with h | h
      · exact absurd (by rw [(List.cons_prefix_cons.mp h).1]; simp) hm
      · exact ih (fun h' => hm (List.mem_cons_of_mem _ h')) h
  revert h
  refine (scan_induction (old := '^' :: o) (new := '^' :: n)
    (P := fun s r => ('^' :: p) <:+: r → ('^' :: p) <:+: s ∨ p <+: n) (by simp) ?_ ?_ ?_ s)
  · exact .inl
  · intro t ih h
    rw [List.cons_append, List.infix_cons_iff] at h
    rcases h with h | h
    · right
      have := (List.cons_prefix_cons.mp h).2
      exact List.prefix_of_prefix_length_le this (List.prefix_append _ _) hl
    · rcases ih (key hn h) with h' | h'
      · exact .inl (h'.trans (List.suffix_append _ _).isInfix)
      · exact .inr h'
  · intro c t _ ih h
    rw [List.infix_cons_iff] at h
    rcases h with h | h
    · left
      obtain ⟨rfl, h'⟩ := List.cons_prefix_cons.mp h
      exact (List.cons_prefix_cons.mpr ⟨rfl, prefix_replaceAll hp h'⟩).isInfix
    · rcases ih h with h' | h'
      · exact .inl (h'.trans (List.suffix_cons _ _).isInfix)
      · exact .inr h'

end fix

/-- strings without the forms that the pass for multiple ions produces -/
def NoFixed (s : Str) : Prop := ∀ r ∈ fixRules, ¬ r.2 <:+: s

theorem noFixed_of_pairs {s : Str} (h2 : ¬ ['{', '2'] <:+: s) (h3 : ¬ ['{', '3'] <:+: s) : NoFixed s := by
  intro r hr hi
  simp only [fixRules, List.mem_cons, List.not_mem_nil, or_false] at hr
  rcases hr with rfl | rfl | rfl | rfl
  · exact h2 (List.IsInfix.trans ⟨str!"^", str!"+}", rfl⟩ hi)
  · exact h3 (List.IsInfix.trans ⟨str!"^", str!"+}", rfl⟩ hi)
  · exact h2 (List.IsInfix.trans ⟨str!"^", str!"-}", rfl⟩ hi)
  · exact h3 (List.IsInfix.trans ⟨str!"^", str!"-}", rfl⟩ hi)

/-- the pass for multiple ions, undone -/
def unfix (s : Str) : Str := applyRules (fixRules.reverse.map Prod.swap) s

theorem unfix_fix {s : Str} (h : NoFixed s) : unfix (applyRules fixRules s) = s := by
  simp only [NoFixed, fixRules, List.forall_mem_cons, List.not_mem_nil, false_imp_iff, implies_true, and_true] at h
  obtain ⟨h1, h2, h3, h4⟩ := h
  simp only [unfix, applyRules, fixRules, List.reverse_cons, List.reverse_nil, List.nil_append, List.cons_append,
    List.map_cons, List.map_nil, Prod.swap, List.foldl_cons, List.foldl_nil]
  have step : ∀ {o n p s : Str}, '^' ∉ p → '^' ∉ n → p.length ≤ n.length → ¬ p <+: n → ¬ ('^' :: p) <:+: s →
      ¬ ('^' :: p) <:+: replaceAll ('^' :: o) ('^' :: n) s := by
    intro o n p s hp hn hl hpn hs hi
    rcases infix_replaceAll hp hl hi hn with h | h
    · exact hs h
    · exact hpn h
  rw [undo (o := str!"{---}") (n := str!"{3-}") (by decide), undo (o := str!"{--}") (n := str!"{2-}") (by decide),
    undo (o := str!"{+++}") (n := str!"{3+}") (by decide), undo (o := str!"{++}") (n := str!"{2+}") (by decide) h1]
  · exact step (p := str!"{3+}") (by decide) (by decide) (by decide) (by decide) h2
  · exact step (p := str!"{2-}") (by decide) (by decide) (by decide) (by decide)
      (step (p := str!"{2-}") (by decide) (by decide) (by decide) (by decide) h3)
  · exact step (p := str!"{3-}") (by decide) (by decide) (by decide) (by decide)
      (step (p := str!"{3-}") (by decide) (by decide) (by decide) (by decide)
        (step (p := str!"{3-}") (by decide) (by decide) (by decide) (by decide) h4))

theorem mem_fix {x : Char} {s : Str} (hx : x = '\\' ∨ x = '(' ∨ x = ')') (h : x ∉ s) : x ∉ applyRules fixRules s := by
  have step : ∀ {o n s : Str}, x ∉ s → o ≠ [] → x ∉ n → x ∉ replaceAll o n s := by
    intro o n s h1 h2 h3 h4
    rcases mem_replaceAll h2 h4 with h' | h'
    · exact h1 h'
    · exact h3 h'
  simp only [applyRules, fixRules, List.foldl_cons, List.foldl_nil]
  apply step (step (step (step h _ _) _ _) _ _)
  all_goals (rcases hx with rfl | rfl | rfl <;> decide)

/-! ### The wrapping of letters -/

/-- what is used about `str.isalpha`: the markup characters, blank, digits, signs and brackets are no letters. -/
structure AlphaOk (alpha : Char → Bool) : Prop where
  letter : ∀ c : Char, c.isAlpha = true → alpha c = true
  other : ∀ c ∈ str!"^_{}\\ 0123456789+-*()", alpha c = false

theorem wrapped_inj {alpha : Char → Bool} (ha : AlphaOk alpha) {s t : Str} (hs : '\\' ∉ s) (ht : '\\' ∉ t)
    (h : wrapped alpha s = wrapped alpha t) : s = t := by
  have hclose : alpha '}' = false := ha.other _ (by decide)
  have hblank : alpha ' ' = false := ha.other _ (by decide)
  have hback : alpha '\\' = false := ha.other _ (by decide)
  have head : ∀ u : Str, (wrapped alpha u).head? = u.head? := by
    intro u
    cases u with
    | nil => rfl
    | cons c u => rw [wrapped]; split <;> rfl
  have noOpen : ∀ u v : Str, '\\' ∉ u → wrapped alpha u ≠ str!" \\mathrm{" ++ v := by
    intro u v hu h
    cases u with
    | nil => cases h
    | cons c u =>
      have hc : c = ' ' := by
        have := head (c :: u)
        rw [h] at this
        exact (Option.some.inj this).symm
      subst hc
      rw [wrapped, if_neg (by rw [hblank]; exact Bool.false_ne_true)] at h
      have h := (List.cons.inj h).2
      split at h
      · have := (List.cons.inj h).1
        exact absurd this (by decide)
      · have h1 := head u
        rw [h] at h1
        exact hu (List.mem_cons_of_mem _ (List.mem_of_mem_head? (by rw [← h1]; rfl)))
  have noClose : ∀ u v : Str, beginsAlpha alpha u = true → wrapped alpha u ≠ '}' :: v := by
    intro u v hu h
    cases u with
    | nil => cases h
    | cons c u =>
      have hc : c = '}' := by
        have := head (c :: u)
        rw [h] at this
        exact (Option.some.inj this).symm
      subst hc
      rw [beginsAlpha_cons, hclose] at hu
      cases hu
  induction s generalizing t with
  | nil =>
    have := head t
    rw [← h] at this
    cases t with
    | nil => rfl
    | cons => cases this
  | cons c s ih =>
    cases t with
    | nil =>
      have := head (c :: s)
      rw [h] at this
      cases this
    | cons d t =>
      have hcd : c = d := by
        have h1 := head (c :: s)
        have h2 := head (d :: t)
        rw [h] at h1
        exact Option.some.inj (h1.symm.trans h2)
      subst hcd
      have hs' : '\\' ∉ s := fun h' => hs (List.mem_cons_of_mem _ h')
      have ht' : '\\' ∉ t := fun h' => ht (List.mem_cons_of_mem _ h')
      congr 1
      by_cases hc : alpha c = true
      · rw [wrapped, wrapped, if_pos hc, if_pos hc] at h
        have h := (List.cons.inj h).2
        by_cases h1 : beginsAlpha alpha s = true <;> by_cases h2 : beginsAlpha alpha t = true
        · rw [if_pos h1, if_pos h2] at h
          exact ih hs' ht' h
        · rw [if_pos h1, if_neg h2] at h
          exact absurd h (noClose _ _ h1)
        · rw [if_neg h1, if_pos h2] at h
          exact absurd h.symm (noClose _ _ h2)
        · rw [if_neg h1, if_neg h2] at h
          exact ih hs' ht' (List.cons.inj h).2
      · rw [wrapped, wrapped, if_neg hc, if_neg hc] at h
        have h := (List.cons.inj h).2
        by_cases h1 : beginsAlpha alpha s = true <;> by_cases h2 : beginsAlpha alpha t = true
        · rw [if_pos h1, if_pos h2] at h
          exact ih hs' ht' (List.append_cancel_left h)
        · rw [if_pos h1, if_neg h2] at h
          exact absurd h.symm (noOpen _ _ ht')
        · rw [if_neg h1, if_pos h2] at h
          exact absurd h (noOpen _ _ hs')
        · rw [if_neg h1, if_neg h2] at h
          exact ih hs' ht' h

theorem wrapped_head (alpha : Char → Bool) (u : Str) : (wrapped alpha u).head? = u.head? := by
  cases u with
  | nil => rfl
  | cons c u => rw [wrapped]; split <;> rfl

theorem wrapAlpha_inj {alpha : Char → Bool} (ha : AlphaOk alpha) {s t : Str} (hs : '\\' ∉ s) (ht : '\\' ∉ t)
    (h : wrapAlpha alpha s = wrapAlpha alpha t) : s = t := by
  rw [wrapAlpha_eq, wrapAlpha_eq] at h
  have no : ∀ u v : Str, '\\' ∉ u → wrapped alpha u ≠ str!"\\mathrm{" ++ v := by
    intro u v hu h
    have := wrapped_head alpha u
    rw [h] at this
    exact hu (List.mem_of_mem_head? (by rw [← this]; rfl))
  by_cases h1 : beginsAlpha alpha s = true <;> by_cases h2 : beginsAlpha alpha t = true
  · rw [if_pos h1, if_pos h2] at h
    exact wrapped_inj ha hs ht (List.append_cancel_left h)
  · rw [if_pos h1, if_neg h2] at h
    exact absurd h.symm (no _ _ ht)
  · rw [if_neg h1, if_pos h2] at h
    exact absurd h (no _ _ hs)
  · rw [if_neg h1, if_neg h2] at h
    exact wrapped_inj ha hs ht h

theorem mem_wrapped {alpha : Char → Bool} {x : Char} (hx : x ∉ str!" \\mathrm{}") {s : Str}
    (h : x ∈ wrapped alpha s) : x ∈ s := by
  induction s with
  | nil => cases h
  | cons c s ih =>
    rw [wrapped] at h
    have hne : x ≠ '}' := by rintro rfl; exact hx (by decide)
    have hno : x ∉ str!" \\mathrm{" := fun h' => hx (List.mem_append_left str!"}" h')
    split at h
    · rcases List.mem_cons.mp h with h | h
      · exact h ▸ List.mem_cons_self ..
      · split at h
        · exact List.mem_cons_of_mem _ (ih h)
        · rcases List.mem_cons.mp h with h | h
          · exact absurd h hne
          · exact List.mem_cons_of_mem _ (ih h)
    · rcases List.mem_cons.mp h with h | h
      · exact h ▸ List.mem_cons_self ..
      · split at h
        · rcases List.mem_append.mp h with h | h
          · exact absurd h hno
          · exact List.mem_cons_of_mem _ (ih h)
        · exact List.mem_cons_of_mem _ (ih h)

theorem mem_wrapAlpha {alpha : Char → Bool} {x : Char} (hx : x ∉ str!" \\mathrm{}") {s : Str}
    (h : x ∈ wrapAlpha alpha s) : x ∈ s := by
  rw [wrapAlpha_eq] at h
  rcases List.mem_append.mp h with h | h
  · split at h
    · exact absurd (List.mem_cons_of_mem _ (List.mem_append_left str!"}" h)) hx
    · cases h
  · exact mem_wrapped hx h

/-! ### Names -/

/-- a name without the characters that mean something in LaTeX formulas -/
def Plain (s : Str) : Prop := ∀ c ∈ s, c ∉ str!"^_{}\\"

theorem Plain.filter {s : Str} (h : Plain s) : s.filter noMark = s := by
  rw [List.filter_eq_self]
  intro c hc
  have := h c hc
  simp only [List.mem_cons, List.not_mem_nil, or_false, not_or] at this
  simp [noMark, this]

theorem Plain.not_mem {s : Str} (h : Plain s) {c : Char} (hc : c ∈ str!"^_{}\\") : c ∉ s := fun h' => h c h' hc

theorem not_pair {s : Str} {x y : Char} (h : x ∉ s) : ¬ [x, y] <:+: s := fun h' =>
  h (h'.subset (by simp))

theorem all_sup : supRules.all ruleOk = true := by
  have := rules_ok
  rw [List.all_append, Bool.and_eq_true] at this
  exact this.1

theorem all_sub : subRules.all ruleOk = true := by
  have := rules_ok
  rw [List.all_append, Bool.and_eq_true] at this
  exact this.2

theorem scripts_filter {s : Str} (h : Plain s) :
    (applyRules subRules (applyRules supRules s)).filter noMark = s := by
  rw [(applyRules_ok all_sub _).1, (applyRules_ok all_sup _).1, h.filter]

theorem scripts_noFixed {s : Str} (h : Plain s) : NoFixed (applyRules subRules (applyRules supRules s)) := by
  have hb : '{' ∉ s := h.not_mem (by decide)
  exact noFixed_of_pairs ((applyRules_ok all_sub _).2.1 ((applyRules_ok all_sup _).2.1 (not_pair hb)))
    ((applyRules_ok all_sub _).2.2.1 ((applyRules_ok all_sup _).2.2.1 (not_pair hb)))

theorem scripts_mem {x : Char} {s : Str} (hx : x = '\\' ∨ x = '(' ∨ x = ')') (h : x ∉ s) :
    x ∉ applyRules fixRules (applyRules subRules (applyRules supRules s)) :=
  mem_fix hx ((applyRules_ok all_sub _).2.2.2 x hx ((applyRules_ok all_sup _).2.2.2 x hx h))

theorem texifyGround_inj {alpha : Char → Bool} (ha : AlphaOk alpha) {s t : Str} (hs : Plain s) (ht : Plain t)
    (h : texifyGround alpha s = texifyGround alpha t) : s = t := by
  have h1 := wrapAlpha_inj ha (scripts_mem (.inl rfl) (hs.not_mem (by decide)))
    (scripts_mem (.inl rfl) (ht.not_mem (by decide))) h
  have h2 := congrArg unfix h1
  rw [unfix_fix (scripts_noFixed hs), unfix_fix (scripts_noFixed ht)] at h2
  have h3 := congrArg (List.filter noMark) h2
  rwa [scripts_filter hs, scripts_filter ht] at h3

theorem texifyGround_mem {alpha : Char → Bool} {x : Char} {s : Str} (hx : x = '(' ∨ x = ')') (h : x ∉ s) :
    x ∉ texifyGround alpha s := by
  intro hm
  refine scripts_mem (.inr hx) h (mem_wrapAlpha ?_ hm)
  rcases hx with rfl | rfl <;> decide

end Verif.Plaschem.Latex
