/-
Properties of the LaTeX names of species and reactions.
-/
import Verif.Plaschem.LatexFormula
import Verif.Plaschem.XmlSpec
import Verif.Plaschem.XmlLemmas
import Mathlib.Tactic.IntervalCases

namespace Verif.Plaschem.Latex

/-! ### Computing examples -/

def occurs (old : Str) : Str → Bool
  | [] => old.isPrefixOf []
  | c :: s => old.isPrefixOf (c :: s) || occurs old s

theorem occurs_iff {old s : Str} : occurs old s = true ↔ old <:+: s := by
  induction s with
  | nil => rw [occurs, List.isPrefixOf_iff_prefix, List.prefix_nil, List.infix_nil]
  | cons c s ih => rw [occurs, Bool.or_eq_true, ih, List.isPrefixOf_iff_prefix, List.infix_cons_iff]

/-- the same as `applyRules`, easier to compute -/
def applyFast : List (Str × Str) → Str → Str
  | [], s => s
  | r :: rules, s => if occurs r.1 s then applyFast rules (replaceAll r.1 r.2 s) else applyFast rules s

theorem applyRules_fast (rules : List (Str × Str)) (s : Str) : applyRules rules s = applyFast rules s := by
  induction rules generalizing s with
  | nil => rfl
  | cons r rules ih =>
    rw [applyRules_cons, applyFast]
    split
    · exact ih _
    · next h =>
      rw [occurs_iff] at h
      rw [replaceAll_of_not_infix h]
      exact ih _

theorem texifyGround_fast (alpha : Char → Bool) (s : Str) : texifyGround alpha s =
    wrapAlpha alpha (applyFast fixRules (applyFast subRules (applyFast supRules s))) := by
  rw [texifyGround, applyRules_fast, applyRules_fast, applyRules_fast]

attribute [local irreducible] texifyGround

/-! ### Brackets -/

theorem positions_cons (c x : Char) (s : Str) :
    positions c (x :: s) = (if x = c then [0] else []) ++ (positions c s).map (· + 1) := by
  unfold positions
  rw [List.length_cons, List.range_succ_eq_map, List.filter_cons, List.filter_map]
  simp only [List.getElem?_cons_zero, Option.some.injEq, decide_eq_true_eq]
  have : ((fun i => decide ((x :: s)[i]? = some c)) ∘ Nat.succ) = fun i => decide (s[i]? = some c) := by
    funext i
    simp
  rw [this]
  split <;> rfl

theorem positions_nil {c : Char} {s : Str} : positions c s = [] ↔ c ∉ s := by
  induction s with
  | nil => simp [positions]
  | cons x s ih =>
    rw [positions_cons]
    by_cases h : x = c
    · subst h; simp
    · rw [if_neg h, List.nil_append, List.map_eq_nil_iff, ih]
      simp [Ne.symm h]

theorem positions_one {c : Char} {s : Str} {l : Nat} :
    positions c s = [l] ↔ ∃ u v, s = u ++ c :: v ∧ c ∉ u ∧ c ∉ v ∧ u.length = l := by
  induction s generalizing l with
  | nil => simp [positions]
  | cons x s ih =>
    rw [positions_cons]
    by_cases h : x = c
    · subst h
      rw [if_pos rfl]
      constructor
      · intro h
        obtain ⟨h0, h1⟩ := List.cons.inj h
        have h1 : (positions x s).map (· + 1) = [] := h1
        rw [List.map_eq_nil_iff, positions_nil] at h1
        exact ⟨[], s, rfl, by simp, h1, h0⟩
      · rintro ⟨u, v, h1, h2, h3, rfl⟩
        cases u with
        | nil =>
          obtain ⟨_, rfl⟩ := List.cons.inj h1
          rw [positions_nil.mpr h3]
          rfl
        | cons y u =>
          have := (List.cons.inj h1).1
          exact absurd (by simp [this]) h2
    · rw [if_neg h, List.nil_append]
      constructor
      · intro h'
        obtain ⟨k, hk, hl⟩ : ∃ k, positions c s = [k] ∧ k + 1 = l := by
          cases hq : positions c s with
          | nil => rw [hq] at h'; cases h'
          | cons k t =>
            rw [hq] at h'
            obtain ⟨h1, h2⟩ := List.cons.inj h'
            rw [List.map_eq_nil_iff] at h2
            exact ⟨k, by rw [h2], h1⟩
        obtain ⟨u, v, rfl, h2, h3, rfl⟩ := ih.mp hk
        exact ⟨x :: u, v, rfl, by simp [h2, Ne.symm h], h3, hl⟩
      · rintro ⟨u, v, h1, h2, h3, rfl⟩
        cases u with
        | nil => exact absurd (List.cons.inj h1).1 h
        | cons y u =>
          obtain ⟨rfl, rfl⟩ := List.cons.inj h1
          rw [ih.mpr ⟨u, v, rfl, fun h' => h2 (by simp [h']), h3, rfl⟩]
          rfl

variable {alpha : Char → Bool}

theorem texify_plain {g : Str} (h1 : '(' ∉ g) (h2 : ')' ∉ g) :
    texifySpecies alpha g = .ok (texifyGround alpha g) := by
  rw [texifySpecies, positions_nil.mpr h1, positions_nil.mpr h2]

theorem texify_state {g st : Str} (h1 : '(' ∉ g) (h2 : ')' ∉ g) (h3 : '(' ∉ st) (h4 : ')' ∉ st) :
    texifySpecies alpha (g ++ str!"(" ++ st ++ str!")") =
      .ok (texifyGround alpha g ++ str!" (" ++ st ++ str!")") := by
  have e1 : positions '(' (g ++ str!"(" ++ st ++ str!")") = [g.length] :=
    positions_one.mpr ⟨g, st ++ [')'], by simp, h1, by simp [h3], rfl⟩
  have e2 : positions ')' (g ++ str!"(" ++ st ++ str!")") = [(g ++ '(' :: st).length] :=
    positions_one.mpr ⟨g ++ '(' :: st, [], by simp, by simp [h2, h4], by simp, rfl⟩
  rw [texifySpecies, e1, e2]
  dsimp only
  rw [if_pos (by simp), if_pos (by simp)]
  have h5 : (g ++ str!"(" ++ st ++ str!")").take g.length = g := by simp
  have h6 : (g ++ str!"(" ++ st ++ str!")").drop g.length = '(' :: (st ++ [')']) := by simp
  rw [h5, h6]
  simp

/-- **Acceptance.** A name has a LaTeX form exactly if it has no round brackets, or is a text without brackets followed
by a state in one pair of round brackets; in the second case the bracket is kept as it is, after a blank. -/
theorem texify_accepts (name out : Str) :
    texifySpecies alpha name = .ok out ↔
      ('(' ∉ name ∧ ')' ∉ name ∧ out = texifyGround alpha name) ∨
      ∃ g st, '(' ∉ g ∧ ')' ∉ g ∧ '(' ∉ st ∧ ')' ∉ st ∧ name = g ++ str!"(" ++ st ++ str!")" ∧
        out = texifyGround alpha g ++ str!" (" ++ st ++ str!")" := by
  constructor
  · intro h
    unfold texifySpecies at h
    split at h
    · next h1 h2 =>
      cases h
      exact .inl ⟨positions_nil.mp h1, positions_nil.mp h2, rfl⟩
    · next l r h1 h2 =>
      split at h
      · next hlr =>
        split at h
        · next hr =>
          right
          obtain ⟨u, v, rfl, hu, hv, rfl⟩ := positions_one.mp h1
          obtain ⟨u', v', he, hu', hv', rfl⟩ := positions_one.mp h2
          have hv0 : v' = [] := by
            have := congrArg List.length he
            simp only [List.length_append, List.length_cons] at this hr
            exact List.eq_nil_of_length_eq_zero (by omega)
          subst hv0
          rcases List.append_eq_append_iff.mp he with ⟨m, h3, h4⟩ | ⟨m, h3, h4⟩
          · cases m with
            | nil => cases (List.cons.inj h4).1
            | cons x m =>
              obtain ⟨rfl, rfl⟩ := List.cons.inj h4
              subst h3
              refine ⟨u, m, hu, fun h' => hu' (by simp [h']), fun h' => hv (by simp [h']),
                fun h' => hu' (by simp [h']), by simp, ?_⟩
              cases h
              simp
          · rw [h3] at hlr
            simp at hlr
        · cases h
      · cases h
    · cases h
  · rintro (⟨h1, h2, rfl⟩ | ⟨g, st, h1, h2, h3, h4, rfl, rfl⟩)
    · exact texify_plain h1 h2
    · exact texify_state h1 h2 h3 h4

example : texifySpecies Char.isAlpha str!"Ar(1s5)" = .ok str!"\\mathrm{Ar} (1s5)" ∧
    texifySpecies Char.isAlpha str!"Ar(1s5)+" = .error .assertion := by
  refine ⟨?_, rfl⟩
  have : texifyGround Char.isAlpha str!"Ar" = str!"\\mathrm{Ar}" := by rw [texifyGround_fast]; decide +kernel
  have h := texify_state (alpha := Char.isAlpha) (g := str!"Ar") (st := str!"1s5") (by decide) (by decide) (by decide)
    (by decide)
  rw [this] at h
  exact h

theorem alphaOk_ascii : AlphaOk Char.isAlpha := ⟨fun _ h => h, by decide⟩

/-- **Different names, different LaTeX forms**, for names without the characters with a meaning in formulas. -/
theorem texify_injective (ok : AlphaOk alpha) {a b out : Str} (ha : Plain a) (hb : Plain b)
    (h1 : texifySpecies alpha a = .ok out) (h2 : texifySpecies alpha b = .ok out) : a = b := by
  rw [texify_accepts] at h1 h2
  have sub : ∀ {g st : Str}, Plain (g ++ str!"(" ++ st ++ str!")") → Plain g := fun h c hc => h c (by simp [hc])
  have cut : ∀ {x y p q : Str}, '(' ∉ x → '(' ∉ y → x ++ '(' :: p = y ++ '(' :: q → x = y ∧ p = q := by
    intro x y p q hx hy h
    rcases List.append_eq_append_iff.mp h with ⟨m, h3, h4⟩ | ⟨m, h3, h4⟩
    · cases m with
      | nil => exact ⟨by simpa using h3.symm, by simpa using h4⟩
      | cons c m => exact absurd (by rw [h3, ← (List.cons.inj h4).1]; simp) hy
    · cases m with
      | nil => exact ⟨by simpa using h3, by simpa using h4.symm⟩
      | cons c m => exact absurd (by rw [h3, ← (List.cons.inj h4).1]; simp) hx
  rcases h1 with ⟨h1, h1', rfl⟩ | ⟨g, st, h1, _, _, _, rfl, rfl⟩
  · rcases h2 with ⟨_, _, h2⟩ | ⟨g, st, h2, _, _, _, rfl, h3⟩
    · exact texifyGround_inj ok ha hb h2
    · exact absurd (by rw [h3]; simp) (texifyGround_mem (alpha := alpha) (.inl rfl) h1)
  · rcases h2 with ⟨h2, _, h3⟩ | ⟨g', st', h2, _, _, _, rfl, h3⟩
    · exact absurd (by rw [← h3]; simp) (texifyGround_mem (alpha := alpha) (.inl rfl) h2)
    · have n1 := texifyGround_mem (alpha := alpha) (.inl rfl) h1
      have n2 := texifyGround_mem (alpha := alpha) (.inl rfl) h2
      obtain ⟨h4, h5⟩ := cut (x := texifyGround alpha g ++ str!" ") (y := texifyGround alpha g' ++ str!" ")
        (p := st ++ [')']) (q := st' ++ [')']) (by simp [n1]) (by simp [n2]) (by simpa using h3)
      rw [texifyGround_inj ok (sub ha) (sub hb) (List.append_cancel_right h4), List.append_cancel_right h5]

/-- the restriction is needed -/
theorem texify_not_injective : ∃ a b : Str, a ≠ b ∧
    texifySpecies Char.isAlpha a = texifySpecies Char.isAlpha b :=
  ⟨str!"Ar+", str!"Ar^+", by decide, by
    rw [texify_plain (by decide) (by decide), texify_plain (by decide) (by decide), texifyGround_fast,
      texifyGround_fast, show applyFast supRules str!"Ar+" = applyFast supRules str!"Ar^+" by decide +kernel]⟩

/-- **What is shown.** For a formula made of element symbols, each possibly with a number below 20, and followed by up to
three signs `+` or `-` or up to four stars: LaTeX accepts the text, and shows the symbols upright, the numbers as
subscripts, and the signs as a superscript, with `2+`, `3+`, `2-`, `3-` for multiple charges. -/
theorem texify_shows (ok : AlphaOk alpha) {parts : List (Str × Nat)} (hne : parts ≠ [])
    (hp : ∀ p ∈ parts, p.1 ∈ elements ∧ p.2 < 20) {c : Char} {n : Nat}
    (hs : (c = '+' ∨ c = '-') ∧ n ≤ 3 ∨ c = '*' ∧ n ≤ 4) :
    ∃ out, texifySpecies alpha (formula parts ++ List.replicate n c) = .ok out ∧
      render .base out = some (shown parts c n) := by
  have key : (List.replicate n c = [] ∨ List.replicate n c ∈ multi ++ singles) ∧
      (∀ x ∈ (if List.replicate n c = [] then [] else supFix (List.replicate n c)),
        x ∈ str!"^_{}\\ 0123456789+-*()") ∧
      render .base (if List.replicate n c = [] then [] else supFix (List.replicate n c)) =
        some ((signShown c n).map fun x => ⟨x, .sup, false⟩) := by
    rcases hs with ⟨rfl | rfl, hn⟩ | ⟨rfl, hn⟩ <;> interval_cases n <;> decide +kernel
  obtain ⟨k1, k2, k3⟩ := key
  have hchars : ∀ x ∈ formula parts ++ List.replicate n c, x ≠ '(' ∧ x ≠ ')' := by
    intro x hx
    rcases List.mem_append.mp hx with hx | hx
    · obtain ⟨p, hpm, hx⟩ := List.mem_flatMap.mp hx
      rcases List.mem_append.mp hx with hx | hx
      · constructor <;> rintro rfl <;>
          rcases sym_chars (elements_sym _ (hp p hpm).1) _ hx with h | h <;> cases h
      · constructor <;> rintro rfl <;> cases numText_digit (hp p hpm).2 _ hx
    · have := (List.mem_replicate.mp hx).2
      subst this
      rcases hs with ⟨rfl | rfl, _⟩ | ⟨rfl, _⟩ <;> decide
  refine ⟨_, texify_plain (fun h => (hchars _ h).1 rfl) (fun h => (hchars _ h).2 rfl), ?_⟩
  have hc : cont alpha (if List.replicate n c = [] then [] else supFix (List.replicate n c)) =
      (if List.replicate n c = [] then [] else supFix (List.replicate n c)) := by
    have := cont_other (alpha := alpha) (d := if List.replicate n c = [] then [] else supFix (List.replicate n c))
      (fun x hx => ok.other x (k2 x hx)) []
    rw [List.append_nil] at this
    rw [this, show cont alpha [] = [] from rfl, List.append_nil]
  rw [texifyGround, passes hne hp k1, render_wrap, render_blocks ok hp, hc, k3]
  rfl

/-- the hypotheses are met, and the theorem says what it should -/
example : formula [(str!"N", 2), (str!"H", 0), (str!"Cl", 12)] ++ List.replicate 2 '+' = str!"N2HCl12++" ∧
    texifySpecies Char.isAlpha str!"N2HCl12++" = .ok str!"\\mathrm{N}_2 \\mathrm{HCl}_{12}^{2+}" ∧
    shown [(str!"N", 2), (str!"H", 0), (str!"Cl", 12)] '+' 2 =
      [⟨'N', .base, true⟩, ⟨'2', .sub, false⟩, ⟨'H', .base, true⟩, ⟨'C', .base, true⟩, ⟨'l', .base, true⟩,
       ⟨'1', .sub, false⟩, ⟨'2', .sub, false⟩, ⟨'2', .sup, false⟩, ⟨'+', .sup, false⟩] := by
  refine ⟨by decide +kernel, ?_, by decide +kernel⟩
  have : texifyGround Char.isAlpha str!"N2HCl12++" = str!"\\mathrm{N}_2 \\mathrm{HCl}_{12}^{2+}" := by
    rw [texifyGround_fast]
    decide +kernel
  rw [texify_plain (by decide) (by decide), this]

/-- For numbers from 20 the claim fails: of `C60`, only the 6 is shown as a subscript. -/
theorem texify_large_number : ∃ out, texifySpecies Char.isAlpha str!"C60" = .ok out ∧
    render .base out = some [⟨'C', .base, true⟩, ⟨'6', .sub, false⟩, ⟨'0', .base, false⟩] ∧
    shown [(str!"C", 60)] '+' 0 = [⟨'C', .base, true⟩, ⟨'6', .sub, false⟩, ⟨'0', .sub, false⟩] :=
  ⟨_, texify_plain (by decide) (by decide), by rw [texifyGround_fast]; decide +kernel, by decide +kernel⟩

end Verif.Plaschem.Latex
