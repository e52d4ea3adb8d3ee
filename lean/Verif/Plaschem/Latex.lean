/-
LaTeX names of species: plaschem/latex.py:7-97 (`Texify.texify_species`).
-/
import Verif.Plaschem.Base
import Mathlib.Data.List.Basic
import Mathlib.Data.List.Infix
import Mathlib.Tactic.Common

namespace Verif.Plaschem.Latex

/-- plaschem/latex.py:11-22 `element_symbols` -/
def elements : List Str :=
  [str!"H", str!"He", str!"Li", str!"Be", str!"B", str!"C", str!"N", str!"O", str!"F", str!"Ne", str!"Na", str!"Mg",
   str!"Al", str!"Si", str!"P", str!"S", str!"Cl", str!"Ar", str!"K", str!"Ca", str!"Sc", str!"Ti", str!"V", str!"Cr",
   str!"Mn", str!"Fe", str!"Co", str!"Ni", str!"Cu", str!"Zn", str!"Ga", str!"Ge", str!"As", str!"Se", str!"Br",
   str!"Kr", str!"Rb", str!"Sr", str!"Y", str!"Zr", str!"Nb", str!"Mo", str!"Tc", str!"Ru", str!"Rh", str!"Pd",
   str!"Ag", str!"Cd", str!"In", str!"Sn", str!"Sb", str!"Te", str!"I", str!"Xe", str!"Cs", str!"Ba", str!"La",
   str!"Ce", str!"Pr", str!"Nd", str!"Pm", str!"Sm", str!"Eu", str!"Gd", str!"Tb", str!"Dy", str!"Ho", str!"Er",
   str!"Tm", str!"Yb", str!"Lu", str!"Hf", str!"Ta", str!"W", str!"Re", str!"Os", str!"Ir", str!"Pt", str!"Au",
   str!"Hg", str!"Tl", str!"Pb", str!"Bi", str!"Po", str!"At", str!"Rn", str!"Fr", str!"Ra", str!"Ac", str!"Th",
   str!"Pa", str!"U", str!"Np", str!"Pu", str!"Am", str!"Cm", str!"Bk", str!"Cf", str!"Es", str!"Fm", str!"Md",
   str!"No", str!"Lr", str!"Rf", str!"Db", str!"Sg", str!"Bh", str!"Hs", str!"Mt", str!"Ds", str!"Rg", str!"Cn",
   str!"Nh", str!"Fl", str!"Mc", str!"Lv", str!"Ts", str!"Og"]

/-- `list(range(10))` as formatted by `'{}'.format` (plaschem/latex.py:34) -/
def digits : List Str :=
  [str!"0", str!"1", str!"2", str!"3", str!"4", str!"5", str!"6", str!"7", str!"8", str!"9"]

/-- The scan of `s.replace(old, new)`: occurrences from the left, not overlapping. The first argument is the number of
characters of the occurrence being replaced that are still to be skipped. -/
def repl (old new : Str) : Nat → Str → Str
  | _, [] => []
  | k + 1, _ :: s => repl old new k s
  | 0, c :: s =>
    if old.isPrefixOf (c :: s) then new ++ repl old new (old.length - 1) s else c :: repl old new 0 s

/-- `s.replace(old, new)` of Python, for a nonempty `old` (the code never passes an empty one). -/
def replaceAll (old new s : Str) : Str := repl old new 0 s

/-- plaschem/latex.py:35 -/
def multi : List Str := [str!"****", str!"***", str!"**", str!"+++", str!"++", str!"---", str!"--"]

/-- plaschem/latex.py:37 -/
def singles : List Str := [str!"+", str!"-", str!"*"]

/-- plaschem/latex.py:41: `range(10, 20)` formatted -/
def twoDigit : List Str :=
  [str!"10", str!"11", str!"12", str!"13", str!"14", str!"15", str!"16", str!"17", str!"18", str!"19"]

/-- plaschem/latex.py:43: `range(1, 10)` formatted -/
def oneDigit : List Str :=
  [str!"1", str!"2", str!"3", str!"4", str!"5", str!"6", str!"7", str!"8", str!"9"]

/-- plaschem/latex.py:34-38: the calls of `replace` for superscripts, in order, as pairs of arguments -/
def supRules : List (Str × Str) :=
  (elements ++ digits).flatMap fun e =>
    multi.map (fun s => (e ++ s, e ++ (str!"^{" ++ s ++ str!"}"))) ++
    singles.map (fun s => (e ++ s, e ++ (str!"^" ++ s)))

/-- plaschem/latex.py:40-44: the calls of `replace` for subscripts -/
def subRules : List (Str × Str) :=
  elements.flatMap fun a =>
    twoDigit.map (fun n => (a ++ n, a ++ (str!"_{" ++ n ++ str!"}"))) ++
    oneDigit.map (fun n => (a ++ n, a ++ (str!"_" ++ n)))

/-- plaschem/latex.py:46-47: the calls of `replace` for multiple ions -/
def fixRules : List (Str × Str) :=
  [(str!"^{++}", str!"^{2+}"), (str!"^{+++}", str!"^{3+}"), (str!"^{--}", str!"^{2-}"), (str!"^{---}", str!"^{3-}")]

/-- a sequence of calls of `replace` -/
def applyRules (rules : List (Str × Str)) (s : Str) : Str :=
  rules.foldl (fun of r => replaceAll r.1 r.2 of) s

/-- One round of the loop plaschem/latex.py:51-63 over the positions, from the last to the first; the state is the string
and `in_env`. -/
def wrapStep (alphas : List Bool) (st : Str × Bool) (i : Nat) : Str × Bool :=
  if alphas.getD i false then
    let of := if st.2 then st.1 else st.1.take (i + 1) ++ str!"}" ++ st.1.drop (i + 1)
    (if i = 0 then str!"\\mathrm{" ++ of else of, true)
  else if st.2 then (st.1.take (i + 1) ++ str!" \\mathrm{" ++ st.1.drop (i + 1), false)
  else st

/-- plaschem/latex.py:49-63. `alpha` is `str.isalpha` of one character. -/
def wrapAlpha (alpha : Char → Bool) (s : Str) : Str :=
  ((List.range s.length).reverse.foldl (wrapStep (s.map alpha)) (s, false)).1

/-- plaschem/latex.py:25-65 `_texify_ground_state` -/
def texifyGround (alpha : Char → Bool) (s : Str) : Str :=
  wrapAlpha alpha (applyRules fixRules (applyRules subRules (applyRules supRules s)))

/-- the positions of a character (plaschem/latex.py:83-84) -/
def positions (c : Char) (s : Str) : List Nat := (List.range s.length).filter fun i => s[i]? = some c

/-- plaschem/latex.py:68-97 `texify_species` -/
def texifySpecies (alpha : Char → Bool) (name : Str) : Except Err Str :=
  match positions '(' name, positions ')' name with
  | [], [] => .ok (texifyGround alpha name)
  | [l], [r] =>
    if l < r then
      if r = name.length - 1 then .ok (texifyGround alpha (name.take l) ++ str!" " ++ name.drop l)
      else .error .assertion
    else .error .assertion
  | _, _ => .error .assertion

/-! ### The scan of `replace` -/

section scan
variable {old new : Str}

theorem repl_skip (k : Nat) (s : Str) : repl old new k s = repl old new 0 (s.drop k) := by
  induction s generalizing k with
  | nil => cases k <;> rfl
  | cons c s ih =>
    cases k with
    | zero => rfl
    | succ k => simp only [repl, List.drop_succ_cons]; exact ih k

@[simp] theorem replaceAll_nil : replaceAll old new [] = [] := rfl

theorem replaceAll_hit (h : old ≠ []) (t : Str) : replaceAll old new (old ++ t) = new ++ replaceAll old new t := by
  obtain ⟨c, o, rfl⟩ := List.exists_cons_of_ne_nil h
  unfold replaceAll
  rw [List.cons_append, repl, if_pos, repl_skip]
  · simp
  · rw [List.isPrefixOf_iff_prefix]
    exact ⟨t, by simp⟩

theorem replaceAll_miss {c : Char} {s : Str} (h : ¬ old <+: c :: s) :
    replaceAll old new (c :: s) = c :: replaceAll old new s := by
  unfold replaceAll
  rw [repl, if_neg]
  rwa [List.isPrefixOf_iff_prefix]

/-- induction over the scan -/
theorem scan_induction (h : old ≠ []) {P : Str → Str → Prop} (nil : P [] [])
    (hit : ∀ t, P t (replaceAll old new t) → P (old ++ t) (new ++ replaceAll old new t))
    (miss : ∀ c t, ¬ old <+: c :: t → P t (replaceAll old new t) → P (c :: t) (c :: replaceAll old new t)) (s : Str) :
    P s (replaceAll old new s) := by
  induction hn : s.length using Nat.strong_induction_on generalizing s with
  | _ n ih =>
    subst hn
    cases s with
    | nil => exact nil
    | cons c s =>
      by_cases hp : old <+: c :: s
      · obtain ⟨t, ht⟩ := hp
        have hl : t.length < (c :: s).length := by
          have := congrArg List.length ht
          have h0 := List.length_pos_of_ne_nil h
          simp only [List.length_append] at this
          omega
        rw [← ht, replaceAll_hit h]
        exact hit t (ih _ hl t rfl)
      · rw [replaceAll_miss hp]
        exact miss c s hp (ih _ (by simp) s rfl)

/-- nothing to replace in a prefix -/
theorem replaceAll_append {p q : Str} (h : ∀ u v, p = u ++ v → v ≠ [] → ¬ old <+: v ++ q) :
    replaceAll old new (p ++ q) = p ++ replaceAll old new q := by
  induction p with
  | nil => rfl
  | cons c p ih =>
    rw [List.cons_append, replaceAll_miss (s := p ++ q) (h [] (c :: p) rfl (by simp)), ih]
    · rfl
    · intro u v huv hv
      exact h (c :: u) v (by rw [huv]; rfl) hv

theorem replaceAll_of_not_infix {s : Str} (h : ¬ old <:+: s) : replaceAll old new s = s := by
  have := replaceAll_append (old := old) (new := new) (p := s) (q := []) (by
    rintro u v rfl _ ⟨w, hw⟩
    apply h
    refine ⟨u, w, ?_⟩
    rw [List.append_nil] at hw
    rw [List.append_assoc, hw])
  simpa using this

/-- the head character of what is looked for does not occur in the prefix -/
theorem replaceAll_skip {c : Char} {o p q : Str} (h : c ∉ p) :
    replaceAll (c :: o) new (p ++ q) = p ++ replaceAll (c :: o) new q := by
  apply replaceAll_append
  rintro u v rfl hv ⟨w, hw⟩
  obtain ⟨d, v, rfl⟩ := List.exists_cons_of_ne_nil hv
  simp only [List.cons_append, List.cons.injEq] at hw
  apply h
  rw [hw.1]
  simp

theorem mem_replaceAll (ho : old ≠ []) {x : Char} {s : Str} (h : x ∈ replaceAll old new s) : x ∈ s ∨ x ∈ new := by
  revert h
  refine scan_induction (P := fun s r => x ∈ r → x ∈ s ∨ x ∈ new) ho ?_ ?_ ?_ s
  · intro h; cases h
  · intro t ih h
    rcases List.mem_append.mp h with h | h
    · exact .inr h
    · rcases ih h with h | h
      · exact .inl (List.mem_append_right _ h)
      · exact .inr h
  · intro c t _ ih h
    rcases List.mem_cons.mp h with h | h
    · exact .inl (h ▸ List.mem_cons_self ..)
    · rcases ih h with h | h
      · exact .inl (List.mem_cons_of_mem _ h)
      · exact .inr h

theorem filter_replaceAll (ho : old ≠ []) (p : Char → Bool) (h : new.filter p = old.filter p) (s : Str) :
    (replaceAll old new s).filter p = s.filter p := by
  refine scan_induction (P := fun s r => r.filter p = s.filter p) ho rfl ?_ ?_ s
  · intro t ih
    rw [List.filter_append, List.filter_append, h, ih]
  · intro c t _ ih
    rw [List.filter_cons, List.filter_cons, ih]

theorem head?_replaceAll (ho : old ≠ []) (h : new.head? = old.head?) (s : Str) :
    (replaceAll old new s).head? = s.head? := by
  refine scan_induction (P := fun s r => r.head? = s.head?) ho rfl ?_ ?_ s
  · intro t _
    obtain ⟨c, o, rfl⟩ := List.exists_cons_of_ne_nil ho
    cases new with
    | nil => simp at h
    | cons d n => simpa using h
  · intro c t _ _
    rfl

/-- two neighbouring characters of the result are neighbours in the source or in the replacement, or the first one ends
a replacement -/
theorem pair_replaceAll (ho : old ≠ []) (h : new.head? = old.head?) {x y : Char} {s : Str}
    (hp : [x, y] <:+: replaceAll old new s) : [x, y] <:+: s ∨ [x, y] <:+: new ∨ new.getLast? = some x := by
  have key : ∀ {c : Char} {r : Str}, [x, y] <:+: c :: r ↔ (c = x ∧ r.head? = some y) ∨ [x, y] <:+: r := by
    intro c r
    rw [List.infix_cons_iff]
    constructor
    · rintro (⟨t, ht⟩ | hi)
      · left
        simp only [List.cons_append, List.nil_append, List.cons.injEq] at ht
        obtain ⟨rfl, rfl⟩ := ht
        simp
      · exact .inr hi
    · rintro (⟨rfl, hr⟩ | hi)
      · left
        cases r with
        | nil => simp at hr
        | cons d r =>
          simp only [List.head?_cons, Option.some.injEq] at hr
          subst hr
          exact ⟨r, rfl⟩
      · exact .inr hi
  have key2 : ∀ {n r : Str}, [x, y] <:+: n ++ r → [x, y] <:+: n ∨ n.getLast? = some x ∨ [x, y] <:+: r := by
    intro n
    induction n with
    | nil => intro r hr; exact .inr (.inr hr)
    | cons c n ih =>
      intro r hr
      rw [List.cons_append, key] at hr
      rcases hr with ⟨rfl, hy⟩ | hr
      · cases n with
        | nil => exact .inr (.inl rfl)
        | cons d n =>
          left
          rw [key]
          left
          exact ⟨rfl, by simpa using hy⟩
      · rcases ih hr with h1 | h1 | h1
        · exact .inl (h1.trans (List.suffix_cons c n).isInfix)
        · right; left
          cases n with
          | nil => simp at h1
          | cons d n => simpa using h1
        · exact .inr (.inr h1)
  revert hp
  refine (scan_induction (P := fun s r => ([x, y] <:+: r → [x, y] <:+: s ∨ [x, y] <:+: new ∨ new.getLast? = some x))
    ho ?_ ?_ ?_ s)
  · exact .inl
  · intro t ih hp
    rcases key2 hp with h1 | h1 | h1
    · exact .inr (.inl h1)
    · exact .inr (.inr h1)
    · rcases ih h1 with h2 | h2
      · exact .inl (h2.trans (List.suffix_append old t).isInfix)
      · exact .inr h2
  · intro c t _ ih hp
    rw [key] at hp
    rcases hp with ⟨rfl, hy⟩ | hp
    · left
      rw [key]
      exact .inl ⟨rfl, by rwa [head?_replaceAll ho h] at hy⟩
    · rcases ih hp with h2 | h2
      · exact .inl (h2.trans (List.suffix_cons c t).isInfix)
      · exact .inr h2

end scan

/-! ### The loop that wraps letters -/

/-- does the string begin with a letter? -/
def beginsAlpha (alpha : Char → Bool) : Str → Bool
  | [] => false
  | c :: _ => alpha c

/-- the text with every run of letters wrapped, except that the opening of a run at the very beginning is left out -/
def wrapped (alpha : Char → Bool) : Str → Str
  | [] => []
  | c :: t =>
    if alpha c then c :: (if beginsAlpha alpha t then wrapped alpha t else '}' :: wrapped alpha t)
    else c :: (if beginsAlpha alpha t then str!" \\mathrm{" ++ wrapped alpha t else wrapped alpha t)

@[simp] theorem beginsAlpha_cons (alpha : Char → Bool) (c : Char) (t : Str) :
    beginsAlpha alpha (c :: t) = alpha c := rfl

theorem wrapAlpha_eq (alpha : Char → Bool) (s : Str) :
    wrapAlpha alpha s = (if beginsAlpha alpha s then str!"\\mathrm{" else []) ++ wrapped alpha s := by
  have main : ∀ (p t : Str), p ++ t = s → p ≠ [] →
      (List.range' p.length t.length).foldr (fun i st => wrapStep (s.map alpha) st i) (s, false) =
        (p ++ wrapped alpha t, beginsAlpha alpha t) := by
    intro p t
    induction t generalizing p with
    | nil => intro h _; simp [wrapped, beginsAlpha, ← h]
    | cons c t ih =>
      intro h hp
      have := ih (p ++ [c]) (by rw [← h]; simp) (by simp)
      simp only [List.length_append, List.length_cons, List.length_nil, Nat.zero_add] at this
      rw [List.length_cons, List.range'_succ, List.foldr_cons, this]
      have hget : (s.map alpha).getD p.length false = alpha c := by
        rw [← h, List.getD_eq_getElem?_getD]
        simp
      have htake : (p ++ [c] ++ wrapped alpha t).take (p.length + 1) = p ++ [c] := by
        rw [List.take_append_of_le_length (by simp)]
        exact List.take_of_length_le (by simp)
      have hdrop : (p ++ [c] ++ wrapped alpha t).drop (p.length + 1) = wrapped alpha t := by
        rw [List.drop_append_of_le_length (by simp)]
        simp
      have hl : p.length ≠ 0 := by simpa using hp
      unfold wrapStep
      simp only [hget, htake, hdrop, if_neg hl, wrapped, beginsAlpha_cons]
      cases alpha c <;> cases beginsAlpha alpha t <;> simp
  cases s with
  | nil => rfl
  | cons c t =>
    have := main [c] t rfl (by simp)
    unfold wrapAlpha
    rw [List.foldl_reverse, List.range_eq_range', List.length_cons, List.range'_succ, List.foldr_cons]
    simp only [List.length_cons, List.length_nil, Nat.zero_add] at this ⊢
    rw [this]
    unfold wrapStep
    simp only [List.map_cons, List.getD_cons_zero, wrapped, beginsAlpha_cons]
    by_cases hc : alpha c = true <;> by_cases ht : beginsAlpha alpha t = true <;> simp [hc, ht]

end Verif.Plaschem.Latex
