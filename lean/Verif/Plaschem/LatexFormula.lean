/-
What is displayed for the LaTeX name of a species.
-/
import Verif.Plaschem.LatexInj

namespace Verif.Plaschem.Latex

/-! ### Specification: what LaTeX shows in math mode -/

/-- on the line, below or above it -/
inductive Pos
  | base | sub | sup
  deriving DecidableEq, Repr

/-- a character on the page; `upright` is the font of `\mathrm` -/
structure Glyph where
  ch : Char
  pos : Pos
  upright : Bool
  deriving DecidableEq, Repr

/-- where the reader of a formula is: outside, in the name of a command (with what is still to come), inside
`\mathrm{...}`, just after `^` or `_`, inside `^{...}` or `_{...}` -/
inductive Mode
  | base | cmd (todo : Str) | rm | script (p : Pos) | grp (p : Pos)
  deriving DecidableEq, Repr

/-- reading one character: the next mode and what is shown; `none` is an error -/
def step : Mode → Char → Option (Mode × Option Glyph)
  | .base, c =>
    if c = '\\' then some (.cmd str!"mathrm{", none)
    else if c = '^' then some (.script .sup, none)
    else if c = '_' then some (.script .sub, none)
    else if c = ' ' then some (.base, none)
    else if c = '{' ∨ c = '}' then none
    else some (.base, some ⟨c, .base, false⟩)
  | .cmd [], _ => none
  | .cmd (x :: todo), c => if c = x then some (if todo = [] then .rm else .cmd todo, none) else none
  | .rm, c =>
    if c = '}' then some (.base, none)
    else if c ∈ str!"^_{\\ " then none
    else some (.rm, some ⟨c, .base, true⟩)
  | .script p, c =>
    if c = '{' then some (.grp p, none)
    else if c ∈ str!"^_}\\ " then none
    else some (.base, some ⟨c, p, false⟩)
  | .grp p, c =>
    if c = '}' then some (.base, none)
    else if c ∈ str!"^_{\\ " then none
    else some (.grp p, some ⟨c, p, false⟩)

/-- reading a formula: what is shown, or an error -/
def render : Mode → Str → Option (List Glyph)
  | m, [] => if m = .base then some [] else none
  | m, c :: s =>
    match step m c with
    | none => none
    | some (m', g) => (render m' s).map (g.toList ++ ·)

/-- a number in a formula; none is written for `0` -/
def numText (k : Nat) : Str := if k = 0 then [] else Nat.toDigits 10 k

/-- the plain name made of element symbols with numbers -/
def formula (parts : List (Str × Nat)) : Str := parts.flatMap fun p => p.1 ++ numText p.2

/-- what is to be shown for `n` signs `c`: `2+` for `++`, but `**` for `**` -/
def signShown (c : Char) (n : Nat) : Str :=
  if c = '*' ∨ n ≤ 1 then List.replicate n c else Nat.toDigits 10 n ++ [c]

/-- what is to be shown for a species -/
def shown (parts : List (Str × Nat)) (c : Char) (n : Nat) : List Glyph :=
  (parts.flatMap fun p => p.1.map (⟨·, .base, true⟩) ++ (numText p.2).map (⟨·, .sub, false⟩)) ++
    (signShown c n).map (⟨·, .sup, false⟩)

/-! ### Superscripts -/

theorem applyRules_append (a b : List (Str × Str)) (s : Str) :
    applyRules (a ++ b) s = applyRules b (applyRules a s) := List.foldl_append

theorem applyRules_cons (r : Str × Str) (b : List (Str × Str)) (s : Str) :
    applyRules (r :: b) s = applyRules b (replaceAll r.1 r.2 s) := rfl

/-- a sign that is superscribed -/
def isSign (c : Char) : Bool := c == '+' || c == '-' || c == '*'

def supOf (s : Str) : Str := if 1 < s.length then str!"^{" ++ s ++ str!"}" else str!"^" ++ s

def endRules (e : Str) : List (Str × Str) := (multi ++ singles).map fun s => (e ++ s, e ++ supOf s)

theorem supRules_eq : supRules = (elements ++ digits).flatMap endRules := rfl

def goodEnd (e : Str) : Bool := !e.isEmpty && e.all fun c => !isSign c && !(c == '^' || c == '{' || c == '}')

def goodSign (s : Str) : Bool := !s.isEmpty && s.all isSign

theorem ends_good : ∀ e ∈ elements ++ digits, goodEnd e = true := by decide +kernel

theorem signs_good : ∀ s ∈ multi ++ singles, goodSign s = true := by decide +kernel

theorem signs_pairwise : (multi ++ singles).Pairwise fun s t => ¬ s <+: t := by decide +kernel

theorem goodEnd.ne {e : Str} (h : goodEnd e = true) : e ≠ [] := by
  rintro rfl; cases h

theorem goodEnd.all {e : Str} (h : goodEnd e = true) : ∀ c ∈ e, isSign c = false ∧ c ≠ '^' ∧ c ≠ '{' ∧ c ≠ '}' := by
  intro c hc
  rw [goodEnd, Bool.and_eq_true, List.all_eq_true] at h
  have := h.2 c hc
  simp only [Bool.and_eq_true, Bool.not_eq_true', Bool.or_eq_false_iff, beq_eq_false_iff_ne] at this
  exact ⟨this.1, this.2.1.1, this.2.1.2, this.2.2⟩

theorem goodSign.ne {s : Str} (h : goodSign s = true) : s ≠ [] := by
  rintro rfl; cases h

theorem goodSign.all {s : Str} (h : goodSign s = true) : ∀ c ∈ s, isSign c = true := by
  rw [goodSign, Bool.and_eq_true, List.all_eq_true] at h
  exact h.2

section sup
variable {e s pre sgn new : Str}

theorem occ (he : goodEnd e = true) (hs : goodSign s = true) (hpre : ∀ c ∈ pre, isSign c = false)
    (hsgn : ∀ c ∈ sgn, isSign c = true) {u w : Str} (h : u ++ (e ++ s) ++ w = pre ++ sgn) :
    u ++ e = pre ∧ s ++ w = sgn := by
  have h' : (u ++ e) ++ (s ++ w) = pre ++ sgn := by rw [← h]; simp
  rcases List.append_eq_append_iff.mp h' with ⟨m, h1, h2⟩ | ⟨m, h1, h2⟩
  · cases m with
    | nil => exact ⟨by simpa using h1.symm, by simpa using h2⟩
    | cons x m =>
      obtain ⟨y, s, rfl⟩ := List.exists_cons_of_ne_nil (goodSign.ne hs)
      simp only [List.cons_append, List.cons.injEq] at h2
      have a := goodSign.all hs y (by simp)
      have b := hpre x (by rw [h1]; simp)
      rw [← h2.1, a] at b
      cases b
  · cases hm : m.getLast? with
    | none =>
      rw [List.getLast?_eq_none_iff] at hm
      subst hm
      exact ⟨by simpa using h1, by simpa using h2.symm⟩
    | some x =>
      have hx : x ∈ e := by
        have h3 := congrArg List.getLast? h1
        rw [List.getLast?_append_of_ne_nil _ (goodEnd.ne he), List.getLast?_append_of_ne_nil _
          (by rintro rfl; cases hm), hm] at h3
        exact List.mem_of_getLast? h3
      have a := (goodEnd.all he x hx).1
      have b := hsgn x (by rw [h2]; exact List.mem_append_left _ (List.mem_of_getLast? hm))
      rw [a] at b
      cases b

theorem sup_miss (he : goodEnd e = true) (hs : goodSign s = true) (hpre : ∀ c ∈ pre, isSign c = false)
    (hsgn : ∀ c ∈ sgn, isSign c = true) (h : ¬ (e <:+ pre ∧ s <+: sgn)) :
    replaceAll (e ++ s) new (pre ++ sgn) = pre ++ sgn := by
  apply replaceAll_of_not_infix
  rintro ⟨u, w, hw⟩
  obtain ⟨h1, h2⟩ := occ he hs hpre hsgn hw
  exact h ⟨⟨u, h1⟩, ⟨w, h2⟩⟩

theorem sup_hit (he : goodEnd e = true) (hs : goodSign sgn = true) (hpre : ∀ c ∈ pre, isSign c = false) {x : Str}
    (h : e <:+ pre) : replaceAll (e ++ sgn) (e ++ x) (pre ++ sgn) = pre ++ x := by
  obtain ⟨p, rfl⟩ := h
  have hit := replaceAll_hit (old := e ++ sgn) (new := e ++ x) (by simp [goodEnd.ne he]) []
  rw [List.append_nil, replaceAll_nil, List.append_nil] at hit
  rw [List.append_assoc, replaceAll_append, hit]
  · simp
  · rintro u v rfl hv ⟨w, hw⟩
    have := occ (pre := u ++ v ++ e) (u := u) (w := w) he hs hpre (goodSign.all hs) (by
      rw [List.append_assoc, hw]; simp)
    have hl := congrArg List.length this.1
    have := List.length_pos_of_ne_nil hv
    simp only [List.length_append] at hl
    omega

theorem mem_supOf (hs : goodSign sgn = true) {c : Char} (h : c ∈ supOf sgn) :
    isSign c = true ∨ c = '^' ∨ c = '{' ∨ c = '}' := by
  have := goodSign.all hs c
  unfold supOf at h
  split at h <;> simp only [List.mem_append, List.mem_cons, List.not_mem_nil, or_false] at h <;> tauto

theorem supOf_cons (s : Str) : ∃ t, supOf s = '^' :: t := by
  unfold supOf
  split
  · exact ⟨_, rfl⟩
  · exact ⟨_, rfl⟩

theorem sup_done (he : goodEnd e = true) (hs : goodSign s = true) (hpre : ∀ c ∈ pre, isSign c = false)
    (hsgn : goodSign sgn = true) : replaceAll (e ++ s) new (pre ++ supOf sgn) = pre ++ supOf sgn := by
  apply replaceAll_of_not_infix
  rintro ⟨u, w, h⟩
  obtain ⟨y, s, rfl⟩ := List.exists_cons_of_ne_nil (goodSign.ne hs)
  have hy := goodSign.all hs y (by simp)
  have h' : (u ++ e) ++ (y :: s ++ w) = pre ++ supOf sgn := by rw [← h]; simp
  rcases List.append_eq_append_iff.mp h' with ⟨m, h1, h2⟩ | ⟨m, h1, h2⟩
  · cases m with
    | nil =>
      obtain ⟨t, ht⟩ := supOf_cons sgn
      rw [ht] at h2
      simp only [List.cons_append, List.nil_append, List.cons.injEq] at h2
      rw [h2.1] at hy
      cases hy
    | cons x m =>
      simp only [List.cons_append, List.cons.injEq] at h2
      have b := hpre x (by rw [h1]; simp)
      rw [← h2.1, hy] at b
      cases b
  · cases hm : m.getLast? with
    | none =>
      rw [List.getLast?_eq_none_iff] at hm
      subst hm
      obtain ⟨t, ht⟩ := supOf_cons sgn
      rw [ht] at h2
      simp only [List.cons_append, List.nil_append, List.cons.injEq] at h2
      rw [← h2.1] at hy
      cases hy
    | some x =>
      have hx : x ∈ e := by
        have h3 := congrArg List.getLast? h1
        rw [List.getLast?_append_of_ne_nil _ (goodEnd.ne he), List.getLast?_append_of_ne_nil _
          (by rintro rfl; cases hm), hm] at h3
        exact List.mem_of_getLast? h3
      have a := goodEnd.all he x hx
      have b := mem_supOf hsgn (c := x) (by rw [h2]; exact List.mem_append_left _ (List.mem_of_getLast? hm))
      rcases b with b | b | b | b
      · rw [a.1] at b; cases b
      · exact a.2.1 b
      · exact a.2.2.1 b
      · exact a.2.2.2 b

theorem end_done (he : goodEnd e = true) {L : List Str} (hL : ∀ s ∈ L, goodSign s = true)
    (hpre : ∀ c ∈ pre, isSign c = false) (hsgn : goodSign sgn = true) :
    applyRules (L.map fun s => (e ++ s, e ++ supOf s)) (pre ++ supOf sgn) = pre ++ supOf sgn := by
  induction L with
  | nil => rfl
  | cons s L ih =>
    rw [List.map_cons, applyRules_cons, sup_done he (hL s (by simp)) hpre hsgn]
    exact ih fun t ht => hL t (by simp [ht])

theorem end_miss (he : goodEnd e = true) {L : List Str} (hL : ∀ s ∈ L, goodSign s = true)
    (hpre : ∀ c ∈ pre, isSign c = false) (hsgn : ∀ c ∈ sgn, isSign c = true) (h : sgn = [] ∨ ¬ e <:+ pre) :
    applyRules (L.map fun s => (e ++ s, e ++ supOf s)) (pre ++ sgn) = pre ++ sgn := by
  induction L with
  | nil => rfl
  | cons s L ih =>
    rw [List.map_cons, applyRules_cons, sup_miss he (hL s (by simp)) hpre hsgn]
    · exact ih fun t ht => hL t (by simp [ht])
    · rintro ⟨h1, h2⟩
      rcases h with rfl | h
      · exact goodSign.ne (hL s (by simp)) (List.prefix_nil.mp h2)
      · exact h h1

theorem end_hit (he : goodEnd e = true) {L : List Str} (hL : ∀ s ∈ L, goodSign s = true)
    (hp : L.Pairwise fun s t => ¬ s <+: t)
    (hpre : ∀ c ∈ pre, isSign c = false) (hsgn : sgn ∈ L) (h : e <:+ pre) :
    applyRules (L.map fun s => (e ++ s, e ++ supOf s)) (pre ++ sgn) = pre ++ supOf sgn := by
  induction L with
  | nil => cases hsgn
  | cons s L ih =>
    have hg := hL sgn hsgn
    rw [List.map_cons, applyRules_cons]
    by_cases hs : sgn = s
    · subst hs
      rw [sup_hit he hg hpre h]
      exact end_done he (fun t ht => hL t (by simp [ht])) hpre hg
    · have hm : sgn ∈ L := (List.mem_cons.mp hsgn).resolve_left hs
      rw [sup_miss he (hL s (by simp)) hpre (goodSign.all hg)]
      · exact ih (fun t ht => hL t (by simp [ht])) (List.pairwise_cons.mp hp).2 hm
      · rintro ⟨_, h2⟩
        exact (List.pairwise_cons.mp hp).1 sgn hm h2

theorem sup_pass (hpre : ∀ c ∈ pre, isSign c = false) (hsgn : sgn ∈ multi ++ singles)
    {E : List Str} (hE : ∀ e ∈ E, goodEnd e = true) (h : ∃ e ∈ E, e <:+ pre) :
    applyRules (E.flatMap endRules) (pre ++ sgn) = pre ++ supOf sgn := by
  have hg := signs_good sgn hsgn
  have done : ∀ E : List Str, (∀ e ∈ E, goodEnd e = true) →
      applyRules (E.flatMap endRules) (pre ++ supOf sgn) = pre ++ supOf sgn := by
    intro E hE
    induction E with
    | nil => rfl
    | cons e E ih =>
      rw [List.flatMap_cons, applyRules_append, endRules, end_done (hE e (by simp)) signs_good hpre hg]
      exact ih fun t ht => hE t (by simp [ht])
  induction E with
  | nil => obtain ⟨e, he, _⟩ := h; cases he
  | cons e E ih =>
    rw [List.flatMap_cons, applyRules_append, endRules]
    by_cases hep : e <:+ pre
    · rw [end_hit (hE e (by simp)) signs_good signs_pairwise hpre hsgn hep]
      exact done E fun t ht => hE t (by simp [ht])
    · rw [end_miss (hE e (by simp)) signs_good hpre (goodSign.all hg) (.inr hep)]
      apply ih fun t ht => hE t (by simp [ht])
      obtain ⟨e', he', hp'⟩ := h
      rcases List.mem_cons.mp he' with rfl | he'
      · exact absurd hp' hep
      · exact ⟨e', he', hp'⟩

theorem sup_pass_nil (hpre : ∀ c ∈ pre, isSign c = false) {E : List Str} (hE : ∀ e ∈ E, goodEnd e = true) :
    applyRules (E.flatMap endRules) pre = pre := by
  induction E with
  | nil => rfl
  | cons e E ih =>
    have := end_miss (sgn := []) (hE e (by simp)) signs_good hpre (by simp) (.inl rfl)
    rw [List.append_nil] at this
    rw [List.flatMap_cons, applyRules_append, endRules, this]
    exact ih fun t ht => hE t (by simp [ht])

end sup

/-! ### Subscripts -/

def subOf (s : Str) : Str := if 1 < s.length then str!"_{" ++ s ++ str!"}" else str!"_" ++ s

theorem subRules_eq : subRules = elements.flatMap fun a => (twoDigit ++ oneDigit).map fun n => (a ++ n, a ++ subOf n) := rfl

theorem upper_facts (u : Char) (h : u.isUpper = true) : u.isLower = false ∧ u.isDigit = false := by
  have h' : 65 ≤ u.val.toNat ∧ u.val.toNat ≤ 90 := by
    have := of_decide_eq_true h
    exact ⟨UInt32.le_iff_toNat_le.mp this.1, UInt32.le_iff_toNat_le.mp this.2⟩
  constructor
  · rw [Char.isLower, Bool.and_eq_false_iff]
    left
    apply decide_eq_false
    intro h1
    have h1 : 97 ≤ u.val.toNat := UInt32.le_iff_toNat_le.mp h1
    omega
  · rw [Char.isDigit, Bool.and_eq_false_iff]
    right
    apply decide_eq_false
    intro h2
    have h2 : u.val.toNat ≤ 57 := UInt32.le_iff_toNat_le.mp h2
    omega

theorem lower_not_upper {u : Char} (h : u.isLower = true) : u.isUpper = false := by
  rw [← Bool.not_eq_true]
  intro h'
  rw [(upper_facts u h').1] at h
  cases h

/-- the form of an element symbol -/
def symOk : Str → Bool
  | [u] => u.isUpper
  | [u, l] => u.isUpper && l.isLower
  | _ => false

theorem elements_sym : ∀ e ∈ elements, symOk e = true := by decide +kernel

def numOk (n : Str) : Bool := !n.isEmpty && n.all fun c => c.isDigit && !c.isUpper && !c.isLower

theorem nums_ok : ∀ n ∈ twoDigit ++ oneDigit, numOk n = true := by decide +kernel

theorem nums_pairwise : (twoDigit ++ oneDigit).Pairwise fun s t => ¬ s <+: t := by decide +kernel

theorem numOk.ne {n : Str} (h : numOk n = true) : n ≠ [] := by rintro rfl; cases h

theorem numOk.all {n : Str} (h : numOk n = true) :
    ∀ c ∈ n, c.isDigit = true ∧ c.isUpper = false ∧ c.isLower = false := by
  intro c hc
  rw [numOk, Bool.and_eq_true, List.all_eq_true] at h
  have := h.2 c hc
  simp only [Bool.and_eq_true, Bool.not_eq_true'] at this
  exact ⟨this.1.1, this.1.2, this.2⟩

/-- symbols with what follows them -/
def flatB (bs : List (Str × Str)) : Str := bs.flatMap fun p => p.1 ++ p.2

structure BlockOk (p : Str × Str) : Prop where
  sym : symOk p.1 = true
  up : ∀ c ∈ p.2, c.isUpper = false
  head : ∀ c, p.2.head? = some c → c.isLower = false

/-- what may come after the last symbol -/
structure TailOk (q : Str) : Prop where
  up : ∀ c ∈ q, c.isUpper = false
  head : ∀ c, q.head? = some c → c.isLower = false ∧ c.isDigit = false

def upd (a n : Str) (p : Str × Str) : Str × Str :=
  if p.1 = a ∧ n <+: p.2 then (p.1, subOf n ++ p.2.drop n.length) else p

theorem head_flatB {bs : List (Str × Str)} {q : Str} (hb : ∀ p ∈ bs, BlockOk p) (hq : TailOk q) {c : Char}
    (h : (flatB bs ++ q).head? = some c) : c.isLower = false ∧ c.isDigit = false := by
  cases bs with
  | nil => exact hq.head c h
  | cons p bs =>
    have := (hb p (by simp)).sym
    obtain ⟨s, d⟩ := p
    have up := upper_facts
    match s, this with
    | [u], hs =>
      simp only [flatB, List.flatMap_cons, List.cons_append, List.head?_cons, Option.some.injEq] at h
      subst h
      exact up _ hs
    | [u, l], hs =>
      simp only [flatB, List.flatMap_cons, List.cons_append, List.head?_cons, Option.some.injEq] at h
      subst h
      rw [symOk, Bool.and_eq_true] at hs
      exact up _ hs.1

theorem num_prefix {n d R : Str} (hn : numOk n = true) (hR : ∀ c, R.head? = some c → c.isDigit = false)
    (h : n <+: d ++ R) : n <+: d := by
  rcases List.prefix_or_prefix_of_prefix h (List.prefix_append d R) with h1 | ⟨m, rfl⟩
  · exact h1
  · cases m with
    | nil => simp
    | cons c m =>
      have h2 := (List.prefix_append_right_inj d).mp h
      have h3 : R.head? = some c := by
        obtain ⟨t, rfl⟩ := h2
        rfl
      have a := hR c h3
      have b := (numOk.all hn c (by simp)).1
      rw [a] at b
      cases b

theorem block_step {a n : Str} (ha : symOk a = true) (hn : numOk n = true) {bs : List (Str × Str)} {q : Str}
    (hb : ∀ p ∈ bs, BlockOk p) (hq : TailOk q) :
    replaceAll (a ++ n) (a ++ subOf n) (flatB bs ++ q) = flatB (bs.map (upd a n)) ++ q := by
  obtain ⟨U, a', rfl, hU⟩ : ∃ U a', a = U :: a' ∧ U.isUpper = true := by
    match a, ha with
    | [u], h => exact ⟨u, [], rfl, h⟩
    | [u, l], h =>
      rw [symOk, Bool.and_eq_true] at h
      exact ⟨u, [l], rfl, h.1⟩
  have skip : ∀ {p r : Str}, (∀ c ∈ p, c.isUpper = false) →
      replaceAll (U :: a' ++ n) (U :: a' ++ subOf n) (p ++ r) =
        p ++ replaceAll (U :: a' ++ n) (U :: a' ++ subOf n) r := by
    intro p r hp
    rw [List.cons_append]
    apply replaceAll_skip
    intro hm
    rw [hp U hm] at hU
    cases hU
  induction bs with
  | nil =>
    have := skip (p := q) (r := []) hq.up
    simpa [flatB] using this
  | cons p bs ih =>
    obtain ⟨s, d⟩ := p
    have hp := hb (s, d) (by simp)
    have hb' : ∀ p ∈ bs, BlockOk p := fun p hp => hb p (by simp [hp])
    have ih := ih hb'
    have hR := fun c => head_flatB (c := c) hb' hq
    rw [show flatB ((s, d) :: bs) ++ q = s ++ (d ++ (flatB bs ++ q)) by simp [flatB],
      show flatB (((s, d) :: bs).map (upd (U :: a') n)) ++ q = (upd (U :: a') n (s, d)).1 ++
        ((upd (U :: a') n (s, d)).2 ++ (flatB (bs.map (upd (U :: a') n)) ++ q)) by simp [flatB]]
    by_cases hm : s = U :: a' ∧ n <+: d
    · obtain ⟨rfl, v, rfl⟩ := hm
      rw [upd, if_pos ⟨rfl, List.prefix_append _ _⟩]
      dsimp only
      rw [show U :: a' ++ (n ++ v ++ (flatB bs ++ q)) = (U :: a' ++ n) ++ (v ++ (flatB bs ++ q)) by simp,
        replaceAll_hit (by simp), skip (p := v) fun c hc => hp.up c (by simp [hc]), ih]
      simp
    · rw [upd, if_neg hm]
      dsimp only
      have miss : ¬ (U :: a' ++ n) <+: s ++ (d ++ (flatB bs ++ q)) := by
        intro h
        apply hm
        have nhead : ∀ {x : Char} {r : Str}, n <+: x :: r → x.isLower = false := by
          intro x r h
          obtain ⟨y, n', rfl⟩ := List.exists_cons_of_ne_nil (numOk.ne hn)
          rw [← (List.cons_prefix_cons.mp h).1]
          exact (numOk.all hn y (by simp)).2.2
        have dhead : ∀ {x : Char}, (d ++ (flatB bs ++ q)).head? = some x → x.isLower = false := by
          intro x hx
          cases d with
          | nil => exact (hR x hx).1
          | cons y d => exact hp.head x (by simpa using hx)
        have key : n <+: d ++ (flatB bs ++ q) → n <+: d := num_prefix hn fun c hc => (hR c hc).2
        have hs := hp.sym
        match a', s, ha, hs with
        | [], [V], _, _ =>
          obtain ⟨h1, h2⟩ := List.cons_prefix_cons.mp h
          exact ⟨by rw [h1], key h2⟩
        | [], [V, m], _, hs =>
          obtain ⟨h1, h2⟩ := List.cons_prefix_cons.mp h
          have := nhead h2
          rw [symOk, Bool.and_eq_true] at hs
          rw [this] at hs
          cases hs.2
        | [l], [V], ha, _ =>
          obtain ⟨h1, t, ht⟩ := List.cons_prefix_cons.mp h
          have := dhead (x := l) (by
            change [l] ++ n ++ t = d ++ (flatB bs ++ q) at ht
            rw [← ht]; rfl)
          rw [symOk, Bool.and_eq_true, this] at ha
          cases ha.2
        | [l], [V, m], _, _ =>
          obtain ⟨h1, h2⟩ := List.cons_prefix_cons.mp h
          obtain ⟨h3, h4⟩ := List.cons_prefix_cons.mp h2
          exact ⟨by rw [h1, h3], key h4⟩
      obtain ⟨V, s', rfl, hs'⟩ : ∃ V s', s = V :: s' ∧ ∀ c ∈ s', c.isUpper = false := by
        have hs := hp.sym
        match s, hs with
        | [u], _ => exact ⟨u, [], rfl, by simp⟩
        | [u, l], h =>
          refine ⟨u, [l], rfl, ?_⟩
          rw [symOk, Bool.and_eq_true] at h
          intro c hc
          rw [List.mem_singleton] at hc
          subst hc
          exact lower_not_upper h.2
      rw [show V :: s' ++ (d ++ (flatB bs ++ q)) = V :: (s' ++ (d ++ (flatB bs ++ q))) from rfl,
        replaceAll_miss (s := s' ++ (d ++ (flatB bs ++ q))) miss, skip hs', skip hp.up, ih]
      simp

theorem upd_ok {a n : Str} (hn : numOk n = true) {p : Str × Str} (h : BlockOk p) : BlockOk (upd a n p) := by
  unfold upd
  split
  · next hm =>
    refine ⟨h.sym, ?_, ?_⟩
    · intro c hc
      rcases List.mem_append.mp hc with hc | hc
      · have := (numOk.all hn c)
        unfold subOf at hc
        split at hc <;> simp only [List.mem_append, List.mem_cons, List.not_mem_nil, or_false] at hc
        · rcases hc with ((rfl | rfl) | hc) | rfl
          · rfl
          · rfl
          · exact (this hc).2.1
          · rfl
        · rcases hc with rfl | hc
          · rfl
          · exact (this hc).2.1
      · exact h.up c (List.mem_of_mem_drop hc)
    · intro c hc
      have : c = '_' := by
        unfold subOf at hc
        split at hc <;> exact (Option.some.inj hc).symm
      subst this
      rfl
  · exact h

/-- the pass on the level of blocks -/
def updAll (rules : List (Str × Str)) (p : Str × Str) : Str × Str := rules.foldl (fun p r => upd r.1 r.2 p) p

theorem sub_pass {rules : List (Str × Str)} (hr : ∀ r ∈ rules, symOk r.1 = true ∧ numOk r.2 = true)
    {bs : List (Str × Str)} {q : Str} (hb : ∀ p ∈ bs, BlockOk p) (hq : TailOk q) :
    applyRules (rules.map fun r => (r.1 ++ r.2, r.1 ++ subOf r.2)) (flatB bs ++ q) =
      flatB (bs.map (updAll rules)) ++ q := by
  induction rules generalizing bs with
  | nil => rw [show updAll [] = id from rfl, List.map_id]; rfl
  | cons r rules ih =>
    have h1 := hr r (by simp)
    rw [List.map_cons, applyRules_cons, block_step h1.1 h1.2 hb hq, ih fun r' h' => hr r' (by simp [h'])]
    · rw [List.map_map]; rfl
    · intro p hp
      obtain ⟨p', hp', rfl⟩ := List.mem_map.mp hp
      exact upd_ok h1.2 (hb p' hp')

/-- all rules for subscripts as pairs of an element and a number -/
def subPairs : List (Str × Str) := elements.flatMap fun a => (twoDigit ++ oneDigit).map fun n => (a, n)

theorem subRules_pairs : subRules = subPairs.map fun r => (r.1 ++ r.2, r.1 ++ subOf r.2) := by
  rw [subRules_eq, subPairs, List.map_flatMap]
  congr 1

theorem updAll_append (a b : List (Str × Str)) (p : Str × Str) : updAll (a ++ b) p = updAll b (updAll a p) :=
  List.foldl_append

theorem updAll_block {s num : Str} {A : List Str} (hs : s ∈ A) (hnum : num ∈ twoDigit ++ oneDigit) :
    updAll (A.flatMap fun a => (twoDigit ++ oneDigit).map fun n => (a, n)) (s, num) = (s, subOf num) := by
  have done : ∀ (rules : List (Str × Str)), (∀ r ∈ rules, numOk r.2 = true) →
      updAll rules (s, subOf num) = (s, subOf num) := by
    intro rules hr
    induction rules with
    | nil => rfl
    | cons r rules ih =>
      change updAll rules (upd r.1 r.2 (s, subOf num)) = _
      rw [upd, if_neg]
      · exact ih fun r' h' => hr r' (by simp [h'])
      · rintro ⟨_, h⟩
        obtain ⟨y, n', hy⟩ := List.exists_cons_of_ne_nil (numOk.ne (hr r (by simp)))
        have hyd := (numOk.all (hr r (by simp)) y (by rw [hy]; simp)).1
        rw [hy] at h
        have : y = '_' := by
          unfold subOf at h
          split at h <;> exact (List.cons_prefix_cons.mp h).1
        subst this
        cases hyd
  have miss : ∀ {a : Str} (L : List Str), a ≠ s → updAll (L.map fun n => (a, n)) (s, num) = (s, num) := by
    intro a L ha
    induction L with
    | nil => rfl
    | cons n L ih =>
      change updAll (L.map fun n => (a, n)) (upd a n (s, num)) = _
      rw [upd, if_neg (fun h => ha h.1.symm)]
      exact ih
  have hit : ∀ (L : List Str), num ∈ L → (∀ n ∈ L, numOk n = true) → L.Pairwise (fun s t => ¬ s <+: t) →
      updAll (L.map fun n => (s, n)) (s, num) = (s, subOf num) := by
    intro L hm hL hp
    induction L with
    | nil => cases hm
    | cons n L ih =>
      change updAll (L.map fun n => (s, n)) (upd s n (s, num)) = _
      by_cases hn : num = n
      · subst hn
        rw [upd, if_pos ⟨rfl, List.prefix_refl _⟩, List.drop_length, List.append_nil]
        apply done
        intro r hr
        obtain ⟨n', h', rfl⟩ := List.mem_map.mp hr
        exact hL n' (by simp [h'])
      · have hm' := (List.mem_cons.mp hm).resolve_left hn
        rw [upd, if_neg fun h => (List.pairwise_cons.mp hp).1 num hm' h.2]
        exact ih hm' (fun n' h' => hL n' (by simp [h'])) (List.pairwise_cons.mp hp).2
  induction A with
  | nil => cases hs
  | cons a A ih =>
    rw [List.flatMap_cons, updAll_append]
    by_cases ha : s = a
    · subst ha
      rw [hit _ hnum nums_ok nums_pairwise]
      apply done
      intro r hr
      obtain ⟨a', _, hr⟩ := List.mem_flatMap.mp hr
      obtain ⟨n', h', rfl⟩ := List.mem_map.mp hr
      exact nums_ok n' h'
    · rw [miss _ (fun h => ha h.symm)]
      exact ih ((List.mem_cons.mp hs).resolve_left ha)

theorem updAll_none {s : Str} {rules : List (Str × Str)} (hr : ∀ r ∈ rules, numOk r.2 = true) :
    updAll rules (s, []) = (s, []) := by
  induction rules with
  | nil => rfl
  | cons r rules ih =>
    change updAll rules (upd r.1 r.2 (s, [])) = _
    rw [upd, if_neg fun h => numOk.ne (hr r (by simp)) (List.prefix_nil.mp h.2)]
    exact ih fun r' h' => hr r' (by simp [h'])

theorem subPairs_ok : ∀ r ∈ subPairs, symOk r.1 = true ∧ numOk r.2 = true := by
  intro r hr
  obtain ⟨a, ha, hr⟩ := List.mem_flatMap.mp hr
  obtain ⟨n, hn, rfl⟩ := List.mem_map.mp hr
  exact ⟨elements_sym a ha, nums_ok n hn⟩

/-! ### All passes on a formula -/

/-- the superscript in the end -/
def supFix (s : Str) : Str := applyRules fixRules (supOf s)

theorem fix_pass {pre x : Str} (h : '^' ∉ pre) : applyRules fixRules (pre ++ x) = pre ++ applyRules fixRules x := by
  simp only [applyRules, fixRules, List.foldl_cons, List.foldl_nil]
  rw [replaceAll_skip h, replaceAll_skip h, replaceAll_skip h, replaceAll_skip h]

theorem numText_cases : ∀ k < 20, k = 0 ∨ numText k ∈ twoDigit ++ oneDigit := by decide +kernel

/-- the number as a subscript -/
def subText (k : Nat) : Str := if k = 0 then [] else subOf (numText k)

theorem isSign_upper {c : Char} (h : isSign c = true) : c.isUpper = false ∧ c.isLower = false ∧ c.isDigit = false := by
  simp only [isSign, Bool.or_eq_true, beq_iff_eq] at h
  rcases h with (rfl | rfl) | rfl <;> exact ⟨rfl, rfl, rfl⟩

theorem isSign_false {c : Char} (h : c.isUpper = true ∨ c.isLower = true ∨ c.isDigit = true) : isSign c = false := by
  rw [← Bool.not_eq_true]
  intro hs
  obtain ⟨h1, h2, h3⟩ := isSign_upper hs
  rw [h1, h2, h3] at h
  simp at h

theorem sym_chars {s : Str} (h : symOk s = true) : ∀ c ∈ s, c.isUpper = true ∨ c.isLower = true := by
  match s, h with
  | [u], h =>
    intro c hc
    rw [List.mem_singleton] at hc
    subst hc
    exact .inl h
  | [u, l], h =>
    rw [symOk, Bool.and_eq_true] at h
    intro c hc
    rcases List.mem_cons.mp hc with rfl | hc
    · exact .inl h.1
    · rw [List.mem_singleton] at hc
      subst hc
      exact .inr h.2

theorem numText_digit {k : Nat} (hk : k < 20) : ∀ c ∈ numText k, c.isDigit = true := by
  rcases numText_cases k hk with rfl | h
  · intro c hc; cases hc
  · intro c hc
    exact (numOk.all (nums_ok _ h) c hc).1

/-- the plain formula after all passes but the last -/
theorem passes {parts : List (Str × Nat)} (hne : parts ≠ [])
    (hp : ∀ p ∈ parts, p.1 ∈ elements ∧ p.2 < 20) {sgn : Str} (hs : sgn = [] ∨ sgn ∈ multi ++ singles) :
    applyRules fixRules (applyRules subRules (applyRules supRules (formula parts ++ sgn))) =
      flatB (parts.map fun p => (p.1, subText p.2)) ++ (if sgn = [] then [] else supFix sgn) := by
  have hflat : formula parts = flatB (parts.map fun p => (p.1, numText p.2)) := by
    simp [formula, flatB, List.flatMap_map]
  have hpre : ∀ c ∈ formula parts, isSign c = false := by
    intro c hc
    obtain ⟨p, hpm, hc⟩ := List.mem_flatMap.mp hc
    apply isSign_false
    rcases List.mem_append.mp hc with hc | hc
    · rcases sym_chars (elements_sym _ (hp p hpm).1) c hc with h | h
      · exact .inl h
      · exact .inr (.inl h)
    · exact .inr (.inr (numText_digit (hp p hpm).2 c hc))
  have hend : ∃ e ∈ elements ++ digits, e <:+ formula parts := by
    obtain ⟨init, p, rfl⟩ : ∃ init p, parts = init ++ [p] := ⟨_, _, (List.dropLast_append_getLast hne).symm⟩
    have hpp := hp p (by simp)
    have hf : formula (init ++ [p]) = formula init ++ (p.1 ++ numText p.2) := by simp [formula]
    rcases numText_cases p.2 hpp.2 with h0 | h0
    · refine ⟨p.1, by simp [hpp.1], ?_⟩
      rw [hf, h0]
      exact ⟨formula init, by simp [numText]⟩
    · have : ∀ n ∈ twoDigit ++ oneDigit, ∃ d ∈ digits, d <:+ n := by decide +kernel
      obtain ⟨d, hd, hdn⟩ := this _ h0
      refine ⟨d, by simp [hd], ?_⟩
      rw [hf]
      exact hdn.trans ((List.suffix_append _ _).trans (List.suffix_append _ _))
  have hsup : applyRules supRules (formula parts ++ sgn) = formula parts ++ (if sgn = [] then [] else supOf sgn) := by
    rw [supRules_eq]
    rcases hs with rfl | hs
    · rw [if_pos rfl, List.append_nil]
      exact sup_pass_nil hpre ends_good
    · rw [if_neg (goodSign.ne (signs_good _ hs))]
      exact sup_pass hpre hs ends_good hend
  have htail : TailOk (if sgn = [] then [] else supOf sgn) := by
    split
    · exact ⟨by simp, by simp⟩
    · next h0 =>
      have hg := signs_good _ (hs.resolve_left h0)
      refine ⟨?_, ?_⟩
      · intro c hc
        rcases mem_supOf hg hc with h | rfl | rfl | rfl
        · exact (isSign_upper h).1
        · rfl
        · rfl
        · rfl
      · intro c hc
        obtain ⟨t, ht⟩ := supOf_cons sgn
        rw [ht] at hc
        cases hc
        exact ⟨rfl, rfl⟩
  have hblocks : ∀ b ∈ parts.map (fun p => (p.1, numText p.2)), BlockOk b := by
    intro b hb
    obtain ⟨p, hpm, rfl⟩ := List.mem_map.mp hb
    have hd := numText_digit (hp p hpm).2
    refine ⟨elements_sym _ (hp p hpm).1, fun c hc => ?_, fun c hc => ?_⟩
    · rw [← Bool.not_eq_true]
      intro h
      have := hd c hc
      rw [(upper_facts c h).2] at this
      cases this
    · rcases numText_cases p.2 (hp p hpm).2 with h0 | h0
      · rw [h0] at hc; cases hc
      · exact (numOk.all (nums_ok _ h0) c (List.mem_of_mem_head? hc)).2.2
  have hmap : (parts.map fun p => (p.1, numText p.2)).map (updAll subPairs) = parts.map fun p => (p.1, subText p.2) := by
    rw [List.map_map]
    apply List.map_congr_left
    intro p hpm
    rw [Function.comp_apply]
    rcases numText_cases p.2 (hp p hpm).2 with h0 | h0
    · rw [h0]
      exact updAll_none fun r hr => (subPairs_ok r hr).2
    · rw [subPairs, updAll_block (hp p hpm).1 h0, subText, if_neg]
      intro h1
      rw [h1] at h0
      exact absurd h0 (by decide +kernel)
  rw [hsup, subRules_pairs, hflat, sub_pass subPairs_ok hblocks htail, hmap, fix_pass]
  · by_cases h0 : sgn = []
    · rw [if_pos h0, if_pos h0, show applyRules fixRules [] = [] from rfl]
    · rw [if_neg h0, if_neg h0, supFix]
  · intro hm
    obtain ⟨b, hb, hm⟩ := List.mem_flatMap.mp hm
    obtain ⟨p, hpm, rfl⟩ := List.mem_map.mp hb
    rcases List.mem_append.mp hm with hm | hm
    · rcases sym_chars (elements_sym _ (hp p hpm).1) _ hm with h | h <;> cases h
    · have : ∀ k < 20, '^' ∉ subText k := by decide +kernel
      exact this _ (hp p hpm).2 hm

/-! ### What is shown -/

/-- text that goes on outside of `\mathrm` -/
def cont (alpha : Char → Bool) (t : Str) : Str :=
  if beginsAlpha alpha t then str!" \\mathrm{" ++ wrapped alpha t else wrapped alpha t

section shown
variable {alpha : Char → Bool}

theorem render_open (x : Str) : render .base (str!"\\mathrm{" ++ x) = render .rm x := by
  simp [render, step]

theorem render_open' (x : Str) : render .base (str!" \\mathrm{" ++ x) = render .rm x := by
  simp [render, step]

theorem render_rm (t : Str) :
    render .rm (if beginsAlpha alpha t then wrapped alpha t else '}' :: wrapped alpha t) =
      render .base (cont alpha t) := by
  unfold cont
  split
  · rw [render_open']
  · simp [render, step]

theorem render_rm_cons {c : Char} (ha : alpha c = true) (hc : c ∉ str!"^_{}\\ ") (t : Str) :
    render .rm (wrapped alpha (c :: t)) =
      (render .base (cont alpha t)).map (⟨c, .base, true⟩ :: ·) := by
  rw [wrapped, if_pos ha, render]
  have : step .rm c = some (.rm, some ⟨c, .base, true⟩) := by
    simp only [List.mem_cons, List.not_mem_nil, or_false, not_or] at hc
    simp [step, hc]
  rw [this]
  dsimp only
  rw [render_rm]
  rfl

theorem render_cont_cons {c : Char} (ha : alpha c = true) (hc : c ∉ str!"^_{}\\ ") (t : Str) :
    render .base (cont alpha (c :: t)) = (render .base (cont alpha t)).map (⟨c, .base, true⟩ :: ·) := by
  rw [cont, beginsAlpha_cons, if_pos ha, render_open', render_rm_cons ha hc]

theorem render_sym (ok : AlphaOk alpha) {s : Str} (hs : symOk s = true) (t : Str) :
    render .base (cont alpha (s ++ t)) =
      (render .base (cont alpha t)).map (s.map (fun c => ⟨c, .base, true⟩) ++ ·) := by
  have hch := sym_chars hs
  clear hs
  induction s with
  | nil => simp
  | cons c s ih =>
    have hc := hch c (by simp)
    have ha : alpha c = true := ok.letter c (by
      rw [Char.isAlpha]
      rcases hc with h | h <;> simp [h])
    have hno : c ∉ str!"^_{}\\ " := by
      intro hm
      simp only [List.mem_cons, List.not_mem_nil, or_false] at hm
      rcases hm with rfl | rfl | rfl | rfl | rfl | rfl <;> rcases hc with h | h <;> cases h
    rw [List.cons_append, render_cont_cons ha hno, ih fun c' h' => hch c' (by simp [h']), Option.map_map]
    rfl

theorem cont_other {d : Str} (h : ∀ c ∈ d, alpha c = false) (t : Str) : cont alpha (d ++ t) = d ++ cont alpha t := by
  induction d with
  | nil => rfl
  | cons c d ih =>
    have hc := h c (by simp)
    rw [List.cons_append, cont, beginsAlpha_cons, if_neg (by rw [hc]; exact Bool.false_ne_true), wrapped,
      if_neg (by rw [hc]; exact Bool.false_ne_true)]
    change c :: cont alpha (d ++ t) = _
    rw [ih fun c' h' => h c' (by simp [h'])]
    rfl

theorem render_sub {k : Nat} (hk : k < 20) (x : Str) :
    render .base (subText k ++ x) = (render .base x).map ((numText k).map (fun c => ⟨c, .sub, false⟩) ++ ·) := by
  have : subText k = [] ∧ numText k = [] ∨ (∃ a, a ∉ str!"^_{}\\ " ∧ subText k = ['_', a] ∧ numText k = [a]) ∨
      ∃ a b, a ∉ str!"^_{}\\ " ∧ b ∉ str!"^_{}\\ " ∧ subText k = ['_', '{', a, b, '}'] ∧ numText k = [a, b] := by
    rcases numText_cases k hk with rfl | h
    · exact .inl ⟨rfl, rfl⟩
    · right
      have hne : k ≠ 0 := by rintro rfl; exact absurd h (by decide +kernel)
      have hsub : subText k = subOf (numText k) := by rw [subText, if_neg hne]
      rw [hsub]
      have hd := numOk.all (nums_ok _ h)
      have hno : ∀ c ∈ numText k, c ∉ str!"^_{}\\ " := by
        intro c hc hm
        have := (hd c hc).1
        simp only [List.mem_cons, List.not_mem_nil, or_false] at hm
        rcases hm with rfl | rfl | rfl | rfl | rfl | rfl <;> cases this
      have hl : (numText k).length = 1 ∨ (numText k).length = 2 := by
        have : ∀ n ∈ twoDigit ++ oneDigit, n.length = 1 ∨ n.length = 2 := by decide +kernel
        exact this _ h
      rcases hl with hl | hl
      · left
        obtain ⟨a, ha⟩ := List.length_eq_one_iff.mp hl
        rw [ha] at hno ⊢
        exact ⟨a, hno a (by simp), rfl, rfl⟩
      · right
        obtain ⟨a, b, ha⟩ := List.length_eq_two.mp hl
        rw [ha] at hno ⊢
        exact ⟨a, b, hno a (by simp), hno b (by simp), rfl, rfl⟩
  rcases this with ⟨h1, h2⟩ | ⟨a, ha, h1, h2⟩ | ⟨a, b, ha, hb, h1, h2⟩
  · rw [h1, h2]; simp
  · rw [h1, h2]
    simp only [List.mem_cons, List.not_mem_nil, or_false, not_or] at ha
    simp [render, step, ha, Function.comp_def]
  · rw [h1, h2]
    simp only [List.mem_cons, List.not_mem_nil, or_false, not_or] at ha hb
    simp [render, step, ha, hb, Function.comp_def]

theorem render_blocks (ok : AlphaOk alpha) {parts : List (Str × Nat)}
    (hp : ∀ p ∈ parts, p.1 ∈ elements ∧ p.2 < 20) (q : Str) :
    render .base (cont alpha (flatB (parts.map fun p => (p.1, subText p.2)) ++ q)) =
      (render .base (cont alpha q)).map ((parts.flatMap fun p =>
        p.1.map (fun c => ⟨c, .base, true⟩) ++ (numText p.2).map (fun c => ⟨c, .sub, false⟩)) ++ ·) := by
  induction parts with
  | nil => simp [flatB]
  | cons p parts ih =>
    have hpp := hp p (by simp)
    have halpha : ∀ c ∈ subText p.2, alpha c = false := by
      have : ∀ k < 20, ∀ c ∈ subText k, c ∈ str!"^_{}\\ 0123456789+-*()" := by decide +kernel
      exact fun c hc => ok.other c (this _ hpp.2 c hc)
    rw [show flatB ((p :: parts).map fun p => (p.1, subText p.2)) ++ q =
      p.1 ++ (subText p.2 ++ (flatB (parts.map fun p => (p.1, subText p.2)) ++ q)) by simp [flatB],
      render_sym ok (elements_sym _ hpp.1), cont_other halpha, render_sub hpp.2,
      ih fun p' h' => hp p' (by simp [h'])]
    simp [Option.map_map, Function.comp_def]

theorem render_wrap (s : Str) : render .base (wrapAlpha alpha s) = render .base (cont alpha s) := by
  rw [wrapAlpha_eq, cont]
  split
  · rw [render_open, render_open']
  · rfl

end shown

end Verif.Plaschem.Latex
