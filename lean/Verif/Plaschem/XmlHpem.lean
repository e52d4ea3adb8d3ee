/-
C85: import of HPEM input files (plaschem/xml_inputs.py:467-563).
-/
import Verif.Plaschem.XmlBuild
import Verif.Plaschem.XmlDemo
import Verif.Plaschem.KeyProps
import Mathlib.Data.List.Induction
import Mathlib.Tactic.IntervalCases

namespace Verif.Plaschem.Xml
open Verif.Plaschem

variable {F : Type}

/-! ### Model: the regular expressions -/

/-- Parts of the patterns of plaschem/xml_inputs.py:493-494, 499, 519: `\s*`, `(\S+)`, `(.*)` and a character. -/
inductive Atom
  | ws | val | any
  | lit (c : Char)

/-- prefixes of characters with a property, the longest first, each with the rest of the text -/
def prefixes (p : Char → Bool) : Str → List (Str × Str)
  | [] => [([], [])]
  | c :: s =>
    if p c then (prefixes p s).map (fun q => (c :: q.1, q.2)) ++ [([], c :: s)] else [([], c :: s)]

/-- The matches at the beginning of a text, in the order in which `re` (greedy, with backtracking) tries them: captured
groups and the rest. White space is that of `strip`. -/
def tryMatch : List Atom → Str → List (List Str × Str)
  | [], s => [([], s)]
  | .lit _ :: _, [] => []
  | .lit c :: p, d :: s => if d = c then tryMatch p s else []
  | .ws :: p, s => (prefixes isSpace s).flatMap fun q => tryMatch p q.2
  | .val :: p, s => ((prefixes (fun c => !isSpace c) s).filter (fun q => q.1 ≠ [])).flatMap fun q =>
      (tryMatch p q.2).map fun r => (q.1 :: r.1, r.2)
  | .any :: p, s => (prefixes (fun c => c ≠ '\n') s).flatMap fun q =>
      (tryMatch p q.2).map fun r => (q.1 :: r.1, r.2)

/-- `pattern.findall(line)[0]` for a pattern between `^` and `$` -/
def firstMatch (p : List Atom) (s : Str) : Except Err (List Str) :=
  match (tryMatch p s).find? (fun r => r.2 = []) with
  | some r => .ok r.1
  | none => .error .indexError

/-- plaschem/xml_inputs.py:492-493: `single_val` (`true`) and `single_val_ws` (`false`) -/
def cell : Bool → List Atom
  | true => [.ws, .val, .ws]
  | false => [.any]

/-- a pattern of cells separated by characters -/
def pattern (first : Bool) (l : List (Char × Bool)) : List Atom :=
  cell first ++ l.flatMap fun p => .lit p.1 :: cell p.2

/-- plaschem/xml_inputs.py:497-498 -/
def spSeps : List (Char × Bool) :=
  [(':', true), (';', true), ('&', true), (']', true), ('[', true), ('@', true), ('!', false)]

/-- plaschem/xml_inputs.py:517-518 -/
def rxSeps : List (Char × Bool) :=
  [('>', false), (':', true), (';', true), ('&', true), (']', true), ('[', true), ('!', false)]

/-! ### Model: the import -/

/-- plaschem/xml_inputs.py:479-483 `rename` -/
def rename (n : Str) : Str := (if n = str!"E" then str!"e" else n).map fun c => if c = '^' then '+' else c

/-- a species of the file: `sp_dict` -/
structure HpemSp (F : Type) where
  name : Str
  charge : Int
  mass : F
  stick : F
  ret : F
  retName : Str
  comments : Str
  deriving DecidableEq

/-- a reaction of the file: `r_dict` -/
structure HpemRx (F : Type) where
  reactants : List Str
  products : List Str
  a : F
  b : F
  c : F
  heat : F
  special : Int
  comments : Str

/-- `int(s)` and `float(s)` -/
def readInt (C : Codec F) (s : Str) : Except Err Int := (C.readI s).elim (.error .valueError) .ok
def readFloat (C : Codec F) (s : Str) : Except Err F := (C.readF s).elim (.error .valueError) .ok

/-- plaschem/xml_inputs.py:500-504: a line of a species. -/
def readSp (C : Codec F) (line : Str) : Except Err (HpemSp F) := do
  match ← firstMatch (pattern true spSeps) line with
  | [n, q, m, s, u, r, t, c] =>
    let q ← readInt C q
    let m ← readFloat C m
    let s ← readFloat C s
    let _ ← readInt C u
    let r ← readFloat C r
    return { name := rename n, charge := q, mass := m, stick := s, ret := r, retName := rename t,
             comments := strip c }
  | _ => throw .indexError

/-- plaschem/xml_inputs.py:520-526: a line of a reaction. -/
def readRx (C : Codec F) (line : Str) : Except Err (HpemRx F) := do
  match ← firstMatch (pattern false rxSeps) line with
  | [l, r, a, b, c, h, s, t] =>
    let a ← readFloat C a
    let b ← readFloat C b
    let c ← readFloat C c
    let h ← readFloat C h
    let s ← readInt C s
    return { reactants := (splitStr str!" + " (strip l)).map rename,
             products := (splitStr str!" + " (strip r)).map rename,
             a := a, b := b, c := c, heat := h, special := s, comments := strip t }
  | _ => throw .indexError

/-- plaschem/xml_inputs.py:496-508, 543-547: `sp_dict` as attributes (entries that are no attributes of a species are
ignored by `add_rp_from_attributes` and left out here). -/
def HpemSp.attrs (s : HpemSp F) : Dict Str (Val F) :=
  [(str!"name", .str s.name), (str!"charge", .int s.charge), (str!"mass", .float s.mass),
   (str!"stick_coef", .float s.stick), (str!"comments", .str s.comments)]

/-- plaschem/xml_inputs.py:506-507 -/
def HpemSp.retCoefs (C : Codec F) (s : HpemSp F) : Option (Dict Str (Val F)) :=
  if (Val.float s.stick).truthy C then some [(s.retName, .float s.ret)] else none

/-- plaschem/xml_inputs.py:541 -/
def hpemSpUnits : Dict Str Str := [(str!"charge", str!"e"), (str!"mass", str!"amu")]

/-- plaschem/xml_inputs.py:542-549: species are added in turn if they occur in the reactions. -/
def Builder.addHpemSps (C : Codec F) [DecidableEq F] (present : List Str) (b : Builder F) :
    List (HpemSp F) → Except Err Unit × Builder F
  | [] => (.ok (), b)
  | s :: l =>
    if s.name ∈ present then
      match b.addRp C none s.attrs (s.retCoefs C) hpemSpUnits with
      | .error e => (.error e, b)
      | .ok b => b.addHpemSps C present l
    else b.addHpemSps C present l

def HpemRx.attrs (x : HpemRx F) : Dict Str (Val F) :=
  [(str!"arrh_a", .float x.a), (str!"arrh_b", .float x.b), (str!"arrh_c", .float x.c),
   (str!"gas_heat_contrib", .float x.heat), (str!"special_number", .int x.special), (str!"comments", .str x.comments)]

/-- plaschem/xml_inputs.py:514-515, 550-554: the units of a reaction. -/
def HpemRx.units (x : HpemRx F) : Except Err (Dict Str Str) :=
  match Dict.get? [(1, str!"s-1"), (2, str!"cm3.s-1"), (3, str!"cm6.s-1")] x.reactants.length with
  | none => .error .keyError
  | some u => .ok [(str!"gas_heat_contrib", str!"eV"), (str!"arrh_a", u),
      (str!"arrh_c", if str!"e" ∈ x.reactants then str!"eV" else str!"K")]

/-- plaschem/xml_inputs.py:551-561: reactions are added in turn. -/
def Builder.addHpemRxs (C : Codec F) [DecidableEq F] (b : Builder F) :
    List (HpemRx F) → Except Err Unit × Builder F
  | [] => (.ok (), b)
  | x :: l =>
    match x.units with
    | .error e => (.error e, b)
    | .ok u =>
      match b.addRx C x.reactants x.products none x.attrs u with
      | .error e => (.error e, b)
      | .ok b => b.addHpemRxs C l

/-- plaschem/xml_inputs.py:527, 531: is a reaction kept -/
def HpemRx.kept (skip : Bool) (x : HpemRx F) : Bool := !skip || (x.special = -1 ∨ x.special = 1)

/-- plaschem/xml_inputs.py:467-561 `add_chemistry_from_hpem` on the lines of a file. -/
def Builder.addHpem (C : Codec F) [DecidableEq F] (b : Builder F) (lines : List Str) (skip : Bool) :
    Except Err Unit × Builder F :=
  let ls := lines.map strip
  if str!"*" ∉ ls then (.error .valueError, b)
  else
    match Classify.collect (readSp C) (ls.takeWhile (fun l => l ≠ str!"*")) with
    | .error e => (.error e, b)
    | .ok sps =>
      let dict : Dict Str (HpemSp F) := sps.foldl (fun d s => d.set s.name s) []
      match Classify.collect (readRx C) (ls.dropWhile (fun l => l ≠ str!"*")).tail with
      | .error e => (.error e, b)
      | .ok rxs =>
        let kept := rxs.filter (HpemRx.kept skip)
        match b.addHpemSps C (kept.flatMap fun x => x.reactants ++ x.products) (dict.map Prod.snd) with
        | (.error e, b) => (.error e, b)
        | (.ok (), b) => b.addHpemRxs C kept

/-! ### Specification -/

/-- a cell of a line: a word with white space around it -/
def Word (t v : Str) : Prop :=
  ∃ w w', (∀ c ∈ w, isSpace c = true) ∧ (∀ c ∈ w', isSpace c = true) ∧ v ≠ [] ∧ NoBlank v ∧ t = w ++ v ++ w'

/-- the line of a species: `AR^ : 1 ; 40.0 & 1.0 ] 0 [ 1.0 @ AR ! comment` -/
structure IsSpLine (C : Codec F) (line : Str) (s : HpemSp F) where
  (n q m st u r t : Str)
  (tn tq tm ts tu tr tt tc : Str)
  line_eq : line = tn ++ ':' :: tq ++ ';' :: tm ++ '&' :: ts ++ ']' :: tu ++ '[' :: tr ++ '@' :: tt ++ '!' :: tc
  words : Word tn n ∧ Word tq q ∧ Word tm m ∧ Word ts st ∧ Word tu u ∧ Word tr r ∧ Word tt t
  free : ∀ x ∈ [tn, tq, tm, ts, tu, tr, tt], ∀ c ∈ str!":;&][@!", c ∉ x
  comment : '!' ∉ tc ∧ '\n' ∉ tc
  charge : C.readI q = some s.charge
  mass : C.readF m = some s.mass
  stick : C.readF st = some s.stick
  unused : (C.readI u).isSome = true
  ret : C.readF r = some s.ret
  name : s.name = rename n
  retName : s.retName = rename t
  comments : s.comments = strip tc

/-- one side of a reaction: `E + AR` -/
def Side (t : Str) (names : List Str) : Prop :=
  ∃ l, l ≠ [] ∧ (∀ n ∈ l, n ≠ [] ∧ NoBlank n) ∧ strip t = joinStr str!" + " l ∧ names = l.map rename ∧ '\n' ∉ t

/-- the line of a reaction: `E + AR > E + AR* : 1e-9 ; 0.5 & 11.5 ] 0.0 [ 1 ! comment` -/
structure IsRxLine (C : Codec F) (line : Str) (x : HpemRx F) where
  (a b c h s : Str)
  (tl tr ta tb tc th ts tt : Str)
  line_eq : line = tl ++ '>' :: tr ++ ':' :: ta ++ ';' :: tb ++ '&' :: tc ++ ']' :: th ++ '[' :: ts ++ '!' :: tt
  sides : Side tl x.reactants ∧ Side tr x.products
  words : Word ta a ∧ Word tb b ∧ Word tc c ∧ Word th h ∧ Word ts s
  free : ∀ y ∈ [tl, tr, ta, tb, tc, th, ts], ∀ c ∈ str!">:;&][!", c ∉ y
  comment : '!' ∉ tt ∧ '\n' ∉ tt
  ea : C.readF a = some x.a
  eb : C.readF b = some x.b
  ec : C.readF c = some x.c
  eh : C.readF h = some x.heat
  es : C.readI s = some x.special
  comments : x.comments = strip tt

/-- A file: lines of species, a line `*`, lines of reactions. White space at both ends of a line does not matter. -/
def IsFile (C : Codec F) (lines : List Str) (sps : List (HpemSp F)) (rxs : List (HpemRx F)) : Prop :=
  ∃ l1 star l2, lines = l1 ++ star :: l2 ∧ strip star = str!"*" ∧
    List.Forall₂ (fun l s => Nonempty (IsSpLine C (strip l) s)) l1 sps ∧
    List.Forall₂ (fun l x => Nonempty (IsRxLine C (strip l) x)) l2 rxs

/-- the element of an imported species -/
def spSpec (C : Codec F) (s : HpemSp F) : Elem :=
  { id := C.showI 999
    subs := [{ tag := str!"name", text := some s.name },
             { tag := str!"mass", unit := some str!"amu", text := some (C.showF s.mass) },
             { tag := str!"charge", unit := some str!"e", text := some (C.showI s.charge) },
             { tag := str!"stick_coef", text := some (C.showF s.stick) }]
      ++ (if C.val s.stick ≠ 0 then [{ tag := str!"ret_coefs", rs := [(s.retName, some (C.showF s.ret))] }] else [])
      ++ (if s.comments ≠ [] then [{ tag := str!"comments", text := some s.comments }] else []) }

/-- unit of the rate coefficient of a reaction with a number of reactants -/
def unitA : Nat → Str
  | 1 => str!"s-1"
  | 2 => str!"cm3.s-1"
  | _ => str!"cm6.s-1"

/-- the element of an imported reaction -/
def rxSpec (C : Codec F) (x : HpemRx F) : Elem :=
  { id := C.showI 999
    subs := [{ tag := str!"reactants", text := some (joinStr str!", " x.reactants) },
             { tag := str!"products", text := some (joinStr str!", " x.products) },
             { tag := str!"arrh_a", unit := some (unitA x.reactants.length), text := some (C.showF x.a) },
             { tag := str!"arrh_b", text := some (C.showF x.b) },
             { tag := str!"arrh_c", unit := some (if str!"e" ∈ x.reactants then str!"eV" else str!"K"),
               text := some (C.showF x.c) },
             { tag := str!"gas_heat_contrib", unit := some str!"eV", text := some (C.showF x.heat) },
             { tag := str!"special_number", text := some (C.showI x.special) }]
      ++ (if x.comments ≠ [] then [{ tag := str!"comments", text := some x.comments }] else []) }

/-! ### Proofs: matching -/

theorem mem_prefixes {p : Char → Bool} {s : Str} {q : Str × Str} :
    q ∈ prefixes p s ↔ s = q.1 ++ q.2 ∧ ∀ c ∈ q.1, p c = true := by
  induction s generalizing q with
  | nil =>
    rw [prefixes, List.mem_singleton]
    constructor
    · rintro rfl; simp
    · rintro ⟨h, -⟩
      have := List.append_eq_nil_iff.1 h.symm
      exact Prod.ext this.1 this.2
  | cons c s ih =>
    rw [prefixes]
    by_cases hc : p c = true
    · rw [if_pos hc, List.mem_append, List.mem_map, List.mem_singleton]
      constructor
      · rintro (⟨r, hr, rfl⟩ | rfl)
        · obtain ⟨h1, h2⟩ := ih.1 hr
          refine ⟨by rw [h1]; rfl, fun d hd => ?_⟩
          rcases List.mem_cons.1 hd with rfl | hd
          · exact hc
          · exact h2 d hd
        · simp
      · rintro ⟨h1, h2⟩
        obtain ⟨a, b⟩ := q
        cases a with
        | nil => right; simp at h1; rw [h1]
        | cons d a =>
          left
          simp only [List.cons_append, List.cons.injEq] at h1
          refine ⟨(a, b), ih.2 ⟨h1.2, fun x hx => h2 x (List.mem_cons_of_mem _ hx)⟩, ?_⟩
          rw [h1.1]
    · rw [if_neg hc, List.mem_singleton]
      constructor
      · rintro rfl; simp
      · rintro ⟨h1, h2⟩
        obtain ⟨a, b⟩ := q
        cases a with
        | nil => simp at h1; rw [h1]
        | cons d a =>
          simp only [List.cons_append, List.cons.injEq] at h1
          exact absurd (h2 d List.mem_cons_self) (h1.1 ▸ hc)

/-- what a cell can match -/
def Fits (k : Bool) (t v : Str) : Prop := if k then Word t v else v = t ∧ '\n' ∉ t

theorem mem_cell {k : Bool} {p : List Atom} {s : Str} {r : List Str × Str} :
    r ∈ tryMatch (cell k ++ p) s ↔ ∃ t v s' r', s = t ++ s' ∧ Fits k t v ∧ r' ∈ tryMatch p s' ∧ r = (v :: r'.1, r'.2) := by
  cases k with
  | false =>
    simp only [cell, List.cons_append, List.nil_append, tryMatch, List.mem_flatMap, List.mem_map, Fits,
      Bool.false_eq_true, if_false]
    constructor
    · rintro ⟨q, hq, r', hr', rfl⟩
      obtain ⟨h1, h2⟩ := mem_prefixes.1 hq
      exact ⟨q.1, q.1, q.2, r', h1, ⟨rfl, fun h => by simpa using h2 _ h⟩, hr', rfl⟩
    · rintro ⟨t, v, s', r', h1, ⟨rfl, h2⟩, hr', rfl⟩
      exact ⟨(v, s'), mem_prefixes.2 ⟨h1, fun c hc => by
        have : c ≠ '\n' := by rintro rfl; exact h2 hc
        simpa using this⟩, r', hr', rfl⟩
  | true =>
    simp only [cell, List.cons_append, List.nil_append, tryMatch, List.mem_flatMap, List.mem_map, List.mem_filter, Fits,
      if_true]
    constructor
    · rintro ⟨q1, h1, q2, ⟨h2, h3⟩, r', ⟨q3, h4, h5⟩, rfl⟩
      obtain ⟨e1, f1⟩ := mem_prefixes.1 h1
      obtain ⟨e2, f2⟩ := mem_prefixes.1 h2
      obtain ⟨e3, f3⟩ := mem_prefixes.1 h4
      refine ⟨q1.1 ++ q2.1 ++ q3.1, q2.1, q3.2, r', ?_, ⟨q1.1, q3.1, f1, f3, by simpa using h3, ?_, rfl⟩, h5, rfl⟩
      · rw [e1, e2, e3]; simp
      · intro c hc; simpa using f2 c hc
    · rintro ⟨t, v, s', r', h1, ⟨w, w', f1, f3, hv, f2, rfl⟩, h5, rfl⟩
      refine ⟨(w, v ++ (w' ++ s')), mem_prefixes.2 ⟨by rw [h1]; simp, f1⟩, (v, w' ++ s'),
        ⟨mem_prefixes.2 ⟨rfl, fun c hc => by simp [f2 c hc]⟩, by simpa using hv⟩, r', ⟨(w', s'),
        mem_prefixes.2 ⟨rfl, f3⟩, h5⟩, rfl⟩

/-- the text of cells -/
def render (t : Str) (l : List (Char × Str)) : Str := t ++ l.flatMap fun p => p.1 :: p.2

theorem mem_pattern {l : List (Char × Bool)} {k : Bool} {s : Str} {caps : List Str} :
    (caps, []) ∈ tryMatch (pattern k l) s ↔ ∃ t v ts vs, s = render t ts ∧ Fits k t v ∧ caps = v :: vs ∧
      ts.map Prod.fst = l.map Prod.fst ∧ List.Forall₂ (fun p (q : (Char × Str) × Str) => Fits p.2 q.1.2 q.2) l (ts.zip vs)
      ∧ ts.length = vs.length := by
  induction l generalizing k s caps with
  | nil =>
    have : pattern k [] = cell k ++ [] := by simp [pattern]
    rw [this, mem_cell]
    constructor
    · rintro ⟨t, v, s', r', h1, h2, h3, h4⟩
      rw [tryMatch, List.mem_singleton] at h3
      subst h3
      simp only [Prod.mk.injEq] at h4
      refine ⟨t, v, [], [], ?_, h2, h4.1, rfl, .nil, rfl⟩
      rw [h1, ← h4.2]; simp [render]
    · rintro ⟨t, v, ts, vs, h1, h2, h3, h4, h5, h6⟩
      have hts : ts = [] := by simpa using h4
      subst hts
      have hvs : vs = [] := by simpa using h6.symm
      subst hvs
      exact ⟨t, v, [], ([], []), by rw [h1]; simp [render], h2, by simp [tryMatch], by rw [h3]⟩
  | cons a l ih =>
    have : pattern k (a :: l) = cell k ++ (.lit a.1 :: pattern a.2 l) := by simp [pattern]
    rw [this, mem_cell]
    constructor
    · rintro ⟨t, v, s', r', h1, h2, h3, h4⟩
      obtain ⟨caps', r0⟩ := r'
      cases s' with
      | nil => simp [tryMatch] at h3
      | cons d s' =>
        rw [tryMatch] at h3
        split at h3
        · rename_i hd
          simp only [Prod.mk.injEq] at h4
          obtain ⟨h4, h4'⟩ := h4
          subst h4'
          obtain ⟨t1, v1, ts, vs, g1, g2, g3, g4, g5, g6⟩ := ih.1 h3
          refine ⟨t, v, (a.1, t1) :: ts, v1 :: vs, ?_, h2, by rw [h4, g3], by simp [g4], ?_, by simp [g6]⟩
          · rw [h1, g1, hd]; simp [render]
          · rw [List.zip_cons_cons]
            exact .cons g2 g5
        · cases h3
    · rintro ⟨t, v, ts, vs, h1, h2, h3, h4, h5, h6⟩
      cases ts with
      | nil => simp at h4
      | cons q ts =>
        cases vs with
        | nil => simp at h6
        | cons v1 vs =>
          rw [List.zip_cons_cons] at h5
          cases h5 with
          | cons g1 g2 =>
            simp only [List.map_cons, List.cons.injEq] at h4
            refine ⟨t, v, q.1 :: render q.2 ts, (v1 :: vs, []), ?_, h2, ?_, by rw [h3]⟩
            · rw [h1]; simp [render]
            · rw [tryMatch, if_pos h4.1]
              exact ih.2 ⟨q.2, v1, ts, vs, rfl, g1, rfl, h4.2, g2, by simpa using h6⟩

/-! ### Proofs: a line can be read in one way only -/

theorem cut {z : Char} {x x' t t' : Str} (h : x ++ z :: t = x' ++ z :: t') (hx : z ∉ x) (ht : z ∉ t) :
    x = x' ∧ t = t' := by
  rcases List.append_eq_append_iff.1 h with ⟨u, h1, h2⟩ | ⟨u, h1, h2⟩
  · cases u with
    | nil => simp at h1 h2; exact ⟨h1.symm, h2⟩
    | cons c u =>
      simp only [List.cons_append, List.cons.injEq] at h2
      exact absurd (show z ∈ t by rw [h2.2]; simp) ht
  · cases u with
    | nil => simp at h1 h2; exact ⟨h1, h2.symm⟩
    | cons c u =>
      simp only [List.cons_append, List.cons.injEq] at h2
      exact absurd (show z ∈ x by rw [h1, h2.1]; simp) hx

theorem not_mem_render {z : Char} {t : Str} {l : List (Char × Str)} (h1 : z ∉ t)
    (h2 : ∀ p ∈ l, z ≠ p.1 ∧ z ∉ p.2) : z ∉ render t l := by
  unfold render
  simp only [List.mem_append, List.mem_flatMap, List.mem_cons, not_or, not_exists, not_and]
  exact ⟨h1, fun p hp => h2 p hp⟩

theorem render_concat (t : Str) (l : List (Char × Str)) (z : Char) (u : Str) :
    render t (l ++ [(z, u)]) = render t l ++ z :: u := by simp [render]

theorem map_concat {l' : List (Char × Str)} {l : List Char} {z : Char} (h : l'.map Prod.fst = l ++ [z]) :
    ∃ l0 u, l' = l0 ++ [(z, u)] ∧ l0.map Prod.fst = l := by
  obtain ⟨a, b, rfl, h1, h2⟩ := List.map_eq_append_iff.1 h
  obtain ⟨q, rfl, h4⟩ := List.map_eq_singleton_iff.1 h2
  exact ⟨a, q.2, by rw [← h4], h1⟩

/-- cells without separators are determined by the text -/
theorem render_unique (l : List (Char × Str)) : ∀ {t t' : Str} {l' : List (Char × Str)}, render t l = render t' l' →
    l'.map Prod.fst = l.map Prod.fst → (l.map Prod.fst).Nodup →
    (∀ z ∈ l.map Prod.fst, z ∉ t ∧ ∀ p ∈ l, z ∉ p.2) → t = t' ∧ l = l' := by
  induction l using List.reverseRecOn with
  | nil =>
    intro t t' l' h1 h2 _ _
    have : l' = [] := by simpa using h2
    subst this
    simpa [render] using h1
  | append_singleton l p ih =>
    intro t t' l' h1 h2 h3 h4
    obtain ⟨z, u⟩ := p
    rw [List.map_append] at h2 h3 h4
    obtain ⟨l0, u', rfl, h5⟩ := map_concat (z := z) h2
    rw [render_concat, render_concat] at h1
    have hz := h4 z (by simp)
    have h6 := List.nodup_append.1 h3
    have hl : z ∉ render t l := not_mem_render hz.1 fun p hp =>
      ⟨fun h => h6.2.2 p.1 (List.mem_map_of_mem hp) z (by simp) h.symm, hz.2 p (by simp [hp])⟩
    obtain ⟨e1, e2⟩ := cut h1 hl (hz.2 (z, u) (by simp))
    obtain ⟨e3, e4⟩ := ih e1 h5 h6.1 fun y hy =>
      ⟨(h4 y (by simp only [List.mem_append]; exact .inl hy)).1,
        fun p hp => (h4 y (by simp only [List.mem_append]; exact .inl hy)).2 p (by simp [hp])⟩
    exact ⟨e3, by rw [e4, e2]⟩

/-- the same for a last cell that may contain separators other than the one before it -/
theorem render_unique_last {l : List (Char × Str)} {t t' : Str} {z : Char} {u : Str} {l' : List (Char × Str)}
    (h1 : render t (l ++ [(z, u)]) = render t' l') (h2 : l'.map Prod.fst = l.map Prod.fst ++ [z])
    (h3 : (l.map Prod.fst ++ [z]).Nodup) (h4 : ∀ y ∈ l.map Prod.fst ++ [z], y ∉ t ∧ ∀ p ∈ l, y ∉ p.2) (hu : z ∉ u) :
    t = t' ∧ l ++ [(z, u)] = l' := by
  obtain ⟨l0, u', rfl, h5⟩ := map_concat h2
  rw [render_concat, render_concat] at h1
  have h6 := List.nodup_append.1 h3
  have hz := h4 z (by simp)
  have hl : z ∉ render t l := not_mem_render hz.1 fun p hp =>
    ⟨fun h => h6.2.2 p.1 (List.mem_map_of_mem hp) z (by simp) h.symm, hz.2 p hp⟩
  obtain ⟨e1, e2⟩ := cut h1 hl hu
  obtain ⟨e3, e4⟩ := render_unique l e1 h5 h6.1 fun y hy => h4 y (List.mem_append_left _ hy)
  exact ⟨e3, by rw [e4, e2]⟩

theorem Word.strip {t v : Str} (h : Word t v) : Plaschem.strip t = v := by
  obtain ⟨w, w', h1, h2, h3, h4, rfl⟩ := h
  obtain ⟨c, s, rfl⟩ := List.exists_cons_of_ne_nil h3
  have d1 : (w ++ c :: s ++ w').dropWhile isSpace = c :: s ++ w' := by
    rw [List.append_assoc, List.dropWhile_append_of_pos h1, List.cons_append, List.dropWhile_cons_of_neg]
    simp [h4 c (by simp)]
  unfold Plaschem.strip
  rw [d1, List.reverse_append, List.dropWhile_append_of_pos fun a ha => h2 a (List.mem_reverse.1 ha)]
  have hr : (c :: s).reverse.dropWhile isSpace = (c :: s).reverse := by
    cases hq : (c :: s).reverse with
    | nil => rfl
    | cons d r =>
      rw [List.dropWhile_cons_of_neg]
      have : d ∈ c :: s := List.mem_reverse.1 (by rw [hq]; simp)
      simp [h4 d this]
  rw [hr, List.reverse_reverse]

theorem Fits.unique {k : Bool} {t v v' : Str} (h : Fits k t v) (h' : Fits k t v') : v = v' := by
  cases k with
  | true =>
    have h1 : Word t v := by simpa [Fits] using h
    have h2 : Word t v' := by simpa [Fits] using h'
    rw [← h1.strip, h2.strip]
  | false =>
    simp only [Fits, Bool.false_eq_true, if_false] at h h'
    rw [h.1, h'.1]

theorem forall2_unique : ∀ {l : List (Char × Bool)} {ts : List (Char × Str)} {vs vs' : List Str},
    List.Forall₂ (fun p (q : (Char × Str) × Str) => Fits p.2 q.1.2 q.2) l (ts.zip vs) →
    List.Forall₂ (fun p (q : (Char × Str) × Str) => Fits p.2 q.1.2 q.2) l (ts.zip vs') →
    ts.length = vs.length → ts.length = vs'.length → vs = vs'
  | _, [], vs, vs', _, _, h3, h4 => by
    rw [List.length_eq_zero_iff.1 h3.symm, List.length_eq_zero_iff.1 h4.symm]
  | _, _ :: _, [], _, _, _, h3, _ => by simp at h3
  | _, _ :: _, _ :: _, [], _, _, _, h4 => by simp at h4
  | _, q :: ts, v :: vs, v' :: vs', h1, h2, h3, h4 => by
    rw [List.zip_cons_cons] at h1 h2
    cases h1 with
    | cons a b =>
      cases h2 with
      | cons a' b' =>
        have e : v = v' := a.unique a'
        rw [e, forall2_unique b b' (by simpa using h3) (by simpa using h4)]

/-- the regular expression finds the cells of a line, however greedy it is -/
theorem firstMatch_eq {k : Bool} {seps : List (Char × Bool)} {z : Char} {kz : Bool} {t v : Str} {ts : List (Char × Str)}
    {u : Str} {vs : List Str} {s : Str} (hs : s = render t (ts ++ [(z, u)])) (h1 : Fits k t v)
    (h2 : List.Forall₂ (fun p (q : (Char × Str) × Str) => Fits p.2 q.1.2 q.2) (seps ++ [(z, kz)]) ((ts ++ [(z, u)]).zip vs))
    (hlen : (ts ++ [(z, u)]).length = vs.length)
    (h3 : ts.map Prod.fst = seps.map Prod.fst) (h4 : (seps.map Prod.fst ++ [z]).Nodup)
    (h5 : ∀ y ∈ seps.map Prod.fst ++ [z], y ∉ t ∧ ∀ p ∈ ts, y ∉ p.2) (hu : z ∉ u) :
    firstMatch (pattern k (seps ++ [(z, kz)])) s = .ok (v :: vs) := by
  have hm : (v :: vs, []) ∈ tryMatch (pattern k (seps ++ [(z, kz)])) s :=
    mem_pattern.2 ⟨t, v, ts ++ [(z, u)], vs, hs, h1, rfl, by simp [h3], h2, hlen⟩
  unfold firstMatch
  cases hf : (tryMatch (pattern k (seps ++ [(z, kz)])) s).find? (fun r => r.2 = []) with
  | none => exact absurd (List.find?_eq_none.1 hf _ hm) (by simp)
  | some r =>
    have hr := List.mem_of_find?_eq_some hf
    have hr2 : r.2 = [] := by simpa using List.find?_some hf
    obtain ⟨caps, r2⟩ := r
    subst hr2
    obtain ⟨t', v', ts', vs', g1, g2, g3, g4, g5, g6⟩ := mem_pattern.1 hr
    rw [← h3] at h4 h5
    obtain ⟨e1, e2⟩ := render_unique_last (hs.symm.trans g1) (by rw [g4, h3]; simp) h4 h5 hu
    subst e1; subst e2
    rw [g3, g2.unique h1, forall2_unique g5 h2 g6 hlen]

/-! ### Proofs: lines -/

theorem readInt_some {C : Codec F} {s : Str} {n : Int} (h : C.readI s = some n) : readInt C s = .ok n := by
  unfold readInt; rw [h]; rfl
theorem readFloat_some {C : Codec F} {s : Str} {n : F} (h : C.readF s = some n) : readFloat C s = .ok n := by
  unfold readFloat; rw [h]; rfl

theorem fits_word {t v : Str} (h : Word t v) : Fits true t v := by simpa [Fits] using h
theorem fits_any {t : Str} (h : '\n' ∉ t) : Fits false t t := by simpa [Fits] using h

/-- a line of a species is read -/
theorem readSp_line {C : Codec F} {line : Str} {s : HpemSp F} (h : IsSpLine C line s) : readSp C line = .ok s := by
  obtain ⟨w1, w2, w3, w4, w5, w6, w7⟩ := h.words
  have hm : firstMatch (pattern true spSeps) line = .ok [h.n, h.q, h.m, h.st, h.u, h.r, h.t, h.tc] := by
    refine firstMatch_eq (seps := [(':', true), (';', true), ('&', true), (']', true), ('[', true), ('@', true)])
      (z := '!') (kz := false) (t := h.tn)
      (ts := [(':', h.tq), (';', h.tm), ('&', h.ts), (']', h.tu), ('[', h.tr), ('@', h.tt)]) (u := h.tc)
      ?_ (fits_word w1) ?_ rfl rfl (by decide) ?_ h.comment.1
    · exact h.line_eq.trans (by simp [render])
    · exact .cons (fits_word w2) (.cons (fits_word w3) (.cons (fits_word w4) (.cons (fits_word w5)
        (.cons (fits_word w6) (.cons (fits_word w7) (.cons (fits_any h.comment.2) .nil))))))
    · intro y hy
      have hy' : y ∈ str!":;&][@!" := hy
      have hf := h.free
      refine ⟨hf _ (by simp) y hy', fun p hp => ?_⟩
      simp only [List.mem_cons, List.not_mem_nil, or_false] at hp
      rcases hp with rfl | rfl | rfl | rfl | rfl | rfl <;> exact hf _ (by simp) y hy'
  obtain ⟨u, hu⟩ := Option.isSome_iff_exists.1 h.unused
  unfold readSp
  rw [hm]
  simp only [bind, Except.bind, readInt_some h.charge, readFloat_some h.mass, readFloat_some h.stick, readInt_some hu,
    readFloat_some h.ret, pure, Except.pure, ← h.name, ← h.retName, ← h.comments]

theorem Side.split {t : Str} {names : List Str} (h : Side t names) :
    (splitStr str!" + " (strip t)).map rename = names := by
  obtain ⟨l, h1, h2, h3, rfl, -⟩ := h
  rw [h3, split_join rfl l h1 fun n hn => (h2 n hn).2]

/-- a line of a reaction is read -/
theorem readRx_line {C : Codec F} {line : Str} {x : HpemRx F} (h : IsRxLine C line x) : readRx C line = .ok x := by
  obtain ⟨w3, w4, w5, w6, w7⟩ := h.words
  have n1 : '\n' ∉ h.tl := by obtain ⟨_, _, _, _, _, hn⟩ := h.sides.1; exact hn
  have n2 : '\n' ∉ h.tr := by obtain ⟨_, _, _, _, _, hn⟩ := h.sides.2; exact hn
  have hm : firstMatch (pattern false rxSeps) line = .ok [h.tl, h.tr, h.a, h.b, h.c, h.h, h.s, h.tt] := by
    refine firstMatch_eq (seps := [('>', false), (':', true), (';', true), ('&', true), (']', true), ('[', true)])
      (z := '!') (kz := false) (t := h.tl)
      (ts := [('>', h.tr), (':', h.ta), (';', h.tb), ('&', h.tc), (']', h.th), ('[', h.ts)]) (u := h.tt)
      ?_ (fits_any n1) ?_ rfl rfl (by decide) ?_ h.comment.1
    · exact h.line_eq.trans (by simp [render])
    · exact .cons (fits_any n2) (.cons (fits_word w3) (.cons (fits_word w4) (.cons (fits_word w5)
        (.cons (fits_word w6) (.cons (fits_word w7) (.cons (fits_any h.comment.2) .nil))))))
    · intro y hy
      have hy' : y ∈ str!">:;&][!" := hy
      have hf := h.free
      refine ⟨hf _ (by simp) y hy', fun p hp => ?_⟩
      simp only [List.mem_cons, List.not_mem_nil, or_false] at hp
      rcases hp with rfl | rfl | rfl | rfl | rfl | rfl <;> exact hf _ (by simp) y hy'
  unfold readRx
  rw [hm]
  simp only [bind, Except.bind, readFloat_some h.ea, readFloat_some h.eb, readFloat_some h.ec, readFloat_some h.eh,
    readInt_some h.es, pure, Except.pure, h.sides.1.split, h.sides.2.split, ← h.comments]

/-! ### Proofs: adding -/

theorem readAll {C : Codec F} {lines : List Str} {sps : List (HpemSp F)} {rxs : List (HpemRx F)}
    (hf : IsFile C lines sps rxs) :
    str!"*" ∈ lines.map strip ∧
      Classify.collect (readSp C) ((lines.map strip).takeWhile (fun l => l ≠ str!"*")) = .ok sps ∧
      Classify.collect (readRx C) ((lines.map strip).dropWhile (fun l => l ≠ str!"*")).tail = .ok rxs := by
  obtain ⟨l1, star, l2, rfl, hs, h1, h2⟩ := hf
  have hne : ∀ l ∈ l1.map strip, decide (l ≠ str!"*") = true := by
    intro l hl
    obtain ⟨l0, hl0, rfl⟩ := List.mem_map.1 hl
    obtain ⟨s, -, ⟨g⟩⟩ : ∃ s ∈ sps, Nonempty (IsSpLine C (strip l0) s) := by
      clear hs h2 hl
      induction h1 with
      | nil => cases hl0
      | cons g _ ih =>
        rcases List.mem_cons.1 hl0 with rfl | h
        · exact ⟨_, List.mem_cons_self, g⟩
        · obtain ⟨s, hs, h⟩ := ih h
          exact ⟨s, List.mem_cons_of_mem _ hs, h⟩
    simp only [decide_eq_true_eq]
    intro h
    have : ':' ∈ strip l0 := by rw [g.line_eq]; simp
    rw [h] at this
    revert this
    decide
  rw [List.map_append, List.map_cons, hs]
  refine ⟨by simp, ?_, ?_⟩
  · rw [List.takeWhile_append_of_pos hne, List.takeWhile_cons_of_neg (by simp), List.append_nil]
    refine collect_forall₂ (List.forall₂_map_left_iff.2 (h1.imp ?_))
    rintro l s ⟨g⟩
    exact readSp_line g
  · rw [List.dropWhile_append_of_pos hne, List.dropWhile_cons_of_neg (by simp), List.tail_cons]
    refine collect_forall₂ (List.forall₂_map_left_iff.2 (h2.imp ?_))
    rintro l s ⟨g⟩
    exact readRx_line g

theorem set_append {α : Type} : ∀ {d : Dict Str α} {k : Str} {v : α}, k ∉ d.keys → d.set k v = d ++ [(k, v)]
  | [], _, _, _ => rfl
  | (k', v') :: d, k, v, h => by
    have h1 : k' ≠ k := fun e => h (by simp [Dict.keys, e])
    rw [Dict.set, if_neg h1, set_append fun e => h (by simp only [Dict.keys, List.map_cons, List.mem_cons]; exact .inr e)]
    rfl

theorem foldl_names : ∀ (sps : List (HpemSp F)) (d : Dict Str (HpemSp F)),
    (d.map Prod.fst ++ sps.map HpemSp.name).Nodup →
    sps.foldl (fun d s => d.set s.name s) d = d ++ sps.map fun s => (s.name, s)
  | [], d, _ => by simp
  | s :: l, d, h => by
    have hs : s.name ∉ Dict.keys d := by
      intro hm
      exact (List.nodup_append.1 h).2.2 s.name hm s.name (by simp) rfl
    rw [List.foldl_cons, set_append hs, foldl_names l _ (by simpa [List.append_assoc] using h)]
    simp

theorem rpElem_sp (C : Codec F) (s : HpemSp F) (hn : s.name ≠ []) :
    rpElem C 999 s.attrs (s.retCoefs C) hpemSpUnits = spSpec C s := by
  obtain ⟨name, q, m, st, r, rn, com⟩ := s
  obtain ⟨c, name, rfl⟩ := List.exists_cons_of_ne_nil hn
  unfold spSpec HpemSp.retCoefs
  by_cases hst : C.val st ≠ 0
  · rw [if_pos (show (Val.float st).truthy C = true by simpa [Val.truthy] using hst), if_pos hst]
    cases com <;> rfl
  · rw [if_neg (show ¬ (Val.float st).truthy C = true by simpa [Val.truthy] using hst), if_neg hst]
    cases com <;> rfl

theorem units_eq (x : HpemRx F) : x.units = if 1 ≤ x.reactants.length ∧ x.reactants.length ≤ 3 then
    .ok [(str!"gas_heat_contrib", str!"eV"), (str!"arrh_a", unitA x.reactants.length),
      (str!"arrh_c", if str!"e" ∈ x.reactants then str!"eV" else str!"K")] else .error .keyError := by
  unfold HpemRx.units
  generalize x.reactants = l
  rcases l with _ | ⟨a, _ | ⟨b, _ | ⟨c, _ | ⟨d, l⟩⟩⟩⟩
  · rfl
  · rfl
  · rfl
  · rfl
  · rw [if_neg (c := 1 ≤ _ ∧ _) (by simp)]
    have : Dict.get? [(1, str!"s-1"), (2, str!"cm3.s-1"), (3, str!"cm6.s-1")] (a :: b :: c :: d :: l).length = none := by
      simp [Dict.get?]
    rw [this]

theorem rxElem_rx (C : Codec F) (x : HpemRx F) {u : Dict Str Str} (hu : x.units = .ok u) :
    rxElem C x.reactants x.products 999 x.attrs u = rxSpec C x := by
  rw [units_eq] at hu
  split at hu
  · cases hu
    obtain ⟨l, r, a, b, c, h, sn, com⟩ := x
    unfold rxSpec
    cases com <;> rfl
  · cases hu

/-- what is added for species -/
theorem addHpemSps_eq [DecidableEq F] (C : Codec F) (present : List Str) : ∀ (l : List (HpemSp F)) (b : Builder F),
    (l.map HpemSp.name).Nodup → (∀ s ∈ l, s.name ≠ []) →
    (∀ s ∈ l, s.name ∈ present → .str s.name ∉ b.names) ∧ b.addHpemSps C present l = (.ok (), { b with
        species := b.species ++ (l.filter (fun s => s.name ∈ present)).map (spSpec C)
        names := b.names ++ (l.filter (fun s => s.name ∈ present)).map fun s => .str s.name }) ∨
    (∃ s ∈ l, s.name ∈ present ∧ .str s.name ∈ b.names) ∧ (b.addHpemSps C present l).1 = .error .xml
  | [], b, _, _ => .inl ⟨by simp, by rw [Builder.addHpemSps]; simp⟩
  | s :: l, b, hd, hn => by
    rw [List.map_cons, List.nodup_cons] at hd
    rw [Builder.addHpemSps]
    by_cases hp : s.name ∈ present
    · rw [if_pos hp]
      unfold Builder.addRp
      have hg : Dict.get? s.attrs str!"name" = some (.str s.name) := rfl
      simp only [hg]
      by_cases hb : .str s.name ∈ b.names
      · rw [if_pos hb]
        exact .inr ⟨⟨s, by simp, hp, hb⟩, rfl⟩
      · rw [if_neg hb]
        simp only [Option.getD_none, rpElem_sp C s (hn s (by simp))]
        rcases addHpemSps_eq C present l { b with species := b.species ++ [spSpec C s], names := b.names ++ [.str s.name] }
          hd.2 (fun t ht => hn t (List.mem_cons_of_mem _ ht)) with ⟨h1, h2⟩ | ⟨⟨t, ht, htp, htb⟩, h2⟩
        · left
          refine ⟨fun t ht htp => ?_, ?_⟩
          · rcases List.mem_cons.1 ht with rfl | ht
            · exact hb
            · exact fun h => h1 t ht htp (List.mem_append_left _ h)
          · rw [h2]; simp [hp]
        · right
          refine ⟨⟨t, List.mem_cons_of_mem _ ht, htp, ?_⟩, h2⟩
          rcases List.mem_append.1 htb with h | h
          · exact h
          · rw [List.mem_singleton] at h
            exact absurd (List.mem_map.2 ⟨t, ht, Val.str.inj h⟩) hd.1
    · rw [if_neg hp]
      rcases addHpemSps_eq C present l b hd.2 (fun t ht => hn t (List.mem_cons_of_mem _ ht)) with ⟨h1, h2⟩ | ⟨⟨t, ht, h1⟩, h2⟩
      · left
        refine ⟨fun t ht htp => ?_, by rw [h2]; simp [hp]⟩
        rcases List.mem_cons.1 ht with rfl | ht
        · exact absurd htp hp
        · exact h1 t ht htp
      · exact .inr ⟨⟨t, List.mem_cons_of_mem _ ht, h1⟩, h2⟩

/-- what is added for reactions -/
theorem addHpemRxs_eq [DecidableEq F] (C : Codec F) : ∀ (l : List (HpemRx F)) (b : Builder F),
    ((∀ x ∈ l, (1 ≤ x.reactants.length ∧ x.reactants.length ≤ 3) ∧ ∀ n ∈ x.reactants ++ x.products, .str n ∈ b.names) ∧
      b.addHpemRxs C l = (.ok (), { b with reactions := b.reactions ++ l.map (rxSpec C) })) ∨
    (¬ (∀ x ∈ l, (1 ≤ x.reactants.length ∧ x.reactants.length ≤ 3) ∧
        ∀ n ∈ x.reactants ++ x.products, .str n ∈ b.names) ∧ ∃ e, (b.addHpemRxs C l).1 = .error e)
  | [], b => .inl ⟨by simp, by rw [Builder.addHpemRxs]; simp⟩
  | x :: l, b => by
    rw [Builder.addHpemRxs]
    by_cases hx : 1 ≤ x.reactants.length ∧ x.reactants.length ≤ 3
    · have hu := units_eq x
      rw [if_pos hx] at hu
      simp only [hu]
      unfold Builder.addRx
      by_cases hn : ∃ n ∈ x.reactants ++ x.products, Val.str n ∉ b.names
      · rw [if_pos hn]
        refine .inr ⟨fun h => ?_, _, rfl⟩
        obtain ⟨n, h1, h2⟩ := hn
        exact h2 ((h x (by simp)).2 n h1)
      · rw [if_neg hn]
        simp only [Option.getD_none, rxElem_rx C x hu]
        push Not at hn
        rcases addHpemRxs_eq C l { b with reactions := b.reactions ++ [rxSpec C x] } with ⟨h1, h2⟩ | ⟨h1, h2⟩
        · left
          refine ⟨fun y hy => ?_, by rw [h2]; simp⟩
          rcases List.mem_cons.1 hy with rfl | hy
          · exact ⟨hx, hn⟩
          · exact h1 y hy
        · exact .inr ⟨fun h => h1 fun y hy => h y (List.mem_cons_of_mem _ hy), h2⟩
    · have hu := units_eq x
      rw [if_neg hx] at hu
      simp only [hu]
      exact .inr ⟨fun h => hx (h x (by simp)).1, _, rfl⟩

theorem rename_ne_nil {n : Str} (h : n ≠ []) : rename n ≠ [] := by
  unfold rename
  intro h2
  have := List.map_eq_nil_iff.1 h2
  split at this
  · cases this
  · exact h this

/-- A file of known form is imported if the names of the species that occur in the reactions are new and the reactions
have one to three reactants that are in the file or were added before; nothing else is added than those species and the
reactions kept, in the order of the file, with the given values. -/
theorem hpem_import [DecidableEq F] {C : Codec F} {lines : List Str} {sps : List (HpemSp F)} {rxs : List (HpemRx F)}
    (hf : IsFile C lines sps rxs) (hd : (sps.map HpemSp.name).Nodup) (b : Builder F) (skip : Bool) :
    let kept := rxs.filter fun x => skip = false ∨ x.special = -1 ∨ x.special = 1
    let used := sps.filter fun s => ∃ x ∈ kept, s.name ∈ x.reactants ∨ s.name ∈ x.products
    ((b.addHpem C lines skip).1 = .ok () ↔
      (∀ s ∈ used, .str s.name ∉ b.names) ∧
      ∀ x ∈ kept, x.reactants.length ≤ 3 ∧
        ∀ n ∈ x.reactants ++ x.products, .str n ∈ b.names ∨ ∃ s ∈ sps, s.name = n) ∧
    ((b.addHpem C lines skip).1 = .ok () → (b.addHpem C lines skip).2 =
      { species := b.species ++ used.map (spSpec C)
        names := b.names ++ used.map fun s => .str s.name
        reactions := b.reactions ++ kept.map (rxSpec C) }) := by
  intro kept used
  obtain ⟨h1, h2, h3⟩ := readAll hf
  have hk : rxs.filter (HpemRx.kept skip) = kept := by
    refine List.filter_congr fun x _ => ?_
    unfold HpemRx.kept
    cases skip <;> simp
  have hnames : ∀ s ∈ sps, s.name ≠ [] := by
    obtain ⟨l1, star, l2, -, -, g, -⟩ := hf
    clear h1 h2 h3 hk hd used kept
    intro s hs
    induction g with
    | nil => cases hs
    | cons g _ ih =>
      rcases List.mem_cons.1 hs with rfl | hs
      · obtain ⟨g⟩ := g
        rw [g.name]
        obtain ⟨⟨_, _, _, _, hv, _⟩, -⟩ := g.words
        exact rename_ne_nil hv
      · exact ih hs
  have hpos : ∀ x ∈ rxs, 1 ≤ x.reactants.length := by
    obtain ⟨l1, star, l2, -, -, -, g⟩ := hf
    clear h1 h2 h3 hk hd used kept hnames
    intro s hs
    induction g with
    | nil => cases hs
    | cons g _ ih =>
      rcases List.mem_cons.1 hs with rfl | hs
      · obtain ⟨g⟩ := g
        obtain ⟨l, hl, _, _, e, _⟩ := g.sides.1
        rw [e, List.length_map]
        exact List.length_pos_iff.2 hl
      · exact ih hs
  have hu : sps.filter (fun s => s.name ∈ kept.flatMap fun x => x.reactants ++ x.products) = used := by
    refine List.filter_congr fun s _ => ?_
    simp only [List.mem_flatMap, List.mem_append]
  unfold Builder.addHpem
  have hdict : (sps.foldl (fun (d : Dict Str (HpemSp F)) s => d.set s.name s) []).map Prod.snd = sps := by
    rw [foldl_names sps [] (by simpa using hd), List.nil_append, List.map_map]
    exact List.map_id sps
  dsimp only
  rw [if_neg (not_not.2 h1), h2, h3]
  dsimp only
  rw [hdict, hk]
  rcases addHpemSps_eq C (kept.flatMap fun x => x.reactants ++ x.products) sps b hd hnames with ⟨g1, g2⟩ | ⟨⟨s, g0, g1, g1'⟩, g2⟩
  · rw [g2, hu]
    dsimp only
    have g1' : ∀ s ∈ used, .str s.name ∉ b.names := by
      intro s hs
      rw [← hu] at hs
      obtain ⟨ha, hb⟩ := List.mem_filter.1 hs
      exact g1 s ha (by simpa using hb)
    have hcond : (∀ x ∈ kept, (1 ≤ x.reactants.length ∧ x.reactants.length ≤ 3) ∧ ∀ n ∈ x.reactants ++ x.products,
        Val.str n ∈ b.names ++ used.map fun s => (.str s.name : Val F)) ↔
        ∀ x ∈ kept, x.reactants.length ≤ 3 ∧
          ∀ n ∈ x.reactants ++ x.products, .str n ∈ b.names ∨ ∃ s ∈ sps, s.name = n := by
      refine forall₂_congr fun x hx => and_congr ⟨fun h => h.2, fun h => ⟨hpos x (List.mem_filter.1 hx).1, h⟩⟩ ?_
      refine forall_congr' fun n => ?_
      refine imp_congr_right fun hn => ?_
      rw [List.mem_append] at hn
      rw [List.mem_append, List.mem_map]
      refine or_congr_right ⟨?_, ?_⟩
      · rintro ⟨s, hs, e⟩
        exact ⟨s, (List.mem_filter.1 hs).1, Val.str.inj e⟩
      · rintro ⟨s, hs, rfl⟩
        exact ⟨s, List.mem_filter.2 ⟨hs, by simpa using ⟨x, hx, hn⟩⟩, rfl⟩
    rcases addHpemRxs_eq C kept { b with
        species := b.species ++ used.map (spSpec C)
        names := b.names ++ used.map fun s => .str s.name } with ⟨k1, k2⟩ | ⟨k1, e, k2⟩
    · rw [k2]
      exact ⟨⟨fun _ => ⟨g1', hcond.1 k1⟩, fun _ => rfl⟩, fun _ => rfl⟩
    · rw [k2]
      exact ⟨⟨(fun h => by cases h), fun h => absurd (hcond.2 h.2) k1⟩, (fun h => by cases h)⟩
  · generalize hr : b.addHpemSps C (kept.flatMap fun x => x.reactants ++ x.products) sps = r at g2
    obtain ⟨r1, r2⟩ := r
    dsimp only at g2
    subst g2
    dsimp only
    refine ⟨⟨(fun h => by cases h), fun h => ?_⟩, (fun h => by cases h)⟩
    refine absurd g1' (h.1 s ?_)
    rw [← hu]
    exact List.mem_filter.2 ⟨g0, by simpa using g1⟩

/-! ### Reading back -/

/-- the element after the ids have been assigned and the file has been written -/
def Elem.stored (C : Codec F) (e : Elem) (i : Int) : Elem := ({ e with id := C.showI i } : Elem).file

theorem file_text {s : Str} (h : s ≠ []) : fileText (some s) = some s := by
  cases s with
  | nil => exact absurd rfl h
  | cons => rfl

theorem stored_sp {C : Codec F} (hC : C.Lawful) (s : HpemSp F) (i : Int) (hn : s.name ≠ []) :
    (spSpec C s).stored C i = { spSpec C s with id := C.showI i } := by
  obtain ⟨name, q, m, st, r, rn, com⟩ := s
  dsimp only at hn
  have t1 := file_text hn
  have t2 := file_text (hC.floatText m)
  have t3 := file_text (hC.intText q)
  have t4 := file_text (hC.floatText st)
  have t5 := file_text (hC.floatText r)
  have t0 : fileText none = none := rfl
  unfold spSpec Elem.stored Elem.file
  by_cases hst : C.val st ≠ 0 <;> by_cases hc : com ≠ [] 
  · have t6 := file_text hc
    simp [hst, t0, t1, t2, t3, t4, t5, t6, hc]
  · simp [hst, t0, t1, t2, t3, t4, t5, hc]
  · have t6 := file_text hc
    simp [hst, t0, t1, t2, t3, t4, t6, hc]
  · simp [hst, t1, t2, t3, t4, hc]

theorem given_text {d : Dict Str (Val F)} (h : ∀ p ∈ d, ∃ s, p.2 = .str s) (a : Str) :
    ∃ t : Option Str, given d a = textVal t := by
  unfold given
  cases hg : d.get? a with
  | none => exact ⟨none, rfl⟩
  | some v =>
    obtain ⟨s, hs⟩ := h (a, v) (Dict.mem_of_get? hg)
    exact ⟨some s, hs⟩

/-- An imported species has the values of its line. -/
theorem hpem_species_read {C : Codec F} (hC : C.Lawful) (s : HpemSp F) (i : Nat) (hn : s.name ≠ [])
    (ha : '<' ∉ s.name ∧ '>' ∉ s.name) :
    ∃ rp, parseRp C ((spSpec C s).stored C i) = .ok rp ∧ rp.id = i ∧ rp.getName C = .ok s.name ∧
      (s.name ≠ str!"M" → rp.getMass C = .ok (some s.mass) ∧ rp.getCharge C = .ok (some s.charge)) ∧
      (s.name ≠ str!"M" → s.name ≠ str!"e" → rp.getStick C = .ok (some s.stick) ∧
        (C.val s.stick ≠ 0 → rp.getRet C = .ok (some [(s.retName, s.ret)])) ∧
        (C.val s.stick = 0 → s.charge = 0 → rp.getRet C = .ok (some []))) ∧
      rp.getText C str!"comments" = .ok (if s.comments = [] then none else some s.comments) := by
  have key : ∃ rp, parseRp C ((spSpec C s).stored C i) = .ok rp ∧ rp.id = i ∧
      rp.attr str!"name" = .str s.name ∧ rp.attr str!"mass" = .str (C.showF s.mass) ∧
      rp.attr str!"charge" = .str (C.showI s.charge) ∧ rp.attr str!"stick_coef" = .str (C.showF s.stick) ∧
      rp.attr str!"state" = .null ∧
      rp.attr str!"comments" = (if s.comments = [] then .null else .str s.comments) ∧
      rp.ret = (if C.val s.stick ≠ 0 then some [(s.retName, .str (C.showF s.ret))] else none) := by
    rw [stored_sp hC s i hn]
    obtain ⟨name, q, m, st, r, rn, com⟩ := s
    dsimp only at hn ha ⊢
    unfold parseRp spSpec
    dsimp only
    rw [hC.int]
    dsimp only
    generalize hret : Option.map _ _ = ret
    generalize hat : Elem.texts _ _ = attrs
    generalize hun : Elem.units _ = units
    have eat : attrs = [(str!"name", .str name), (str!"mass", .str (C.showF m)), (str!"charge", .str (C.showI q)),
        (str!"stick_coef", .str (C.showF st))] ++ (if com = [] then [] else [(str!"comments", .str com)]) := by
      rw [← hat]
      by_cases hst : C.val st ≠ 0
      · rw [if_pos hst]; cases com <;> rfl
      · rw [if_neg hst]; cases com <;> rfl
    have eun : units = [(str!"mass", str!"amu"), (str!"charge", str!"e")] := by
      rw [← hun]
      by_cases hst : C.val st ≠ 0
      · rw [if_pos hst]; cases com <;> rfl
      · rw [if_neg hst]; cases com <;> rfl
    have eret : ret.getD none = if C.val st ≠ 0 then some [(rn, .str (C.showF r))] else none := by
      rw [← hret]
      by_cases hst : C.val st ≠ 0
      · rw [if_pos hst, if_pos hst]; cases com <;> rfl
      · rw [if_neg hst, if_neg hst]; cases com <;> rfl
    clear hat hun hret
    have g1 : given attrs str!"name" = .str name := by rw [eat]; rfl
    have hkinds : ∀ a ∈ rpAttributes, a ≠ str!"ret_coefs" →
        ∃ k, rpKinds.get? a = some k ∧ (given attrs a).fits k = true := by
      intro a h1 h2
      obtain ⟨t, ht⟩ := given_text (d := attrs) (by
        rw [eat]
        cases com <;> simp) a
      rw [ht]
      have hk : (rpKinds.get? a).isSome = true :=
        (by decide : ∀ a ∈ rpAttributes, a ≠ str!"ret_coefs" → (rpKinds.get? a).isSome = true) a h1 h2
      obtain ⟨k, hk⟩ := Option.isSome_iff_exists.1 hk
      exact ⟨k, hk, by cases t <;> rfl⟩
    have hkeys : attrs.keys = [str!"name", str!"mass", str!"charge", str!"stick_coef"] ∨
        attrs.keys = [str!"name", str!"mass", str!"charge", str!"stick_coef", str!"comments"] := by
      rw [eat]
      cases com
      · exact .inl rfl
      · exact .inr rfl
    obtain ⟨rp, h1, h2, h3, h4, -⟩ := Rp.setAll_ok (attrs := attrs) (ret := ret.getD none) (units := units) rpAttributes
      (Rp.blank i) (by rw [eun]; rfl) (by rw [eun]; decide) hkinds
    refine ⟨rp, ?_, h2, ?_⟩
    · unfold Rp.init
      rw [if_neg (by omega), if_neg, g1]
      · dsimp only
        rw [if_neg (by simpa using ha), if_neg, if_neg]
        · exact h1
        · rw [eun]
          rcases hkeys with h | h <;> rw [h] <;> decide
        · rcases hkeys with h | h <;> rw [h] <;> decide
      · have e1 : attrs.get? str!"name" = some (.str name) := by rw [eat]; rfl
        have e2 : attrs.get? str!"mass" = some (.str (C.showF m)) := by rw [eat]; rfl
        have e3 : given attrs str!"state" = .null := by rw [eat]; cases com <;> rfl
        rw [e1, e2, e3]
        simp [Val.truthy]
    · have hmem : ∀ a ∈ rpAttributes, a ≠ str!"ret_coefs" → rp.attr a = given attrs a :=
        fun a h h' => (h3 a).trans (if_pos ⟨h, h'⟩)
      rw [hmem _ (by decide) (by decide), hmem _ (by decide) (by decide), hmem _ (by decide) (by decide),
        hmem _ (by decide) (by decide), hmem _ (by decide) (by decide), hmem _ (by decide) (by decide), h4,
        if_pos (c := str!"ret_coefs" ∈ rpAttributes) (by decide), eret, eat]
      refine ⟨rfl, rfl, rfl, rfl, ?_, ?_, rfl⟩ <;> cases com <;> rfl
  obtain ⟨rp, h1, h2, hname, hmass, hcharge, hstick, hstate, hcom, hret⟩ := key
  have nm : rp.getName C = .ok s.name := by unfold Rp.getName; rw [hname]; rfl
  have ch : s.name ≠ str!"M" → rp.getCharge C = .ok (some s.charge) := by
    intro h
    unfold Rp.getCharge
    simp only [nm, bind, Except.bind, if_neg h, hcharge, Val.intOr, Val.toInt, hC.int]
  have sp : s.name ≠ str!"M" → s.name ≠ str!"e" → rp.isSpecial C = .ok false := by
    intro h g
    unfold Rp.isSpecial
    simp only [nm, bind, Except.bind, pure, Except.pure, h, g]
    rfl
  refine ⟨rp, h1, h2, nm, fun h => ⟨?_, ch h⟩, fun h g => ⟨?_, fun hs => ?_, fun hs hq => ?_⟩, ?_⟩
  · unfold Rp.getMass
    simp only [nm, bind, Except.bind, if_neg h, hmass, Val.floatOr, Val.toFloat, hC.float, pure, Except.pure]
  · unfold Rp.getStick
    simp only [sp h g, bind, Except.bind, hstick, Val.floatOr, Val.toFloat, hC.float, pure, Except.pure]
    rfl
  · unfold Rp.getRet
    rw [hret, if_pos hs]
    simp only [sp h g, bind, Except.bind, Classify.collect, Val.toFloat, hC.float, pure, Except.pure]
    rfl
  · unfold Rp.getRet Rp.isGround Rp.getState
    rw [hret, if_neg (not_not.2 hs)]
    simp only [sp h g, bind, Except.bind, hstate, Val.optText, ch h, hq, pure, Except.pure]
    rfl
  · unfold Rp.getText
    rw [hcom]
    split <;> rfl

theorem stored_rx {C : Codec F} (hC : C.Lawful) (x : HpemRx F) (i : Int) (hl : x.reactants ≠ [] ∧ [] ∉ x.reactants)
    (hr : x.products ≠ [] ∧ [] ∉ x.products) :
    (rxSpec C x).stored C i = { rxSpec C x with id := C.showI i } := by
  have t1 := file_text (joinStr_ne (sep := str!", ") hl.1 fun n hn h => hl.2 (h ▸ hn))
  have t2 := file_text (joinStr_ne (sep := str!", ") hr.1 fun n hn h => hr.2 (h ▸ hn))
  have ta := file_text (hC.floatText x.a)
  have tb := file_text (hC.floatText x.b)
  have tc := file_text (hC.floatText x.c)
  have th := file_text (hC.floatText x.heat)
  have ts := file_text (hC.intText x.special)
  have t0 : fileText none = none := rfl
  unfold rxSpec Elem.stored Elem.file
  by_cases hc : x.comments ≠ []
  · have t6 := file_text hc
    simp [t0, t1, t2, ta, tb, tc, th, ts, t6, hc]
  · simp [t0, t1, t2, ta, tb, tc, th, ts, hc]

theorem side_read {d : Dict Str (Rp F)} {e : Elem} {tag : Str} {side : List Str} {rps : List (Rp F)}
    (htext : (e.find tag).bind Sub.text = some (joinStr str!", " side)) (hne : side ≠ [])
    (hplain : ∀ n ∈ side, ',' ∉ n ∧ strip n = n) (hd : List.Forall₂ (fun n rp => d.get? n = some rp) side rps) :
    parseSide d e tag = .ok rps := by
  unfold parseSide
  rw [htext]
  dsimp only
  rw [← collect_map (lookupRp d) strip, split_names hne fun n hn => (hplain n hn).1,
    (List.map_congr_left fun n hn => (hplain n hn).2).trans (List.map_id _)]
  refine collect_forall₂ (hd.imp ?_)
  intro n rp h
  unfold lookupRp
  rw [h]

/-- The units chosen for a reaction are those the reaction has to have. -/
theorem hpem_units {C : Codec F} {x : HpemRx F} {rs : List (Rp F)}
    (hlen : 1 ≤ x.reactants.length ∧ x.reactants.length ≤ 3)
    (hrs : List.Forall₂ (fun n rp => rp.getName C = .ok n) x.reactants rs) (y : Rx F) (hy : y.reactants = rs) :
    y.checkUnit C str!"arrh_a" (some (unitA x.reactants.length)) = .ok () ∧
    y.checkUnit C str!"arrh_c" (some (if str!"e" ∈ x.reactants then str!"eV" else str!"K")) = .ok () := by
  have he : y.isElectron C = .ok (decide (str!"e" ∈ x.reactants)) := by
    unfold Rx.isElectron
    have : Classify.collect (fun rp : Rp F => rp.getName C) rs = .ok x.reactants :=
      collect_forall₂ hrs.flip
    rw [hy, this]
    rfl
  have hl : y.reactants.length = x.reactants.length := by rw [hy]; exact hrs.length_eq.symm
  constructor
  · unfold Rx.checkUnit
    rw [hl]
    generalize x.reactants.length = n at hlen
    obtain ⟨h1, h2⟩ := hlen
    interval_cases n <;> rfl
  · unfold Rx.checkUnit
    rw [he]
    by_cases h : str!"e" ∈ x.reactants
    · rw [if_pos h, decide_eq_true h]; rfl
    · rw [if_neg h, decide_eq_false h]; rfl

theorem checks_of {C : Codec F} {rs : List (Rp F)} {a : Str} {t u : Option Str} (hk : (rxKinds.get? a).isSome = true)
    (hel : a = str!"elastic" → t = none)
    (hu : Rx.checkUnit C ⟨0, rs, [], fun _ => .null, fun _ => none⟩ a u = .ok () ∨ t = none)
    (hneg : a = str!"arrh_a" → ∃ s y, t = some s ∧ C.readF s = some y ∧ 0 ≤ C.val y) :
    Checks C rs a (textVal t) u := by
  obtain ⟨k, hk⟩ := Option.isSome_iff_exists.1 hk
  have h1 : (if (textVal t : Val F).isSome then Rx.checkUnit C ⟨0, rs, [], fun _ => .null, fun _ => none⟩ a u
      else .ok () : Except Err Unit) = .ok () := by
    rcases hu with hu | rfl
    · rw [hu, ite_self]
    · rfl
  have h2 : ¬ ((a = str!"elastic" ∧ ¬ elasticOk (textVal t : Val F) = true) ∨ ¬ (textVal t : Val F).fits k = true) := by
    rintro (⟨e, h⟩ | h)
    · rw [hel e] at h; exact h rfl
    · apply h; cases t <;> rfl
  unfold Checks Rx.set
  rw [h1, hk]
  dsimp only
  rw [if_neg h2]
  by_cases ha : a = str!"arrh_a"
  · obtain ⟨s, y, rfl, hs, hy⟩ := hneg ha
    have : (if a = str!"arrh_a" then (textVal (some s) : Val F).floatOr C none else .ok none) = .ok (some y) := by
      rw [if_pos ha]
      simp only [textVal, Val.floatOr, Val.toFloat, hs]
    rw [this]
    dsimp only
    rw [if_neg (by simpa using hy)]
    exact ⟨_, rfl⟩
  · rw [if_neg ha]
    dsimp only
    rw [if_neg (by simp)]
    exact ⟨_, rfl⟩

/-- An imported reaction has the values of its line. -/
theorem hpem_reaction_read {C : Codec F} (hC : C.Lawful) (A : Str → Option (Dict Str Nat)) (x : HpemRx F) (i : Nat)
    (hi : 0 < i) {d : Dict Str (Rp F)} {rs ps : List (Rp F)} (hlen : 1 ≤ x.reactants.length ∧ x.reactants.length ≤ 3)
    (hp : x.products ≠ []) (hn : ∀ n ∈ x.reactants ++ x.products, n ≠ [] ∧ ',' ∉ n ∧ strip n = n)
    (hrs : List.Forall₂ (fun n rp => d.get? n = some rp ∧ rp.getName C = .ok n) x.reactants rs)
    (hps : List.Forall₂ (fun n rp => d.get? n = some rp ∧ rp.getName C = .ok n) x.products ps)
    (ha : 0 ≤ C.val x.a) (hcons : Rx.consistent C A rs ps = .ok ()) :
    ∃ y, parseRx C A d ((rxSpec C x).stored C i) = .ok y ∧ y.id = i ∧ y.reactants = rs ∧ y.products = ps ∧
      y.getArrhA C false = .ok (some x.a) ∧
      y.getArrhA C true = .ok (some (C.scale (unitA x.reactants.length) x.a)) ∧
      y.getArrh C str!"arrh_b" = .ok (some x.b) ∧ y.getArrh C str!"arrh_c" = .ok (some x.c) ∧
      y.getUnit str!"arrh_c" = .ok (some (if str!"e" ∈ x.reactants then str!"eV" else str!"K")) ∧
      y.getFloat C str!"gas_heat_contrib" = .ok (some x.heat) ∧ y.getSpecial C = .ok (some x.special) ∧
      y.getText C str!"comments" = .ok (if x.comments = [] then none else some x.comments) := by
  have hne : x.reactants ≠ [] := List.length_pos_iff.1 hlen.1
  rw [stored_rx hC x i ⟨hne, fun h => (hn [] (by simp [h])).1 rfl⟩ ⟨hp, fun h => (hn [] (by simp [h])).1 rfl⟩]
  have key : ∃ y, parseRx C A d { rxSpec C x with id := C.showI i } = .ok y ∧ y.id = i ∧ y.reactants = rs ∧
      y.products = ps ∧ y.attr str!"arrh_a" = .str (C.showF x.a) ∧ y.attr str!"arrh_b" = .str (C.showF x.b) ∧
      y.attr str!"arrh_c" = .str (C.showF x.c) ∧ y.attr str!"gas_heat_contrib" = .str (C.showF x.heat) ∧
      y.attr str!"special_number" = .str (C.showI x.special) ∧
      y.attr str!"comments" = (if x.comments = [] then .null else .str x.comments) ∧
      y.unit str!"arrh_a" = some (unitA x.reactants.length) ∧
      y.unit str!"arrh_c" = some (if str!"e" ∈ x.reactants then str!"eV" else str!"K") := by
    unfold parseRx
    dsimp only
    rw [hC.int]
    dsimp only
    rw [side_read (side := x.reactants) (rps := rs) rfl hne (fun n h => (hn n (by simp [h])).2) (hrs.imp fun _ _ h => h.1),
      side_read (side := x.products) (rps := ps) rfl hp (fun n h => (hn n (by simp [h])).2) (hps.imp fun _ _ h => h.1)]
    simp only [bind, Except.bind]
    generalize hat : Elem.texts _ _ = attrs
    generalize hun : Elem.units _ = units
    have eat : attrs = [(str!"arrh_a", .str (C.showF x.a)), (str!"arrh_b", .str (C.showF x.b)),
        (str!"arrh_c", .str (C.showF x.c)), (str!"gas_heat_contrib", .str (C.showF x.heat)),
        (str!"special_number", .str (C.showI x.special))] ++
        (if x.comments = [] then [] else [(str!"comments", .str x.comments)]) := by
      rw [← hat]
      obtain ⟨l, r, a, b, c, h, sn, com⟩ := x
      unfold rxSpec
      cases com <;> rfl
    have eun : units = [(str!"arrh_a", unitA x.reactants.length),
        (str!"arrh_c", if str!"e" ∈ x.reactants then str!"eV" else str!"K"), (str!"gas_heat_contrib", str!"eV")] := by
      rw [← hun]
      obtain ⟨l, r, a, b, c, h, sn, com⟩ := x
      unfold rxSpec
      cases com <;> rfl
    clear hat hun
    have hkeys : attrs.keys =
          [str!"arrh_a", str!"arrh_b", str!"arrh_c", str!"gas_heat_contrib", str!"special_number"] ∨
        attrs.keys =
          [str!"arrh_a", str!"arrh_b", str!"arrh_c", str!"gas_heat_contrib", str!"special_number", str!"comments"] := by
      rw [eat]
      by_cases hc : x.comments = []
      · rw [if_pos hc]; exact .inl rfl
      · rw [if_neg hc]; exact .inr rfl
    have hukeys : units.keys = [str!"arrh_a", str!"arrh_c", str!"gas_heat_contrib"] := by rw [eun]; rfl
    have htext := given_text (d := attrs) (by
      rw [eat]
      by_cases hc : x.comments = [] <;> simp [hc])
    have hgcom : given attrs str!"comments" = (if x.comments = [] then .null else .str x.comments) := by
      rw [eat]
      by_cases hc : x.comments = []
      · rw [if_pos hc, if_pos hc]; rfl
      · rw [if_neg hc, if_neg hc]; rfl
    have hchecks : ∀ a ∈ rxAttributes, Checks C rs a (given attrs a) (units.get? a) := by
      intro a hmem
      have hu := hpem_units hlen (hrs.imp fun _ _ h => h.2)
        (⟨0, rs, [], fun _ => .null, fun _ => none⟩ : Rx F) rfl
      by_cases c1 : a = str!"arrh_a"
      · have g1 : given attrs a = .str (C.showF x.a) := by rw [eat, c1]; rfl
        have g2 : units.get? a = some (unitA x.reactants.length) := by rw [eun, c1]; rfl
        rw [g1, g2, c1]
        exact checks_of (t := some _) rfl (fun h => absurd h (by decide)) (.inl hu.1)
          fun _ => ⟨_, x.a, rfl, hC.float x.a, ha⟩
      · obtain ⟨t, ht⟩ := htext a
        rw [ht]
        refine checks_of ((by decide : ∀ a ∈ rxAttributes, (rxKinds.get? a).isSome = true) a hmem) ?_ ?_
          fun h => absurd h c1
        · rintro rfl
          have : given attrs str!"elastic" = .null := by
            rw [eat]
            by_cases hc : x.comments = []
            · rw [if_pos hc]; rfl
            · rw [if_neg hc]; rfl
          rw [this] at ht
          cases t with
          | none => rfl
          | some t => cases ht
        · left
          by_cases c2 : a = str!"arrh_c"
          · have g2 : units.get? a = some (if str!"e" ∈ x.reactants then str!"eV" else str!"K") := by
              rw [eun, c2]; rfl
            rw [g2, c2]
            exact hu.2
          · rw [eun]
            simp only [rxAttributes, List.mem_cons, List.not_mem_nil, or_false] at hmem
            rcases hmem with rfl | rfl | rfl | rfl | rfl | rfl | rfl | rfl | rfl | rfl | rfl | rfl
            any_goals rfl
            · exact absurd rfl c1
            · exact absurd rfl c2
    obtain ⟨y, h1, h2, h3, h4, h5, h6⟩ := Rx.setAll_ok (C := C) (attrs := attrs) (units := units) rxAttributes
      { id := i, reactants := rs, products := ps, attr := fun _ => .null, unit := fun _ => none } hchecks
    refine ⟨y, ?_, h2, h3, h4, ?_⟩
    · unfold Rx.init
      have l1 : rs.length = x.reactants.length := hrs.length_eq.symm
      have l2 : 1 ≤ ps.length := by rw [← hps.length_eq]; exact List.length_pos_iff.2 hp
      rw [if_neg (by omega), if_neg (by omega), if_neg (by omega), if_neg, if_neg, if_neg, if_neg]
      · simp only [Int.toNat_natCast, h1, hcons]
      · rw [hukeys]; rcases hkeys with h | h <;> rw [h] <;> decide
      · rw [hukeys]; rcases hkeys with h | h <;> rw [h] <;> decide
      · rcases hkeys with h | h <;> rw [h] <;> decide
      · have : attrs.get? str!"arrh_a" = some (.str (C.showF x.a)) := by rw [eat]; rfl
        rw [this]; simp
    · have hmem : ∀ a ∈ rxAttributes, y.attr a = given attrs a := fun a h => (h5 a).trans (if_pos h)
      have humem : ∀ a ∈ rxAttributes, y.unit a = units.get? a := fun a h => (h6 a).trans (if_pos h)
      rw [hmem _ (by decide), hmem _ (by decide), hmem _ (by decide), hmem _ (by decide), hmem _ (by decide),
        hmem _ (by decide), humem _ (by decide), humem _ (by decide), hgcom, eat, eun]
      exact ⟨rfl, rfl, rfl, rfl, rfl, rfl, rfl, rfl⟩
  obtain ⟨y, h1, h2, h3, h4, ea, eb, ec, eh, es, ecom, ua, uc⟩ := key
  have hA : ∀ si, y.getArrhA C si = .ok (some (if si then C.scale (unitA x.reactants.length) x.a else x.a)) := by
    intro si
    unfold Rx.getArrhA Rx.getUnit
    have hmem : unitA x.reactants.length ∈ Reaction.siFactors.keys := by
      generalize x.reactants.length = n at hlen
      obtain ⟨k1, k2⟩ := hlen
      interval_cases n <;> decide
    have hu : Dict.get? rxUnits str!"arrh_a" = some none := rfl
    cases si
    · simp only [ea, bind, Except.bind, Val.floatOr, Val.toFloat, hC.float, pure, Except.pure]
      rfl
    · simp only [ea, bind, Except.bind, Val.floatOr, Val.toFloat, hC.float, pure, Except.pure, hu, ua, Option.or, hmem]
      rfl
  refine ⟨y, h1, h2, h3, h4, hA false, hA true, ?_, ?_, ?_, ?_, ?_, ?_⟩
  · unfold Rx.getArrh
    simp only [eb, bind, Except.bind, Val.floatOr, Val.toFloat, hC.float, pure, Except.pure]
  · unfold Rx.getArrh
    simp only [ec, bind, Except.bind, Val.floatOr, Val.toFloat, hC.float, pure, Except.pure]
  · unfold Rx.getUnit
    rw [uc]; rfl
  · unfold Rx.getFloat
    simp only [eh, Val.floatOr, Val.toFloat, hC.float]
  · unfold Rx.getSpecial
    simp only [es, bind, Except.bind, Val.intOr, Val.toInt, hC.int, pure, Except.pure]
  · unfold Rx.getText
    rw [ecom]
    split <;> rfl

/-! ### Lines that cannot be read -/

theorem no_match {k : Bool} {l : List (Char × Bool)} {line : Str} {c : Char} (hc : c ∈ l.map Prod.fst) (h : c ∉ line) :
    firstMatch (pattern k l) line = .error .indexError := by
  unfold firstMatch
  cases hf : (tryMatch (pattern k l) line).find? (fun r => r.2 = []) with
  | none => rfl
  | some r =>
    have hr := List.mem_of_find?_eq_some hf
    have hr2 : r.2 = [] := by simpa using List.find?_some hf
    obtain ⟨caps, r2⟩ := r
    subst hr2
    obtain ⟨t, v, ts, vs, g1, -, -, g4, -⟩ := mem_pattern.1 hr
    rw [← g4] at hc
    obtain ⟨p, hp, rfl⟩ := List.mem_map.1 hc
    refine absurd ?_ h
    rw [g1, render, List.mem_append, List.mem_flatMap]
    exact .inr ⟨p, hp, by simp⟩

theorem collect_error {α β : Type} {f : α → Except Err β} : ∀ {l : List α} {a : α}, a ∈ l → (∃ e, f a = .error e) →
    ∃ e, Classify.collect f l = .error e
  | b :: l, a, h, ⟨e, he⟩ => by
    rw [Classify.collect]
    cases hb : f b with
    | error e => exact ⟨e, rfl⟩
    | ok v =>
      rcases List.mem_cons.1 h with rfl | h
      · rw [he] at hb; cases hb
      · obtain ⟨e', h'⟩ := collect_error h ⟨e, he⟩
        rw [h']
        exact ⟨e', rfl⟩

/-- A file without the line `*` is refused, and so is one with any other line that has no `!` (an empty line at the end
among them); nothing is added. -/
theorem hpem_refused [DecidableEq F] (C : Codec F) (b : Builder F) (lines : List Str) (skip : Bool)
    (h : (∀ l ∈ lines, strip l ≠ str!"*") ∨
      ∃ l ∈ lines, '!' ∉ strip l ∧ (strip l ≠ str!"*" ∨ (lines.map strip).count str!"*" > 1)) :
    (∃ e, (b.addHpem C lines skip).1 = .error e) ∧ (b.addHpem C lines skip).2 = b := by
  unfold Builder.addHpem
  dsimp only
  by_cases hs : str!"*" ∉ lines.map strip
  · rw [if_pos hs]
    exact ⟨⟨_, rfl⟩, rfl⟩
  · rw [if_neg hs]
    rw [not_not] at hs
    have hbad : ∃ m, '!' ∉ m ∧ (m ∈ (lines.map strip).takeWhile (fun l => l ≠ str!"*") ∨
        m ∈ ((lines.map strip).dropWhile (fun l => l ≠ str!"*")).tail) := by
      rcases h with h | ⟨l, hl, hm, h⟩
      · obtain ⟨l, hl, e⟩ := List.mem_map.1 hs
        exact absurd e (h l hl)
      · generalize hL : lines.map strip = L at hs h
        have hl' : strip l ∈ L := hL ▸ List.mem_map_of_mem hl
        generalize strip l = m at hm h hl'
        clear hL
        induction L with
        | nil => cases hs
        | cons a L ih =>
          by_cases ha : a = str!"*"
          · rw [List.takeWhile_cons_of_neg (by simp [ha]), List.dropWhile_cons_of_neg (by simp [ha]), List.tail_cons]
            rcases h with h | h
            · rcases List.mem_cons.1 hl' with rfl | hl'
              · exact absurd ha h
              · exact ⟨m, hm, .inr hl'⟩
            · refine ⟨str!"*", by decide, .inr ?_⟩
              rw [ha, List.count_cons_self] at h
              exact List.count_pos_iff.1 (by omega)
          · rw [List.takeWhile_cons_of_pos (by simpa using ha), List.dropWhile_cons_of_pos (by simpa using ha)]
            have hs' : str!"*" ∈ L := (List.mem_cons.1 hs).resolve_left fun e => ha e.symm
            rcases List.mem_cons.1 hl' with rfl | hl'
            · exact ⟨m, hm, .inl (by simp)⟩
            · obtain ⟨m', h1, h2⟩ := ih hs' (by rwa [List.count_cons_of_ne ha] at h) hl'
              exact ⟨m', h1, h2.imp (List.mem_cons_of_mem _) id⟩
    obtain ⟨m, hm, h⟩ := hbad
    have e1 : readSp C m = .error .indexError := by
      unfold readSp
      rw [no_match (c := '!') (by decide) hm]
      rfl
    have e2 : readRx C m = .error .indexError := by
      unfold readRx
      rw [no_match (c := '!') (by decide) hm]
      rfl
    cases h1 : Classify.collect (readSp C) ((lines.map strip).takeWhile (fun l => l ≠ str!"*")) with
    | error e => exact ⟨⟨_, rfl⟩, rfl⟩
    | ok sps =>
      cases h2 : Classify.collect (readRx C) ((lines.map strip).dropWhile (fun l => l ≠ str!"*")).tail with
      | error e => exact ⟨⟨_, rfl⟩, rfl⟩
      | ok rxs =>
        exfalso
        rcases h with h | h
        · obtain ⟨e, he⟩ := collect_error h ⟨_, e1⟩
          rw [he] at h1; cases h1
        · obtain ⟨e, he⟩ := collect_error h ⟨_, e2⟩
          rw [he] at h2; cases h2

end Verif.Plaschem.Xml

/-! ### Examples -/

namespace Verif.Plaschem.DemoX
open Verif.Plaschem Xml

/-- electrons, argon and its ion, and a species that does not occur in the reactions -/
def hpemLines : List Str :=
  [str!"E : -1 ; 0 & 0 ] 0 [ 0 @ E ! electrons: all; of them", str!"AR : 0 ; 40.0 & 0 ] 0 [ 0 @ AR !",
   str!"AR^ : 1 ; 40.0 & 1 ] 0 [ 1 @ AR ! ion", str!"O : 0 ; 16.0 & 0 ] 0 [ 0 @ O !", str!"*",
   str!"E + AR > E + E + AR^ : 3.0 ; 1.0 & 15.0 ] 0 [ 1 ! ionisation",
   str!"E + AR > E + AR : 2.0 ; 0 & 0 ] 0 [ 5 ! not an ordinary one", str!"AR + AR > AR + AR : 1.0 ; 0 & 300.0 ] 0 [ -1 !"]

def hpemSps : List (HpemSp Int) :=
  [⟨str!"e", -1, 0, 0, 0, str!"e", str!"electrons: all; of them"⟩, ⟨str!"AR", 0, 40, 0, 0, str!"AR", []⟩,
   ⟨str!"AR+", 1, 40, 1, 1, str!"AR", str!"ion"⟩, ⟨str!"O", 0, 16, 0, 0, str!"O", []⟩]

def hpemRxs : List (HpemRx Int) :=
  [⟨[str!"e", str!"AR"], [str!"e", str!"e", str!"AR+"], 3, 1, 15, 0, 1, str!"ionisation"⟩,
   ⟨[str!"e", str!"AR"], [str!"e", str!"AR"], 2, 0, 0, 0, 5, str!"not an ordinary one"⟩,
   ⟨[str!"AR", str!"AR"], [str!"AR", str!"AR"], 1, 0, 300, 0, -1, []⟩]

theorem word_of (n m : Nat) {t v : Str} (h : (t.take n).all isSpace = true ∧ (t.drop m).all isSpace = true ∧ v ≠ [] ∧
    v.all (fun c => !isSpace c) = true ∧ t = t.take n ++ v ++ t.drop m) : Word t v := by
  obtain ⟨h1, h2, h3, h4, h5⟩ := h
  exact ⟨t.take n, t.drop m, List.all_eq_true.1 h1, List.all_eq_true.1 h2, h3,
    fun c hc => by simpa using List.all_eq_true.1 h4 c hc, h5⟩

theorem hpem_isFile : IsFile C hpemLines hpemSps hpemRxs := by
  refine ⟨hpemLines.take 4, str!"*", hpemLines.drop 5, rfl, by decide, ?_, ?_⟩
  · refine .cons ⟨?_⟩ (.cons ⟨?_⟩ (.cons ⟨?_⟩ (.cons ⟨?_⟩ .nil)))
    · exact { n := str!"E", q := str!"-1", m := str!"0", st := str!"0", u := str!"0", r := str!"0", t := str!"E"
              tn := str!"E ", tq := str!" -1 ", tm := str!" 0 ", ts := str!" 0 ", tu := str!" 0 ", tr := str!" 0 "
              tt := str!" E ", tc := str!" electrons: all; of them"
              line_eq := by decide
              words := ⟨word_of 0 1 (by decide), word_of 1 3 (by decide), word_of 1 2 (by decide), word_of 1 2 (by decide),
                word_of 1 2 (by decide), word_of 1 2 (by decide), word_of 1 2 (by decide)⟩
              free := by decide
              comment := by decide
              charge := by decide +kernel
              mass := by decide +kernel
              stick := by decide +kernel
              unused := by decide +kernel
              ret := by decide +kernel
              name := by decide
              retName := by decide
              comments := by decide }
    · exact { n := str!"AR", q := str!"0", m := str!"40.0", st := str!"0", u := str!"0", r := str!"0", t := str!"AR"
              tn := str!"AR ", tq := str!" 0 ", tm := str!" 40.0 ", ts := str!" 0 ", tu := str!" 0 ", tr := str!" 0 "
              tt := str!" AR ", tc := []
              line_eq := by decide
              words := ⟨word_of 0 2 (by decide), word_of 1 2 (by decide), word_of 1 5 (by decide), word_of 1 2 (by decide),
                word_of 1 2 (by decide), word_of 1 2 (by decide), word_of 1 3 (by decide)⟩
              free := by decide
              comment := by decide
              charge := by decide +kernel
              mass := by decide +kernel
              stick := by decide +kernel
              unused := by decide +kernel
              ret := by decide +kernel
              name := by decide
              retName := by decide
              comments := by decide }
    · exact { n := str!"AR^", q := str!"1", m := str!"40.0", st := str!"1", u := str!"0", r := str!"1", t := str!"AR"
              tn := str!"AR^ ", tq := str!" 1 ", tm := str!" 40.0 ", ts := str!" 1 ", tu := str!" 0 ", tr := str!" 1 "
              tt := str!" AR ", tc := str!" ion"
              line_eq := by decide
              words := ⟨word_of 0 3 (by decide), word_of 1 2 (by decide), word_of 1 5 (by decide), word_of 1 2 (by decide),
                word_of 1 2 (by decide), word_of 1 2 (by decide), word_of 1 3 (by decide)⟩
              free := by decide
              comment := by decide
              charge := by decide +kernel
              mass := by decide +kernel
              stick := by decide +kernel
              unused := by decide +kernel
              ret := by decide +kernel
              name := by decide
              retName := by decide
              comments := by decide }
    · exact { n := str!"O", q := str!"0", m := str!"16.0", st := str!"0", u := str!"0", r := str!"0", t := str!"O"
              tn := str!"O ", tq := str!" 0 ", tm := str!" 16.0 ", ts := str!" 0 ", tu := str!" 0 ", tr := str!" 0 "
              tt := str!" O ", tc := []
              line_eq := by decide
              words := ⟨word_of 0 1 (by decide), word_of 1 2 (by decide), word_of 1 5 (by decide), word_of 1 2 (by decide),
                word_of 1 2 (by decide), word_of 1 2 (by decide), word_of 1 2 (by decide)⟩
              free := by decide
              comment := by decide
              charge := by decide +kernel
              mass := by decide +kernel
              stick := by decide +kernel
              unused := by decide +kernel
              ret := by decide +kernel
              name := by decide
              retName := by decide
              comments := by decide }
  · refine .cons ⟨?_⟩ (.cons ⟨?_⟩ (.cons ⟨?_⟩ .nil))
    · exact { a := str!"3.0", b := str!"1.0", c := str!"15.0", h := str!"0", s := str!"1"
              tl := str!"E + AR ", tr := str!" E + E + AR^ ", ta := str!" 3.0 ", tb := str!" 1.0 ", tc := str!" 15.0 "
              th := str!" 0 ", ts := str!" 1 ", tt := str!" ionisation"
              line_eq := by decide
              sides := ⟨⟨[str!"E", str!"AR"], by decide, by unfold NoBlank; decide, by decide, by decide, by decide⟩,
                ⟨[str!"E", str!"E", str!"AR^"], by decide, by unfold NoBlank; decide, by decide, by decide, by decide⟩⟩
              words := ⟨word_of 1 4 (by decide), word_of 1 4 (by decide), word_of 1 5 (by decide), word_of 1 2 (by decide),
                word_of 1 2 (by decide)⟩
              free := by decide
              comment := by decide
              ea := by decide +kernel
              eb := by decide +kernel
              ec := by decide +kernel
              eh := by decide +kernel
              es := by decide +kernel
              comments := by decide }
    · exact { a := str!"2.0", b := str!"0", c := str!"0", h := str!"0", s := str!"5"
              tl := str!"E + AR ", tr := str!" E + AR ", ta := str!" 2.0 ", tb := str!" 0 ", tc := str!" 0 "
              th := str!" 0 ", ts := str!" 5 ", tt := str!" not an ordinary one"
              line_eq := by decide
              sides := ⟨⟨[str!"E", str!"AR"], by decide, by unfold NoBlank; decide, by decide, by decide, by decide⟩,
                ⟨[str!"E", str!"AR"], by decide, by unfold NoBlank; decide, by decide, by decide, by decide⟩⟩
              words := ⟨word_of 1 4 (by decide), word_of 1 2 (by decide), word_of 1 2 (by decide), word_of 1 2 (by decide),
                word_of 1 2 (by decide)⟩
              free := by decide
              comment := by decide
              ea := by decide +kernel
              eb := by decide +kernel
              ec := by decide +kernel
              eh := by decide +kernel
              es := by decide +kernel
              comments := by decide }
    · exact { a := str!"1.0", b := str!"0", c := str!"300.0", h := str!"0", s := str!"-1"
              tl := str!"AR + AR ", tr := str!" AR + AR ", ta := str!" 1.0 ", tb := str!" 0 ", tc := str!" 300.0 "
              th := str!" 0 ", ts := str!" -1 ", tt := []
              line_eq := by decide
              sides := ⟨⟨[str!"AR", str!"AR"], by decide, by unfold NoBlank; decide, by decide, by decide, by decide⟩,
                ⟨[str!"AR", str!"AR"], by decide, by unfold NoBlank; decide, by decide, by decide, by decide⟩⟩
              words := ⟨word_of 1 4 (by decide), word_of 1 2 (by decide), word_of 1 6 (by decide), word_of 1 2 (by decide),
                word_of 1 3 (by decide)⟩
              free := by decide
              comment := by decide
              ea := by decide +kernel
              eb := by decide +kernel
              ec := by decide +kernel
              eh := by decide +kernel
              es := by decide +kernel
              comments := by decide }

/-- the file is imported into an empty builder -/
theorem hpem_ok : (({} : Builder Int).addHpem C hpemLines true).1 = .ok () :=
  ((hpem_import hpem_isFile (by decide) {} true).1).2 ⟨by decide, by decide⟩

example : (({} : Builder Int).addHpem C hpemLines true).2.species.map Elem.name =
    [some str!"e", some str!"AR", some str!"AR+"] := by
  rw [(hpem_import hpem_isFile (by decide) {} true).2 hpem_ok]
  decide

example : (({} : Builder Int).addHpem C hpemLines true).2.reactions.length = 2 ∧
    (({} : Builder Int).addHpem C hpemLines false).2.reactions.length = 3 := by
  have h : (({} : Builder Int).addHpem C hpemLines false).1 = .ok () :=
    ((hpem_import hpem_isFile (by decide) {} false).1).2 ⟨by decide, by decide⟩
  rw [(hpem_import hpem_isFile (by decide) {} true).2 hpem_ok, (hpem_import hpem_isFile (by decide) {} false).2 h]
  decide

/-- All imported elements have the same id, so a chemistry cannot be made of them before ids have been assigned. -/
theorem hpem_ids_not_distinct : ¬ ((({} : Builder Int).addHpem C hpemLines true).2.species.map Elem.id).Nodup := by
  rw [(hpem_import hpem_isFile (by decide) {} true).2 hpem_ok]
  decide +kernel

/-- The same file cannot be imported twice. -/
theorem hpem_twice (b : Builder Int) (hb : b = (({} : Builder Int).addHpem C hpemLines true).2) :
    (b.addHpem C hpemLines true).1 ≠ .ok () := by
  intro h
  have h2 := ((hpem_import hpem_isFile (by decide) b true).1).1 h
  rw [hb, (hpem_import hpem_isFile (by decide) {} true).2 hpem_ok] at h2
  exact h2.1 ⟨str!"e", -1, 0, 0, 0, str!"e", str!"electrons: all; of them"⟩ (by decide) (by decide)

/-- An import that fails on a reaction leaves its species in the builder. -/
theorem hpem_half_loaded : ∃ lines, (({} : Builder Int).addHpem C lines true).1 = .error .keyError ∧
    (({} : Builder Int).addHpem C lines true).2.species.map Elem.name = [some str!"AR"] := by
  refine ⟨[str!"AR : 0 ; 40.0 & 0 ] 0 [ 0 @ AR !", str!"*",
    str!"AR + AR + AR + AR > AR : 1.0 ; 0 & 300.0 ] 0 [ -1 !"], of_err? (by decide +kernel), by decide +kernel⟩

/-- A second `!` is taken for the one that ends the cell if there is no white space between them. -/
theorem hpem_second_mark : ((readSp C str!"AR^ : 1 ; 40.0 & 1 ] 0 [ 1 @ AR!see!below").toOption.map HpemSp.retName) =
    some str!"AR!see" := by decide +kernel

/-- an empty line at the end -/
example : (∃ e, (({} : Builder Int).addHpem C (hpemLines ++ [[]]) true).1 = .error e) ∧
    (({} : Builder Int).addHpem C (hpemLines ++ [[]]) true).2.species = [] := by
  have := hpem_refused C {} (hpemLines ++ [[]]) true (.inr ⟨[], by simp, by decide, .inl (by decide)⟩)
  exact ⟨this.1, by rw [this.2]⟩

example : ∃ rp, parseRp C ((spSpec C hpemSps[2]).stored C 3) = .ok rp ∧ rp.id = 3 ∧ rp.getName C = .ok str!"AR+" ∧
    rp.getCharge C = .ok (some 1) ∧ rp.getRet C = .ok (some [(str!"AR", 1)]) := by
  obtain ⟨rp, h1, h2, h3, h4, h5, -⟩ := hpem_species_read lawful hpemSps[2] 3 (by decide) (by decide)
  exact ⟨rp, h1, h2, h3, (h4 (by decide)).2, (h5 (by decide) (by decide)).2.1 (by decide +kernel)⟩

def AR : Rp Int := mk 1 [(str!"name", .str str!"AR"), (str!"mass", .float 40)] none [(str!"mass", str!"amu")]
def ARp : Rp Int :=
  mk 2 [(str!"name", .str str!"AR+"), (str!"mass", .float 40), (str!"charge", .int 1)] none [(str!"mass", str!"amu")]

example : ∃ y, parseRx C (fun s => some [(s, 1)]) [(str!"e", e), (str!"AR", AR), (str!"AR+", ARp)]
      ((rxSpec C hpemRxs[0]).stored C 7) = .ok y ∧
    y.id = 7 ∧ y.getArrhA C false = .ok (some 3) ∧ y.getArrh C str!"arrh_c" = .ok (some 15) ∧
    y.getUnit str!"arrh_c" = .ok (some str!"eV") := by
  obtain ⟨y, h1, h2, -, -, h3, -, -, h4, h5, -⟩ := hpem_reaction_read lawful (fun s => some [(s, 1)]) hpemRxs[0] 7
    (by decide) (d := [(str!"e", e), (str!"AR", AR), (str!"AR+", ARp)]) (rs := [e, AR]) (ps := [e, e, ARp]) (by decide)
    (by decide) (by decide) (.cons ⟨rfl, rfl⟩ (.cons ⟨rfl, rfl⟩ .nil))
    (.cons ⟨rfl, rfl⟩ (.cons ⟨rfl, rfl⟩ (.cons ⟨rfl, rfl⟩ .nil))) (by decide +kernel) (of_toOption (by decide +kernel))
  exact ⟨y, h1, h2, h3, h4, h5⟩

end Verif.Plaschem.DemoX
