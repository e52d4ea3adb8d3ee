/-
C86: import of species and reactions from the QDB database (plaschem/xml_inputs.py:57-103, 170-213, 295-432, 467-477).
-/
import Verif.Plaschem.XmlHpem
import Mathlib.Data.List.TakeWhile

namespace Verif.Plaschem.Xml
open Verif.Plaschem

variable {F : Type}

/-! ### Model: objects of the database -/

/-- What is read from a species of the database: primary key, `ordinary_formula`, the `state_str` of its states, mass,
charge, and optional data. Simplification: masses and data are floats. -/
structure QdbRp (F : Type) where
  pk : Nat
  formula : Str
  states : List Str
  mass : F
  charge : Int
  hform : Option F
  ljEpsilon : Option F
  ljSigma : Option F
  hpem : Option Str

/-- The data of a dataset: a cross section (`is_xsec()`) with what `fit_arrhenius()` returns, its `threshold` and what
`get_thresh()` returns, Arrhenius parameters (`is_arrhenius()`) as the filters of plaschem/xml_inputs.py:363-371 find
them, with units, or something else. Simplification: the conversions to `float` and the fit do not fail. -/
inductive QdbData (F : Type)
  | xsec (a b c : F) (threshold : Option F) (thresh : F)
  | arrh (a : List (F × Str)) (b : List F) (c : List (F × Str))
  | other

/-- a dataset: primary key, primary key of its type, data, `entry_id`, and the `doi` of its citations -/
structure QdbDs (F : Type) where
  pk : Int
  type : Nat
  data : QdbData F
  entry : Option Int
  dois : List (Option Str)

/-- the species of a reaction of the database: `reactants`, `products`, and what `get_all_rps()` returns -/
structure QdbSides (F : Type) where
  pk : Nat
  reactants : List (QdbRp F)
  products : List (QdbRp F)
  all : List (QdbRp F)

/-- what is read of a reaction of the database that is not lumped: its species, datasets and `child_reactions` -/
structure QdbLeaf (F : Type) where
  sides : QdbSides F
  datasets : List (QdbDs F)
  children : List (QdbSides F)

/-- A reaction of the database, with the reactions with resolved states it lumps (`parent_reaction`). Simplification:
this relation has no cycles. -/
inductive QdbRx (F : Type)
  | mk (leaf : QdbLeaf F) (parents : List (QdbRx F))

/-! ### Model: names -/

/-- plaschem/xml_inputs.py:94-101: `'+2'`, `'+3'`, `'-2'`, `'-3'` with what replaces them -/
def degrees : List (Str × Str) :=
  [(str!"+2", str!"++"), (str!"+3", str!"+++"), (str!"-2", str!"--"), (str!"-3", str!"---")]

/-- plaschem/xml_inputs.py:81-103 `_get_rp_stateless_from_qdb` -/
def QdbRp.stateless (r : QdbRp F) : Str :=
  degrees.foldl (fun s p => if Reaction.endsWith s p.1 then s.take (s.length - p.1.length) ++ p.2 else s)
    (if r.formula = str!"e-" then str!"e" else r.formula)

/-- `s.strip('*')` -/
def stripStars (s : Str) : Str := ((s.dropWhile (· = '*')).reverse.dropWhile (· = '*')).reverse

/-- plaschem/xml_inputs.py:67-79 `_get_rp_state_from_qdb` -/
def QdbRp.state (r : QdbRp F) : Str :=
  let s := joinStr str!"," r.states
  if stripStars s ≠ [] then str!"(" ++ s ++ str!")" else s

/-- plaschem/xml_inputs.py:57-65 `_get_rp_name_from_qdb` -/
def QdbRp.name (r : QdbRp F) : Str := r.stateless ++ r.state

/-! ### Model: species -/

/-- an optional number if it is not `None` and not zero -/
def nonzero (C : Codec F) (x : Option F) : Option F := x.bind fun y => if C.val y ≠ 0 then some y else none

/-- plaschem/xml_inputs.py:177-211: `rp_attributes` -/
def QdbRp.attrs (C : Codec F) (r : QdbRp F) : Dict Str (Val F) :=
  [(str!"name", .str r.name)] ++
  (if r.states ≠ [] then [(str!"stateless", .str r.stateless), (str!"state", .str r.state)] else []) ++
  [(str!"mass", .float r.mass)] ++
  (if r.charge ≠ 0 then [(str!"charge", .int r.charge)] else []) ++
  ((nonzero C r.hform).elim [] fun x => [(str!"h_form", .float x)]) ++
  ((nonzero C r.ljEpsilon).elim [] fun x => [(str!"lj_epsilon", .float x)]) ++
  ((nonzero C r.ljSigma).elim [] fun x => [(str!"lj_sigma", .float x)]) ++
  (if r.hpem.getD [] ≠ [] then [(str!"hpem_name", .str (r.hpem.getD []))] else []) ++
  [(str!"qdb_id", .int r.pk)]

/-- plaschem/xml_inputs.py:178-203: `rp_units` -/
def QdbRp.units (C : Codec F) (r : QdbRp F) : Dict Str Str :=
  [(str!"mass", str!"amu")] ++
  (if r.charge ≠ 0 then [(str!"charge", str!"e")] else []) ++
  ((nonzero C r.hform).elim [] fun _ => [(str!"h_form", str!"eV")]) ++
  ((nonzero C r.ljEpsilon).elim [] fun _ => [(str!"lj_epsilon", str!"K")]) ++
  ((nonzero C r.ljSigma).elim [] fun _ => [(str!"lj_sigma", str!"A")])

/-- plaschem/xml_inputs.py:170-213 `add_rp_from_qdb` -/
def Builder.addQdbRp (C : Codec F) [DecidableEq F] (b : Builder F) (r : QdbRp F) : Except Err (Builder F) :=
  b.addRp C (some r.pk) (r.attrs C) none (r.units C)

/-! ### Model: reactions -/

/-- plaschem/xml_inputs.py:319-323: species that are not there yet are added. -/
def Builder.addQdbRps (C : Codec F) [DecidableEq F] (b : Builder F) : List (QdbRp F) → Except Err Unit × Builder F
  | [] => (.ok (), b)
  | r :: l =>
    if .str r.name ∈ b.names then b.addQdbRps C l
    else match b.addQdbRp C r with
      | .error e => (.error e, b)
      | .ok b => b.addQdbRps C l

/-- plaschem/xml_inputs.py:328-348: the dataset used -/
def chooseDs (reactants : List Str) (l : List (QdbDs F)) : Except Err (QdbDs F) :=
  match l with
  | [] => .error .xml
  | [d] => .ok d
  | d :: _ =>
    if str!"e" ∈ reactants then
      match l.filter fun d => d.type = 2 with
      | x :: _ => .ok x
      | [] => .ok d
    else
      match l.filter fun d => d.type ∈ [1, 3] with
      | x :: _ => .ok x
      | [] => .ok d

/-- plaschem/xml_inputs.py:354-380: the rate: `arrh_a` with its unit, `arrh_b`, `arrh_c` with its unit. -/
def QdbData.rate (n : Nat) : QdbData F → Except Err ((F × Str) × F × (F × Str))
  | .xsec a b c _ _ =>
    if n = 2 then .ok ((a, str!"cm3.s-1"), b, (c, str!"eV"))
    else if n = 3 then .ok ((a, str!"cm6.s-1"), b, (c, str!"eV"))
    else .error .xml
  | .arrh as bs cs =>
    match as with
    | [] => .error .xml
    | a :: _ =>
      match bs with
      | [] => .error .xml
      | b :: _ =>
        match cs with
        | [] => .error .xml
        | c :: _ => .ok (a, b, c)
  | .other => .error .xml

/-- plaschem/xml_inputs.py:389-407: the electron energy loss if it is not zero. `max(0, arrh_c)` is `arrh_c` if this is
positive; lists have equal sorted versions exactly if one is a permutation of the other. -/
def QdbData.loss (C : Codec F) (rs ps : List Str) (c : F) (d : QdbData F) : Option F :=
  if str!"e" ∈ rs ∧ ¬ rs.Perm ps ∧ str!"e" ∈ ps then
    match d with
    | .arrh _ _ _ => if 0 < C.val c then some c else none
    | .xsec _ _ _ threshold thresh => nonzero C (some (threshold.getD thresh))
    | .other => none
  else none

/-- plaschem/xml_inputs.py:418-421: the `doi` that is kept -/
def QdbDs.doi (d : QdbDs F) : Option Str :=
  (d.dois.filterMap id).find? fun s => s ≠ str!"None"

/-- plaschem/xml_inputs.py:424-428: the string of a reaction with resolved states -/
def QdbSides.text (s : QdbSides F) : Str :=
  joinStr str!" + " (s.reactants.map QdbRp.name) ++ str!" > " ++ joinStr str!" + " (s.products.map QdbRp.name)

/-- plaschem/xml_inputs.py:314-317: the reaction the species are taken from -/
def QdbLeaf.master (x : QdbLeaf F) : QdbSides F := x.children.head?.getD x.sides

/-- plaschem/xml_inputs.py:381-429: `r_attributes`; `v` is the rate -/
def QdbLeaf.attrs (C : Codec F) (x : QdbLeaf F) (d : QdbDs F) (v : (F × Str) × F × (F × Str)) : Dict Str (Val F) :=
  [(str!"arrh_a", .float v.1.1)] ++
  (if C.val v.2.1 ≠ 0 then [(str!"arrh_b", .float v.2.1)] else []) ++
  (if C.val v.2.2.1 ≠ 0 then [(str!"arrh_c", .float v.2.2.1)] else []) ++
  ((d.data.loss C (x.master.reactants.map QdbRp.name) (x.master.products.map QdbRp.name) v.2.2.1).elim []
    fun y => [(str!"el_en_loss", .float y)]) ++
  (if d.entry.getD 0 < 0 then [(str!"special_number", .int (d.entry.getD 0))] else []) ++
  [(str!"qdb_r_id", .int x.sides.pk), (str!"qdb_ds_id", .int d.pk)] ++
  (d.doi.elim [] fun s => [(str!"doi", .str s)]) ++
  (if x.master.pk ≠ x.sides.pk then [(str!"comments", .str x.sides.text)] else [])

/-- plaschem/xml_inputs.py:382-409: `r_units` -/
def QdbLeaf.units (C : Codec F) (x : QdbLeaf F) (d : QdbDs F) (v : (F × Str) × F × (F × Str)) : Dict Str Str :=
  [(str!"arrh_a", v.1.2)] ++
  (if C.val v.2.2.1 ≠ 0 then [(str!"arrh_c", v.2.2.2)] else []) ++
  ((d.data.loss C (x.master.reactants.map QdbRp.name) (x.master.products.map QdbRp.name) v.2.2.1).elim []
    fun _ => [(str!"el_en_loss", str!"eV")])

/-- plaschem/xml_inputs.py:311-432 `add_reaction_from_qdb` for a reaction that lumps no others. -/
def Builder.addQdbLeaf (C : Codec F) [DecidableEq F] (b : Builder F) (x : QdbLeaf F) : Except Err Unit × Builder F :=
  if 1 < x.children.length then (.error .xml, b)
  else match b.addQdbRps C x.master.all with
    | (.error e, b) => (.error e, b)
    | (.ok (), b) =>
      let rs := x.master.reactants.map QdbRp.name
      let ps := x.master.products.map QdbRp.name
      match chooseDs rs x.datasets with
      | .error e => (.error e, b)
      | .ok d =>
        match d.data.rate rs.length with
        | .error e => (.error e, b)
        | .ok v =>
          match b.addRx C rs ps (some x.sides.pk) (x.attrs C d v) (x.units C d v) with
          | .error e => (.error e, b)
          | .ok b => (.ok (), b)

mutual
/-- plaschem/xml_inputs.py:295-432 `add_reaction_from_qdb` -/
def Builder.addQdbRx (C : Codec F) [DecidableEq F] (b : Builder F) : QdbRx F → Except Err Unit × Builder F
  | .mk x [] => b.addQdbLeaf C x
  | .mk _ (p :: ps) => b.addQdb C (p :: ps)

/-- plaschem/xml_inputs.py:467-477 `add_chemistry_from_qdb` on the reactions of the chemistry, and the loop over the
resolved reactions in plaschem/xml_inputs.py:305-308. -/
def Builder.addQdb (C : Codec F) [DecidableEq F] (b : Builder F) : List (QdbRx F) → Except Err Unit × Builder F
  | [] => (.ok (), b)
  | x :: l =>
    match b.addQdbRx C x with
    | (.error e, b) => (.error e, b)
    | (.ok (), b) => b.addQdb C l
end

/-! ### Specification -/

/-- Species of the database as they are meant to be: a formula without `*` and `(`, with at most three charges written
`+`, `+2`, `+3`, `-`, `-2` or `-3` at its end; an electron is `e-`; states are not empty and have no commas. -/
structure QdbRp.Regular (r : QdbRp F) : Prop where
  formula : ∃ body, ∃ q ∈ [str!"", str!"+", str!"+2", str!"+3", str!"-", str!"-2", str!"-3"],
    r.formula = body ++ q ∧ body ≠ [] ∧ ∀ c ∈ body, c ∉ str!"+-*("
  electron : r.formula ≠ str!"e"
  states : ∀ s ∈ r.states, s ≠ [] ∧ ',' ∉ s

/-! ### Proofs: names -/

theorem endsWith_iff {s t : Str} : Reaction.endsWith s t = true ↔ t <:+ s := by
  unfold Reaction.endsWith
  rw [List.isPrefixOf_iff_prefix, List.reverse_prefix]

/-- what a charge is written as -/
def longCharge (q : Str) : Str :=
  if q = str!"+2" then str!"++" else if q = str!"+3" then str!"+++" else if q = str!"-2" then str!"--"
  else if q = str!"-3" then str!"---" else q

theorem rewrite_degrees {body : Str} (hb : ∀ c ∈ body, c ∉ str!"+-*(") {q : Str}
    (hq : q ∈ [str!"", str!"+", str!"+2", str!"+3", str!"-", str!"-2", str!"-3"]) :
    degrees.foldl (fun s p => if Reaction.endsWith s p.1 then s.take (s.length - p.1.length) ++ p.2 else s) (body ++ q) =
      body ++ longCharge q := by
  have no : ∀ p ∈ degrees, Reaction.endsWith body p.1 = false := by
    intro p hp
    by_contra h
    have h := endsWith_iff.1 (by simpa using h)
    have : ∃ c ∈ p.1, c ∈ str!"+-*(" := (by decide : ∀ p ∈ degrees, ∃ c ∈ p.1, c ∈ str!"+-*(") p hp
    obtain ⟨c, hc, hc'⟩ := this
    exact hb c (h.subset hc) hc'
  have take2 : ∀ x y : Char, (body ++ [x, y]).take ((body ++ [x, y]).length - 2) = body := by
    intro x y; simp
  simp only [List.mem_cons, List.not_mem_nil, or_false] at hq
  simp only [degrees, List.foldl_cons, List.foldl_nil]
  simp only [degrees, List.mem_cons, List.not_mem_nil, or_false, forall_eq_or_imp, forall_eq] at no
  obtain ⟨n1, n2, n3, n4⟩ := no
  rcases hq with rfl | rfl | rfl | rfl | rfl | rfl | rfl
  · simp [n1, n2, n3, n4, longCharge]
  all_goals
    simp [Reaction.endsWith, List.isPrefixOf, longCharge]

/-- no charge is longer than needed -/
theorem longCharge_inj {q q' : Str} (hq : q ∈ [str!"", str!"+", str!"+2", str!"+3", str!"-", str!"-2", str!"-3"])
    (hq' : q' ∈ [str!"", str!"+", str!"+2", str!"+3", str!"-", str!"-2", str!"-3"]) (h : longCharge q = longCharge q') :
    q = q' :=
  (by decide : ∀ q ∈ [str!"", str!"+", str!"+2", str!"+3", str!"-", str!"-2", str!"-3"],
    ∀ q' ∈ [str!"", str!"+", str!"+2", str!"+3", str!"-", str!"-2", str!"-3"], longCharge q = longCharge q' → q = q')
    q hq q' hq' h

theorem longCharge_chars {q : Str} (hq : q ∈ [str!"", str!"+", str!"+2", str!"+3", str!"-", str!"-2", str!"-3"]) :
    ∀ c ∈ longCharge q, c = '+' ∨ c = '-' :=
  (by decide : ∀ q ∈ [str!"", str!"+", str!"+2", str!"+3", str!"-", str!"-2", str!"-3"],
    ∀ c ∈ longCharge q, c = '+' ∨ c = '-') q hq

/-- two texts without certain characters, followed by texts that are empty or begin with such a character -/
theorem split_at {p : Char → Prop} {x y x' y' : Str} (hx : ∀ c ∈ x, ¬ p c) (hx' : ∀ c ∈ x', ¬ p c)
    (hy : ∀ c t, y = c :: t → p c) (hy' : ∀ c t, y' = c :: t → p c) (h : x ++ y = x' ++ y') : x = x' ∧ y = y' := by
  induction x generalizing x' with
  | nil =>
    cases x' with
    | nil => exact ⟨rfl, h⟩
    | cons c t => exact absurd (hy c (t ++ y') h) (hx' c (by simp))
  | cons c x ih =>
    cases x' with
    | nil => exact absurd (hy' c (x ++ y) h.symm) (hx c (by simp))
    | cons c' x' =>
      simp only [List.cons_append, List.cons.injEq] at h
      obtain ⟨h1, h2⟩ := ih (fun c hc => hx c (List.mem_cons_of_mem _ hc)) (fun c hc => hx' c (List.mem_cons_of_mem _ hc)) h.2
      exact ⟨by rw [h.1, h1], h2⟩

theorem join_inj : ∀ {l l' : List Str}, (∀ s ∈ l, s ≠ [] ∧ ',' ∉ s) → (∀ s ∈ l', s ≠ [] ∧ ',' ∉ s) →
    joinStr str!"," l = joinStr str!"," l' → l = l'
  | [], [], _, _, _ => rfl
  | [], x :: l', _, h', h => by
    exfalso
    have hx := (h' x (by simp)).1
    cases l' with
    | nil => exact hx h.symm
    | cons y l' => simp [joinStr] at h
  | x :: l, [], h', _, h => by
    exfalso
    have hx := (h' x (by simp)).1
    cases l with
    | nil => exact hx h
    | cons y l' => simp [joinStr] at h
  | [x], [x'], _, _, h => by rw [show x = x' from h]
  | [x], x' :: y' :: l', hl, _, h => by
    exfalso
    apply (hl x (by simp)).2
    rw [show x = x' ++ str!"," ++ joinStr str!"," (y' :: l') from h]
    simp
  | x :: y :: l, [x'], _, hl', h => by
    exfalso
    apply (hl' x' (by simp)).2
    rw [show x' = x ++ str!"," ++ joinStr str!"," (y :: l) from h.symm]
    simp
  | x :: y :: l, x' :: y' :: l', hl, hl', h => by
    have h : x ++ ',' :: joinStr str!"," (y :: l) = x' ++ ',' :: joinStr str!"," (y' :: l') := by
      simpa [joinStr] using h
    obtain ⟨h1, h2⟩ := split_at (p := fun c => c = ',') (fun c hc e => (hl x (by simp)).2 (e ▸ hc))
      (fun c hc e => (hl' x' (by simp)).2 (e ▸ hc)) (fun c t e => by cases e; rfl) (fun c t e => by cases e; rfl) h
    rw [h1, join_inj (fun s hs => hl s (List.mem_cons_of_mem _ hs)) (fun s hs => hl' s (List.mem_cons_of_mem _ hs))
      (List.cons.inj h2).2]

theorem stripStars_eq_nil {s : Str} : stripStars s = [] ↔ ∀ c ∈ s, c = '*' := by
  unfold stripStars
  rw [List.reverse_eq_nil_iff, List.dropWhile_eq_nil_iff]
  constructor
  · intro h c hc
    by_contra hne
    have : c ∈ s.dropWhile (· = '*') := by
      clear h
      induction s with
      | nil => cases hc
      | cons d s ih =>
        rw [List.dropWhile_cons]
        split
        · rename_i hd
          rcases List.mem_cons.1 hc with rfl | hc
          · exact absurd (by simpa using hd) hne
          · exact ih hc
        · exact hc
    exact hne (by simpa using h c (by simpa using this))
  · intro h c hc
    simpa using h c ((List.dropWhile_suffix _).subset (by simpa using hc))

theorem QdbRp.state_head (r : QdbRp F) : ∀ c t, r.state = c :: t → c = '*' ∨ c = '(' := by
  intro c t h
  unfold QdbRp.state at h
  dsimp only at h
  split at h
  · cases h; exact .inr rfl
  · rename_i hs
    exact .inl (stripStars_eq_nil.1 (not_not.1 hs) c (by rw [h]; simp))

theorem QdbRp.state_inj {r r' : QdbRp F} (hr : ∀ s ∈ r.states, s ≠ [] ∧ ',' ∉ s) (hr' : ∀ s ∈ r'.states, s ≠ [] ∧ ',' ∉ s)
    (h : r.state = r'.state) : r.states = r'.states := by
  apply join_inj hr hr'
  unfold QdbRp.state at h
  dsimp only at h
  by_cases c : stripStars (joinStr str!"," r.states) = [] <;> by_cases c' : stripStars (joinStr str!"," r'.states) = []
  · simpa [c, c'] using h
  · rw [if_neg (not_not.2 c), if_pos c'] at h
    exact absurd (stripStars_eq_nil.1 c '(' (by rw [h]; simp)) (by decide)
  · rw [if_pos c, if_neg (not_not.2 c')] at h
    exact absurd (stripStars_eq_nil.1 c' '(' (by rw [← h]; simp)) (by decide)
  · simpa [c, c'] using h

theorem QdbRp.stateless_eq {r : QdbRp F} {body q : Str}
    (hq : q ∈ [str!"", str!"+", str!"+2", str!"+3", str!"-", str!"-2", str!"-3"]) (hf : r.formula = body ++ q)
    (hb : ∀ c ∈ body, c ∉ str!"+-*(") :
    r.stateless = if r.formula = str!"e-" then str!"e" else body ++ longCharge q := by
  unfold QdbRp.stateless
  by_cases h : r.formula = str!"e-"
  · rw [if_pos h, if_pos h]
    rfl
  · rw [if_neg h, if_neg h, hf]
    exact rewrite_degrees hb hq

theorem QdbRp.Regular.stateless_chars {r : QdbRp F} (h : r.Regular) : ∀ c ∈ r.stateless, ¬ (c = '*' ∨ c = '(') := by
  obtain ⟨body, q, hq, hf, -, hb⟩ := h.formula
  rw [QdbRp.stateless_eq hq hf hb]
  intro c hc
  split at hc
  · rw [List.mem_singleton.1 hc]; decide
  · rcases List.mem_append.1 hc with hc | hc
    · have := hb c hc
      rintro (rfl | rfl) <;> exact this (by decide)
    · rcases longCharge_chars hq c hc with rfl | rfl <;> decide

/-- Species of the database with different formulas or states get different names. -/
theorem qdb_name_inj {r r' : QdbRp F} (h : r.Regular) (h' : r'.Regular) (hn : r.name = r'.name) :
    r.formula = r'.formula ∧ r.states = r'.states := by
  obtain ⟨h1, h2⟩ := split_at (p := fun c => c = '*' ∨ c = '(') h.stateless_chars h'.stateless_chars r.state_head
    r'.state_head hn
  refine ⟨?_, QdbRp.state_inj h.states h'.states h2⟩
  obtain ⟨body, q, hq, hf, -, hb⟩ := h.formula
  obtain ⟨body', q', hq', hf', -, hb'⟩ := h'.formula
  rw [QdbRp.stateless_eq hq hf hb, QdbRp.stateless_eq hq' hf' hb'] at h1
  have plain : ∀ {body q : Str}, (∀ c ∈ body, c ∉ str!"+-*(") →
      q ∈ [str!"", str!"+", str!"+2", str!"+3", str!"-", str!"-2", str!"-3"] → body ++ longCharge q = str!"e" →
      body ++ q = str!"e" := by
    intro body q _ hq e
    have : ∀ q ∈ [str!"", str!"+", str!"+2", str!"+3", str!"-", str!"-2", str!"-3"], longCharge q ≠ [] → 'e' ∉ longCharge q := by
      decide
    by_cases hl : longCharge q = []
    · have hq0 : q = [] := (by decide : ∀ q ∈ [str!"", str!"+", str!"+2", str!"+3", str!"-", str!"-2", str!"-3"],
        longCharge q = [] → q = []) q hq hl
      rw [hq0]
      rw [hl] at e
      exact e
    · have : body = [] := by
        have := congrArg List.length e
        simp only [List.length_append, List.length_cons, List.length_nil] at this
        have h0 : 0 < (longCharge q).length := List.length_pos_iff.2 hl
        exact List.length_eq_zero_iff.1 (by omega)
      rw [this] at e
      rename_i k
      exact absurd (by rw [show longCharge q = str!"e" from e]; simp) (k q hq hl)
  by_cases c : r.formula = str!"e-" <;> by_cases c' : r'.formula = str!"e-"
  · rw [c, c']
  · rw [if_pos c, if_neg c'] at h1
    exact absurd (hf'.trans (plain hb' hq' h1.symm)) h'.electron
  · rw [if_neg c, if_pos c'] at h1
    exact absurd (hf.trans (plain hb hq h1)) h.electron
  · rw [if_neg c, if_neg c'] at h1
    have nosign : ∀ {body : Str}, (∀ c ∈ body, c ∉ str!"+-*(") → ∀ c ∈ body, ¬ (c = '+' ∨ c = '-') := by
      intro body hb c hc
      have := hb c hc
      rintro (rfl | rfl) <;> exact this (by decide)
    obtain ⟨e1, e2⟩ := split_at (p := fun c => c = '+' ∨ c = '-') (nosign hb) (nosign hb')
      (fun c t e => longCharge_chars hq c (by rw [e]; simp)) (fun c t e => longCharge_chars hq' c (by rw [e]; simp)) h1
    rw [hf, hf', e1, longCharge_inj hq hq' e2]

/-! ### Proofs: species -/

theorem get?_append {α : Type} (d d' : Dict Str α) (a : Str) : Dict.get? (d ++ d') a = (d.get? a).or (d'.get? a) := by
  unfold Dict.get?
  rw [List.find?_append, Option.map_or]

theorem get?_one {α : Type} (k a : Str) (v : α) : Dict.get? [(k, v)] a = if k = a then some v else none := by
  rw [Dict.get?_cons]
  rfl

theorem get?_ite {α : Type} (p : Prop) [Decidable p] (d : Dict Str α) (a : Str) :
    Dict.get? (if p then d else []) a = if p then d.get? a else none := by
  split <;> rfl

theorem get?_ite' {α : Type} (p : Prop) [Decidable p] (d : Dict Str α) (a : Str) :
    Dict.get? (if p then [] else d) a = if p then none else d.get? a := by
  split <;> rfl

theorem get?_nil {α : Type} (a : Str) : Dict.get? ([] : Dict Str α) a = none := rfl

theorem get?_elim {α β : Type} (o : Option β) (k a : Str) (f : β → α) :
    Dict.get? (o.elim [] fun x => [(k, f x)]) a = if k = a then o.map f else none := by
  cases o with
  | none => simp [Dict.get?]
  | some x => rw [Option.elim_some, get?_one]; rfl

/-- an optional number as a value -/
def optVal (x : Option F) : Val F := (x.map Val.float).getD .null

/-- the instance an imported species stands for -/
def QdbRp.rp (C : Codec F) (r : QdbRp F) : Rp F :=
  { id := r.pk, attr := given (r.attrs C), ret := none, unit := fun _ => none }

section species
variable (C : Codec F) (r : QdbRp F)

theorem QdbRp.name_eq : given (r.attrs C) str!"name" = .str r.name := rfl

theorem QdbRp.table : given (r.attrs C) str!"mass" = .float r.mass ∧
    given (r.attrs C) str!"stateless" = (if r.states ≠ [] then .str r.stateless else .null) ∧
    given (r.attrs C) str!"state" = (if r.states ≠ [] then .str r.state else .null) ∧
    given (r.attrs C) str!"charge" = (if r.charge ≠ 0 then .int r.charge else .null) ∧
    given (r.attrs C) str!"h_form" = optVal (nonzero C r.hform) ∧
    given (r.attrs C) str!"lj_epsilon" = optVal (nonzero C r.ljEpsilon) ∧
    given (r.attrs C) str!"lj_sigma" = optVal (nonzero C r.ljSigma) ∧
    given (r.attrs C) str!"hpem_name" = (if r.hpem.getD [] ≠ [] then .str (r.hpem.getD []) else .null) ∧
    given (r.attrs C) str!"qdb_id" = .int r.pk := by
  refine ⟨?_, ?_, ?_, ?_, ?_, ?_, ?_, ?_, ?_⟩ <;>
  · simp [given, QdbRp.attrs, get?_append, get?_one, get?_ite, get?_ite', get?_elim, Dict.get?_cons, get?_nil, optVal]
    try split <;> rfl

theorem QdbRp.no_other {a : Str}
    (ha : a ∉ [str!"name", str!"mass", str!"stateless", str!"state", str!"charge", str!"h_form", str!"lj_epsilon",
      str!"lj_sigma", str!"hpem_name", str!"qdb_id"]) : given (r.attrs C) a = .null := by
  simp only [List.mem_cons, List.not_mem_nil, or_false, not_or] at ha
  obtain ⟨h1, h2, h3, h4, h5, h6, h7, h8, h9, h10⟩ := ha
  simp only [given, QdbRp.attrs, get?_append, get?_one, get?_ite, get?_elim, Dict.get?_cons, if_neg (Ne.symm h1),
    if_neg (Ne.symm h2), if_neg (Ne.symm h3), if_neg (Ne.symm h4), if_neg (Ne.symm h5), if_neg (Ne.symm h6),
    if_neg (Ne.symm h7), if_neg (Ne.symm h8), if_neg (Ne.symm h9), if_neg (Ne.symm h10)]
  split <;> split <;> split <;> rfl

theorem QdbRp.valid : (r.rp C).Valid := by
  obtain ⟨t1, t2, t3, t4, t5, t6, t7, t8, t9⟩ := r.table C
  have num : ∀ o : Option F, (optVal o).fits .number = true := by intro o; cases o <;> rfl
  refine ⟨?_, ?_, fun _ _ => .inl rfl, fun _ h => by cases h⟩
  · intro a k hk
    show (given (r.attrs C) a).fits k = true
    by_cases ha : a ∈ [str!"name", str!"mass", str!"stateless", str!"state", str!"charge", str!"h_form", str!"lj_epsilon",
      str!"lj_sigma", str!"hpem_name", str!"qdb_id"]
    · simp only [List.mem_cons, List.not_mem_nil, or_false] at ha
      rcases ha with rfl | rfl | rfl | rfl | rfl | rfl | rfl | rfl | rfl | rfl <;> cases hk
      · rfl
      · rw [t1]; rfl
      · rw [t2]; split <;> rfl
      · rw [t3]; split <;> rfl
      · rw [t4]; split <;> rfl
      · rw [t5]; exact num _
      · rw [t6]; exact num _
      · rw [t7]; exact num _
      · rw [t8]; split <;> rfl
      · rw [t9]; rfl
    · rw [r.no_other C ha]; rfl
  · intro a ha
    refine r.no_other C fun hm => ?_
    exact absurd ha ((by decide : ∀ a ∈ [str!"name", str!"mass", str!"stateless", str!"state", str!"charge", str!"h_form",
      str!"lj_epsilon", str!"lj_sigma", str!"hpem_name", str!"qdb_id"], rpKinds.get? a ≠ none) a hm)

theorem QdbRp.units_eq {a : Str} (ha : a ∈ rpAttributes) (hp : (given (r.attrs C) a).present = true) :
    (r.units C).get? a = rpUnits.get? a := by
  obtain ⟨t1, t2, t3, t4, t5, t6, t7, t8, t9⟩ := r.table C
  have num : ∀ o : Option F, (optVal o).present = true → ∃ x, o = some x := by
    intro o h
    cases o with
    | none => cases h
    | some x => exact ⟨x, rfl⟩
  simp only [QdbRp.units, get?_append, get?_one, get?_ite, get?_elim]
  simp only [rpAttributes, List.mem_cons, List.not_mem_nil, or_false] at ha
  rcases ha with rfl | rfl | rfl | rfl | rfl | rfl | rfl | rfl | rfl | rfl | rfl | rfl | rfl | rfl
  any_goals (simp [rpUnits, Dict.get?_cons, get?_nil]; done)
  · have : r.charge ≠ 0 := by
      intro h
      rw [t4, if_neg (not_not.2 h)] at hp
      cases hp
    simp [rpUnits, Dict.get?_cons, this]
  · rw [t5] at hp
    obtain ⟨x, hx⟩ := num _ hp
    simp [rpUnits, Dict.get?_cons, hx]
  · rw [t6] at hp
    obtain ⟨x, hx⟩ := num _ hp
    simp [rpUnits, Dict.get?_cons, hx]
  · rw [t7] at hp
    obtain ⟨x, hx⟩ := num _ hp
    simp [rpUnits, Dict.get?_cons, hx]

/-- the element of an imported species is that of the instance -/
theorem QdbRp.elem_eq : rpElem C r.pk (r.attrs C) none (r.units C) = (r.rp C).elem C := by
  unfold Rp.elem rpElem
  congr 1
  apply List.filterMap_congr
  intro a ha
  split
  · rfl
  · rw [Rp.given_attrs (r.valid C)]
    show (if (given (r.attrs C) a).present = true then _ else _) = if (given (r.attrs C) a).present = true then _ else _
    split
    · rename_i hp
      rw [r.units_eq C ha hp, Rp.get?_units]
      cases rpUnits.get? a <;> rfl
    · rfl

/-- An imported species that is written and read has the data of the database. Data that are missing or zero are
replaced by defaults. -/
theorem qdb_species_read (hC : C.Lawful) (hs : r.stateless ≠ []) (hb : '<' ∉ r.name ∧ '>' ∉ r.name) :
    ∃ rp, parseRp C (rpElem C r.pk (r.attrs C) none (r.units C)).file = .ok rp ∧ rp.id = r.pk ∧
      rp.getName C = .ok r.name ∧ rp.getQdbId C = .ok (some r.pk) ∧
      (r.name ≠ str!"M" → rp.getMass C = .ok (some r.mass) ∧ rp.getCharge C = .ok (some r.charge)) ∧
      (r.name ≠ str!"M" → r.name ≠ str!"e" →
        rp.getState C = .ok (if r.state = [] then none else some r.state) ∧
        (r.state ≠ [] → rp.getStateless C = .ok r.stateless) ∧
        rp.getFloat C str!"h_form" 0 = .ok (some ((nonzero C r.hform).getD (C.lit 0))) ∧
        rp.getFloat C str!"lj_epsilon" 0 = .ok (some ((nonzero C r.ljEpsilon).getD (C.lit 0))) ∧
        rp.getFloat C str!"lj_sigma" 3 = .ok (some ((nonzero C r.ljSigma).getD (C.lit 3)))) ∧
      rp.getText C str!"hpem_name" = .ok (if r.hpem.getD [] = [] then none else r.hpem) := by
  obtain ⟨t1, t2, t3, t4, t5, t6, t7, t8, t9⟩ := r.table C
  have hn : r.name ≠ [] := by
    unfold QdbRp.name
    simp [hs]
  have rs : ∀ s : Str, s ≠ [] → (Val.str s : Val F).reread C = .str s := by
    intro s h
    simp [Val.reread, Val.present, h, Val.text]
  have ro : ∀ (o : Option F) (d : F), ((optVal o).reread C).floatOr C (some d) = .ok (some (o.getD d)) := by
    intro o d
    cases o with
    | none => rfl
    | some x => simp [optVal, Val.reread, Val.present, Val.text, Val.floatOr, Val.toFloat, hC.float]
  rw [r.elem_eq C]
  obtain ⟨rp, h1, h2, h3, -⟩ := Rp.parse_elem hC (r.valid C) ⟨⟨r.name, rfl, hn, hb⟩,
    .inr (by show (given (r.attrs C) _).present = true; rw [t1]; rfl), by
      show (given (r.attrs C) _).present = true → (given (r.attrs C) _).present = true
      rw [t2, t3]
      split
      · intro _; simp [Val.present, hs]
      · exact id⟩
  have h3 : ∀ a, rp.attr a = (given (r.attrs C) a).reread C := h3
  have nm : rp.getName C = .ok r.name := by
    unfold Rp.getName
    rw [h3, r.name_eq, rs _ hn]
    rfl
  have sp : r.name ≠ str!"M" → r.name ≠ str!"e" → rp.isSpecial C = .ok false := by
    intro h g
    unfold Rp.isSpecial
    simp only [nm, bind, Except.bind, pure, Except.pure, h, g]
    rfl
  have fl : ∀ a (o : Option F) (d : ℚ), given (r.attrs C) a = optVal o → r.name ≠ str!"M" → r.name ≠ str!"e" →
      rp.getFloat C a d = .ok (some (o.getD (C.lit d))) := by
    intro a o d ha h g
    unfold Rp.getFloat
    rw [h3, ha]
    simp only [sp h g, bind, Except.bind]
    exact ro _ _
  have st : (rp.attr str!"state").optText C = if r.state = [] then none else some r.state := by
    rw [h3, t3]
    by_cases c : r.states = []
    · have : r.state = [] := by unfold QdbRp.state; rw [c]; rfl
      rw [if_neg (not_not.2 c), if_pos this]
      rfl
    · rw [if_pos c]
      by_cases e : r.state = []
      · rw [if_pos e, e]; rfl
      · rw [if_neg e, rs _ e]; rfl
  refine ⟨rp, h1, h2, nm, ?_, fun h => ⟨?_, ?_⟩, fun h g => ⟨?_, fun e => ?_, fl _ _ _ t5 h g, fl _ _ _ t6 h g,
    fl _ _ _ t7 h g⟩, ?_⟩
  · unfold Rp.getQdbId
    rw [h3, t9]
    simp [Val.reread, Val.present, Val.text, Val.intOr, Val.toInt, hC.int]
  · unfold Rp.getMass
    rw [h3, t1]
    simp only [nm, bind, Except.bind, if_neg h, Val.reread, Val.present, if_true, Val.text, Val.floatOr, Val.toFloat,
      hC.float, pure, Except.pure]
  · unfold Rp.getCharge
    rw [h3, t4]
    simp only [nm, bind, Except.bind, if_neg h]
    by_cases c : r.charge = 0
    · rw [if_neg (not_not.2 c), c]; rfl
    · rw [if_pos c]
      simp [Val.reread, Val.present, Val.text, Val.intOr, Val.toInt, hC.int]
  · unfold Rp.getState
    simp only [sp h g, bind, Except.bind, pure, Except.pure]
    rw [st]
    rfl
  · have c : r.states ≠ [] := by
      intro c
      apply e
      unfold QdbRp.state
      rw [c]
      rfl
    unfold Rp.getStateless
    rw [h3, t2, if_pos c, rs _ hs]
    simp only [sp h g, bind, Except.bind, pure, Except.pure]
    rfl
  · unfold Rp.getText
    rw [h3, t8]
    by_cases c : r.hpem.getD [] = []
    · rw [if_neg (not_not.2 c), if_pos c]; rfl
    · rw [if_pos c, if_neg c, rs _ c]
      cases hh : r.hpem with
      | none => rw [hh] at c; exact absurd rfl c
      | some s => rfl


end species

end Verif.Plaschem.Xml
