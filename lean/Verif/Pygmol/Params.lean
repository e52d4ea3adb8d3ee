/-
Model of pygmo_fwork/pygmol/model_parameters.py: validation and lookup of the model parameters,
properties C53, C54.
-/
import Verif.Plaschem.DictLemmas
import Mathlib.Data.Real.Basic
import Mathlib.Tactic.Linarith
import Mathlib.Tactic.NormNum
import Mathlib.Tactic.Positivity

namespace Verif.Pygmol
open Verif.Plaschem (Str Dict)
open Verif.Plaschem

/-- simple python values. Infinities and complex numbers are not modelled. -/
inductive Atom where
  | num (x : ℝ)
  | nan
  | bool (b : Bool)
  | str (s : Str)
  | other

/-- values of parameters: simple values, lists or tuples, dictionaries -/
inductive Val where
  | atom (a : Atom)
  | list (l : List Atom)
  | dict (d : List (Atom × Atom))

/-- the exceptions of pygmo_fwork/pygmol/exceptions.py raised here, and `KeyError` -/
inductive PErr where
  | params | consistency | type | key
deriving DecidableEq

inductive Sign where
  | positive | nonNegative | any

/-- the number `x` has the sign -/
def Sign.Holds : Sign → ℝ → Prop
  | .positive, x => 0 < x
  | .nonNegative, x => 0 ≤ x
  | .any, _ => True

/-- model_parameters.py:16-35 `assert_is_number`: the number, if it is one of the required sign. -/
noncomputable def assertNumber (s : Sign) : Atom → Except PErr ℝ
  | .num x =>
    match s with
    | .positive => if x ≤ 0 then .error .type else .ok x
    | .nonNegative => if x < 0 then .error .type else .ok x
    | .any => .ok x
  | _ => .error .type

/-- the nominal keys, model_parameters.py:162-171 -/
inductive Nom where
  | radius | length | pressure | power | tPower | tempGas | feeds | tEnd
deriving DecidableEq

/-- model_parameters.py:162-177 `alternative2nominal_map`. -/
def nominal : List (Str × Nom) :=
  [(str!"radius", .radius), (str!"length", .length), (str!"pressure", .pressure), (str!"power", .power),
   (str!"t_power", .tPower), (str!"temp_gas", .tempGas), (str!"feeds", .feeds), (str!"t_end", .tEnd),
   (str!"r", .radius), (str!"R", .radius), (str!"z", .length), (str!"Z", .length), (str!"p", .pressure),
   (str!"P", .power), (str!"t_P", .tPower), (str!"time_P", .tPower), (str!"time_power", .tPower),
   (str!"Tg", .tempGas), (str!"T_g", .tempGas), (str!"gas_temp", .tempGas), (str!"feed_flows", .feeds),
   (str!"time_end", .tEnd), (str!"end_time", .tEnd)]

def nomOf (k : Str) : Option Nom := Dict.get? nominal k

/-- the master dictionary `self.parameters` (model_parameters.py:226) while it is being filled; `power` and
`time` are the two arrays of the shared power object. -/
structure Partial where
  radius : Option ℝ := none
  length : Option ℝ := none
  pressure : Option ℝ := none
  tempGas : Option ℝ := none
  tEnd : Option ℝ := none
  feeds : Option (List (Str × ℝ)) := none
  power : Option (List ℝ) := none
  time : Option (List ℝ) := none

noncomputable def numbers (s : Sign) : List Atom → Except PErr (List ℝ)
  | [] => .ok []
  | a :: l =>
    match assertNumber s a with
    | .error e => .error e
    | .ok x =>
      match numbers s l with
      | .error e => .error e
      | .ok xs => .ok (x :: xs)

/-- model_parameters.py:70-73: keys are strings, values are positive numbers. -/
noncomputable def feedsOf : List (Atom × Atom) → Except PErr (List (Str × ℝ))
  | [] => .ok []
  | (k, v) :: l =>
    match k with
    | .str s =>
      match assertNumber .positive v with
      | .error e => .error e
      | .ok x =>
        match feedsOf l with
        | .error e => .error e
        | .ok xs => .ok ((s, x) :: xs)
    | _ => .error .type

/-- model_parameters.py:93-105 `set_power`. -/
noncomputable def setPower (p : Partial) (l : List Atom) : Except PErr Partial :=
  if l.length < 2 then .error .consistency
  else
    match numbers .nonNegative l with
    | .error e => .error e
    | .ok xs =>
      match p.time with
      | some ts => if ts.length ≠ l.length then .error .consistency else .ok { p with power := some xs }
      | none => .ok { p with power := some xs }

/-- model_parameters.py:116-128 `set_time`. -/
noncomputable def setTime (p : Partial) (l : List Atom) : Except PErr Partial :=
  if l.length < 2 then .error .consistency
  else
    match numbers .any l with
    | .error e => .error e
    | .ok xs =>
      match p.power with
      | some ps => if ps.length ≠ l.length then .error .consistency else .ok { p with time := some xs }
      | none => .ok { p with time := some xs }

/-- model_parameters.py:47-55: what iterating over a collection yields; a dictionary yields its keys.
Strings and numbers are not collections. (A dictionary as time array fails when it is indexed in line 149;
it is rejected here.) -/
def collection : Val → Except PErr (List Atom)
  | .atom _ => .error .type
  | .list l => .ok l
  | .dict d => .ok (d.map Prod.fst)

noncomputable def number (v : Val) : Except PErr ℝ :=
  match v with
  | .atom a => assertNumber .positive a
  | _ => .error .type

/-- model_parameters.py:247-268: set one parameter. -/
noncomputable def setParam (p : Partial) (n : Nom) (v : Val) : Except PErr Partial :=
  match n with
  | .radius => do let x ← number v; return { p with radius := some x }
  | .length => do let x ← number v; return { p with length := some x }
  | .pressure => do let x ← number v; return { p with pressure := some x }
  | .tempGas => do let x ← number v; return { p with tempGas := some x }
  | .tEnd => do let x ← number v; return { p with tEnd := some x }
  | .power => do let l ← collection v; setPower p l
  | .tPower =>
    match v with
    | .list l => setTime p l
    | _ => .error .type
  | .feeds =>
    match v with
    | .dict d => do let l ← feedsOf d; return { p with feeds := some l }
    | _ => .error .type

/-- model_parameters.py:247-268: the loop over the passed parameters. -/
noncomputable def setAll : Partial → List (Str × Val) → Except PErr Partial
  | p, [] => .ok p
  | p, (k, v) :: l =>
    match nomOf k with
    | none => .error .params
    | some n =>
      match setParam p n v with
      | .error e => .error e
      | .ok p' => setAll p' l

/-- a fully constructed `ModelParameters` -/
structure Params where
  radius : ℝ
  length : ℝ
  pressure : ℝ
  tempGas : ℝ
  tEnd : ℝ
  feeds : List (Str × ℝ)
  power : List ℝ
  time : List ℝ

open Classical in
/-- model_parameters.py:203-272 `ModelParameters.__init__`; `passed` is the merged dictionary. -/
noncomputable def initParams (passed : List (Str × Val)) : Except PErr Params :=
  if ∃ k ∈ passed.map Prod.fst, nomOf k = none then .error .params
  else if ∃ n : Nom, ∀ k ∈ passed.map Prod.fst, nomOf k ≠ some n then .error .params
  else
    match setAll {} passed with
    | .error e => .error e
    | .ok p =>
      match p.radius, p.length, p.pressure, p.tempGas, p.tEnd, p.feeds, p.power, p.time with
      | some r, some z, some pr, some tg, some te, some f, some pw, some t =>
        -- model_parameters.py:139-152 `assert_consistency`
        match t.head?, t.getLast? with
        | some a, some b =>
          if a > 0 then .error .consistency
          else if b < 1.1 * te then .error .consistency
          else .ok ⟨r, z, pr, tg, te, f, pw, t⟩
        | _, _ => .error .key
      | _, _, _, _, _, _, _, _ => .error .key

/-- values returned by a lookup -/
inductive Got where
  | number (x : ℝ)
  | numbers (l : List ℝ)
  | feeds (l : List (Str × ℝ))

/-- model_parameters.py:274-286 `__getitem__`. -/
def Params.getItem (p : Params) (k : Str) : Except PErr Got :=
  match nomOf k with
  | none => .error .params
  | some .feeds => .ok (.feeds p.feeds)
  | some .power => .ok (.numbers p.power)
  | some .tPower => .ok (.numbers p.time)
  | some .radius => .ok (.number p.radius)
  | some .length => .ok (.number p.length)
  | some .pressure => .ok (.number p.pressure)
  | some .tempGas => .ok (.number p.tempGas)
  | some .tEnd => .ok (.number p.tEnd)

/-! ### C54 -/

theorem assertNumber_spec {s : Sign} {a : Atom} {x : ℝ} (h : assertNumber s a = .ok x) :
    a = .num x ∧ s.Holds x := by
  cases a with
  | num y =>
    cases s <;> simp only [assertNumber] at h
    · split at h
      · cases h
      · rename_i hn; cases h; exact ⟨rfl, not_le.1 hn⟩
    · split at h
      · cases h
      · rename_i hn; cases h; exact ⟨rfl, not_lt.1 hn⟩
    · cases h; exact ⟨rfl, trivial⟩
  | nan => cases h
  | bool b => cases h
  | str t => cases h
  | other => cases h

theorem number_spec {v : Val} {x : ℝ} (h : number v = .ok x) : v = .atom (.num x) ∧ 0 < x := by
  cases v with
  | atom a =>
    have := assertNumber_spec (s := .positive) h
    exact ⟨by rw [this.1], this.2⟩
  | list l => cases h
  | dict d => cases h

theorem numbers_spec {s : Sign} {l : List Atom} {xs : List ℝ} (h : numbers s l = .ok xs) :
    l = xs.map Atom.num ∧ ∀ x ∈ xs, s.Holds x := by
  induction l generalizing xs with
  | nil => cases h; exact ⟨rfl, by simp⟩
  | cons a l ih =>
    simp only [numbers] at h
    cases ha : assertNumber s a with
    | error e => rw [ha] at h; cases h
    | ok x =>
      rw [ha] at h
      simp only at h
      cases hl : numbers s l with
      | error e => rw [hl] at h; cases h
      | ok ys =>
        rw [hl] at h
        cases h
        obtain ⟨h1, h2⟩ := assertNumber_spec ha
        obtain ⟨h3, h4⟩ := ih hl
        refine ⟨by rw [h1, h3]; rfl, ?_⟩
        intro y hy
        rcases List.mem_cons.1 hy with rfl | hy
        · exact h2
        · exact h4 y hy

theorem feedsOf_spec {d : List (Atom × Atom)} {l : List (Str × ℝ)} (h : feedsOf d = .ok l) :
    d = l.map (fun p => (Atom.str p.1, Atom.num p.2)) ∧ ∀ p ∈ l, 0 < p.2 := by
  induction d generalizing l with
  | nil => cases h; exact ⟨rfl, by simp⟩
  | cons e d ih =>
    obtain ⟨k, v⟩ := e
    cases k with
    | str s =>
      simp only [feedsOf] at h
      cases hv : assertNumber .positive v with
      | error e => rw [hv] at h; cases h
      | ok x =>
        rw [hv] at h
        simp only at h
        cases hd : feedsOf d with
        | error e => rw [hd] at h; cases h
        | ok ys =>
          rw [hd] at h
          cases h
          obtain ⟨h1, h2⟩ := assertNumber_spec hv
          obtain ⟨h3, h4⟩ := ih hd
          refine ⟨by rw [h1, h3]; rfl, ?_⟩
          intro p hp
          rcases List.mem_cons.1 hp with rfl | hp
          · exact h2
          · exact h4 p hp
    | num _ => cases h
    | nan => cases h
    | bool _ => cases h
    | other => cases h

/-- what has been set so far is valid -/
structure Partial.Ok (p : Partial) : Prop where
  radius : ∀ x, p.radius = some x → 0 < x
  length : ∀ x, p.length = some x → 0 < x
  pressure : ∀ x, p.pressure = some x → 0 < x
  tempGas : ∀ x, p.tempGas = some x → 0 < x
  tEnd : ∀ x, p.tEnd = some x → 0 < x
  feeds : ∀ l, p.feeds = some l → ∀ e ∈ l, 0 < e.2
  power : ∀ l, p.power = some l → 2 ≤ l.length ∧ ∀ x ∈ l, 0 ≤ x
  time : ∀ l, p.time = some l → 2 ≤ l.length
  len : ∀ l m, p.power = some l → p.time = some m → l.length = m.length

theorem setPower_spec {p q : Partial} {l : List Atom} (h : setPower p l = .ok q) :
    ∃ xs, l = xs.map Atom.num ∧ (∀ x ∈ xs, 0 ≤ x) ∧ 2 ≤ xs.length ∧
      (∀ ts, p.time = some ts → ts.length = xs.length) ∧ q = { p with power := some xs } := by
  unfold setPower at h
  by_cases h2 : l.length < 2
  · rw [if_pos h2] at h; cases h
  rw [if_neg h2] at h
  cases hx : numbers .nonNegative l with
  | error e => rw [hx] at h; cases h
  | ok xs =>
    rw [hx] at h
    simp only at h
    obtain ⟨h3, h4⟩ := numbers_spec hx
    have hlen : l.length = xs.length := by rw [h3]; simp
    refine ⟨xs, h3, h4, by omega, ?_⟩
    cases ht : p.time with
    | none =>
      rw [ht] at h; cases h
      exact ⟨fun ts h => (by cases h), rfl⟩
    | some ts =>
      rw [ht] at h
      simp only at h
      by_cases hl : ts.length ≠ l.length
      · rw [if_pos hl] at h; cases h
      · rw [if_neg hl] at h; cases h
        refine ⟨fun ts' h => ?_, rfl⟩
        cases h
        rw [← hlen]; exact not_not.1 hl

theorem setTime_spec {p q : Partial} {l : List Atom} (h : setTime p l = .ok q) :
    ∃ xs, l = xs.map Atom.num ∧ 2 ≤ xs.length ∧
      (∀ ts, p.power = some ts → ts.length = xs.length) ∧ q = { p with time := some xs } := by
  unfold setTime at h
  by_cases h2 : l.length < 2
  · rw [if_pos h2] at h; cases h
  rw [if_neg h2] at h
  cases hx : numbers .any l with
  | error e => rw [hx] at h; cases h
  | ok xs =>
    rw [hx] at h
    simp only at h
    obtain ⟨h3, -⟩ := numbers_spec hx
    have hlen : l.length = xs.length := by rw [h3]; simp
    refine ⟨xs, h3, by omega, ?_⟩
    cases ht : p.power with
    | none =>
      rw [ht] at h; cases h
      exact ⟨fun ts h => (by cases h), rfl⟩
    | some ts =>
      rw [ht] at h
      simp only at h
      by_cases hl : ts.length ≠ l.length
      · rw [if_pos hl] at h; cases h
      · rw [if_neg hl] at h; cases h
        refine ⟨fun ts' h => ?_, rfl⟩
        cases h
        rw [← hlen]; exact not_not.1 hl

theorem bind_ok {ε α β : Type} {m : Except ε α} {f : α → Except ε β} {b : β} (h : (m >>= f) = .ok b) :
    ∃ a, m = .ok a ∧ f a = .ok b := by
  cases m with
  | error e => cases h
  | ok a => exact ⟨a, rfl, h⟩

theorem setParam_ok {p q : Partial} {n : Nom} {v : Val} (hp : p.Ok) (h : setParam p n v = .ok q) : q.Ok := by
  have some_inj : ∀ {x y : ℝ}, some x = some y → x = y := fun h => Option.some.inj h
  cases n with
  | radius =>
    obtain ⟨x, hx, h⟩ := bind_ok h
    cases h
    exact { hp with radius := fun y hy => some_inj hy ▸ (number_spec hx).2 }
  | length =>
    obtain ⟨x, hx, h⟩ := bind_ok h
    cases h
    exact { hp with length := fun y hy => some_inj hy ▸ (number_spec hx).2 }
  | pressure =>
    obtain ⟨x, hx, h⟩ := bind_ok h
    cases h
    exact { hp with pressure := fun y hy => some_inj hy ▸ (number_spec hx).2 }
  | tempGas =>
    obtain ⟨x, hx, h⟩ := bind_ok h
    cases h
    exact { hp with tempGas := fun y hy => some_inj hy ▸ (number_spec hx).2 }
  | tEnd =>
    obtain ⟨x, hx, h⟩ := bind_ok h
    cases h
    exact { hp with tEnd := fun y hy => some_inj hy ▸ (number_spec hx).2 }
  | power =>
    obtain ⟨l, hl, h⟩ := bind_ok h
    obtain ⟨xs, h1, h2, h3, h4, rfl⟩ := setPower_spec h
    refine { hp with power := fun l hl => ?_, len := fun l m hl hm => ?_ }
    · cases hl; exact ⟨h3, h2⟩
    · cases hl; exact (h4 m hm).symm
  | tPower =>
    cases v with
    | atom a => cases h
    | dict d => cases h
    | list l =>
      obtain ⟨xs, h1, h3, h4, rfl⟩ := setTime_spec h
      refine { hp with time := fun l hl => ?_, len := fun l m hl hm => ?_ }
      · cases hl; exact h3
      · cases hm; exact h4 l hl
  | feeds =>
    cases v with
    | atom a => cases h
    | list l => cases h
    | dict d =>
      obtain ⟨x, hx, h⟩ := bind_ok h
      cases h
      refine { hp with feeds := fun l hl => ?_ }
      cases hl
      exact (feedsOf_spec hx).2

theorem setAll_ok {l : List (Str × Val)} {p q : Partial} (hp : p.Ok) (h : setAll p l = .ok q) : q.Ok := by
  induction l generalizing p with
  | nil => cases h; exact hp
  | cons e l ih =>
    obtain ⟨k, v⟩ := e
    simp only [setAll] at h
    cases hn : nomOf k with
    | none => rw [hn] at h; cases h
    | some n =>
      rw [hn] at h
      simp only at h
      cases hs : setParam p n v with
      | error e => rw [hs] at h; cases h
      | ok p' => rw [hs] at h; exact ih (setParam_ok hp hs) h

theorem initParams_inv {passed : List (Str × Val)} {P : Params} (h : initParams passed = .ok P) :
    (∀ k ∈ passed.map Prod.fst, ∃ n, nomOf k = some n) ∧
    (∀ n, ∃ k ∈ passed.map Prod.fst, nomOf k = some n) ∧
    ∃ p a b, setAll {} passed = .ok p ∧ p.radius = some P.radius ∧ p.length = some P.length ∧
      p.pressure = some P.pressure ∧ p.tempGas = some P.tempGas ∧ p.tEnd = some P.tEnd ∧
      p.feeds = some P.feeds ∧ p.power = some P.power ∧ p.time = some P.time ∧
      P.time.head? = some a ∧ P.time.getLast? = some b ∧ a ≤ 0 ∧ 1.1 * P.tEnd ≤ b := by
  unfold initParams at h
  by_cases h1 : ∃ k ∈ passed.map Prod.fst, nomOf k = none
  · rw [if_pos h1] at h; cases h
  rw [if_neg h1] at h
  by_cases h2 : ∃ n : Nom, ∀ k ∈ passed.map Prod.fst, nomOf k ≠ some n
  · rw [if_pos h2] at h; cases h
  rw [if_neg h2] at h
  refine ⟨?_, ?_, ?_⟩
  · intro k hk
    cases hn : nomOf k with
    | none => exact absurd ⟨k, hk, hn⟩ h1
    | some n => exact ⟨n, rfl⟩
  · intro n
    by_contra hc
    push Not at hc
    exact h2 ⟨n, hc⟩
  · cases hs : setAll {} passed with
    | error e => rw [hs] at h; cases h
    | ok p =>
      rw [hs] at h
      simp only at h
      split at h
      · rename_i r z pr tg te f pw t e1 e2 e3 e4 e5 e6 e7 e8
        split at h
        · rename_i a b e9 e10
          by_cases h3 : a > 0
          · rw [if_pos h3] at h; cases h
          rw [if_neg h3] at h
          by_cases h4 : b < 1.1 * te
          · rw [if_pos h4] at h; cases h
          rw [if_neg h4] at h
          cases h
          exact ⟨p, a, b, rfl, e1, e2, e3, e4, e5, e6, e7, e8, e9, e10, not_lt.1 h3, not_lt.1 h4⟩
        · cases h
      · cases h

/-- **C54.** Accepted parameters: the scalars are positive, the feeds are positive, the power is non-negative
and given at as many times as values, at least two, and the times start at or before 0 and end at least 10 %
after the end of the simulation. -/
theorem accepted_params {passed : List (Str × Val)} {P : Params} (h : initParams passed = .ok P) :
    0 < P.radius ∧ 0 < P.length ∧ 0 < P.pressure ∧ 0 < P.tempGas ∧ 0 < P.tEnd ∧
    (∀ f ∈ P.feeds, 0 < f.2) ∧ (∀ x ∈ P.power, 0 ≤ x) ∧ P.power.length = P.time.length ∧
    2 ≤ P.time.length ∧ (∃ a b, P.time.head? = some a ∧ P.time.getLast? = some b ∧ a ≤ 0 ∧ 1.1 * P.tEnd ≤ b) := by
  obtain ⟨-, -, p, a, b, hs, h1, h2, h3, h4, h5, h6, h7, h8, h9, h10, h11, h12⟩ := initParams_inv h
  have hok : ({} : Partial).Ok := by
    constructor <;> intros <;> contradiction
  have hp := setAll_ok hok hs
  exact ⟨hp.radius _ h1, hp.length _ h2, hp.pressure _ h3, hp.tempGas _ h4, hp.tEnd _ h5, hp.feeds _ h6,
    (hp.power _ h7).2, hp.len _ _ h7 h8, hp.time _ h8, a, b, h9, h10, h11, h12⟩

/-! ### C53 -/

/-- Specification: the names of each parameter, the nominal one first. -/
def names : Nom → List Str
  | .radius => [str!"radius", str!"r", str!"R"]
  | .length => [str!"length", str!"z", str!"Z"]
  | .pressure => [str!"pressure", str!"p"]
  | .power => [str!"power", str!"P"]
  | .tPower => [str!"t_power", str!"t_P", str!"time_P", str!"time_power"]
  | .tempGas => [str!"temp_gas", str!"Tg", str!"T_g", str!"gas_temp"]
  | .feeds => [str!"feeds", str!"feed_flows"]
  | .tEnd => [str!"t_end", str!"time_end", str!"end_time"]

theorem nomOf_iff (k : Str) (n : Nom) : nomOf k = some n ↔ k ∈ names n := by
  constructor
  · intro h
    have hm : (k, n) ∈ nominal := Dict.mem_of_get? h
    revert hm
    unfold nominal
    intro hm
    simp only [List.mem_cons, Prod.mk.injEq, List.not_mem_nil, or_false] at hm
    rcases hm with hm | hm | hm | hm | hm | hm | hm | hm | hm | hm | hm | hm | hm | hm | hm | hm | hm | hm | hm |
      hm | hm | hm | hm <;> obtain ⟨rfl, rfl⟩ := hm <;> simp [names]
  · intro h
    have key : ∀ k ∈ names n, nomOf k = some n := by cases n <;> decide
    exact key k h

/-- Specification: looking a parameter up shows the value `v` that was passed. A dictionary passed as power
is read as the list of its keys, as python does. -/
inductive Shows : Val → Got → Prop
  | number (x : ℝ) : Shows (.atom (.num x)) (.number x)
  | list (l : List ℝ) : Shows (.list (l.map .num)) (.numbers l)
  | keys (d : List (Atom × Atom)) (l : List ℝ) : d.map Prod.fst = l.map .num → Shows (.dict d) (.numbers l)
  | feeds (l : List (Str × ℝ)) : Shows (.dict (l.map fun p => (.str p.1, .num p.2))) (.feeds l)

def Partial.item (p : Partial) : Nom → Option Got
  | .radius => p.radius.map .number
  | .length => p.length.map .number
  | .pressure => p.pressure.map .number
  | .tempGas => p.tempGas.map .number
  | .tEnd => p.tEnd.map .number
  | .power => p.power.map .numbers
  | .tPower => p.time.map .numbers
  | .feeds => p.feeds.map .feeds

theorem setParam_item {p q : Partial} {n : Nom} {v : Val} (h : setParam p n v = .ok q) :
    (∃ g, q.item n = some g ∧ Shows v g) ∧ ∀ m, m ≠ n → q.item m = p.item m := by
  cases n with
  | radius =>
    obtain ⟨x, hx, h⟩ := bind_ok h
    cases h
    obtain ⟨rfl, -⟩ := number_spec hx
    exact ⟨⟨_, rfl, .number x⟩, fun m hm => by cases m <;> first | rfl | exact absurd rfl hm⟩
  | length =>
    obtain ⟨x, hx, h⟩ := bind_ok h
    cases h
    obtain ⟨rfl, -⟩ := number_spec hx
    exact ⟨⟨_, rfl, .number x⟩, fun m hm => by cases m <;> first | rfl | exact absurd rfl hm⟩
  | pressure =>
    obtain ⟨x, hx, h⟩ := bind_ok h
    cases h
    obtain ⟨rfl, -⟩ := number_spec hx
    exact ⟨⟨_, rfl, .number x⟩, fun m hm => by cases m <;> first | rfl | exact absurd rfl hm⟩
  | tempGas =>
    obtain ⟨x, hx, h⟩ := bind_ok h
    cases h
    obtain ⟨rfl, -⟩ := number_spec hx
    exact ⟨⟨_, rfl, .number x⟩, fun m hm => by cases m <;> first | rfl | exact absurd rfl hm⟩
  | tEnd =>
    obtain ⟨x, hx, h⟩ := bind_ok h
    cases h
    obtain ⟨rfl, -⟩ := number_spec hx
    exact ⟨⟨_, rfl, .number x⟩, fun m hm => by cases m <;> first | rfl | exact absurd rfl hm⟩
  | power =>
    obtain ⟨l, hl, h⟩ := bind_ok h
    obtain ⟨xs, h1, h2, h3, h4, rfl⟩ := setPower_spec h
    refine ⟨⟨_, rfl, ?_⟩, fun m hm => by cases m <;> first | rfl | exact absurd rfl hm⟩
    cases v with
    | atom a => cases hl
    | list l' => cases hl; rw [h1]; exact .list xs
    | dict d => cases hl; exact .keys d xs h1
  | tPower =>
    cases v with
    | atom a => cases h
    | dict d => cases h
    | list l =>
      obtain ⟨xs, h1, h3, h4, rfl⟩ := setTime_spec h
      refine ⟨⟨_, rfl, ?_⟩, fun m hm => by cases m <;> first | rfl | exact absurd rfl hm⟩
      rw [h1]; exact .list xs
  | feeds =>
    cases v with
    | atom a => cases h
    | list l => cases h
    | dict d =>
      obtain ⟨x, hx, h⟩ := bind_ok h
      cases h
      refine ⟨⟨_, rfl, ?_⟩, fun m hm => by cases m <;> first | rfl | exact absurd rfl hm⟩
      rw [(feedsOf_spec hx).1]; exact .feeds x

theorem setAll_append {l₁ l₂ : List (Str × Val)} {p q : Partial} (h : setAll p (l₁ ++ l₂) = .ok q) :
    ∃ m, setAll p l₁ = .ok m ∧ setAll m l₂ = .ok q := by
  induction l₁ generalizing p with
  | nil => exact ⟨p, rfl, h⟩
  | cons e l ih =>
    obtain ⟨k, v⟩ := e
    simp only [setAll, List.cons_append] at h ⊢
    cases hn : nomOf k with
    | none => rw [hn] at h; cases h
    | some n =>
      rw [hn] at h
      simp only at h ⊢
      cases hs : setParam p n v with
      | error e => rw [hs] at h; cases h
      | ok p' => rw [hs] at h; exact ih h

theorem setAll_cons {k : Str} {v : Val} {l : List (Str × Val)} {p q : Partial}
    (h : setAll p ((k, v) :: l) = .ok q) :
    ∃ n m, nomOf k = some n ∧ setParam p n v = .ok m ∧ setAll m l = .ok q := by
  simp only [setAll] at h
  cases hn : nomOf k with
  | none => rw [hn] at h; cases h
  | some n =>
    rw [hn] at h
    simp only at h
    cases hs : setParam p n v with
    | error e => rw [hs] at h; cases h
    | ok p' => rw [hs] at h; exact ⟨n, p', rfl, hs, h⟩

theorem setAll_item {l : List (Str × Val)} {p q : Partial} {n : Nom} (h : setAll p l = .ok q)
    (hl : ∀ k ∈ l.map Prod.fst, nomOf k ≠ some n) : q.item n = p.item n := by
  induction l generalizing p with
  | nil => cases h; rfl
  | cons e l ih =>
    obtain ⟨k, v⟩ := e
    obtain ⟨m, p', hk, hs, h⟩ := setAll_cons h
    rw [ih h fun k' hk' => hl k' (List.mem_cons_of_mem _ hk')]
    refine (setParam_item hs).2 n fun e => hl k (by simp) ?_
    rw [hk, e]

theorem getItem_eq {passed : List (Str × Val)} {P : Params} (h : initParams passed = .ok P) {p : Partial}
    (hp : setAll {} passed = .ok p) {k : Str} {n : Nom} (hk : nomOf k = some n) :
    ∃ g, p.item n = some g ∧ P.getItem k = .ok g := by
  obtain ⟨-, -, p', a, b, hs, h1, h2, h3, h4, h5, h6, h7, h8, -⟩ := initParams_inv h
  rw [hp] at hs
  cases hs
  unfold Params.getItem
  rw [hk]
  cases n <;> simp [Partial.item, *]

/-- **C53.** The value that was passed last for a parameter, under any of its names, is returned under all of
its names. -/
theorem lookup_any_name {l₁ l₂ : List (Str × Val)} {k : Str} {v : Val} {P : Params}
    (h : initParams (l₁ ++ (k, v) :: l₂) = .ok P) {n : Nom} (hk : k ∈ names n)
    (hlast : ∀ e ∈ l₂, e.1 ∉ names n) :
    ∃ g, Shows v g ∧ ∀ a ∈ names n, P.getItem a = .ok g := by
  obtain ⟨-, -, p, a, b, hs, -⟩ := initParams_inv h
  obtain ⟨m, hm, hr⟩ := setAll_append hs
  obtain ⟨n', q, hk', hq, hr⟩ := setAll_cons hr
  rw [(nomOf_iff k n).2 hk] at hk'
  cases hk'
  obtain ⟨g, hg, hv⟩ := (setParam_item hq).1
  refine ⟨g, hv, fun a ha => ?_⟩
  obtain ⟨g', hg', hP⟩ := getItem_eq h hs ((nomOf_iff a n).2 ha)
  rw [setAll_item hr, hg] at hg'
  · cases hg'; exact hP
  · intro k' hk' hc
    obtain ⟨e, he, rfl⟩ := List.mem_map.1 hk'
    exact hlast e he ((nomOf_iff _ _).1 hc)

/-- **C53.** Every parameter was passed under one of its names, so all lookups by a name succeed with the same
value; any other name is an error. -/
theorem lookup_defined {passed : List (Str × Val)} {P : Params} (h : initParams passed = .ok P) :
    (∀ n, ∃ g, (∀ a ∈ names n, P.getItem a = .ok g) ∧ ∃ e ∈ passed, e.1 ∈ names n ∧ Shows e.2 g) ∧
    (∀ a, (∀ n, a ∉ names n) → P.getItem a = .error .params) ∧
    (∀ e ∈ passed, ∃ n, e.1 ∈ names n) := by
  obtain ⟨h1, h2, -⟩ := initParams_inv h
  refine ⟨fun n => ?_, fun a ha => ?_, fun e he => ?_⟩
  · -- the last passed name of the parameter
    have key : ∀ l : List (Str × Val), (∃ e ∈ l, e.1 ∈ names n) →
        ∃ l₁ e l₂, l = l₁ ++ e :: l₂ ∧ e.1 ∈ names n ∧ ∀ e' ∈ l₂, e'.1 ∉ names n := by
      intro l
      induction l with
      | nil => rintro ⟨e, he, -⟩; cases he
      | cons x l ih =>
        rintro ⟨e, he, hn⟩
        by_cases hl : ∃ e ∈ l, e.1 ∈ names n
        · obtain ⟨l₁, e', l₂, rfl, h3, h4⟩ := ih hl
          exact ⟨x :: l₁, e', l₂, rfl, h3, h4⟩
        · push Not at hl
          rcases List.mem_cons.1 he with rfl | he
          · exact ⟨[], e, l, rfl, hn, hl⟩
          · exact absurd hn (hl e he)
    obtain ⟨k, hk, hn⟩ := h2 n
    obtain ⟨e, he, rfl⟩ := List.mem_map.1 hk
    obtain ⟨l₁, ⟨k, v⟩, l₂, rfl, h3, h4⟩ := key passed ⟨e, he, (nomOf_iff _ _).1 hn⟩
    obtain ⟨g, hg, hall⟩ := lookup_any_name h h3 h4
    exact ⟨g, hall, (k, v), by simp, h3, hg⟩
  · unfold Params.getItem
    cases hn : nomOf a with
    | none => rfl
    | some n => exact absurd ((nomOf_iff _ _).1 hn) (ha n)
  · obtain ⟨n, hn⟩ := h1 e.1 (List.mem_map_of_mem he)
    exact ⟨n, (nomOf_iff _ _).1 hn⟩

/-! ### examples and completeness -/

namespace Demo

def passed (extra : List (Str × Val)) : List (Str × Val) :=
  [(str!"r", .atom (.num 2)), (str!"length", .atom (.num 3)), (str!"p", .atom (.num 10)),
   (str!"P", .list [.num 0, .num 500]), (str!"t_P", .list [.num 0, .num 2]), (str!"Tg", .atom (.num 300)),
   (str!"feeds", .dict [(.str str!"Ar", .num 20)]), (str!"t_end", .atom (.num 1))] ++ extra

noncomputable def params : Params := ⟨2, 3, 10, 300, 1, [(str!"Ar", 20)], [0, 500], [0, 2]⟩

theorem accepted : initParams (passed []) = .ok params := by
  unfold initParams
  rw [if_neg, if_neg]
  · have : setAll {} (passed []) = .ok ⟨some 2, some 3, some 10, some 300, some 1, some [(str!"Ar", 20)],
        some [0, 500], some [0, 2]⟩ := by
      norm_num [setAll, passed, show nomOf str!"r" = some .radius from rfl,
        show nomOf str!"length" = some .length from rfl, show nomOf str!"p" = some .pressure from rfl,
        show nomOf str!"P" = some .power from rfl, show nomOf str!"t_P" = some .tPower from rfl,
        show nomOf str!"Tg" = some .tempGas from rfl, show nomOf str!"feeds" = some .feeds from rfl,
        show nomOf str!"t_end" = some .tEnd from rfl, setParam, number, assertNumber, collection, setPower,
        setTime, numbers, feedsOf, bind, Except.bind, pure, Except.pure]
    rw [this]
    norm_num [params]
  · rintro ⟨n, hn⟩
    cases n <;> simp [passed, nomOf, nominal, Dict.get?] at hn
  · rintro ⟨k, hk, hn⟩
    simp only [passed, List.append_nil, List.map_cons, List.map_nil, List.mem_cons, List.not_mem_nil,
      or_false] at hk
    rcases hk with rfl | rfl | rfl | rfl | rfl | rfl | rfl | rfl <;> cases hn

example : params.getItem str!"time_power" = .ok (.numbers [0, 2]) := rfl
example : params.getItem str!"radius" = .ok (.number 2) := rfl
example : 1.1 * params.tEnd ≤ 2 := by norm_num [params]
example : ∃ g, Shows (.atom (.num 2)) g ∧ ∀ a ∈ names .radius, params.getItem a = .ok g :=
  lookup_any_name (l₁ := []) (k := str!"r") (l₂ := (passed []).tail) accepted (n := .radius) (by simp [names])
    (by
      intro e he
      simp only [passed, List.append_nil, List.tail_cons, List.mem_cons, List.not_mem_nil, or_false] at he
      rcases he with rfl | rfl | rfl | rfl | rfl | rfl | rfl <;> simp [names])

/-- Finding: a parameter passed twice under different names is accepted, and the first value is ignored. -/
theorem two_names_accepted :
    initParams (passed [(str!"R", .atom (.num 5))]) = .ok { params with radius := 5 } := by
  unfold initParams
  rw [if_neg, if_neg]
  · have : setAll {} (passed [(str!"R", .atom (.num 5))]) = .ok ⟨some 5, some 3, some 10, some 300, some 1,
        some [(str!"Ar", 20)], some [0, 500], some [0, 2]⟩ := by
      norm_num [setAll, passed, show nomOf str!"r" = some .radius from rfl,
        show nomOf str!"length" = some .length from rfl, show nomOf str!"p" = some .pressure from rfl,
        show nomOf str!"P" = some .power from rfl, show nomOf str!"t_P" = some .tPower from rfl,
        show nomOf str!"Tg" = some .tempGas from rfl, show nomOf str!"feeds" = some .feeds from rfl,
        show nomOf str!"t_end" = some .tEnd from rfl, show nomOf str!"R" = some .radius from rfl, setParam,
        number, assertNumber, collection, setPower,
        setTime, numbers, feedsOf, bind, Except.bind, pure, Except.pure]
    rw [this]
    norm_num [params]
  · rintro ⟨n, hn⟩
    cases n <;> simp [passed, nomOf, nominal, Dict.get?] at hn
  · rintro ⟨k, hk, hn⟩
    simp only [passed, List.cons_append, List.nil_append, List.map_cons, List.map_nil, List.mem_cons,
      List.not_mem_nil, or_false] at hk
    rcases hk with rfl | rfl | rfl | rfl | rfl | rfl | rfl | rfl | rfl <;> cases hn

end Demo

end Verif.Pygmol
