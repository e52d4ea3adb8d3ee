/-
Numbers in the LaTeX forms of rate coefficients and in tables: plaschem/latex.py:99-145 and 358-363.
-/
import Verif.Plaschem.Base
import Mathlib.Data.List.DropRight
import Mathlib.Algebra.Order.Field.Rat
import Mathlib.Algebra.Order.AbsoluteValue.Basic
import Mathlib.Tactic.Ring
import Mathlib.Tactic.FieldSimp
import Mathlib.Tactic.Linarith
import Mathlib.Tactic.NormNum
import Mathlib.Tactic.FinCases
import Mathlib.Tactic.Positivity
import Mathlib.Data.Fin.VecNotation

namespace Verif.Plaschem.LatexRate

/-! ### Model -/

/-- `s.rstrip('.0')`: all dots and zeros are taken from the end. -/
def rstrip (s : Str) : Str := s.rdropWhile fun c => c == '.' || c == '0'

/-- Python's formatting of floats, as far as it is used: `'{:.2E}'.format(x)` and `str(round(x, 2))`, with the value of a
float and `abs` -/
structure NumFmt (F : Type) where
  val : F → ℚ
  abs : F → F
  sci : F → Str
  round2 : F → Str

/-- `s.split('E')` -/
def splitE : Str → List Str
  | [] => [[]]
  | c :: s => if c = 'E' then [] :: splitE s else
    match splitE s with
    | [] => [[c]]
    | p :: ps => (c :: p) :: ps

/-- the value of decimal digits -/
def natVal (ds : Str) : Nat := ds.foldl (fun n c => 10 * n + (c.toNat - 48)) 0

/-- nonempty, and only digits -/
def good (ds : Str) : Bool := !ds.isEmpty && ds.all Char.isDigit

/-- `int(s)` for the exponents in question: an optional sign and digits -/
def readInt : Str → Except Err Int
  | '+' :: s => if good s then .ok (natVal s) else .error .valueError
  | '-' :: s => if good s then .ok (-(natVal s : Int)) else .error .valueError
  | s => if good s then .ok (natVal s) else .error .valueError

/-- `'{}'.format(n)` -/
def showInt (n : Int) : Str := if n < 0 then '-' :: Nat.toDigits 10 n.natAbs else Nat.toDigits 10 n.natAbs

/-- The kinetic data used: `get_arrh_a`, `get_arrh_b`, `get_arrh_c`, `is_electron_process`. -/
structure Kin (F : Type) where
  a : Option F
  b : F
  c : F
  electron : Bool

variable {F : Type}

/-- plaschem/latex.py:106-113 -/
def texA (N : NumFmt F) (k : Kin F) : Except Err Str := do
  match k.a with
  | none => throw .typeError
  | some x =>
    match splitE (N.sci x) with
    | [a, exp] =>
      let e ← readInt exp
      return if e ≠ 0 then rstrip a ++ str!" \\times 10^{" ++ showInt e ++ str!"}" else rstrip a
    | _ => throw .valueError

/-- plaschem/latex.py:115-126 -/
def texB (N : NumFmt F) (dfrac : Bool) (k : Kin F) : Str :=
  if N.val k.b = 0 then []
  else
    let exp := rstrip (N.round2 k.b)
    if k.electron then str!" T_\\mathrm{e}^{" ++ exp ++ str!"}"
    else if dfrac then str!" \\left( \\dfrac{\\mathrm{T_g}}{300} \\right)^{" ++ exp ++ str!"}"
    else str!" \\left( \\mathrm{T_g}/300 \\right)^{" ++ exp ++ str!"}"

/-- plaschem/latex.py:128-143 -/
def texC (N : NumFmt F) (dfrac : Bool) (k : Kin F) : Str :=
  if N.val k.c = 0 then []
  else
    let en := rstrip (N.round2 (N.abs k.c))
    let sign := if N.val k.c > 0 then str!"-" else []
    if k.electron then
      if dfrac then str!" \\exp \\left( " ++ sign ++ str!"\\dfrac{" ++ en ++ str!"}{T_\\mathrm{e}} \\right)"
      else str!" \\exp \\left( " ++ sign ++ en ++ str!"/T_\\mathrm{e} \\right)"
    else
      if dfrac then str!" \\exp \\left( " ++ sign ++ str!"\\dfrac{" ++ en ++ str!"}{\\mathrm{T_g}} \\right)"
      else str!" \\exp \\left( " ++ sign ++ en ++ str!"/\\mathrm{T_g} \\right)"

/-- plaschem/latex.py:99-145 `texify_rate_coefficient` -/
def texifyRate (N : NumFmt F) (dfrac : Bool) (k : Kin F) : Except Err Str := do
  return (← texA N k) ++ texB N dfrac k ++ texC N dfrac k

/-- plaschem/latex.py:361: the cell of a table for the energy loss of electrons -/
def lossCell (N : NumFmt F) (x : F) : Str := if N.val x ≠ 0 then rstrip (N.round2 x) else []

/-! ### Specification: decimal numbers -/

/-- the value of a decimal number without sign -/
def unsVal (s : Str) : Option ℚ :=
  let ip := s.takeWhile fun c => c != '.'
  match s.dropWhile fun c => c != '.' with
  | [] => if good ip then some (natVal ip : ℚ) else none
  | _ :: fp => if good ip && good fp then some ((natVal ip : ℚ) + (natVal fp : ℚ) / 10 ^ fp.length) else none

/-- the value of a decimal number, if the text is one -/
def decVal : Str → Option ℚ
  | '-' :: s => (unsVal s).map fun q => -q
  | s => unsVal s

/-- sign, digits before and after the point -/
def numeral (neg : Bool) (ip fp : Str) : Str := (if neg then str!"-" else []) ++ ip ++ str!"." ++ fp

/-- What is used about Python's formats, for the numbers `ok`. `str(round(x, 2))` is a decimal number within half a
hundredth; `{:.2E}` has one digit (not zero, unless the number is) before the point, two behind it, and an exponent. -/
structure NumFmt.Lawful (N : NumFmt F) (ok : F → Prop) : Prop where
  abs : ∀ x, ok x → ok (N.abs x) ∧ N.val (N.abs x) = |N.val x|
  round2 : ∀ x, ok x → ∃ neg ip fp q, good ip = true ∧ good fp = true ∧ N.round2 x = numeral neg ip fp ∧
    decVal (N.round2 x) = some q ∧ |q - N.val x| ≤ 1 / 200
  sci : ∀ x, ok x → N.val x ≠ 0 → ∃ neg d f exp q e, good [d] = true ∧ d ≠ '0' ∧ good f = true ∧ 'E' ∉ exp ∧
    N.sci x = numeral neg [d] f ++ 'E' :: exp ∧ readInt exp = .ok e ∧ decVal (numeral neg [d] f) = some q ∧
    |q * 10 ^ e - N.val x| ≤ 10 ^ e / 200

/-! ### Lemmas -/

theorem natVal_append (a b : Str) : natVal (a ++ b) = natVal a * 10 ^ b.length + natVal b := by
  have key : ∀ (b : Str) (n : Nat), b.foldl (fun n c => 10 * n + (c.toNat - 48)) n =
      n * 10 ^ b.length + b.foldl (fun n c => 10 * n + (c.toNat - 48)) 0 := by
    intro b
    induction b with
    | nil => simp
    | cons c b ih =>
      intro n
      rw [List.foldl_cons, List.foldl_cons, ih (10 * n + _), ih (10 * 0 + _), List.length_cons]
      ring
  rw [natVal, List.foldl_append, key]
  rfl

theorem natVal_zeros (k : Nat) : natVal (List.replicate k '0') = 0 := by
  induction k with
  | zero => rfl
  | succ k ih => rw [List.replicate_succ']; rw [natVal_append, ih]; rfl

theorem digit_val {c : Char} (h : c.isDigit = true) (h0 : c ≠ '0') : c.toNat - 48 ≠ 0 ∧ c.toNat - 48 < 10 := by
  rw [Char.isDigit, Bool.and_eq_true, decide_eq_true_eq, decide_eq_true_eq] at h
  have h1 : 48 ≤ c.val.toNat := UInt32.le_iff_toNat_le.mp h.1
  have h2 : c.val.toNat ≤ 57 := UInt32.le_iff_toNat_le.mp h.2
  have h3 : c.val.toNat ≠ 48 := by
    intro h3
    apply h0
    apply Char.ext
    exact UInt32.toNat_inj.mp h3
  change c.val.toNat - 48 ≠ 0 ∧ c.val.toNat - 48 < 10
  omega

theorem good_iff {s : Str} : good s = true ↔ s ≠ [] ∧ ∀ c ∈ s, c.isDigit = true := by
  rw [good, Bool.and_eq_true, List.all_eq_true]
  simp

/-- digits are zeros at the end, after nothing or after digits of which the last is not zero -/
theorem digits_split (s : Str) (h : ∀ c ∈ s, c.isDigit = true) :
    ∃ k, s = List.replicate k '0' ∨ ∃ t c, c ≠ '0' ∧ s = t ++ [c] ++ List.replicate k '0' := by
  induction s using List.reverseRecOn with
  | nil => exact ⟨0, .inl rfl⟩
  | append_singleton s c ih =>
    by_cases hc : c = '0'
    · subst hc
      obtain ⟨k, h1 | ⟨t, c, h1, h2⟩⟩ := ih fun c' h' => h c' (by simp [h'])
      · exact ⟨k + 1, .inl (by rw [h1, List.replicate_succ'])⟩
      · exact ⟨k + 1, .inr ⟨t, c, h1, by rw [h2, List.replicate_succ']; simp⟩⟩
    · exact ⟨0, .inr ⟨s, c, hc, by simp⟩⟩

theorem rstrip_zeros (s : Str) (k : Nat) : rstrip (s ++ List.replicate k '0') = rstrip s := by
  induction k with
  | zero => simp
  | succ k ih =>
    rw [List.replicate_succ', ← List.append_assoc]
    unfold rstrip at ih ⊢
    rw [List.rdropWhile_concat_pos _ _ _ (by rfl), ih]

theorem rstrip_dot (s : Str) : rstrip (s ++ ['.']) = rstrip s := by
  unfold rstrip
  rw [List.rdropWhile_concat_pos _ _ _ (by rfl)]

theorem rstrip_keep (s : Str) {c : Char} (h : c ≠ '.') (h' : c ≠ '0') : rstrip (s ++ [c]) = s ++ [c] := by
  unfold rstrip
  rw [List.rdropWhile_concat_neg]
  simp [h, h']

theorem not_dot {s : Str} (h : ∀ c ∈ s, c.isDigit = true) : ∀ c ∈ s, (c != '.') = true := by
  intro c hc
  have := h c hc
  rw [bne_iff_ne]
  rintro rfl
  cases this

theorem takeWhile_all {p : Char → Bool} {s : Str} (h : ∀ c ∈ s, p c = true) (t : Str) {d : Char} (hd : p d = false) :
    (s ++ d :: t).takeWhile p = s ∧ (s ++ d :: t).dropWhile p = d :: t := by
  induction s with
  | nil => simp [hd]
  | cons c s ih =>
    have := ih fun c' h' => h c' (by simp [h'])
    simp [h c (by simp), this.1, this.2]

theorem unsVal_int {ip : Str} (h : good ip = true) : unsVal ip = some (natVal ip : ℚ) := by
  have hd := not_dot (good_iff.mp h).2
  unfold unsVal
  rw [List.takeWhile_eq_self_iff.mpr hd, List.dropWhile_eq_nil_iff.mpr hd]
  simp [h]

theorem unsVal_dec {ip fp : Str} (h : good ip = true) (h' : good fp = true) :
    unsVal (ip ++ '.' :: fp) = some ((natVal ip : ℚ) + (natVal fp : ℚ) / 10 ^ fp.length) := by
  have hd := not_dot (good_iff.mp h).2
  have := takeWhile_all (p := fun c => c != '.') hd fp (d := '.') (by rfl)
  unfold unsVal
  rw [this.1, this.2]
  simp [h, h']

theorem decVal_sign {neg : Bool} {s : Str} (h : s.head? ≠ some '-') :
    decVal ((if neg then str!"-" else []) ++ s) = (unsVal s).map fun q => if neg then -q else q := by
  cases neg with
  | true => simp [decVal]
  | false =>
    simp only [Bool.false_eq_true, if_false, List.nil_append, Option.map_id']
    unfold decVal
    split
    · simp at h
    · rfl

theorem head_digits {ip : Str} (h : good ip = true) (t : Str) : (ip ++ t).head? ≠ some '-' := by
  obtain ⟨h1, h2⟩ := good_iff.mp h
  cases ip with
  | nil => exact absurd rfl h1
  | cons c s =>
    have := h2 c (by simp)
    rintro h3
    cases h3
    cases this

theorem good_append_left {a b : Str} (h : good (a ++ b) = true) (ha : a ≠ []) : good a = true :=
  good_iff.mpr ⟨ha, fun c hc => (good_iff.mp h).2 c (by simp [hc])⟩

/-- **Numbers that are shown.** Of a decimal number with digits before and after the point, what is left after
`rstrip('.0')` is a number of the same value exactly if the number is not a multiple of ten (zero included). -/
theorem strip_value {neg : Bool} {ip fp : Str} (hi : good ip = true) (hf : good fp = true) :
    decVal (rstrip (numeral neg ip fp)) = decVal (numeral neg ip fp) ↔ ¬ (natVal fp = 0 ∧ natVal ip % 10 = 0) := by
  have hnum : numeral neg ip fp = (if neg then str!"-" else []) ++ (ip ++ '.' :: fp) := by simp [numeral]
  have hval : decVal (numeral neg ip fp) =
      some (if neg then -((natVal ip : ℚ) + (natVal fp : ℚ) / 10 ^ fp.length)
        else (natVal ip : ℚ) + (natVal fp : ℚ) / 10 ^ fp.length) := by
    rw [hnum, decVal_sign (head_digits hi _), unsVal_dec hi hf]
    rfl
  obtain ⟨k, h | ⟨t, c, hc, h⟩⟩ := digits_split fp (good_iff.mp hf).2
  · -- only zeros behind the point
    have hf0 : natVal fp = 0 := by rw [h, natVal_zeros]
    have hs : rstrip (numeral neg ip fp) = rstrip ((if neg then str!"-" else []) ++ ip) := by
      rw [numeral, h, rstrip_zeros, rstrip_dot]
    rw [hs, hval, hf0]
    obtain ⟨j, h1 | ⟨t, c, hc, h1⟩⟩ := digits_split ip (good_iff.mp hi).2
    · have hz : natVal ip = 0 := by rw [h1, natVal_zeros]
      have : decVal (rstrip ((if neg then str!"-" else []) ++ ip)) = none := by
        rw [h1, rstrip_zeros]
        cases neg <;> decide +kernel
      rw [this, hz]
      simp
    · have hcd : c.isDigit = true := (good_iff.mp hi).2 c (by rw [h1]; simp)
      have hcdot : c ≠ '.' := by rintro rfl; cases hcd
      have hgt : good (t ++ [c]) = true := good_append_left (b := List.replicate j '0') (h1 ▸ hi) (by simp)
      have hs2 : rstrip ((if neg then str!"-" else []) ++ ip) = (if neg then str!"-" else []) ++ (t ++ [c]) := by
        rw [h1, ← List.append_assoc, rstrip_zeros, ← List.append_assoc, rstrip_keep _ hcdot hc]
      have hh : (t ++ [c]).head? ≠ some '-' := by
        have := head_digits hgt []
        rwa [List.append_nil] at this
      obtain ⟨hc0, hc10⟩ := digit_val hcd hc
      have hv1 : natVal (t ++ [c]) = natVal t * 10 + (c.toNat - 48) := by
        rw [natVal_append]
        simp [natVal]
      have hv2 : natVal ip = natVal (t ++ [c]) * 10 ^ j := by
        rw [h1, natVal_append, natVal_zeros, List.length_replicate, Nat.add_zero]
      have hpos : natVal (t ++ [c]) ≠ 0 := by omega
      rw [hs2, decVal_sign hh, unsVal_int hgt]
      simp only [Option.map_some, Option.some.injEq, Nat.cast_zero, zero_div, add_zero, true_and]
      have e1 : ((if neg = true then -(natVal (t ++ [c]) : ℚ) else (natVal (t ++ [c]) : ℚ)) =
          if neg = true then -(natVal ip : ℚ) else (natVal ip : ℚ)) ↔ natVal (t ++ [c]) = natVal ip := by
        cases neg <;> simp
      rw [e1]
      cases j with
      | zero =>
        rw [pow_zero, mul_one] at hv2
        rw [hv2]
        have : natVal (t ++ [c]) % 10 ≠ 0 := by omega
        simp [this]
      | succ j =>
        have h10 : natVal ip % 10 = 0 := by
          rw [hv2, pow_succ, ← mul_assoc]
          exact Nat.mul_mod_left _ _
        have hne : natVal (t ++ [c]) ≠ natVal ip := by
          rw [hv2]
          intro h
          have h2 : 1 < 10 ^ (j + 1) := Nat.one_lt_pow (by omega) (by omega)
          have h3 : natVal (t ++ [c]) * 1 < natVal (t ++ [c]) * 10 ^ (j + 1) :=
            Nat.mul_lt_mul_of_pos_left h2 (Nat.pos_of_ne_zero hpos)
          omega
        simp [h10, hne]
  · -- some digit behind the point is not zero
    have hcd : c.isDigit = true := (good_iff.mp hf).2 c (by rw [h]; simp)
    have hcdot : c ≠ '.' := by rintro rfl; cases hcd
    have hgt : good (t ++ [c]) = true := good_append_left (b := List.replicate k '0') (h ▸ hf) (by simp)
    obtain ⟨hc0, hc10⟩ := digit_val hcd hc
    have hv1 : natVal (t ++ [c]) = natVal t * 10 + (c.toNat - 48) := by
      rw [natVal_append]
      simp [natVal]
    have hv2 : natVal fp = natVal (t ++ [c]) * 10 ^ k := by
      rw [h, natVal_append, natVal_zeros, List.length_replicate, Nat.add_zero]
    have hl : fp.length = (t ++ [c]).length + k := by
      rw [h, List.length_append, List.length_replicate]
    have hfne : natVal fp ≠ 0 := by
      rw [hv2]
      exact Nat.mul_ne_zero (by omega) (Nat.pow_pos (by omega)).ne'
    have hs : rstrip (numeral neg ip fp) = (if neg then str!"-" else []) ++ (ip ++ '.' :: (t ++ [c])) := by
      rw [hnum, h, show (if neg then str!"-" else []) ++ (ip ++ '.' :: (t ++ [c] ++ List.replicate k '0')) =
        ((if neg then str!"-" else []) ++ ip ++ '.' :: t) ++ [c] ++ List.replicate k '0' by simp, rstrip_zeros,
        rstrip_keep _ hcdot hc]
      simp
    rw [hs, decVal_sign (head_digits hi _), unsVal_dec hi hgt, hval]
    have heq : (natVal (t ++ [c]) : ℚ) / 10 ^ (t ++ [c]).length = natVal fp / 10 ^ fp.length := by
      rw [hv2, hl, pow_add, Nat.cast_mul, Nat.cast_pow]
      field_simp
      norm_num
    rw [heq]
    simp [hfne]

/-! ### Properties -/

theorem natVal_lt {s : Str} (h : ∀ c ∈ s, c.isDigit = true) : natVal s < 10 ^ s.length := by
  induction s using List.reverseRecOn with
  | nil => decide
  | append_singleton s c ih =>
    have h1 := ih fun c' h' => h c' (by simp [h'])
    have h2 : c.toNat - 48 < 10 := by
      by_cases hc : c = '0'
      · subst hc; decide
      · exact (digit_val (h c (by simp)) hc).2
    have h3 : natVal [c] = c.toNat - 48 := by simp [natVal]
    rw [natVal_append, List.length_append, List.length_singleton, pow_one, pow_succ, h3]
    omega

/-- the text is a number that is a multiple of ten -/
def TenFold (s : Str) : Prop := ∃ z : Int, decVal s = some (10 * z : ℚ)

theorem tenFold_iff {neg : Bool} {ip fp : Str} (hi : good ip = true) (hf : good fp = true) :
    TenFold (numeral neg ip fp) ↔ natVal fp = 0 ∧ natVal ip % 10 = 0 := by
  have hval : decVal (numeral neg ip fp) =
      some (if neg then -((natVal ip : ℚ) + (natVal fp : ℚ) / 10 ^ fp.length)
        else (natVal ip : ℚ) + (natVal fp : ℚ) / 10 ^ fp.length) := by
    rw [show numeral neg ip fp = (if neg then str!"-" else []) ++ (ip ++ '.' :: fp) by simp [numeral],
      decVal_sign (head_digits hi _), unsVal_dec hi hf]
    rfl
  have key : (∃ z : Int, (natVal ip : ℚ) + (natVal fp : ℚ) / 10 ^ fp.length = 10 * z) ↔
      natVal fp = 0 ∧ natVal ip % 10 = 0 := by
    constructor
    · rintro ⟨z, hz⟩
      have hlt := natVal_lt (good_iff.mp hf).2
      have hpos : (0 : ℚ) < 10 ^ fp.length := by positivity
      have h1 : ((natVal fp : ℤ) : ℚ) = ((10 * z - natVal ip) * 10 ^ fp.length : ℤ) := by
        push_cast
        field_simp at hz
        linarith
      have h2 : (natVal fp : ℤ) = (10 * z - natVal ip) * 10 ^ fp.length := by exact_mod_cast h1
      have h3 : (natVal fp : ℤ) < 10 ^ fp.length := by exact_mod_cast hlt
      have h4 : (0 : ℤ) < 10 ^ fp.length := by positivity
      have h5 : 10 * z - (natVal ip : ℤ) = 0 := by
        by_contra hne
        rcases lt_or_gt_of_ne hne with h | h
        · have : (10 * z - (natVal ip : ℤ)) * 10 ^ fp.length < 0 := mul_neg_of_neg_of_pos h h4
          omega
        · have : 1 * 10 ^ fp.length ≤ (10 * z - (natVal ip : ℤ)) * 10 ^ fp.length :=
            mul_le_mul_of_nonneg_right h (le_of_lt h4)
          omega
      rw [h5, zero_mul] at h2
      constructor
      · omega
      · omega
    · rintro ⟨h1, h2⟩
      refine ⟨(natVal ip / 10 : Nat), ?_⟩
      have : natVal ip = 10 * (natVal ip / 10) := by omega
      rw [h1]
      rw [Nat.cast_zero, zero_div, add_zero]
      exact_mod_cast this
  unfold TenFold
  rw [hval, ← key]
  cases neg with
  | false => simp
  | true =>
    simp only [if_true, Option.some.injEq]
    constructor
    · rintro ⟨z, hz⟩
      exact ⟨-z, by push_cast; linarith⟩
    · rintro ⟨z, hz⟩
      exact ⟨-z, by push_cast; linarith⟩

/-- **Exponents, activation energies and energy losses** are shown with the value rounded to hundredths exactly if that
is not a multiple of ten. -/
theorem round2_shown {N : NumFmt F} {ok : F → Prop} (hN : N.Lawful ok) {x : F} (hx : ok x) :
    (decVal (rstrip (N.round2 x)) = decVal (N.round2 x) ↔ ¬ TenFold (N.round2 x)) ∧
    (¬ TenFold (N.round2 x) → ∃ q, decVal (rstrip (N.round2 x)) = some q ∧ |q - N.val x| ≤ 1 / 200) := by
  obtain ⟨neg, ip, fp, q, h1, h2, h3, h4, h5⟩ := hN.round2 x hx
  have key : decVal (rstrip (N.round2 x)) = decVal (N.round2 x) ↔ ¬ TenFold (N.round2 x) := by
    rw [h3, strip_value h1 h2, tenFold_iff h1 h2]
  exact ⟨key, fun h => ⟨q, (key.mpr h).trans h4, h5⟩⟩

/-- **The energy loss** of electrons: the cell is empty if there is none; otherwise it holds the value rounded to
hundredths, unless that is a multiple of ten. -/
theorem loss_shown {N : NumFmt F} {ok : F → Prop} (hN : N.Lawful ok) {x : F} (hx : ok x) :
    (N.val x = 0 → lossCell N x = []) ∧
    (N.val x ≠ 0 → ¬ TenFold (N.round2 x) → ∃ q, decVal (lossCell N x) = some q ∧ |q - N.val x| ≤ 1 / 200) := by
  unfold lossCell
  refine ⟨fun h => if_neg (not_not_intro h), fun h ht => ?_⟩
  rw [if_pos h]
  exact (round2_shown hN hx).2 ht

theorem splitE_append {a b : Str} (ha : 'E' ∉ a) (hb : 'E' ∉ b) : splitE (a ++ 'E' :: b) = [a, b] := by
  have one : ∀ {b : Str}, 'E' ∉ b → splitE b = [b] := by
    intro b hb
    induction b with
    | nil => rfl
    | cons c b ih =>
      simp only [List.mem_cons, not_or] at hb
      rw [splitE, if_neg (Ne.symm hb.1), ih hb.2]
  induction a with
  | nil => rw [List.nil_append, splitE, if_pos rfl, one hb]
  | cons c a ih =>
    simp only [List.mem_cons, not_or] at ha
    rw [List.cons_append, splitE, if_neg (Ne.symm ha.1), ih ha.2]

/-- a power of ten in a formula -/
def timesTen (e : Int) : Str := if e ≠ 0 then str!" \\times 10^{" ++ showInt e ++ str!"}" else []

/-- **The pre-exponential factor** of a reaction that has one is always shown right: mantissa and exponent denote a
number within half a unit of the last of three digits. -/
theorem factor_shown {N : NumFmt F} {ok : F → Prop} (hN : N.Lawful ok) {k : Kin F} {x : F} (ha : k.a = some x)
    (hx : ok x) (h0 : N.val x ≠ 0) :
    ∃ m q e, texA N k = .ok (m ++ timesTen e) ∧ decVal m = some q ∧ |q * 10 ^ e - N.val x| ≤ 10 ^ e / 200 := by
  obtain ⟨neg, d, f, exp, q, e, h1, h2, h3, h4, h5, h6, h7, h8⟩ := hN.sci x hx h0
  have hd : d.isDigit = true := (good_iff.mp h1).2 d (by simp)
  have hE : 'E' ∉ numeral neg [d] f := by
    intro hm
    simp only [numeral, List.mem_append, List.mem_singleton] at hm
    rcases hm with ((hm | hm) | hm) | hm
    · split at hm
      · rw [List.mem_singleton] at hm; cases hm
      · cases hm
    · rw [← hm] at hd; cases hd
    · cases hm
    · cases (good_iff.mp h3).2 _ hm
  refine ⟨rstrip (numeral neg [d] f), q, e, ?_, ?_, h8⟩
  · unfold texA
    rw [ha]
    dsimp only
    rw [h5, splitE_append hE h4]
    dsimp only
    rw [h6]
    unfold timesTen
    by_cases he : e = 0
    · simp [he]
    · simp [he]
  · rw [(strip_value h1 h3).mpr, h7]
    rintro ⟨_, h9⟩
    have : natVal [d] = d.toNat - 48 := by simp [natVal]
    have := digit_val hd h2
    omega

/-- a reaction without kinetic data has no formula -/
theorem no_factor {N : NumFmt F} {dfrac : Bool} {k : Kin F} (ha : k.a = none) :
    texifyRate N dfrac k = .error .typeError := by
  simp only [texifyRate, texA, ha]
  rfl

/-- the formula with given texts for the numbers, in the form with a slash: factor, power of the temperature (left out
for exponent zero), exponential (left out for energy zero) -/
def template (electron : Bool) (fac : Str) (e : Int) (b : Option Str) (c : Option (Bool × Str)) : Str :=
  fac ++ timesTen e ++
  (match b with
    | none => []
    | some t => (if electron then str!" T_\\mathrm{e}^{" else str!" \\left( \\mathrm{T_g}/300 \\right)^{") ++ t ++ str!"}") ++
  (match c with
    | none => []
    | some (minus, t) => str!" \\exp \\left( " ++ (if minus then str!"-" else []) ++ t ++
      (if electron then str!"/T_\\mathrm{e} \\right)" else str!"/\\mathrm{T_g} \\right)"))

/-- the same with built fractions -/
def templateFrac (electron : Bool) (fac : Str) (e : Int) (b : Option Str) (c : Option (Bool × Str)) : Str :=
  fac ++ timesTen e ++
  (match b with
    | none => []
    | some t => (if electron then str!" T_\\mathrm{e}^{" else
        str!" \\left( \\dfrac{\\mathrm{T_g}}{300} \\right)^{") ++ t ++ str!"}") ++
  (match c with
    | none => []
    | some (minus, t) => str!" \\exp \\left( " ++ (if minus then str!"-" else []) ++ str!"\\dfrac{" ++ t ++
      (if electron then str!"}{T_\\mathrm{e}} \\right)" else str!"}{\\mathrm{T_g}} \\right)"))

/-- what the texts of a formula have to denote: the factor to three digits, exponent and energy to hundredths, the sign
of the exponent of the exponential; parts that are one are left out -/
structure Denotes (N : NumFmt F) (k : Kin F) (fac : Str) (e : Int) (b : Option Str) (c : Option (Bool × Str)) :
    Prop where
  fac : ∃ x q, k.a = some x ∧ decVal fac = some q ∧ |q * 10 ^ e - N.val x| ≤ 10 ^ e / 200
  noB : b = none ↔ N.val k.b = 0
  b : ∀ t, b = some t → ∃ q, decVal t = some q ∧ |q - N.val k.b| ≤ 1 / 200
  noC : c = none ↔ N.val k.c = 0
  c : ∀ m t, c = some (m, t) → ∃ q, decVal t = some q ∧ |(if m then q else -q) - N.val k.c| ≤ 1 / 200

/-- **Rate coefficients.** If exponent and activation energy, rounded, are not multiples of ten (or are exactly zero),
the LaTeX form of the rate coefficient is the Arrhenius formula with texts that denote its numbers. -/
theorem rate_shown {N : NumFmt F} {ok : F → Prop} (hN : N.Lawful ok) {k : Kin F} {x : F} (ha : k.a = some x)
    (hx : ok x) (h0 : N.val x ≠ 0) (hb : ok k.b) (hc : ok k.c)
    (hb10 : N.val k.b ≠ 0 → ¬ TenFold (N.round2 k.b))
    (hc10 : N.val k.c ≠ 0 → ¬ TenFold (N.round2 (N.abs k.c))) :
    ∃ fac e b c, Denotes N k fac e b c ∧ texifyRate N false k = .ok (template k.electron fac e b c) ∧
      texifyRate N true k = .ok (templateFrac k.electron fac e b c) := by
  obtain ⟨m, q, e, h1, h2, h3⟩ := factor_shown hN ha hx h0
  obtain ⟨hac, hav⟩ := hN.abs k.c hc
  refine ⟨m, e, if N.val k.b = 0 then none else some (rstrip (N.round2 k.b)),
    if N.val k.c = 0 then none else some (decide (N.val k.c > 0), rstrip (N.round2 (N.abs k.c))), ⟨?_, ?_, ?_, ?_, ?_⟩,
    ?_, ?_⟩
  · exact ⟨x, q, ha, h2, h3⟩
  · by_cases h : N.val k.b = 0 <;> simp [h]
  · intro t ht
    split at ht
    · cases ht
    · next h =>
      cases ht
      exact (round2_shown hN hb).2 (hb10 h)
  · by_cases h : N.val k.c = 0 <;> simp [h]
  · intro mm t ht
    split at ht
    · cases ht
    · next h =>
      cases ht
      obtain ⟨q', hq, hd⟩ := (round2_shown hN hac).2 (hc10 h)
      refine ⟨q', hq, ?_⟩
      rw [hav] at hd
      by_cases hp : N.val k.c > 0
      · rw [if_pos (by simpa using hp)]
        rwa [abs_of_pos hp] at hd
      · rw [if_neg (by simpa using hp)]
        rw [abs_of_nonpos (not_lt.mp hp)] at hd
        rw [show -q' - N.val k.c = -(q' - -N.val k.c) by ring, abs_neg]
        exact hd
  · have : texifyRate N false k = .ok (m ++ timesTen e ++ texB N false k ++ texC N false k) := by
      unfold texifyRate
      rw [h1]
      rfl
    rw [this]
    unfold template
    congr 2
    · congr 1
      unfold texB
      by_cases h : N.val k.b = 0
      · rw [if_pos h, if_pos h]
      · rw [if_neg h, if_neg h]
        cases k.electron <;> rfl
    · unfold texC
      by_cases h : N.val k.c = 0
      · rw [if_pos h, if_pos h]
      · rw [if_neg h, if_neg h]
        by_cases hp : N.val k.c > 0 <;> cases k.electron <;> simp [hp]
  · have : texifyRate N true k = .ok (m ++ timesTen e ++ texB N true k ++ texC N true k) := by
      unfold texifyRate
      rw [h1]
      rfl
    rw [this]
    unfold templateFrac
    congr 2
    · congr 1
      unfold texB
      by_cases h : N.val k.b = 0
      · rw [if_pos h, if_pos h]
      · rw [if_neg h, if_neg h]
        cases k.electron <;> rfl
    · unfold texC
      by_cases h : N.val k.c = 0
      · rw [if_pos h, if_pos h]
      · rw [if_neg h, if_neg h]
        by_cases hp : N.val k.c > 0 <;> cases k.electron <;> simp [hp]

/-! ### Witnesses -/

/-- three numbers with their formats in Python: 0.0, 2.5 and 300.0 -/
def demo : NumFmt (Fin 3) where
  val := ![0, 5 / 2, 300]
  abs := id
  sci := ![str!"0.00E+00", str!"2.50E+00", str!"3.00E+02"]
  round2 := ![str!"0.0", str!"2.5", str!"300.0"]

theorem demo_lawful : demo.Lawful fun _ => True where
  abs x _ := ⟨trivial, by fin_cases x <;> norm_num [demo]⟩
  round2 x _ := by
    fin_cases x
    · exact ⟨false, str!"0", str!"0", 0, rfl, rfl, rfl, by decide +kernel, by norm_num [demo]⟩
    · exact ⟨false, str!"2", str!"5", 5 / 2, rfl, rfl, rfl, by decide +kernel, by norm_num [demo]⟩
    · exact ⟨false, str!"300", str!"0", 300, rfl, rfl, rfl, by decide +kernel, by norm_num [demo]⟩
  sci x _ h := by
    fin_cases x
    · exact absurd rfl h
    · exact ⟨false, '2', str!"50", str!"+00", 5 / 2, 0, rfl, by decide, rfl, by decide, rfl, rfl, by decide +kernel,
        by norm_num [demo]⟩
    · exact ⟨false, '3', str!"00", str!"+02", 3, 2, rfl, by decide, rfl, by decide, rfl, rfl, by decide +kernel,
        by norm_num [demo]⟩

/-- no energy loss and one of 2.5 eV -/
example : lossCell demo 0 = [] ∧ ∃ q, decVal (lossCell demo 1) = some q ∧ |q - 5 / 2| ≤ 1 / 200 :=
  ⟨(loss_shown demo_lawful trivial).1 rfl, (loss_shown demo_lawful (x := 1) trivial).2 (show (5 / 2 : ℚ) ≠ 0 by norm_num) (by
    rw [show demo.round2 1 = numeral false str!"2" str!"5" from rfl, tenFold_iff rfl rfl]
    decide)⟩

/-- a reaction that meets the hypotheses of `rate_shown` -/
example : ∃ fac e b c, Denotes demo ⟨some 2, 1, 1, true⟩ fac e b c ∧
    texifyRate demo false ⟨some 2, 1, 1, true⟩ = .ok (template true fac e b c) ∧
    texifyRate demo false ⟨some 2, 1, 1, true⟩ =
      .ok str!"3 \\times 10^{2} T_\\mathrm{e}^{2.5} \\exp \\left( -2.5/T_\\mathrm{e} \\right)" := by
  have hno : ¬ TenFold str!"2.5" := by
    rw [show str!"2.5" = numeral false str!"2" str!"5" from rfl, tenFold_iff rfl rfl]
    decide
  obtain ⟨fac, e, b, c, h1, h2, _⟩ := rate_shown demo_lawful (k := ⟨some 2, 1, 1, true⟩) rfl trivial
    (show (300 : ℚ) ≠ 0 by norm_num) trivial trivial (fun _ => hno) (fun _ => hno)
  refine ⟨fac, e, b, c, h1, h2, ?_⟩
  decide +kernel

/-- **The bug.** An activation energy of 300 K is shown as 3 K, and an energy loss of 300 eV as 3. -/
theorem multiple_of_ten_wrong : texifyRate demo false ⟨some 1, 0, 2, false⟩ =
      .ok str!"2.5 \\exp \\left( -3/\\mathrm{T_g} \\right)" ∧ demo.val 2 = 300 ∧
    lossCell demo 2 = str!"3" := by
  refine ⟨by decide +kernel, rfl, by decide +kernel⟩

end Verif.Plaschem.LatexRate
