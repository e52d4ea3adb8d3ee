/-
C52: the order into which `sort_species` brings the species: the electron, then fewer elements first, lighter
elements first, smaller counts first, ground state before excited, neutral before positive before negative; M last.
-/
import Verif.Plaschem.ClassifierHist
import Verif.Plaschem.ClassifyPerm
import Mathlib.Algebra.Order.Field.Basic
import Mathlib.Tactic.Linarith
import Mathlib.Tactic.NormNum

namespace Verif.Plaschem.Classify
open Verif.Plaschem

variable {F : Str → Option (Dict Str Nat)}

/-! ### specification -/

/-- Species for which the sorting key is documented to work: known elements, at most three of them with counts of
at most 9, and a charge of at most 9. -/
structure Sortable (F : Str → Option (Dict Str Nat)) (s : RP) (els : Dict Str Nat) (q : Int) : Prop where
  atoms : s.getAtoms F = .ok els
  charge : s.getCharge = some q
  short : els.length ≤ 3
  known : ∀ p ∈ els, p.1 ∈ elementsOrder
  counts : ∀ p ∈ els, 1 ≤ p.2 ∧ p.2 ≤ 9
  small : -9 ≤ q ∧ q ≤ 9

/-- What is compared, most significant first: number of elements; atomic number and count of each element; whether
excited; negative charge; positive charge. -/
def rank (F : Str → Option (Dict Str Nat)) (s : RP) : List Nat :=
  match s.getAtoms F, s.getCharge with
  | .ok atoms, some q =>
    atoms.length :: (atoms.flatMap fun p => [elementsOrder.idxOf p.1 + 1, p.2]) ++
      [if s.getState = none then 0 else 1, (-q).toNat, q.toNat]
  | _, _ => []

/-- the order of species: M after all others, otherwise by rank -/
def Before (F : Str → Option (Dict Str Nat)) (s t : RP) : Prop :=
  t.name = str!"M" ∨ (s.name ≠ str!"M" ∧ lexLe (rank F s) (rank F t) = true)

/-! ### proof -/

theorem lex_step {W a b x y : Nat} (hx : x < W) (hy : y < W) {l l' : List Nat}
    (h : lexLe l l' = true ↔ x ≤ y) : lexLe (a :: l) (b :: l') = true ↔ a * W + x ≤ b * W + y := by
  simp only [lexLe, Bool.or_eq_true, Bool.and_eq_true, decide_eq_true_eq, h]
  rcases Nat.lt_trichotomy a b with hab | hab | hab
  · have : (a + 1) * W ≤ b * W := Nat.mul_le_mul_right _ hab
    rw [Nat.add_mul, Nat.one_mul] at this
    constructor
    · intro _; omega
    · intro _; exact .inl hab
  · subst hab
    constructor
    · rintro (h | ⟨-, h⟩)
      · omega
      · omega
    · intro h; exact .inr ⟨rfl, by omega⟩
  · have : (b + 1) * W ≤ a * W := Nat.mul_le_mul_right _ hab
    rw [Nat.add_mul, Nat.one_mul] at this
    constructor
    · rintro (h | ⟨h, -⟩) <;> omega
    · intro h; omega

theorem lex_nil : lexLe [] [] = true ↔ (0 : Nat) ≤ 0 := by simp [lexLe]

theorem lex_lt {a b : Nat} {l l' : List Nat} (h : a < b) :
    lexLe (a :: l) (b :: l') = true ∧ lexLe (b :: l') (a :: l) = false := by
  have h1 : ¬ b < a := by omega
  have h2 : b ≠ a := by omega
  simp [lexLe, h, h1, h2]

/-- the three least significant digits -/
def low (s : RP) (q : Int) : Nat := (if s.getState = none then 0 else 1) * 100 + ((-q).toNat * 10 + (q.toNat * 1 + 0))

theorem low_lt {s : RP} {q : Int} (h : -9 ≤ q ∧ q ≤ 9) : low s q < 1000 := by
  unfold low; split <;> omega

theorem low_lex {s t : RP} {q p : Int} (hq : -9 ≤ q ∧ q ≤ 9) (hp : -9 ≤ p ∧ p ≤ 9) :
    lexLe [if s.getState = none then 0 else 1, (-q).toNat, q.toNat]
      [if t.getState = none then 0 else 1, (-p).toNat, p.toNat] = true ↔ low s q ≤ low t p := by
  unfold low
  apply lex_step (by omega) (by omega)
  apply lex_step (by omega) (by omega)
  exact lex_step (by omega) (by omega) lex_nil

/-- the digits of the elements, on top of the digits `x` -/
def digits : Nat → Dict Str Nat → Nat → Nat
  | _, [], x => x
  | w, p :: l, x => (elementsOrder.idxOf p.1 + 1) * (w * 10) + (p.2 * w + digits (w / 1000) l x)

theorem idx_lt {p : Str} (h : p ∈ elementsOrder) : elementsOrder.idxOf p + 1 ≤ 99 := by
  have := List.idxOf_lt_length_of_mem h
  have e : elementsOrder.length = 99 := by decide
  omega

theorem elementNumber_known {p : Str} (h : p ∈ elementsOrder) :
    elementNumber p = .ok (elementsOrder.idxOf p + 1) := by unfold elementNumber; rw [if_pos h]

/-- the symbols of the elements in the order of their atomic numbers, up to californium -/
def periodicTable : List Str :=
  [str!"H", str!"He", str!"Li", str!"Be", str!"B", str!"C", str!"N", str!"O", str!"F", str!"Ne",
   str!"Na", str!"Mg", str!"Al", str!"Si", str!"P", str!"S", str!"Cl", str!"Ar", str!"K", str!"Ca",
   str!"Sc", str!"Ti", str!"V", str!"Cr", str!"Mn", str!"Fe", str!"Co", str!"Ni", str!"Cu", str!"Zn",
   str!"Ga", str!"Ge", str!"As", str!"Se", str!"Br", str!"Kr", str!"Rb", str!"Sr", str!"Y", str!"Zr",
   str!"Nb", str!"Mo", str!"Tc", str!"Ru", str!"Rh", str!"Pd", str!"Ag", str!"Cd", str!"In", str!"Sn",
   str!"Sb", str!"Te", str!"I", str!"Xe", str!"Cs", str!"Ba", str!"La", str!"Ce", str!"Pr", str!"Nd",
   str!"Pm", str!"Sm", str!"Eu", str!"Gd", str!"Tb", str!"Dy", str!"Ho", str!"Er", str!"Tm", str!"Yb",
   str!"Lu", str!"Hf", str!"Ta", str!"W", str!"Re", str!"Os", str!"Ir", str!"Pt", str!"Au", str!"Hg",
   str!"Tl", str!"Pb", str!"Bi", str!"Po", str!"At", str!"Rn", str!"Fr", str!"Ra", str!"Ac", str!"Th",
   str!"Pa", str!"U", str!"Np", str!"Pu", str!"Am", str!"Cm", str!"Bk", str!"Cf"]

/-- **C52.** The number that a symbol contributes to the key of a species is its atomic number, for the elements up to
californium with the exception of scandium and thallium, which have none; M counts as 99, and `SC` as 21. -/
theorem elementNumber_iff (x : Str) (z : Nat) :
    elementNumber x = .ok z ↔
      (0 < z ∧ periodicTable[z - 1]? = some x ∧ x ≠ str!"Sc" ∧ x ≠ str!"Tl") ∨ (x = str!"M" ∧ z = 99) ∨
        (x = str!"SC" ∧ z = 21) := by
  constructor
  · intro h
    unfold elementNumber at h
    by_cases hx : x ∈ elementsOrder
    · rw [if_pos hx] at h
      cases h
      revert x
      decide +kernel
    · rw [if_neg hx] at h; cases h
  · rintro (⟨hz, hx, h1, h2⟩ | ⟨rfl, rfl⟩ | ⟨rfl, rfl⟩)
    · have hk : ∀ i < 98, ∀ y, periodicTable[i]? = some y → y = str!"Sc" ∨ y = str!"Tl" ∨
          (y ∈ elementsOrder ∧ elementsOrder.idxOf y = i) := by
        intro i hi y hy
        have : ∀ i < 98, ∀ y ∈ periodicTable[i]?, y = str!"Sc" ∨ y = str!"Tl" ∨
          (y ∈ elementsOrder ∧ elementsOrder.idxOf y = i) := by decide +kernel
        exact this i hi y hy
      have hl : z - 1 < 98 := by
        have := (List.getElem?_eq_some_iff.1 hx).1
        have e : periodicTable.length = 98 := by decide
        omega
      rcases hk _ hl _ hx with h | h | ⟨hm, hi⟩
      · exact absurd h h1
      · exact absurd h h2
      · unfold elementNumber
        rw [if_pos hm, hi]
        congr 1
        omega
    · rfl
    · rfl

/-- the score of a species with `n` elements and all digits 0 -/
def base : Nat → Int
  | 0 => 1107 + 9999999999999
  | 1 => 1107 + 9999999999999 + 9999999999 + 999999999999 - 1000000000000
  | 2 => 1107 + 9999999999999 + 9999999999 + 999999999999 + 9999999 + 999999999 - 2000000000000
  | _ => 1107 + 9999999999999 + 9999999999 + 999999999999 + 9999999 + 999999999 + 9999 + 999999 - 3000000000000

theorem score_eq {s : RP} {atoms : Dict Str Nat} {q : Int} (h : Sortable F s atoms q) :
    score F s = .ok (base atoms.length - digits 1000000000 atoms (low s q)) := by
  have hl : (9 - (if 0 < q then q else 0)) + (99 + (if q < 0 then 10 * q else 0)) +
      (999 - (if s.getState ≠ none then 100 else 0)) = (1107 : Int) - low s q := by
    unfold low
    by_cases hs : s.getState = none
    · simp only [hs, ne_eq, not_true_eq_false, if_false, if_true]
      split <;> split <;> push_cast <;> omega
    · simp only [hs, ne_eq, not_false_eq_true, if_true, if_false]
      split <;> split <;> push_cast <;> omega
  have hsh := h.short
  have hk := h.known
  unfold score
  rw [h.charge, h.atoms]
  simp only
  match atoms, hsh, hk with
  | [], _, _ => simp only [elementScore, digits, base, List.length_nil]; congr 1; push_cast; omega
  | [a], _, hk =>
    simp only [elementScore, elementBits, elementNumber_known (hk a (by simp)), digits, base, List.length_cons,
      List.length_nil]
    congr 1; push_cast; omega
  | [a, b], _, hk =>
    simp only [elementScore, elementBits, elementNumber_known (hk a (by simp)), elementNumber_known (hk b (by simp)),
      digits, base, List.length_cons, List.length_nil]
    congr 1; push_cast; omega
  | [a, b, c], _, hk =>
    simp only [elementScore, elementBits, elementNumber_known (hk a (by simp)), elementNumber_known (hk b (by simp)),
      elementNumber_known (hk c (by simp)), digits, base, List.length_cons, List.length_nil]
    congr 1; push_cast; omega
  | a :: b :: c :: d :: l, h, _ => simp at h

theorem digits_lex {s t : RP} {q p : Int} {a b : Dict Str Nat} (ha : Sortable F s a q) (hb : Sortable F t b p)
    (hl : a.length = b.length) :
    lexLe (rank F s) (rank F t) = true ↔
      digits 1000000000 a (low s q) ≤ digits 1000000000 b (low t p) := by
  have l1 := low_lt (s := s) ha.small
  have l2 := low_lt (s := t) hb.small
  have hlow := low_lex (s := s) (t := t) ha.small hb.small
  have hsa := ha.short
  have k1 := ha.known
  have c1 := ha.counts
  have k2 := hb.known
  have c2 := hb.counts
  unfold rank
  rw [ha.atoms, ha.charge, hb.atoms, hb.charge]
  simp only
  rw [List.cons_append, List.cons_append]
  have hskip : ∀ {l l' : List Nat}, lexLe (a.length :: l) (b.length :: l') = lexLe l l' := by
    intro l l'; rw [hl]; simp [lexLe]
  rw [hskip]
  match a, b, hl, hsa, k1, c1, k2, c2 with
  | [], [], _, _, _, _, _, _ => exact hlow
  | [x], [u], _, _, k1, c1, k2, c2 =>
    have := idx_lt (k1 x (by simp)); have := idx_lt (k2 u (by simp))
    have := c1 x (by simp); have := c2 u (by simp)
    simp only [List.flatMap_cons, List.flatMap_nil, List.append_nil, digits, List.cons_append, List.nil_append]
    apply lex_step (by omega) (by omega)
    exact lex_step (by omega) (by omega) hlow
  | [x, y], [u, v], _, _, k1, c1, k2, c2 =>
    have := idx_lt (k1 x (by simp)); have := idx_lt (k2 u (by simp))
    have := c1 x (by simp); have := c2 u (by simp)
    have := idx_lt (k1 y (by simp)); have := idx_lt (k2 v (by simp))
    have := c1 y (by simp); have := c2 v (by simp)
    simp only [List.flatMap_cons, List.flatMap_nil, List.append_nil, digits, List.cons_append, List.nil_append]
    apply lex_step (by omega) (by omega)
    apply lex_step (by omega) (by omega)
    apply lex_step (by omega) (by omega)
    exact lex_step (by omega) (by omega) hlow
  | [x, y, z], [u, v, w], _, _, k1, c1, k2, c2 =>
    have := idx_lt (k1 x (by simp)); have := idx_lt (k2 u (by simp))
    have := c1 x (by simp); have := c2 u (by simp)
    have := idx_lt (k1 y (by simp)); have := idx_lt (k2 v (by simp))
    have := c1 y (by simp); have := c2 v (by simp)
    have := idx_lt (k1 z (by simp)); have := idx_lt (k2 w (by simp))
    have := c1 z (by simp); have := c2 w (by simp)
    simp only [List.flatMap_cons, List.flatMap_nil, List.append_nil, digits, List.cons_append, List.nil_append]
    apply lex_step (by omega) (by omega)
    apply lex_step (by omega) (by omega)
    apply lex_step (by omega) (by omega)
    apply lex_step (by omega) (by omega)
    apply lex_step (by omega) (by omega)
    exact lex_step (by omega) (by omega) hlow
  | _ :: _ :: _ :: _ :: _, _, _, h, _, _, _, _ => simp at h

/-- the scores of species with `n` elements -/
theorem digits_range {s : RP} {q : Int} {a : Dict Str Nat} (h : Sortable F s a q) :
    (a.length = 0 ∧ digits 1000000000 a (low s q) < 1000) ∨
    (a.length = 1 ∧ 11000000000 ≤ digits 1000000000 a (low s q) ∧ digits 1000000000 a (low s q) < 1000000000000) ∨
    (a.length = 2 ∧ 11011000000 ≤ digits 1000000000 a (low s q) ∧ digits 1000000000 a (low s q) < 1000000000000) ∨
    (a.length = 3 ∧ 11011011000 ≤ digits 1000000000 a (low s q) ∧ digits 1000000000 a (low s q) < 1000000000000) := by
  have l1 := low_lt (s := s) h.small
  have hsa := h.short
  have k1 := h.known
  have c1 := h.counts
  match a, hsa, k1, c1 with
  | [], _, _, _ => exact .inl ⟨rfl, l1⟩
  | [x], _, k1, c1 =>
    have := idx_lt (k1 x (by simp)); have := c1 x (by simp)
    refine .inr (.inl ⟨rfl, ?_⟩)
    simp only [digits]
    omega
  | [x, y], _, k1, c1 =>
    have := idx_lt (k1 x (by simp)); have := c1 x (by simp)
    have := idx_lt (k1 y (by simp)); have := c1 y (by simp)
    refine .inr (.inr (.inl ⟨rfl, ?_⟩))
    simp only [digits]
    omega
  | [x, y, z], _, k1, c1 =>
    have := idx_lt (k1 x (by simp)); have := c1 x (by simp)
    have := idx_lt (k1 y (by simp)); have := c1 y (by simp)
    have := idx_lt (k1 z (by simp)); have := c1 z (by simp)
    refine .inr (.inr (.inr ⟨rfl, ?_⟩))
    simp only [digits]
    omega
  | _ :: _ :: _ :: _ :: _, h, _, _ => simp at h

theorem score_pos {s : RP} {q : Int} {a : Dict Str Nat} (h : Sortable F s a q) :
    1000000000000 < base a.length - digits 1000000000 a (low s q) := by
  rcases digits_range h with ⟨e, r⟩ | ⟨e, r⟩ | ⟨e, r⟩ | ⟨e, r⟩ <;> rw [e] <;> simp only [base] <;> omega

theorem score_lex {s t : RP} {q p : Int} {a b : Dict Str Nat} (ha : Sortable F s a q) (hb : Sortable F t b p) :
    base b.length - (digits 1000000000 b (low t p) : Int) ≤ base a.length - digits 1000000000 a (low s q) ↔
      lexLe (rank F s) (rank F t) = true := by
  by_cases hl : a.length = b.length
  · rw [digits_lex ha hb hl, hl]; omega
  · have hr : ∀ {l l' : List Nat}, lexLe (a.length :: l) (b.length :: l') = true ↔ a.length < b.length := by
      intro l l'
      rcases Nat.lt_or_gt_of_ne hl with h | h
      · exact ⟨fun _ => h, fun _ => (lex_lt h).1⟩
      · rw [(lex_lt h).2]; constructor
        · intro h; cases h
        · intro h'; omega
    unfold rank
    rw [ha.atoms, ha.charge, hb.atoms, hb.charge]
    simp only
    rw [List.cons_append, List.cons_append, hr]
    rcases digits_range ha with ⟨e, r⟩ | ⟨e, r⟩ | ⟨e, r⟩ | ⟨e, r⟩ <;>
      rcases digits_range hb with ⟨e', r'⟩ | ⟨e', r'⟩ | ⟨e', r'⟩ | ⟨e', r'⟩ <;>
      rw [e, e'] at hl ⊢ <;> simp only [base] <;> omega

theorem key_sortable {s : RP} {q : Int} {a : Dict Str Nat} (h : Sortable F s a q) (hM : s.name ≠ str!"M") :
    speciesKey F s = .ok (1 / ((base a.length - digits 1000000000 a (low s q) : Int) : ℚ)) := by
  have := score_pos h
  unfold speciesKey
  rw [if_neg hM, score_eq h]
  simp only
  rw [if_neg (by omega)]

theorem key_M {s : RP} (hM : s.name = str!"M") : speciesKey F s = .ok 10 := by
  unfold speciesKey; rw [if_pos hM]

/-- **C52.** Ascending keys are the documented order of species. -/
theorem key_order {s t : RP} (hs : s.name = str!"M" ∨ ∃ a q, Sortable F s a q)
    (ht : t.name = str!"M" ∨ ∃ a q, Sortable F t a q) :
    ∃ x y, speciesKey F s = .ok x ∧ speciesKey F t = .ok y ∧ (x ≤ y ↔ Before F s t) := by
  have hlt : ∀ {s : RP} {a : Dict Str Nat} {q : Int}, Sortable F s a q →
      (1 : ℚ) / ((base a.length - digits 1000000000 a (low s q) : Int) : ℚ) < 10 := by
    intro s a q h
    have := score_pos h
    have h' : (1000000000000 : ℚ) < ((base a.length - digits 1000000000 a (low s q) : Int) : ℚ) := by
      exact_mod_cast this
    rw [div_lt_iff₀ (by linarith)]
    linarith
  by_cases hM : s.name = str!"M"
  · by_cases hN : t.name = str!"M"
    · exact ⟨10, 10, key_M hM, key_M hN, by simp [Before, hN]⟩
    · obtain ⟨b, p, hb⟩ := ht.resolve_left hN
      refine ⟨10, _, key_M hM, key_sortable hb hN, ?_⟩
      have := hlt hb
      simp only [Before, hN, hM, ne_eq, not_true_eq_false, false_and, or_self, iff_false, not_le]
      exact this
  · obtain ⟨a, q, ha⟩ := hs.resolve_left hM
    by_cases hN : t.name = str!"M"
    · refine ⟨_, 10, key_sortable ha hM, key_M hN, ?_⟩
      have := (hlt ha).le
      simp only [Before, hN, true_or, iff_true]
      exact this
    · obtain ⟨b, p, hb⟩ := ht.resolve_left hN
      refine ⟨_, _, key_sortable ha hM, key_sortable hb hN, ?_⟩
      have e : Before F s t ↔ lexLe (rank F s) (rank F t) = true := by simp [Before, hN, hM]
      rw [e, ← score_lex ha hb]
      have p1 : (0 : ℚ) < ((base a.length - digits 1000000000 a (low s q) : Int) : ℚ) := by
        exact_mod_cast lt_trans (by norm_num) (score_pos ha)
      have p2 : (0 : ℚ) < ((base b.length - digits 1000000000 b (low t p) : Int) : ℚ) := by
        exact_mod_cast lt_trans (by norm_num) (score_pos hb)
      rw [one_div_le_one_div p1 p2]
      exact_mod_cast Iff.rfl

/-- **C52.** After any history of calls, sorting species that are all within the documented limits succeeds and
brings them into the documented order; species of the same rank keep their order. -/
theorem species_in_order {S : List RP} {R : List Reaction} (hI : Ids S R) {ops : List Clf.Op}
    (ho : ∀ op ∈ ops, op.On R) (hS : ∀ s ∈ S, s.name = str!"M" ∨ ∃ a q, Sortable F s a q) :
    let c := (Clf.new S R).run F ops
    (c.sortSpecies F).1 = .ok () ∧ (c.sortSpecies F).2.species.Perm S ∧
    (c.sortSpecies F).2.species.Pairwise (Before F) := by
  intro c
  obtain ⟨hp, -, h, -, -, -⟩ := sorting_of_history (F := F) hI ho
  obtain ⟨h1, h2⟩ := h (fun s hs => by
    obtain ⟨x, _, hx, -, -⟩ := key_order (hS s hs) (hS s hs)
    exact ⟨x, hx⟩)
  have hperm : (c.sortSpecies F).2.species.Perm S := h2.perm.trans hp
  refine ⟨h1, hperm, ?_⟩
  refine h2.sorted.imp_of_mem ?_
  intro s t hs ht hle
  obtain ⟨x, y, hx, hy, hxy⟩ := key_order (hS s (hperm.mem_iff.1 hs)) (hS t (hperm.mem_iff.1 ht))
  apply hxy.1
  unfold keyOf at hle
  rw [hx, hy] at hle
  exact hle

end Verif.Plaschem.Classify

/-! ### concrete cases -/

namespace Verif.Plaschem.DemoC
open Classify
open DemoR (F e M O O2 O2m)

def S : List RP := [O, Ar, e, M]
def r1 : Reaction := { id := 1, reactants := [e, O], products := [e, O], specialNumber := some 10, elastic := some true }
def r2 : Reaction := { id := 2, reactants := [Ar, e], products := [e, Ar], specialNumber := some 10, elastic := some true }
def R : List Reaction := [r2, r1]

theorem ids : Ids S R := ⟨by decide, by decide, by decide⟩

theorem classifiable : ∀ r ∈ R, ∃ k, classify r = .ok k := by
  intro r hr
  have : r = r2 ∨ r = r1 := by simpa [R] using hr
  rcases this with rfl | rfl
  · exact ⟨(.electron, .elastic), by decide +kernel⟩
  · exact ⟨(.electron, .elastic), by decide +kernel⟩

theorem sortable : ∀ s ∈ S, s.name = str!"M" ∨ ∃ a q, Sortable F s a q := by
  intro s hs
  have : s = O ∨ s = Ar ∨ s = e ∨ s = M := by simpa [S] using hs
  rcases this with rfl | rfl | rfl | rfl
  · exact .inr ⟨[(str!"O", 1)], 0, rfl, rfl, by decide, by decide, by decide, by decide⟩
  · exact .inr ⟨[(str!"Ar", 1)], 0, rfl, rfl, by decide, by decide, by decide, by decide⟩
  · exact .inr ⟨[], -1, rfl, rfl, by decide, by decide, by decide, by decide⟩
  · exact .inl rfl

/-- the order that the sorting theorem speaks of -/
example : Before F e O ∧ Before F O Ar ∧ Before F Ar M ∧ ¬ Before F M Ar ∧ ¬ Before F Ar O :=
  ⟨.inr (by decide +kernel), .inr (by decide +kernel), .inl rfl, by unfold Before; decide +kernel,
    by unfold Before; decide +kernel⟩

/-- neutral, positive ion, excited, in this order -/
example : Before F Ar ArP ∧ Before F ArP ArX ∧ Before F Ar ArX ∧ ¬ Before F ArX ArP :=
  ⟨.inr (by decide +kernel), .inr (by decide +kernel), .inr (by decide +kernel), by unfold Before; decide +kernel⟩

example := listing_of_history (F := F) ids (ops := [.sortSpecies, .aligned r1, .sortReactions])
  (by simp [Clf.Op.On, R])
example := species_in_order (F := F) ids (ops := [.getClassified, .aligned r1])
  (by simp [Clf.Op.On, R]) sortable

/-- what the strings look like: sort, list, print -/
theorem strings :
    (((Clf.new S R).run F [.sortSpecies, .sortReactions, .getClassified]).aligned r1).1 =
      .ok str!"e + O  > e + O " ∧
    (((Clf.new S R).run F [.sortSpecies, .sortReactions, .getClassified, .aligned r1]).aligned r2).1 =
      .ok str!"e + Ar > e + Ar" := by decide +kernel

/-- the hypotheses of the theorem on columns are met by this history -/
example := strings_line_up (F := F) ids classifiable (prep := [.sortSpecies, .sortReactions, .getClassified])
  (print := []) (more := []) (by simp [Clf.Op.Prepares]) (by simp) (by simp) (r := r1) (q := r2) (by decide) (by decide)
  (by decide +kernel) strings.1 strings.2

/-- finding: the column widths and names survive another sort, so sorting after printing spoils the columns: the
two strings no longer have the same length -/
theorem stale_columns :
    let ops : List Clf.Op := [.getClassified, .aligned r1, .sortSpecies, .sortReactions, .getClassified]
    (((Clf.new S R).run F ops).aligned r1).1 = .ok str!"e  + O > e  + O" ∧
    (((Clf.new S R).run F (ops ++ [.aligned r1])).aligned r2).1 = .ok str!"e  + Ar > e  + Ar" := by decide +kernel

/-- and sorting the species alone has no effect on the strings -/
theorem stale_names :
    (((Clf.new S R).run F [.sortReactions, .sortSpecies, .getClassified]).aligned r1).1 =
      .ok str!"O  + e > O  + e" := by decide +kernel

/-! findings on the limits of the sorting key -/

/-- a parser that knows scandium and two big molecules -/
def G (n : Str) : Option (Dict Str Nat) :=
  if n = str!"Sc" then some [(str!"Sc", 1)]
  else if n = str!"C12" then some [(str!"C", 12)]
  else if n = str!"N" then some [(str!"N", 1)]
  else if n = str!"CHFCl" then some [(str!"C", 1), (str!"H", 1), (str!"F", 1), (str!"Cl", 1)]
  else none

def Sc : RP := { oid := 1, id := 1, name := str!"Sc", mass := some 45 }
def C12 : RP := { oid := 2, id := 2, name := str!"C12", mass := some 144 }
def N : RP := { oid := 3, id := 3, name := str!"N", mass := some 14 }
def CHFCl : RP := { oid := 4, id := 4, name := str!"CHFCl", mass := some 67 }

/-- scandium (misspelt in the table) and species of four elements cannot be sorted -/
theorem unsortable : speciesKey G Sc = .error .valueError ∧ speciesKey G CHFCl = .error .notImplemented := by
  decide +kernel

/-- counts above 9 spill over into the next digit: carbon then sorts behind nitrogen -/
theorem count_overflow : lexLe (rank G C12) (rank G N) = true ∧
    ((Clf.new [C12, N] []).sortSpecies G).2.species = [N, C12] := by decide +kernel

end Verif.Plaschem.DemoC
