/-
Properties C11, C12, C15-C17 and C56: stoichiometry, elastic flag, charge suffixes, surface defaults.
-/
import Verif.Plaschem.ReactProps

namespace Verif.Plaschem

/-! ### a concrete formula parser and reaction for the examples -/
namespace DemoR

/-- parser that knows Ar, O and O2 -/
def F (n : Str) : Option (Dict Str Nat) :=
  if n = str!"Ar" then some [(str!"Ar", 1)]
  else if n = str!"O" then some [(str!"O", 1)]
  else if n = str!"O2" then some [(str!"O", 2)]
  else none

theorem goodF : GoodParser F := by
  intro n d h
  unfold F at h
  split at h
  · cases h; exact ⟨by decide, by decide⟩
  split at h
  · cases h; exact ⟨by decide, by decide⟩
  split at h
  · cases h; exact ⟨by decide, by decide⟩
  cases h

def e : RP := { oid := 0, id := 0, name := str!"e", charge := some (-1), mass := some 1 }
def M : RP := { oid := 1, id := 999, name := str!"M" }
def O : RP := { oid := 2, id := 1, name := str!"O", mass := some 16 }
def O2 : RP := { oid := 3, id := 2, name := str!"O2", mass := some 32 }
def O2m : RP := { oid := 4, id := 3, name := str!"O2-", mass := some 32, charge := some (-1) }
def args : ReactionArgs :=
  { id := 1, reactants := [O2, e], products := [O, O, e], arrhA := some (some 3),
    unitA := some str!"cm3.s-1" }
def r : Reaction :=
  { id := 1, reactants := [O2, e], products := [O, O, e], arrhA := some 3,
    arrhAUnit := some str!"cm3.s-1" }

theorem init_ok : Reaction.init F args = .ok r := by rfl

example : Balanced F r.reactants r.products := (reaction_init_balanced goodF init_ok).1

/-- an unbalanced reaction is rejected -/
example : Reaction.init F { args with products := [O, e] } = .error .reactionValue := by rfl

end DemoR

/-! ### C11 -/

/-- `keys` are the distinct members of `xs` in the order of their first occurrence. -/
def FirstOccurrences (keys xs : List Nat) : Prop :=
  keys.Nodup ∧ (∀ i, i ∈ keys ↔ i ∈ xs) ∧ keys.Pairwise (fun a b => xs.idxOf a < xs.idxOf b)

private theorem orderedSet_first (xs : List Nat) : FirstOccurrences (orderedSet xs) xs := by
  refine ⟨(nodup_orderedSet _), fun i => mem_orderedSet _ _, ?_⟩
  induction xs with
  | nil => exact List.Pairwise.nil
  | cons x xs ih =>
    unfold orderedSet
    rw [List.pairwise_cons]
    constructor
    · intro b hb
      have : b ≠ x := by simpa using (List.mem_filter.1 hb).2
      rw [List.idxOf_cons_self, List.idxOf_cons_ne _ (Ne.symm this)]
      omega
    · have h1 := ih.sublist (List.filter_sublist (p := fun y => decide (y ≠ x)) (l := orderedSet xs))
      refine h1.imp_of_mem ?_
      intro a b ha hb hab
      have ha' : a ≠ x := by simpa using (List.mem_filter.1 ha).2
      have hb' : b ≠ x := by simpa using (List.mem_filter.1 hb).2
      rw [List.idxOf_cons_ne _ (Ne.symm ha'), List.idxOf_cons_ne _ (Ne.symm hb')]
      omega

private theorem bumpAll_spec (δ : Int) (l : List RP) (d : Dict Nat Int)
    (hl : ∀ s ∈ l, s.id ∈ d.keys) :
    ∃ d', Reaction.bumpAll δ l d = .ok d' ∧ d'.keys = d.keys ∧
      ∀ i v, d.get? i = some v → d'.get? i = some (v + δ * ((l.map RP.id).count i : Int)) := by
  induction l generalizing d with
  | nil => exact ⟨d, rfl, rfl, fun i v h => by simp [h]⟩
  | cons s l ih =>
    obtain ⟨v0, hv0⟩ := (Dict.mem_keys_iff d s.id).1 (hl s (by simp))
    unfold Reaction.bumpAll
    simp only [Reaction.bump, hv0]
    have hk : (d.set s.id (v0 + δ)).keys = d.keys := by
      rw [Dict.keys_set, if_pos (hl s (by simp))]
    obtain ⟨d', h1, h2, h3⟩ := ih (d.set s.id (v0 + δ))
      (fun t ht => by rw [hk]; exact hl t (by simp [ht]))
    refine ⟨d', h1, h2.trans hk, fun i v hi => ?_⟩
    by_cases h : s.id = i
    · subst h
      rw [hv0] at hi; cases hi
      rw [h3 s.id (v0 + δ) (by rw [Dict.get?_set]; simp)]
      simp only [List.map_cons, List.count_cons_self]
      push_cast
      congr 1; ring
    · rw [h3 i v (by rw [Dict.get?_set, if_neg h]; exact hi)]
      rw [List.map_cons, List.count_cons_of_ne h]

private theorem zero_keys (ids : List Nat) :
    Dict.keys (ids.map (fun i => (i, (0 : Int)))) = ids := by
  induction ids with
  | nil => rfl
  | cons i ids ih => exact congrArg (i :: ·) ih

private theorem zero_get {ids : List Nat} {i : Nat} (h : i ∈ ids) :
    Dict.get? (ids.map (fun i => (i, (0 : Int)))) i = some 0 := by
  induction ids with
  | nil => cases h
  | cons j ids ih =>
    rw [List.map_cons, Dict.get?_cons]
    split
    · rfl
    · rename_i hne
      rcases List.mem_cons.1 h with rfl | h
      · exact absurd rfl hne
      · exact ih h

/-- **C11.** Left-hand coefficients: every reactant once, in order of first occurrence, with its
multiplicity. -/
theorem stoich_lhs (r : Reaction) : ∃ d, r.getStoichCoefs .lhs = .ok d ∧
    FirstOccurrences d.keys (r.reactants.map RP.id) ∧
    ∀ i ∈ d.keys, d.get? i = some ((r.reactants.map RP.id).count i : Int) := by
  obtain ⟨d, h1, h2, h3⟩ := bumpAll_spec 1 r.reactants
    ((orderedSet (r.reactants.map RP.id)).map (fun i => (i, 0)))
    (fun s hs => by rw [zero_keys]; exact (mem_orderedSet _ _).2 (List.mem_map_of_mem hs))
  rw [zero_keys] at h2
  refine ⟨d, h1, by rw [h2]; exact orderedSet_first _, fun i hi => ?_⟩
  rw [h2] at hi
  rw [h3 i 0 (zero_get hi)]; simp

/-- **C11.** Right-hand coefficients. -/
theorem stoich_rhs (r : Reaction) : ∃ d, r.getStoichCoefs .rhs = .ok d ∧
    FirstOccurrences d.keys (r.products.map RP.id) ∧
    ∀ i ∈ d.keys, d.get? i = some ((r.products.map RP.id).count i : Int) := by
  obtain ⟨d, h1, h2, h3⟩ := bumpAll_spec 1 r.products
    ((orderedSet (r.products.map RP.id)).map (fun i => (i, 0)))
    (fun s hs => by rw [zero_keys]; exact (mem_orderedSet _ _).2 (List.mem_map_of_mem hs))
  rw [zero_keys] at h2
  refine ⟨d, h1, by rw [h2]; exact orderedSet_first _, fun i hi => ?_⟩
  rw [h2] at hi
  rw [h3 i 0 (zero_get hi)]; simp

/-- **C11.** Net coefficients: every species of the reaction once, in order of first occurrence, with
multiplicity among the products minus multiplicity among the reactants. -/
theorem stoich_net (r : Reaction) : ∃ d, r.getStoichCoefs .net = .ok d ∧
    FirstOccurrences d.keys (r.reactants.map RP.id ++ r.products.map RP.id) ∧
    ∀ i ∈ d.keys, d.get? i =
      some (((r.products.map RP.id).count i : Int) - ((r.reactants.map RP.id).count i : Int)) := by
  let K := orderedSet (r.reactants.map RP.id ++ r.products.map RP.id)
  obtain ⟨d, h1, h2, h3⟩ := bumpAll_spec 1 r.products (K.map (fun i => (i, 0)))
    (fun s hs => by
      rw [zero_keys]; exact (mem_orderedSet _ _).2 (List.mem_append_right _ (List.mem_map_of_mem hs)))
  rw [zero_keys] at h2
  obtain ⟨d', h1', h2', h3'⟩ := bumpAll_spec (-1) r.reactants d
    (fun s hs => by
      rw [h2]; exact (mem_orderedSet _ _).2 (List.mem_append_left _ (List.mem_map_of_mem hs)))
  refine ⟨d', ?_, by rw [h2', h2]; exact orderedSet_first _, fun i hi => ?_⟩
  · show (match Reaction.bumpAll 1 r.products (K.map (fun i => (i, 0))) with
      | .ok d => Reaction.bumpAll (-1) r.reactants d
      | .error e => .error e) = .ok d'
    rw [h1]; exact h1'
  · rw [h2', h2] at hi
    rw [h3' i _ (h3 i 0 (zero_get hi))]
    congr 1; ring

/-- **C11.** Any other method is an error. -/
theorem stoich_other (r : Reaction) :
    r.getStoichCoefs .all = .error .reactionValue ∧ r.getStoichCoefs .other = .error .reactionValue :=
  ⟨rfl, rfl⟩

example : DemoR.r.getStoichCoefs .net = .ok [(2, -1), (0, 0), (1, 2)] := by rfl

/-! ### C12 -/

private theorem sum_zero (K : List Nat) : (K.map (fun _ => (0 : Int))).sum = 0 := by simp

private theorem sum_single {K : List Nat} (hK : K.Nodup) {x : Nat} (hx : x ∈ K) (c : Int) :
    (K.map (fun i => if x = i then c else 0)).sum = c := by
  induction K with
  | nil => cases hx
  | cons k K ih =>
    rw [List.nodup_cons] at hK
    rw [List.map_cons, List.sum_cons]
    by_cases h : x = k
    · subst h
      have : ∀ i ∈ K, (if x = i then c else 0) = 0 := by
        intro i hi
        have : x ≠ i := fun h => hK.1 (h ▸ hi)
        simp [this]
      rw [List.map_congr_left this, sum_zero]; simp
    · have hx' : x ∈ K := by
        rcases List.mem_cons.1 hx with h' | h'
        · exact absurd h' h
        · exact h'
      rw [ih hK.2 hx']; simp [h]

/-- summing multiplicity times weight over the distinct members is summing the weight over the list -/
theorem sum_count_mul {K : List Nat} (hK : K.Nodup) (l : List Nat) (hl : ∀ x ∈ l, x ∈ K)
    (w : Nat → Int) : (K.map (fun i => (l.count i : Int) * w i)).sum = (l.map w).sum := by
  induction l with
  | nil => simp
  | cons x l ih =>
    have hx := hl x (by simp)
    rw [List.map_cons, List.sum_cons, ← ih (fun y hy => hl y (by simp [hy])),
      ← sum_single hK hx (w x), ← List.sum_map_add]
    congr 1
    apply List.map_congr_left
    intro i _
    by_cases h : x = i
    · subst h; simp; ring
    · rw [List.count_cons_of_ne h]; simp [h]

private theorem dict_sum {d : Dict Nat Int} (hk : d.keys.Nodup) {f : Nat → Int}
    (hd : ∀ i ∈ d.keys, d.get? i = some (f i)) (w : Nat → Int) :
    (d.map (fun p => p.2 * w p.1)).sum = (d.keys.map (fun i => f i * w i)).sum := by
  unfold Dict.keys
  rw [List.map_map]
  congr 1
  apply List.map_congr_left
  intro p hp
  have h1 := Dict.get?_of_mem hk hp
  have h2 := hd p.1 (List.mem_map_of_mem hp)
  rw [h1] at h2
  simp only [Option.some.injEq] at h2
  simp [h2]

/-- the net coefficients weighted with any species property sum to products minus reactants -/
theorem net_weighted_sum (r : Reaction) (w : Nat → Int) : ∃ d, r.getStoichCoefs .net = .ok d ∧
    (d.map (fun p => p.2 * w p.1)).sum =
      (r.products.map (fun s => w s.id)).sum - (r.reactants.map (fun s => w s.id)).sum := by
  obtain ⟨d, h1, h2, h3⟩ := stoich_net r
  refine ⟨d, h1, ?_⟩
  rw [dict_sum h2.1 h3]
  have e1 := sum_count_mul h2.1 (r.products.map RP.id)
    (fun x hx => (h2.2.1 x).2 (List.mem_append_right _ hx)) w
  have e2 := sum_count_mul h2.1 (r.reactants.map RP.id)
    (fun x hx => (h2.2.1 x).2 (List.mem_append_left _ hx)) w
  rw [List.map_map] at e1 e2
  have e3 : (r.products.map (fun s => w s.id)).sum - (r.reactants.map (fun s => w s.id)).sum =
    (d.keys.map (fun i => ((r.products.map RP.id).count i : Int) * w i)).sum -
    (d.keys.map (fun i => ((r.reactants.map RP.id).count i : Int) * w i)).sum := by
    rw [e1, e2]; rfl
  rw [e3]
  generalize d.keys = K
  induction K with
  | nil => simp
  | cons k K ih => simp only [List.map_cons, List.sum_cons, ih]; ring

/-- **C12.** For every accepted reaction in which ids identify species, the net coefficients weighted
by charge, and weighted by the number of atoms of any element, sum to zero. `q` and `n` give charge and
atom count by species id. -/
theorem net_conserves {F : Str → Option (Dict Str Nat)} (hF : GoodParser F) {a : ReactionArgs}
    {r : Reaction} (h : Reaction.init F a = .ok r) {q : Nat → Int}
    (hq : ∀ s ∈ r.reactants ++ r.products, q s.id = s.chargeOf) (el : Str) {n : Nat → Int}
    (hn : ∀ s ∈ r.reactants ++ r.products, n s.id = (s.atomCount F el : Int)) :
    ∃ d, r.getStoichCoefs .net = .ok d ∧ (d.map (fun p => p.2 * q p.1)).sum = 0 ∧
      (d.map (fun p => p.2 * n p.1)).sum = 0 := by
  obtain ⟨hb, -⟩ := reaction_init_balanced hF h
  obtain ⟨d, h1, h2⟩ := net_weighted_sum r q
  obtain ⟨d', h1', h2'⟩ := net_weighted_sum r n
  have : d = d' := by rw [h1] at h1'; cases h1'; rfl
  subst this
  refine ⟨d, h1, ?_, ?_⟩
  · rw [h2, List.map_congr_left (fun s hs => hq s (List.mem_append_right _ hs)),
      List.map_congr_left (fun s hs => hq s (List.mem_append_left _ hs)), hb.1]
    ring
  · rw [h2', List.map_congr_left (fun s hs => hn s (List.mem_append_right _ hs)),
      List.map_congr_left (fun s hs => hn s (List.mem_append_left _ hs))]
    have cast : ∀ l : List RP, (l.map (fun s => (s.atomCount F el : Int))).sum =
        (((l.map (fun s => s.atomCount F el)).sum : Nat) : Int) := by
      intro l; induction l with
      | nil => rfl
      | cons x l ih => simp only [List.map_cons, List.sum_cons, ih]; push_cast; rfl
    rw [cast, cast, hb.2 el]; ring

/-- the hypotheses are met by O2 + e > 2 O + e -/
example : ∃ d, DemoR.r.getStoichCoefs .net = .ok d ∧
    (d.map (fun p => p.2 * (fun i => if i = 0 then (-1 : Int) else 0) p.1)).sum = 0 ∧
    (d.map (fun p => p.2 * (fun i => if i = 1 then (1 : Int) else if i = 2 then 2 else 0) p.1)).sum = 0 :=
  net_conserves DemoR.goodF DemoR.init_ok (q := fun i => if i = 0 then (-1 : Int) else 0) (by decide)
    str!"O" (n := fun i => if i = 1 then (1 : Int) else if i = 2 then 2 else 0) (by decide)

/-! ### C15 -/

/-- **C15.** Equal sides (as multisets of names) are elastic by default. -/
theorem elastic_of_same_sides (r : Reaction) (hnone : r.elastic = none)
    (h : (r.reactants.map RP.name).Perm (r.products.map RP.name)) : r.getElastic = true := by
  unfold Reaction.getElastic
  simp only [hnone, Bool.and_eq_true, List.all_eq_true, decide_eq_true_eq]
  exact ⟨fun n hn => h.mem_iff.1 hn, fun n hn => h.mem_iff.2 hn⟩

/-- **C15.** If no species is repeated on a side, only reactions with equal sides are elastic by
default. -/
theorem elastic_iff_same_sides (r : Reaction) (hnone : r.elastic = none)
    (h1 : (r.reactants.map RP.name).Nodup) (h2 : (r.products.map RP.name).Nodup) :
    r.getElastic = true ↔ (r.reactants.map RP.name).Perm (r.products.map RP.name) := by
  refine ⟨fun h => ?_, elastic_of_same_sides r hnone⟩
  unfold Reaction.getElastic at h
  simp only [hnone, Bool.and_eq_true, List.all_eq_true, decide_eq_true_eq] at h
  exact (List.perm_ext_iff_of_nodup h1 h2).2 (fun n => ⟨h.1 n, h.2 n⟩)

/-- excited atom used as a witness below -/
def DemoR.OX : RP :=
  { oid := 5, id := 4, name := str!"O*", mass := some 16, stateless := some str!"O", state := some str!"1D" }

/-- **C15, limit.** Multiplicities are ignored: O + O + O* > O + O* + O* is accepted and called elastic
by default although its net coefficients do not vanish. -/
theorem elastic_ignores_multiplicity : ∃ F a r, GoodParser F ∧ Reaction.init F a = .ok r ∧
    r.elastic = none ∧ r.getElastic = true ∧
    ∃ d, r.getStoichCoefs .net = .ok d ∧ ∃ i v, d.get? i = some v ∧ v ≠ 0 :=
  ⟨DemoR.F,
    { id := 1, reactants := [DemoR.O, DemoR.O, DemoR.OX], products := [DemoR.O, DemoR.OX, DemoR.OX],
      arrhA := some (some 1), unitA := some str!"cm6.s-1" },
    { id := 1, reactants := [DemoR.O, DemoR.O, DemoR.OX], products := [DemoR.O, DemoR.OX, DemoR.OX],
      arrhA := some 1, arrhAUnit := some str!"cm6.s-1" },
    DemoR.goodF, rfl, rfl, rfl, [(1, -1), (4, 1)], rfl, 1, -1, rfl, by decide⟩

/-! ### C16 -/

/-- `s` ends in a sign -/
def EndsInSign (s : Str) : Prop := ∃ t c, s = t ++ [c] ∧ (c = '+' ∨ c = '-')

/-- `s` ends in a sign followed by digits -/
def EndsInSignDigits (s : Str) : Prop :=
  ∃ t c ds, s = t ++ c :: ds ∧ (c = '+' ∨ c = '-') ∧ ds ≠ [] ∧ ∀ d ∈ ds, '0' ≤ d ∧ d ≤ '9'

private theorem isSign_iff (c : Char) : isSign c = true ↔ c = '+' ∨ c = '-' := by
  simp [isSign]

private theorem isDigit_iff (c : Char) : isDigit c = true ↔ '0' ≤ c ∧ c ≤ '9' := by
  simp [isDigit]

private theorem matchSigns_iff (s : Str) :
    matchSigns s = true ↔ s ≠ [] ∧ ∀ c ∈ s, c = '+' ∨ c = '-' := by
  simp [matchSigns, isSign_iff]

private theorem matchSignDigits_iff (s : Str) : matchSignDigits s = true ↔
    ∃ c ds, s = c :: ds ∧ (c = '+' ∨ c = '-') ∧ ds ≠ [] ∧ ∀ d ∈ ds, '0' ≤ d ∧ d ≤ '9' := by
  unfold matchSignDigits
  split
  · rename_i c d ds
    simp only [Bool.and_eq_true, isSign_iff, List.all_eq_true, isDigit_iff]
    constructor
    · rintro ⟨h1, h2⟩; exact ⟨c, d :: ds, rfl, h1, by simp, h2⟩
    · rintro ⟨c', ds', h, h1, -, h2⟩
      cases h; exact ⟨h1, h2⟩
  · rename_i h
    constructor
    · intro h; cases h
    · rintro ⟨c, ds, rfl, -, hne, -⟩
      obtain ⟨d, ds', rfl⟩ := List.exists_cons_of_ne_nil hne
      exact absurd rfl (h c d ds')

private theorem not_sign_of_digit {c : Char} (h : '0' ≤ c ∧ c ≤ '9') : ¬ (c = '+' ∨ c = '-') := by
  rintro (rfl | rfl)
  · exact absurd h.1 (by decide)
  · exact absurd h.1 (by decide)

/-- **C16.** Complete description of `strip_charge`: it removes a maximal trailing run of signs, or a
sign followed by digits, or nothing, in the latter case only if the name has neither ending. -/
theorem stripCharge_cases (s : Str) :
    (∃ sg, sg ≠ [] ∧ (∀ c ∈ sg, c = '+' ∨ c = '-') ∧ s = stripCharge s ++ sg ∧
      ¬ EndsInSign (stripCharge s)) ∨
    (∃ c ds, (c = '+' ∨ c = '-') ∧ ds ≠ [] ∧ (∀ d ∈ ds, '0' ≤ d ∧ d ≤ '9') ∧
      s = stripCharge s ++ c :: ds) ∨
    (stripCharge s = s ∧ ¬ EndsInSign s ∧ ¬ EndsInSignDigits s) := by
  induction s with
  | nil =>
    refine .inr (.inr ⟨rfl, ?_, ?_⟩)
    · rintro ⟨t, c, h, -⟩; simp at h
    · rintro ⟨t, c, ds, h, -⟩; simp at h
  | cons x s ih =>
    unfold stripCharge
    by_cases h1 : matchSigns (x :: s) = true
    · simp only [h1, Bool.true_or, if_true]
      rw [matchSigns_iff] at h1
      refine .inl ⟨x :: s, h1.1, h1.2, rfl, ?_⟩
      rintro ⟨t, c, h, -⟩; simp at h
    · by_cases h2 : matchSignDigits (x :: s) = true
      · simp only [h2, Bool.or_true, if_true]
        obtain ⟨c, ds, h, h3, h4, h5⟩ := (matchSignDigits_iff _).1 h2
        exact .inr (.inl ⟨c, ds, h3, h4, h5, h⟩)
      · simp only [h1, h2, Bool.or_self, Bool.false_eq_true, if_false]
        rcases ih with ⟨sg, a1, a2, a3, a4⟩ | ⟨c, ds, a1, a2, a3, a4⟩ | ⟨a1, a2, a3⟩
        · refine .inl ⟨sg, a1, a2, by rw [List.cons_append, ← a3], ?_⟩
          rintro ⟨t, c, h, hc⟩
          cases t with
          | nil =>
            simp only [List.nil_append, List.cons.injEq] at h
            obtain ⟨rfl, h⟩ := h
            rw [h, List.nil_append] at a3
            apply h1
            rw [matchSigns_iff]
            refine ⟨by simp, fun y hy => ?_⟩
            rcases List.mem_cons.1 hy with rfl | hy
            · exact hc
            · exact a2 y (a3 ▸ hy)
          | cons y t =>
            simp only [List.cons_append, List.cons.injEq] at h
            exact a4 ⟨t, c, h.2, hc⟩
        · exact .inr (.inl ⟨c, ds, a1, a2, a3, by rw [List.cons_append, ← a4]⟩)
        · refine .inr (.inr ⟨by rw [a1], ?_, ?_⟩)
          · rintro ⟨t, c, h, hc⟩
            cases t with
            | nil =>
              simp only [List.nil_append, List.cons.injEq] at h
              obtain ⟨rfl, rfl⟩ := h
              exact h1 ((matchSigns_iff _).2 ⟨by simp, by simpa using hc⟩)
            | cons y t =>
              simp only [List.cons_append, List.cons.injEq] at h
              exact a2 ⟨t, c, h.2, hc⟩
          · rintro ⟨t, c, ds, h, hc, hne, hd⟩
            cases t with
            | nil =>
              exact h2 ((matchSignDigits_iff _).2 ⟨c, ds, h, hc, hne, hd⟩)
            | cons y t =>
              simp only [List.cons_append, List.cons.injEq] at h
              exact a3 ⟨t, c, ds, h.2, hc, hne, hd⟩

/-- **C16.** Only a suffix is removed. -/
theorem stripCharge_prefix (s : Str) : stripCharge s <+: s := by
  rcases stripCharge_cases s with ⟨sg, -, -, h, -⟩ | ⟨c, ds, -, -, -, h⟩ | ⟨h, -⟩
  · exact ⟨sg, h.symm⟩
  · exact ⟨c :: ds, h.symm⟩
  · exact ⟨[], by simp [h]⟩

private theorem append_split {a b c d : Str} (h : a ++ b = c ++ d) (hl : b.length = d.length) :
    a = c ∧ b = d := List.append_inj' h hl

/-- **C16.** A sign followed by digits is removed, from any name. -/
theorem stripCharge_sign_digits (x : Str) {c : Char} {ds : Str} (hc : c = '+' ∨ c = '-') (hne : ds ≠ [])
    (hd : ∀ d ∈ ds, '0' ≤ d ∧ d ≤ '9') : stripCharge (x ++ c :: ds) = x := by
  induction x with
  | nil =>
    have : matchSignDigits (c :: ds) = true := (matchSignDigits_iff _).2 ⟨c, ds, rfl, hc, hne, hd⟩
    simp [stripCharge, this]
  | cons y x ih =>
    rw [List.cons_append]
    unfold stripCharge
    have h1 : ¬ matchSigns (y :: (x ++ c :: ds)) = true := by
      rw [matchSigns_iff]
      rintro ⟨-, h⟩
      obtain ⟨d, hdm⟩ := List.exists_mem_of_ne_nil _ hne
      exact not_sign_of_digit (hd d hdm) (h d (by simp [hdm]))
    have h2 : ¬ matchSignDigits (y :: (x ++ c :: ds)) = true := by
      rw [matchSignDigits_iff]
      rintro ⟨c', ds', h, -, -, hd'⟩
      simp only [List.cons.injEq] at h
      exact not_sign_of_digit (hd' c (by rw [← h.2]; simp)) hc
    simp only [h1, h2, Bool.or_self, Bool.false_eq_true, if_false, ih]

/-- **C16.** A run of signs is removed from a name that does not itself end in a sign. -/
theorem stripCharge_signs {x sg : Str} (hx : ¬ EndsInSign x) (hne : sg ≠ [])
    (hs : ∀ c ∈ sg, c = '+' ∨ c = '-') : stripCharge (x ++ sg) = x := by
  induction x with
  | nil =>
    obtain ⟨c, cs, rfl⟩ := List.exists_cons_of_ne_nil hne
    have : matchSigns (c :: cs) = true := (matchSigns_iff _).2 ⟨hne, hs⟩
    simp [stripCharge, this]
  | cons y x ih =>
    rw [List.cons_append]
    unfold stripCharge
    have h1 : ¬ matchSigns (y :: (x ++ sg)) = true := by
      rw [matchSigns_iff]
      rintro ⟨-, h⟩
      obtain ⟨t, z, hz⟩ := List.eq_nil_or_concat (y :: x) |>.resolve_left (by simp)
      rw [List.concat_eq_append] at hz
      refine hx ⟨t, z, hz, h z ?_⟩
      rw [← List.cons_append, hz]; simp
    have h2 : ¬ matchSignDigits (y :: (x ++ sg)) = true := by
      rw [matchSignDigits_iff]
      rintro ⟨c', ds', h, -, -, hd'⟩
      simp only [List.cons.injEq] at h
      obtain ⟨d, hdm⟩ := List.exists_mem_of_ne_nil _ hne
      exact not_sign_of_digit (hd' d (by rw [← h.2]; simp [hdm])) (hs d hdm)
    have hx' : ¬ EndsInSign x := by
      rintro ⟨t, c, rfl, hc⟩
      exact hx ⟨y :: t, c, rfl, hc⟩
    simp only [h1, h2, Bool.or_self, Bool.false_eq_true, if_false, ih hx']

/-- **C16.** A name with neither ending is unchanged, so stripping is idempotent on names X+, X-, X++,
X+2 whose X has no charge suffix. -/
theorem stripCharge_neutral {x : Str} (h1 : ¬ EndsInSign x) (h2 : ¬ EndsInSignDigits x) :
    stripCharge x = x := by
  rcases stripCharge_cases x with ⟨sg, hne, hs, h, -⟩ | ⟨c, ds, hc, hne, hd, h⟩ | ⟨h, -⟩
  · obtain ⟨t, z, hz⟩ := List.eq_nil_or_concat sg |>.resolve_left hne
    rw [List.concat_eq_append] at hz
    exact absurd ⟨stripCharge x ++ t, z, by rw [List.append_assoc, ← hz, ← h], hs z (by simp [hz])⟩ h1
  · exact absurd ⟨stripCharge x, c, ds, h, hc, hne, hd⟩ h2
  · exact h

/-- **C16, limit.** Stripping is not idempotent in general. -/
theorem stripCharge_not_idempotent : ∃ s, stripCharge (stripCharge s) ≠ stripCharge s :=
  ⟨str!"Ar++2", by decide⟩

example : stripCharge str!"O2+" = str!"O2" ∧ stripCharge str!"Ar++" = str!"Ar" ∧
    stripCharge str!"SF6-12" = str!"SF6" ∧ stripCharge str!"O2" = str!"O2" := ⟨rfl, rfl, rfl, rfl⟩

/-! ### C17 -/

/-- neutral ground-state species -/
def RP.GroundNeutral (s : RP) : Prop := s.state = none ∧ s.chargeOf = 0

private theorem charge_some {s : RP} (h : s.isSpecial = false) : s.getCharge = some s.chargeOf := by
  have hM : s.name ≠ str!"M" := by
    intro hc; simp [RP.isSpecial, hc] at h
  unfold RP.chargeOf RP.getCharge
  simp only [hM, if_false]
  split <;> rfl

private theorem ground_iff {s : RP} (h : s.isSpecial = false) :
    (s.getState = none ∧ s.getCharge = some 0) ↔ s.GroundNeutral := by
  rw [charge_some h]
  simp [RP.getState, h, RP.GroundNeutral]

/-- **C17.** Surface coefficients: electron and M have none; explicit values win; otherwise ground-state
neutrals do not stick and return nothing, and everything else sticks with certainty. -/
theorem surface_defaults (s : RP) :
    (s.isSpecial = true → s.getStickCoef = none ∧ s.getRetCoefs = .ok none) ∧
    (s.isSpecial = false →
      (∀ x, s.stickCoef = some x → s.getStickCoef = some x) ∧
      (∀ d, s.retCoefs = some d → s.getRetCoefs = .ok (some d)) ∧
      (s.stickCoef = none → (s.GroundNeutral → s.getStickCoef = some 0) ∧
        (¬ s.GroundNeutral → s.getStickCoef = some 1)) ∧
      (s.retCoefs = none → (s.GroundNeutral → s.getRetCoefs = .ok (some [])) ∧
        (¬ s.GroundNeutral → ∀ n, s.getStateless = .ok n →
          s.getRetCoefs = .ok (some [(stripCharge n, 1)])))) := by
  constructor
  · intro h; simp [RP.getStickCoef, RP.getRetCoefs, h]
  · intro h
    refine ⟨fun x hx => by simp [RP.getStickCoef, h, hx], fun d hd => by simp [RP.getRetCoefs, h, hd],
      fun hn => ⟨fun hg => ?_, fun hg => ?_⟩, fun hn => ⟨fun hg => ?_, fun hg n hs => ?_⟩⟩
    · simp [RP.getStickCoef, h, hn, (ground_iff h).2 hg]
    · have : ¬ (s.getState = none ∧ s.getCharge = some 0) := fun hc => hg ((ground_iff h).1 hc)
      simp only [RP.getStickCoef, h, hn, this, if_false, Bool.false_eq_true]
    · simp [RP.getRetCoefs, h, hn, (ground_iff h).2 hg]
    · have : ¬ (s.getState = none ∧ s.getCharge = some 0) := fun hc => hg ((ground_iff h).1 hc)
      simp only [RP.getRetCoefs, h, hn, this, if_false, Bool.false_eq_true, hs]

/-- **C17.** The default return product of a sticking species has the same atoms as the species, if it is
a ground-state species whose name has no further charge suffix. -/
theorem default_return_conserves_atoms (F : Str → Option (Dict Str Nat)) {s t : RP}
    (hs : s.isSpecial = false) (ht : t.isSpecial = false) (hret : s.retCoefs = none)
    (hg : ¬ s.GroundNeutral) {p : Str × ℚ} {d : Dict Str ℚ} (hd : s.getRetCoefs = .ok (some d))
    (hp : p ∈ d) (hn : t.name = p.1) (hst : t.stateless = none) (hstate : t.state = none)
    (h1 : ¬ EndsInSign p.1) (h2 : ¬ EndsInSignDigits p.1) :
    p.2 = 1 ∧ t.getAtoms F = s.getAtoms F := by
  cases hsl : s.getStateless with
  | error e =>
    have : ¬ (s.getState = none ∧ s.getCharge = some 0) := fun hc => hg ((ground_iff hs).1 hc)
    simp only [RP.getRetCoefs, hs, hret, this, if_false, Bool.false_eq_true, hsl] at hd
    cases hd
  | ok n =>
    have h3 := (((surface_defaults s).2 hs).2.2.2 hret).2 hg n hsl
    rw [h3] at hd
    cases hd
    simp only [List.mem_singleton] at hp
    subst hp
    refine ⟨rfl, ?_⟩
    have nsp : ∀ u : RP, u.isSpecial = false → u.name ≠ str!"e" ∧ u.name ≠ str!"M" := by
      intro u hu; simpa [RP.isSpecial] using hu
    obtain ⟨a1, a2⟩ := nsp s hs
    obtain ⟨b1, b2⟩ := nsp t ht
    have htl : t.getStateless = .ok t.name := by
      simp [RP.getStateless, RP.getState, ht, hst, hstate]
    unfold RP.getAtoms
    simp only [a1, a2, b1, b2, if_false, hsl, htl]
    rw [hn, stripCharge_neutral h1 h2]

example : RP.getRetCoefs { oid := 1, id := 1, name := str!"Ar+", charge := some 1 } =
    .ok (some [(str!"Ar", 1)]) := by rfl

/-! ### C56 -/

/-- the reaction with reactants and products exchanged -/
def Reaction.reversed (r : Reaction) : Reaction :=
  { r with reactants := r.products, products := r.reactants }

/-- **C56.** If all species have HPEM names, the backward string of a reaction is the forward string of
the reversed reaction and vice versa. -/
theorem hpem_backward (r : Reaction) {s : Str} :
    r.hpemString true = .ok s ↔ r.reversed.hpemString false = .ok s := by
  unfold Reaction.hpemString Reaction.reversed
  cases Reaction.hpemNames r.reactants <;> cases Reaction.hpemNames r.products <;> simp

/-- **C56.** HPEM strings exist exactly if every species has an HPEM name. -/
theorem hpem_defined_iff (r : Reaction) (b : Bool) :
    (∃ s, r.hpemString b = .ok s) ↔ ∀ p ∈ r.reactants ++ r.products, p.hpemName ≠ none := by
  have key : ∀ l : List RP, (∃ x, Reaction.hpemNames l = .ok x) ↔ ∀ p ∈ l, p.hpemName ≠ none := by
    intro l
    induction l with
    | nil => simp [Reaction.hpemNames]
    | cons p l ih =>
      unfold Reaction.hpemNames
      cases h : p.hpemName with
      | none => simp [h]
      | some n =>
        simp only [List.mem_cons, forall_eq_or_imp, h, ← ih]
        cases Reaction.hpemNames l <;> simp
  have : (∀ p ∈ r.reactants ++ r.products, p.hpemName ≠ none) ↔
      (∀ p ∈ r.reactants, p.hpemName ≠ none) ∧ (∀ p ∈ r.products, p.hpemName ≠ none) := by
    simp only [List.mem_append]
    exact ⟨fun h => ⟨fun p hp => h p (.inl hp), fun p hp => h p (.inr hp)⟩,
      fun h p hp => hp.elim (h.1 p) (h.2 p)⟩
  rw [this, ← key, ← key]
  unfold Reaction.hpemString
  cases Reaction.hpemNames r.reactants <;> cases Reaction.hpemNames r.products <;> simp
  cases b <;> simp

end Verif.Plaschem
