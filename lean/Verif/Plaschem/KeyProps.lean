/-
Property C14: the order-independent reaction key (plaschem/reactions.py:219-229).
-/
import Verif.Plaschem.ReactProps2
import Mathlib.Data.List.Sort

namespace Verif.Plaschem

/-! ### Splitting and stripping -/

theorem splitAux_skip (sep s t acc : Str) :
    splitAux sep (s ++ t) s.length acc = splitAux sep t 0 acc := by
  induction s with
  | nil => rfl
  | cons c s ih => simpa [splitAux] using ih

theorem splitAux_match {sep : Str} {x : Char} {sep' : Str} (hs : sep = x :: sep') (t acc : Str) :
    splitAux sep (sep ++ t) 0 acc = acc.reverse :: splitAux sep t 0 [] := by
  subst hs
  rw [List.cons_append]
  have h1 : (x :: sep').isPrefixOf (x :: (sep' ++ t)) = true := by
    simp [List.isPrefixOf_iff_prefix]
  conv_lhs => unfold splitAux
  simp only [h1, if_true, List.length_cons, Nat.add_sub_cancel]
  rw [splitAux_skip]

/-- scanning text in which the separator does not start -/
theorem splitAux_plain {sep : Str} (s t acc : Str)
    (h : ∀ a b, s = a ++ b → b ≠ [] → ¬ sep <+: b ++ t) :
    splitAux sep (s ++ t) 0 acc = splitAux sep t 0 (s.reverse ++ acc) := by
  induction s generalizing acc with
  | nil => rfl
  | cons c s ih =>
    rw [List.cons_append]
    have h1 : ¬ sep.isPrefixOf (c :: (s ++ t)) = true := by
      rw [List.isPrefixOf_iff_prefix]
      exact h [] (c :: s) rfl (by simp)
    have : splitAux sep (c :: (s ++ t)) 0 acc = splitAux sep (s ++ t) 0 (c :: acc) := by
      conv_lhs => unfold splitAux
      rw [if_neg h1]
    rw [this, ih (c :: acc) (fun a b hab hb => h (c :: a) b (by rw [hab]; rfl) hb)]
    simp

/-- a name without blanks -/
def NoBlank (n : Str) : Prop := ∀ c ∈ n, isSpace c = false

private theorem noBlank_ne {n : Str} (h : NoBlank n) {c : Char} (hc : c ∈ n) : c ≠ ' ' := by
  rintro rfl
  have := h ' ' hc
  exact absurd this (by decide)

theorem split_join {sep sep' : Str} (hs : sep = ' ' :: sep') (names : List Str) (hne : names ≠ [])
    (hn : ∀ n ∈ names, NoBlank n) : splitStr sep (joinStr sep names) = names := by
  unfold splitStr
  have single : ∀ (n t acc : Str), NoBlank n → splitAux sep (n ++ t) 0 acc =
      splitAux sep t 0 (n.reverse ++ acc) := by
    intro n t acc hb
    apply splitAux_plain
    intro a b hab hbne hpre
    obtain ⟨c, b', rfl⟩ := List.exists_cons_of_ne_nil hbne
    rw [hs, List.cons_append, List.cons_prefix_cons] at hpre
    exact noBlank_ne hb (by rw [hab]; simp) hpre.1.symm
  induction names with
  | nil => exact absurd rfl hne
  | cons n l ih =>
    cases l with
    | nil =>
      have := single n [] [] (hn n (by simp))
      simp only [List.append_nil] at this
      rw [joinStr, this]
      simp [splitAux]
    | cons m l =>
      rw [joinStr, List.append_assoc, single n _ [] (hn n (by simp)), splitAux_match hs]
      rw [ih (by simp) (fun k hk => hn k (by simp [hk]))]
      simp

private theorem joinStr_prefix_free {names : List Str}
    (hg : ∀ n ∈ names, '>' ∉ n) : ∀ a b t, joinStr str!" + " names = a ++ b → b ≠ [] →
      (∀ c ds, t = c :: ds → c = ' ') → ¬ str!" > " <+: b ++ t := by
  have hgt : ∀ l : List Str, (∀ n ∈ l, '>' ∉ n) → '>' ∉ joinStr str!" + " l := by
    intro l
    induction l with
    | nil => intro _; simp [joinStr]
    | cons n l ih =>
      intro h
      cases l with
      | nil => simpa [joinStr] using h n (by simp)
      | cons m l =>
        rw [joinStr]
        simp only [List.mem_append, not_or]
        exact ⟨⟨h n (by simp), by decide⟩, ih (fun k hk => h k (by simp [hk]))⟩
  intro a b t hab hbne ht hpre
  have hb : '>' ∉ b := fun hc => hgt names hg (by rw [hab]; simp [hc])
  obtain ⟨c, b', rfl⟩ := List.exists_cons_of_ne_nil hbne
  rw [List.cons_append, List.cons_prefix_cons] at hpre
  cases b' with
  | nil =>
    cases t with
    | nil => simp at hpre
    | cons d ds =>
      have := ht d ds rfl
      subst this
      rw [List.nil_append, List.cons_prefix_cons] at hpre
      exact absurd hpre.2.1 (by decide)
  | cons d b'' =>
    rw [List.cons_append, List.cons_prefix_cons] at hpre
    exact hb (by rw [← hpre.2.1]; simp)

theorem strip_noBlank {n : Str} (h : NoBlank n) : strip n = n := by
  have drop : ∀ m : Str, NoBlank m → m.dropWhile isSpace = m := by
    intro m hm
    cases m with
    | nil => rfl
    | cons c m => rw [List.dropWhile_cons_of_neg]; simp [hm c (by simp)]
  unfold strip
  rw [drop n h, drop n.reverse (fun c hc => h c (by simpa using hc)), List.reverse_reverse]

/-! ### Sorting -/

theorem strLe_total : ∀ a b : Str, (strLe a b || strLe b a) = true
  | [], b => by simp [strLe]
  | _ :: _, [] => by simp [strLe]
  | c :: cs, d :: ds => by
    have ih := strLe_total cs ds
    simp only [strLe, Bool.or_eq_true, decide_eq_true_eq, Bool.and_eq_true, beq_iff_eq] at ih ⊢
    rcases Nat.lt_trichotomy c.toNat d.toNat with h | h | h
    · exact .inl (.inl h)
    · rcases ih with h' | h'
      · exact .inl (.inr ⟨h, h'⟩)
      · exact .inr (.inr ⟨h.symm, h'⟩)
    · exact .inr (.inl h)

theorem strLe_trans : ∀ a b c : Str, strLe a b = true → strLe b c = true → strLe a c = true
  | [], _, _, _, _ => by simp [strLe]
  | x :: xs, [], _, h, _ => by simp [strLe] at h
  | x :: xs, y :: ys, [], _, h => by simp [strLe] at h
  | x :: xs, y :: ys, z :: zs, h1, h2 => by
    have ih := strLe_trans xs ys zs
    simp only [strLe, Bool.or_eq_true, decide_eq_true_eq, Bool.and_eq_true, beq_iff_eq] at h1 h2 ⊢
    rcases h1 with h1 | ⟨h1, h1'⟩ <;> rcases h2 with h2 | ⟨h2, h2'⟩
    · exact .inl (by omega)
    · exact .inl (by omega)
    · exact .inl (by omega)
    · exact .inr ⟨by omega, ih h1' h2'⟩

private theorem char_of_toNat {c d : Char} (h : c.toNat = d.toNat) : c = d :=
  Char.ext (UInt32.toNat_inj.1 h)

theorem strLe_antisymm : ∀ a b : Str, strLe a b = true → strLe b a = true → a = b
  | [], [], _, _ => rfl
  | [], _ :: _, _, h => by simp [strLe] at h
  | _ :: _, [], h, _ => by simp [strLe] at h
  | x :: xs, y :: ys, h1, h2 => by
    have ih := strLe_antisymm xs ys
    simp only [strLe, Bool.or_eq_true, decide_eq_true_eq, Bool.and_eq_true, beq_iff_eq] at h1 h2
    rcases h1 with h1 | ⟨h1, h1'⟩ <;> rcases h2 with h2 | ⟨h2, h2'⟩
    · omega
    · omega
    · omega
    · rw [char_of_toNat h1, ih h1' h2']

theorem sortStrs_perm (l : List Str) : (sortStrs l).Perm l := List.mergeSort_perm l strLe

theorem sortStrs_eq_iff (l m : List Str) : sortStrs l = sortStrs m ↔ l.Perm m := by
  constructor
  · intro h
    exact (sortStrs_perm l).symm.trans (h ▸ sortStrs_perm m)
  · intro h
    have hp : (sortStrs l).Perm (sortStrs m) := (sortStrs_perm l).trans (h.trans (sortStrs_perm m).symm)
    have s1 := List.pairwise_mergeSort strLe_trans strLe_total l
    have s2 := List.pairwise_mergeSort strLe_trans strLe_total m
    exact hp.eq_of_pairwise (fun a b _ _ => strLe_antisymm a b) s1 s2

/-! ### C14 -/

/-- **C14.** For names without blanks and `>` the key of a reaction string consists of the sorted names of
the two sides. -/
theorem uniqueKey_of_sides {lhs rhs : List Str} (hl : lhs ≠ []) (hr : rhs ≠ [])
    (hb : ∀ n ∈ lhs ++ rhs, NoBlank n ∧ '>' ∉ n) :
    uniqueKey (sidesStr lhs rhs) = .ok (sortStrs lhs, sortStrs rhs) := by
  have bl : ∀ n ∈ lhs, NoBlank n := fun n hn => (hb n (List.mem_append_left _ hn)).1
  have br : ∀ n ∈ rhs, NoBlank n := fun n hn => (hb n (List.mem_append_right _ hn)).1
  have gl : ∀ n ∈ lhs, '>' ∉ n := fun n hn => (hb n (List.mem_append_left _ hn)).2
  have gr : ∀ n ∈ rhs, '>' ∉ n := fun n hn => (hb n (List.mem_append_right _ hn)).2
  have hsplit : splitStr str!" > " (sidesStr lhs rhs) = [joinStr str!" + " lhs, joinStr str!" + " rhs] := by
    unfold splitStr sidesStr
    rw [List.append_assoc, splitAux_plain]
    · rw [splitAux_match (x := ' ') (sep' := str!"> ") rfl]
      have h2 := splitAux_plain (sep := str!" > ") (joinStr str!" + " rhs) [] []
        (fun a b hab hne => by
          have := joinStr_prefix_free gr a b [] hab hne (by simp)
          exact this)
      rw [List.append_nil] at h2
      rw [h2]
      simp [splitAux]
    · intro a b hab hne
      apply joinStr_prefix_free gl a b _ hab hne
      intro c ds h
      simp only [List.cons_append, List.cons.injEq] at h
      exact h.1.symm
  unfold uniqueKey
  rw [hsplit]
  simp only
  rw [split_join (sep' := str!"+ ") rfl lhs hl bl, split_join (sep' := str!"+ ") rfl rhs hr br]
  have hstrip : ∀ l : List Str, (∀ n ∈ l, NoBlank n) → l.map strip = l := by
    intro l h
    conv_rhs => rw [← List.map_id l]
    exact List.map_congr_left (fun n hn => strip_noBlank (h n hn))
  rw [hstrip lhs bl, hstrip rhs br]

/-- **C14.** Two reaction strings over names without blanks and `>` have equal keys exactly if they have
the same reactants and the same products up to order. -/
theorem uniqueKey_eq_iff {l r l' r' : List Str} (hl : l ≠ []) (hr : r ≠ []) (hl' : l' ≠ []) (hr' : r' ≠ [])
    (hb : ∀ n ∈ (l ++ r) ++ (l' ++ r'), NoBlank n ∧ '>' ∉ n) :
    uniqueKey (sidesStr l r) = uniqueKey (sidesStr l' r') ↔ l.Perm l' ∧ r.Perm r' := by
  rw [uniqueKey_of_sides hl hr (fun n hn => hb n (List.mem_append_left _ hn)),
    uniqueKey_of_sides hl' hr' (fun n hn => hb n (List.mem_append_right _ hn))]
  simp only [Except.ok.injEq, Prod.mk.injEq, sortStrs_eq_iff]

/-- **C14.** Names accepted by the species constructor never contain `>`. -/
theorem accepted_name_no_gt {oid : Nat} {a : RPArgs} {s : RP} (h : RP.init oid a = .ok s) :
    '>' ∉ s.name ∧ '<' ∉ s.name := by
  unfold RP.init at h
  by_cases c1 : a.id < 0
  · rw [if_pos c1] at h; cases h
  rw [if_neg c1] at h
  by_cases c2 : a.name = none
  · rw [if_pos c2] at h; cases h
  rw [if_neg c2] at h
  by_cases c3 : a.lacksStateless = true
  · rw [if_pos c3] at h; cases h
  rw [if_neg c3] at h
  by_cases c4 : a.name ≠ some (some str!"M") ∧ a.mass = none
  · rw [if_pos c4] at h; cases h
  rw [if_neg c4] at h
  split at h
  · cases h
  · cases h
  · split at h
    · cases h
    · rename_i n _ hany
      split at h
      · cases h
      · cases h
        simp only [List.any_eq_true, decide_eq_true_eq, not_exists, not_and, not_or] at hany
        exact ⟨fun hc => (hany _ hc).2 rfl, fun hc => (hany _ hc).1 rfl⟩

/-- **C14, limit.** With blanks in names different reactions can share a key. -/
theorem uniqueKey_collision : ∃ l l' r : List Str, ¬ l.Perm l' ∧
    (∀ n ∈ l ++ l' ++ r, ¬ (str!" + " <:+: n) ∧ strip n = n) ∧
    uniqueKey (sidesStr l r) = uniqueKey (sidesStr l' r) :=
  ⟨[str!"a +", str!"b"], [str!"a", str!"+ b"], [str!"c"], by decide, by decide, rfl⟩

example : uniqueKey (sidesStr [str!"e", str!"Ar"] [str!"e", str!"e", str!"Ar+"]) =
    uniqueKey (sidesStr [str!"Ar", str!"e"] [str!"Ar+", str!"e", str!"e"]) :=
  (uniqueKey_eq_iff (by simp) (by simp) (by simp) (by simp) (by
    unfold NoBlank; decide)).2 ⟨by decide, by decide⟩

end Verif.Plaschem
