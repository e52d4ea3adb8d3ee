/-
Dictionaries built from lists of sub-elements, and the separation of names in XML files.
-/
import Verif.Plaschem.Xml
import Verif.Plaschem.KeyProps

namespace Verif.Plaschem.Xml
open Verif.Plaschem

variable {α β κ : Type} [DecidableEq κ]

/-! ### dictionaries -/

theorem set_new {d : Dict κ α} {k : κ} (h : k ∉ d.keys) (v : α) : d.set k v = d ++ [(k, v)] := by
  induction d with
  | nil => rfl
  | cons p d ih =>
    obtain ⟨j, w⟩ := p
    simp only [Dict.keys, List.map_cons, List.mem_cons, not_or] at h
    rw [Dict.set, if_neg (Ne.symm h.1), ih h.2]
    rfl

theorem foldl_set (key : β → κ) (val : β → Option α) (l : List β) (d : Dict κ α)
    (hn : (l.map key).Nodup) (hd : ∀ b ∈ l, key b ∉ d.keys) :
    l.foldl (fun d b => (val b).elim d (d.set (key b))) d = d ++ l.filterMap (fun b => (val b).map fun v => (key b, v)) := by
  induction l generalizing d with
  | nil => simp
  | cons b l ih =>
    rw [List.map_cons, List.nodup_cons] at hn
    have hd' : ∀ c ∈ l, key c ∉ d.keys := fun c hc => hd c (List.mem_cons_of_mem _ hc)
    rw [List.foldl_cons, List.filterMap_cons]
    cases hv : val b with
    | none => simpa using ih d hn.2 hd'
    | some v =>
      simp only [Option.map_some, Option.elim_some]
      rw [set_new (hd b (by simp)), ih _ hn.2, List.append_assoc]
      · rfl
      · intro c hc
        simp only [Dict.keys, List.map_append, List.map_cons, List.map_nil, List.mem_append, List.mem_singleton,
          not_or]
        refine ⟨hd' c hc, fun h => hn.1 ?_⟩
        rw [← h]
        exact List.mem_map_of_mem hc

omit [DecidableEq κ] in
theorem keys_filterMap (l : List κ) (f : κ → Option α) :
    Dict.keys (l.filterMap fun a => (f a).map (Prod.mk a)) = l.filter (fun a => (f a).isSome) := by
  induction l with
  | nil => rfl
  | cons a l ih =>
    rw [List.filterMap_cons]
    cases h : f a with
    | none => simpa [h] using ih
    | some v =>
      simp only [Dict.keys, Option.map_some, List.map_cons] at ih ⊢
      rw [ih, List.filter_cons_of_pos (by simp [h])]

theorem get?_filterMap (l : List κ) (f : κ → Option α) (a : κ) :
    Dict.get? (l.filterMap fun a => (f a).map (Prod.mk a)) a = if a ∈ l then f a else none := by
  induction l with
  | nil => rfl
  | cons b l ih =>
    rw [List.filterMap_cons]
    by_cases hb : b = a
    · subst hb
      cases h : f b with
      | none =>
        simp only [Option.map_none, ih, List.mem_cons, true_or, if_true, h]
        split <;> rfl
      | some v => simp [Dict.get?_cons]
    · cases h : f b with
      | none =>
        simp only [Option.map_none, ih, List.mem_cons]
        by_cases ha : a ∈ l
        · rw [if_pos ha, if_pos (Or.inr ha)]
        · rw [if_neg ha, if_neg (by simp [ha, Ne.symm hb])]
      | some v =>
        simp only [Option.map_some, Dict.get?_cons, if_neg hb, ih, List.mem_cons]
        by_cases ha : a ∈ l
        · rw [if_pos ha, if_pos (Or.inr ha)]
        · rw [if_neg ha, if_neg (by simp [ha, Ne.symm hb])]

theorem get?_mapKeys (d : Dict κ β) (f : κ → α) (a : κ) :
    Dict.get? (d.map fun p => (p.1, f p.1)) a = if a ∈ d.keys then some (f a) else none := by
  induction d with
  | nil => rfl
  | cons p d ih =>
    obtain ⟨b, w⟩ := p
    rw [List.map_cons, Dict.get?_cons, ih]
    have e : Dict.keys ((b, w) :: d) = b :: Dict.keys d := rfl
    rw [e]
    by_cases hb : b = a
    · subst hb; simp
    · rw [if_neg hb]
      simp only [List.mem_cons]
      by_cases ha : a ∈ Dict.keys d
      · rw [if_pos ha, if_pos (Or.inr ha)]
      · rw [if_neg ha, if_neg (by simp [ha, Ne.symm hb])]

theorem get?_none_iff (d : Dict κ α) (a : κ) : d.get? a = none ↔ a ∉ d.keys := by
  rw [Dict.mem_keys_iff]
  cases d.get? a <;> simp

/-! ### names -/

/-- what `strip` does with a leading blank -/
theorem strip_blank (n : Str) : strip (' ' :: n) = strip n := by
  unfold strip
  rw [List.dropWhile_cons_of_pos (by decide)]

/-- plaschem/xml_inputs.py:247-248 and 749-750: names without a comma are separated again. -/
theorem split_names {names : List Str} (hne : names ≠ []) (hc : ∀ n ∈ names, ',' ∉ n) :
    (splitStr str!"," (joinStr str!", " names)).map strip = names.map strip := by
  have single : ∀ (n t acc : Str), ',' ∉ n → splitAux str!"," (n ++ t) 0 acc =
      splitAux str!"," t 0 (n.reverse ++ acc) := by
    intro n t acc hb
    apply splitAux_plain
    intro a b hab hbne hpre
    obtain ⟨c, b', rfl⟩ := List.exists_cons_of_ne_nil hbne
    rw [List.cons_append, List.cons_prefix_cons] at hpre
    exact hb (by rw [hab, hpre.1]; simp)
  have blank : ∀ t acc : Str, splitAux str!"," (' ' :: t) 0 acc = splitAux str!"," t 0 (' ' :: acc) :=
    fun t acc => single [' '] t acc (by decide)
  have main : ∀ (l : List Str) (n acc : Str), (∀ m ∈ n :: l, ',' ∉ m) →
      (splitAux str!"," (joinStr str!", " (n :: l)) 0 acc).map strip =
        strip (acc.reverse ++ n) :: l.map strip := by
    intro l
    induction l with
    | nil =>
      intro n acc h
      have := single n [] acc (h n (by simp))
      rw [List.append_nil] at this
      rw [joinStr, this]
      simp [splitAux]
    | cons m l ih =>
      intro n acc h
      have e : joinStr str!", " (n :: m :: l) = n ++ (str!"," ++ (' ' :: joinStr str!", " (m :: l))) := by
        rw [joinStr]; simp
      rw [e, single n _ acc (h n (by simp)), splitAux_match rfl, List.map_cons, blank,
        ih m _ (fun k hk => h k (List.mem_cons_of_mem _ hk))]
      simp [strip_blank]
  cases names with
  | nil => exact absurd rfl hne
  | cons n l => simpa [splitStr] using main l n [] hc

end Verif.Plaschem.Xml
