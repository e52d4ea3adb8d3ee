/-
Lemmas about association lists.
-/
import Verif.Plaschem.Base
import Mathlib.Data.List.Nodup

namespace Verif.Plaschem

/-! ### Dictionaries -/

section dict
variable {κ α : Type} [DecidableEq κ]

theorem Dict.get?_cons (k : κ) (v : α) (d : Dict κ α) (j : κ) :
    Dict.get? ((k, v) :: d) j = if k = j then some v else Dict.get? d j := by
  unfold Dict.get?
  by_cases h : k = j
  · simp [h]
  · rw [List.find?_cons_of_neg (by simpa using h), if_neg h]

theorem Dict.get?_set (d : Dict κ α) (k : κ) (v : α) (j : κ) :
    (d.set k v).get? j = if k = j then some v else d.get? j := by
  induction d with
  | nil => simp [Dict.set, Dict.get?_cons]
  | cons e d ih =>
    obtain ⟨k', v'⟩ := e
    unfold Dict.set
    split
    · rename_i h; subst h
      rw [Dict.get?_cons, Dict.get?_cons]
      split <;> rfl
    · rename_i h
      rw [Dict.get?_cons, Dict.get?_cons, ih]
      split
      · rename_i h2; subst h2; simp [Ne.symm h]
      · rfl

theorem Dict.keys_set (d : Dict κ α) (k : κ) (v : α) :
    (d.set k v).keys = if k ∈ d.keys then d.keys else d.keys ++ [k] := by
  induction d with
  | nil => simp [Dict.set, Dict.keys]
  | cons e d ih =>
    obtain ⟨k', v'⟩ := e
    unfold Dict.set
    split
    · rename_i h; subst h; simp [Dict.keys]
    · rename_i h
      have hk : ∀ (x : κ × α) (l : Dict κ α), Dict.keys (x :: l) = x.1 :: l.keys := fun _ _ => rfl
      rw [hk, hk, ih]
      simp only [List.mem_cons, Ne.symm h, false_or]
      split <;> simp

theorem Dict.mem_keys_iff (d : Dict κ α) (k : κ) : k ∈ d.keys ↔ ∃ v, d.get? k = some v := by
  induction d with
  | nil => simp [Dict.keys, Dict.get?]
  | cons e d ih =>
    obtain ⟨k', v'⟩ := e
    rw [Dict.get?_cons]
    simp only [Dict.keys, List.map_cons, List.mem_cons] at ih ⊢
    by_cases h : k' = k
    · simp [h]
    · simp [h, Ne.symm h, ih]

theorem Dict.get?_of_mem {d : Dict κ α} (hn : d.keys.Nodup) {p : κ × α} (hp : p ∈ d) :
    d.get? p.1 = some p.2 := by
  induction d with
  | nil => cases hp
  | cons e d ih =>
    obtain ⟨k', v'⟩ := e
    rw [Dict.get?_cons]
    simp only [Dict.keys, List.map_cons, List.nodup_cons] at hn
    rcases List.mem_cons.1 hp with rfl | hp
    · simp
    · have : k' ≠ p.1 := fun h => hn.1 (h ▸ List.mem_map_of_mem hp)
      simp [this, ih hn.2 hp]

theorem Dict.mem_of_get? {d : Dict κ α} {k : κ} {v : α} (h : d.get? k = some v) : (k, v) ∈ d := by
  induction d with
  | nil => simp [Dict.get?] at h
  | cons e d ih =>
    obtain ⟨k', v'⟩ := e
    rw [Dict.get?_cons] at h
    split at h
    · rename_i hk; subst hk; simp at h; simp [h]
    · exact List.mem_cons_of_mem _ (ih h)

end dict

end Verif.Plaschem
