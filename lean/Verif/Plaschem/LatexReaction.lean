/-
LaTeX forms of reactions: one term for every species.
-/
import Verif.Plaschem.LatexProps
import Verif.Plaschem.XmlDemo

namespace Verif.Plaschem.Latex
open Xml

variable {F : Type} {C : Codec F} {T : Str → Except Err Str}

/-- the coefficient before a species: nothing for 1 -/
def coefText (C : Codec F) (n : Nat) : Str := if n = 1 then [] else C.showI n ++ str!" "

theorem Dict.set_new {κ α : Type} [DecidableEq κ] (d : Dict κ α) (k : κ) (v : α) (h : k ∉ d.keys) :
    d.set k v = d ++ [(k, v)] := by
  induction d with
  | nil => rfl
  | cons p d ih =>
    obtain ⟨k', v'⟩ := p
    simp only [Dict.keys, List.map_cons, List.mem_cons, not_or] at h
    rw [Dict.set, if_neg (Ne.symm h.1), ih h.2]
    rfl

theorem side_terms {all side : List (Rp F)} {ids : List Nat} {t : Nat → Str} (hnd : ids.Nodup)
    (h : ∀ i ∈ ids, ∃ rp, all.find? (fun rp => rp.id = i) = some rp ∧ rp.getLatex C T = .ok (t i))
    (hinj : ∀ i ∈ ids, ∀ j ∈ ids, t i = t j → i = j) :
    latexSide C T all side ids [] = .ok (joinStr str!" + "
      (ids.map fun i => coefText C ((side.map Rp.id).count i) ++ t i)) := by
  have main : ∀ (l : List Nat) (d : Dict Str Str), l.Nodup → (∀ i ∈ l, i ∈ ids) → (∀ i ∈ l, t i ∉ d.keys) →
      latexSide C T all side l d = .ok (joinStr str!" + "
        (d.map (fun p => p.2 ++ p.1) ++ l.map fun i => coefText C ((side.map Rp.id).count i) ++ t i)) := by
    intro l
    induction l with
    | nil => intro d _ _ _; simp [latexSide]
    | cons i l ih =>
      intro d hl hm hd
      obtain ⟨rp, h1, h2⟩ := h i (hm i (by simp))
      rw [latexSide, h1]
      dsimp only
      rw [h2]
      change latexSide C T all side l (d.set (t i) (coefText C ((side.map Rp.id).count i))) = _
      rw [Dict.set_new _ _ _ (hd i (by simp)), ih _ (List.nodup_cons.mp hl).2 fun j hj => hm j (by simp [hj])]
      · simp
      · intro j hj
        simp only [Dict.keys, List.map_append, List.map_cons, List.map_nil, List.mem_append, List.mem_singleton,
          not_or]
        refine ⟨hd j (by simp [hj]), fun he => ?_⟩
        have := hinj j (hm j (by simp [hj])) i (hm i (by simp)) he
        subst this
        exact (List.nodup_cons.mp hl).1 hj
  have := main ids [] hnd (fun _ h => h) (by simp [Dict.keys])
  simpa using this

/-- **The LaTeX form of a reaction** whose species have different plain names that can be translated, and no LaTeX form
of their own: on both sides, exactly one term for every species, in the order of first occurrence, with its
coefficient; none is lost. -/
theorem reaction_terms {alpha : Char → Bool} (ok : AlphaOk alpha) {x : Rx F} (hx : x.attr str!"latex" = .null)
    (nm t : Nat → Str)
    (h : ∀ rp ∈ x.reactants ++ x.products, ∀ rp' ∈ x.reactants ++ x.products, rp.id = rp'.id → rp = rp')
    (hsp : ∀ rp ∈ x.reactants ++ x.products, rp.attr str!"latex" = .null ∧ rp.getName C = .ok (nm rp.id) ∧
      Plain (nm rp.id) ∧ texifySpecies alpha (nm rp.id) = .ok (t rp.id))
    (hname : ∀ rp ∈ x.reactants ++ x.products, ∀ rp' ∈ x.reactants ++ x.products, nm rp.id = nm rp'.id →
      rp.id = rp'.id) :
    x.getLatex C (texifySpecies alpha) = .ok (
      joinStr str!" + " ((orderedSet (x.reactants.map Rp.id)).map fun i =>
        coefText C ((x.reactants.map Rp.id).count i) ++ t i) ++ str!" \\rightarrow " ++
      joinStr str!" + " ((orderedSet (x.products.map Rp.id)).map fun i =>
        coefText C ((x.products.map Rp.id).count i) ++ t i)) := by
  have side : ∀ side : List (Rp F), (∀ rp ∈ side, rp ∈ x.reactants ++ x.products) →
      latexSide C (texifySpecies alpha) (x.reactants ++ x.products) side (orderedSet (side.map Rp.id)) [] =
        .ok (joinStr str!" + " ((orderedSet (side.map Rp.id)).map fun i =>
          coefText C ((side.map Rp.id).count i) ++ t i)) := by
    intro side hside
    have mem : ∀ i ∈ orderedSet (side.map Rp.id), ∃ rp ∈ x.reactants ++ x.products, rp.id = i := by
      intro i hi
      rw [mem_orderedSet] at hi
      obtain ⟨rp, hrp, rfl⟩ := List.mem_map.mp hi
      exact ⟨rp, hside rp hrp, rfl⟩
    refine side_terms (nodup_orderedSet _) ?_ ?_
    · intro i hi
      obtain ⟨rp, hrp, rfl⟩ := mem i hi
      have hf : (x.reactants ++ x.products).find? (fun r => r.id = rp.id) = some rp := by
        cases hq : (x.reactants ++ x.products).find? (fun r => r.id = rp.id) with
        | none =>
          rw [List.find?_eq_none] at hq
          exact absurd (by simp) (hq rp hrp)
        | some r =>
          have h1 := List.mem_of_find?_eq_some hq
          have h2 := List.find?_some hq
          rw [h r h1 rp hrp (by simpa using h2)]
      refine ⟨rp, hf, ?_⟩
      obtain ⟨h1, h2, _, h4⟩ := hsp rp hrp
      rw [Rp.getLatex, h1, h2]
      exact h4
    · intro i hi j hj hij
      obtain ⟨rp, hrp, rfl⟩ := mem i hi
      obtain ⟨rp', hrp', rfl⟩ := mem j hj
      obtain ⟨_, _, h3, h4⟩ := hsp rp hrp
      obtain ⟨_, _, h3', h4'⟩ := hsp rp' hrp'
      rw [← hij] at h4'
      exact hname rp hrp rp' hrp' (texify_injective ok h3 h3' h4 h4')
  rw [Rx.getLatex, hx, side x.reactants (by simp +contextual), side x.products (by simp +contextual)]
  rfl

/-- the hypotheses are met by the ionisation of argon -/
example : DemoX.x.getLatex DemoX.C (texifySpecies Char.isAlpha) = .ok (
    str!"\\mathrm{e} + \\mathrm{Ar} \\rightarrow 2 \\mathrm{e} + \\mathrm{Ar}^+") := by
  have g : ∀ {s o : Str}, '(' ∉ s → ')' ∉ s → wrapAlpha Char.isAlpha (applyFast fixRules (applyFast subRules
      (applyFast supRules s))) = o → texifySpecies Char.isAlpha s = .ok o := by
    intro s o h1 h2 h3
    rw [texify_plain h1 h2, texifyGround_fast, h3]
  have hrps : DemoX.x.reactants ++ DemoX.x.products = [DemoX.e, DemoX.Ar, DemoX.e, DemoX.e, DemoX.ArP] := rfl
  have := reaction_terms (C := DemoX.C) alphaOk_ascii (x := DemoX.x) rfl
    (fun i => if i = 0 then str!"e" else if i = 1 then str!"Ar" else str!"Ar+")
    (fun i => if i = 0 then str!"\\mathrm{e}" else if i = 1 then str!"\\mathrm{Ar}" else str!"\\mathrm{Ar}^+")
    (by
      rw [hrps]
      intro a ha b hb h
      simp only [List.mem_cons, List.not_mem_nil, or_false] at ha hb
      have i0 : DemoX.e.id = 0 := rfl
      have i1 : DemoX.Ar.id = 1 := rfl
      have i2 : DemoX.ArP.id = 2 := rfl
      rcases ha with rfl | rfl | rfl | rfl | rfl <;> rcases hb with rfl | rfl | rfl | rfl | rfl <;>
        first | rfl | (rw [i0, i1] at h; cases h) | (rw [i0, i2] at h; cases h) | (rw [i1, i0] at h; cases h) |
          (rw [i1, i2] at h; cases h) | (rw [i2, i0] at h; cases h) | (rw [i2, i1] at h; cases h))
    (by
      rw [hrps]
      intro a ha
      simp only [List.mem_cons, List.not_mem_nil, or_false] at ha
      rcases ha with rfl | rfl | rfl | rfl | rfl
      · exact ⟨rfl, rfl, by unfold Plain; decide +kernel, g (by decide) (by decide) (by decide +kernel)⟩
      · exact ⟨rfl, rfl, by unfold Plain; decide +kernel, g (by decide) (by decide) (by decide +kernel)⟩
      · exact ⟨rfl, rfl, by unfold Plain; decide +kernel, g (by decide) (by decide) (by decide +kernel)⟩
      · exact ⟨rfl, rfl, by unfold Plain; decide +kernel, g (by decide) (by decide) (by decide +kernel)⟩
      · exact ⟨rfl, rfl, by unfold Plain; decide +kernel, g (by decide) (by decide) (by decide +kernel)⟩)
    (by
      rw [hrps]
      decide +kernel)
  rw [this]
  decide +kernel

/-- Species with a LaTeX form of their own can get lost: of two species with the same form, only one term is left, with
the coefficient of the second. -/
theorem same_latex_lost {all side : List (Rp F)} {i j : Nat} {s : Str} {a b : Rp F}
    (ha : all.find? (fun rp => rp.id = i) = some a) (hb : all.find? (fun rp => rp.id = j) = some b)
    (hla : a.getLatex C T = .ok s) (hlb : b.getLatex C T = .ok s) :
    latexSide C T all side [i, j] [] = .ok (coefText C ((side.map Rp.id).count j) ++ s) := by
  rw [latexSide, ha]
  dsimp only
  rw [hla]
  change latexSide C T all side [j] [(s, _)] = _
  rw [latexSide, hb]
  dsimp only
  rw [hlb]
  change latexSide C T all side [] (Dict.set [(s, _)] s (coefText C ((side.map Rp.id).count j))) = _
  rw [Dict.set, if_pos rfl]
  rfl

end Verif.Plaschem.Latex
