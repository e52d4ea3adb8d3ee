/-
C92: the weights and the ranking in terms of the chemistry.
-/
import Verif.Fwork.CoupleInitProps
import Mathlib.Data.List.Lex
import Mathlib.Data.Char

namespace Verif.Fwork.CoupleInit
open Finset Verif.Plaschem Verif.Plaschem.Net Verif.Fwork.Rates
open Verif.Fwork.Morris (PyDicts)

/-! ### the arrays -/

/-- The arrays of the graph, entry by entry. -/
structure Reads (net : Net) (st : State) (radius length : ℝ) (F : Frame Lab) (W : Frame Str)
    (C : ChemGraph Str ℝ (net.getSpecies st false true true).length (net.getReactions st false).length F.rows.length) :
    Prop where
  species : ∀ i, C.species i = (net.getSpecies st false true true)[i].name
  special : ∀ n, n ∈ C.special ↔ ∃ s ∈ net.species, s.name = n ∧ s.isSpecial = true
  lhs : ∀ j i, C.lhs j i = (net.getReactions st false)[j].reactants.count (net.getSpecies st false true true)[i]
  rhs : ∀ j i, C.rhs j i = (net.getReactions st false)[j].products.count (net.getSpecies st false true true)[i]
  rates : ∀ t j, C.rates t j = F.rows[t] (.id (net.getReactions st false)[j].id)
  fluxes : ∀ t i, ∀ w, W.rows[t.1]? = some w → C.fluxes t i =
    if (net.getSpecies st false true true)[i].isSpecial then 0 else w (net.getSpecies st false true true)[i].name
  ret : ∀ a b, C.ret a b =
    (returned st (net.getSpecies st false true true)[b] (net.getSpecies st false true true)[a] : ℝ)
  area : C.area = 2 * Real.pi * radius * (radius + length)
  vol : C.vol = Real.pi * radius ^ 2 * length

/-- **C92.** An accepted input gives the arrays of the chemistry: multiplicities of the enabled species in the enabled reactions,
rates by reaction, fluxes by species and zero for the electron and the placeholder, return coefficients in force. -/
theorem arrays {net : Net} {st : State} (h : Sound net st) (hcl : net.RetClosed) (hpy : PyDicts net st)
    {radius length : ℝ} {F : Frame Lab} {W : Frame Str}
    {C : ChemGraph Str ℝ (net.getSpecies st false true true).length (net.getReactions st false).length F.rows.length}
    (hC : init net st radius length F W = .ok C) : Reads net st radius length F W C := by
  have hwf := h.wf
  have hinv := h.inv
  obtain ⟨L, hL, -, -, hL3⟩ := cell_spec (st := st) hwf (m := .lhs) (fun r s => (r.reactants.map RP.id).count s.id)
    (fun _ _ => rfl) (by simp)
  obtain ⟨R, hR, -, -, hR3⟩ := cell_spec (st := st) hwf (m := .rhs) (fun r s => (r.products.map RP.id).count s.id)
    (fun _ _ => rfl) (by simp)
  obtain ⟨M, hM, hM1, hM2, hM3⟩ := cells_spec h hcl hpy
  obtain ⟨m1, m2, -, m4⟩ := (accepted_iff_sound h hcl hpy radius length F W).1 ⟨C, hC⟩
  have hcols := hM2.2 m4
  unfold init at hC
  cases hc : check net st F W with
  | error e => rw [hc] at hC; cases hC
  | ok u =>
    rw [hc, hL, hR, hM] at hC
    simp only [Except.ok.injEq] at hC
    have hcount : ∀ (j : Fin (net.getReactions st false).length)
        (i : Fin (net.getSpecies st false true true).length),
        ∀ l, l ⊆ (net.getReactions st false)[j].rps →
          (l.map RP.id).count (net.getSpecies st false true true)[i].id = l.count (net.getSpecies st false true true)[i] := by
      intro j i l hl
      have hs := mem_getSpecies.1 (List.getElem_mem (l := net.getSpecies st false true true) i.2)
      have hr : (net.getReactions st false)[j] ∈ net.reactions :=
        (List.mem_filter.1 (List.getElem_mem (l := net.getReactions st false) j.2)).1
      exact count_id fun p hp he => hwf.eq_of_id (hwf.closed _ hr _ (hl hp)) hs.1 he
    have hidx : ∀ i : Fin (net.getSpecies st false true true).length, (ids net st).getD i 0 =
        (net.getSpecies st false true true)[i].id := by
      intro i
      unfold ids
      rw [List.getD_eq_getElem?_getD, List.getElem?_map, List.getElem?_eq_getElem i.2]
      rfl
    refine ⟨?_, ?_, ?_, ?_, ?_, ?_, ?_, ?_, ?_⟩
    · intro i; rw [← hC]
    · intro n
      rw [← hC]
      simp only [List.mem_map, List.mem_filter]
      exact ⟨fun ⟨s, ⟨h1, h2⟩, h3⟩ => ⟨s, h1, h3, h2⟩, fun ⟨s, h1, h3, h2⟩ => ⟨s, ⟨h1, h2⟩, h3⟩⟩
    · intro j i
      rw [← hC]
      simp only [hL3]
      exact hcount j i _ fun p hp => List.mem_append_left _ hp
    · intro j i
      rw [← hC]
      simp only [hR3]
      exact hcount j i _ fun p hp => List.mem_append_right _ hp
    · intro t j
      rw [← hC]
      have hf : F.cols.filter (· ≠ Lab.t) = (net.getReactions st false).map (fun r => Lab.id r.id) := by
        rw [m1, List.filter_cons_of_neg (by simp), List.filter_eq_self.2]
        intro x hx
        obtain ⟨r, -, rfl⟩ := List.mem_map.1 hx
        simp
      simp only [hf]
      rw [List.getD_eq_getElem?_getD, List.getElem?_map, List.getElem?_eq_getElem j.2]
      rfl
    · intro t i w hw
      rw [← hC]
      have hs := mem_getSpecies.1 (List.getElem_mem (l := net.getSpecies st false true true) i.2)
      simp only [List.getD_eq_getElem?_getD, hw, Option.getD_some]
      by_cases hsp : (net.getSpecies st false true true)[i].isSpecial = true
      · rw [if_pos hsp, if_neg]
        rw [m2, List.mem_cons, not_or]
        constructor
        · intro he
          have : (net.getSpecies st false true true)[i].isSpecial = false := by
            unfold RP.isSpecial
            rw [he]
            decide
          rw [this] at hsp
          cases hsp
        · rw [List.mem_map]
          rintro ⟨u, hu, hun⟩
          obtain ⟨hu1, hu2, hu3⟩ := mem_heavy.1 hu
          have := hwf.eq_of_name hu1 hs.1 hun
          rw [this] at hu3
          exact absurd hsp (by rw [show (net.getSpecies st false true true)[i].isSpecial = false from hu3]; simp)
      · rw [if_neg hsp, if_pos]
        rw [m2]
        refine List.mem_cons_of_mem _ (List.mem_map.2 ⟨_, mem_heavy.2 ⟨hs.1, hs.2, ?_⟩, rfl⟩)
        simpa using hsp
    · intro a b
      rw [← hC]
      simp only [hM1, hcols, hidx]
      exact congrArg _ (hM3 _ (List.getElem_mem a.2) _ (List.getElem_mem b.2))
    · rw [← hC]
    · rw [← hC]

/-! ### the weights -/

theorem sum_list {α : Type} (l : List α) (f : α → ℝ) : ∑ j : Fin l.length, f l[j] = (l.map f).sum := by
  rw [← Fin.sum_univ_fun_getElem]; rfl

theorem sum_list_filter {α : Type} (l : List α) (p : α → Prop) [DecidablePred p] (f : α → ℝ) :
    ∑ j : Fin l.length with p l[j], f l[j] = ((l.filter p).map f).sum := by
  rw [sum_filter, sum_list l fun x => if p x then f x else 0]
  induction l with
  | nil => rfl
  | cons x l ih =>
    rw [List.map_cons, List.sum_cons, ih]
    by_cases hx : p x
    · rw [if_pos hx, List.filter_cons_of_pos (by simpa using hx), List.map_cons, List.sum_cons]
    · rw [if_neg hx, List.filter_cons_of_neg (by simpa using hx), zero_add]

theorem chemistry_weights_sound {net : Net} {st : State} (h : Sound net st) (hcl : net.RetClosed) (hpy : PyDicts net st)
    {radius length : ℝ} {F : Frame Lab} {W : Frame Str}
    {C : ChemGraph Str ℝ (net.getSpecies st false true true).length (net.getReactions st false).length F.rows.length}
    (hC : init net st radius length F W = .ok C)
    (hr : ∀ f ∈ F.rows, ∀ r ∈ net.getReactions st false, 0 ≤ f (.id r.id)) :
    ∃ Gs, C.distributeWeights .drg true = .ok Gs ∧ Gs.length = F.rows.length ∧
      ∀ (t : ℕ) G f w, Gs[t]? = some G → F.rows[t]? = some f → W.rows[t]? = some w →
        ∀ b ∈ net.getSpecies st false true true, ∀ a ∈ net.getSpecies st false true true, b ≠ a →
        ∀ part total,
          part = (((net.getReactions st false).filter fun r => b ∈ r.reactants ∨ b ∈ r.products).map (turnover f a)).sum +
            |wall st radius length w b a| →
          total = ((net.getReactions st false).map (turnover f a)).sum +
            ((net.getSpecies st false true true).map fun c => |wall st radius length w c a|).sum →
          (part = 0 → ∀ x, ¬ HasEdge G b.name a.name x) ∧
          (part ≠ 0 → HasEdge G b.name a.name (part / total) ∧ 0 < part / total ∧ part / total ≤ 1) := by
  have hwf := h.wf
  have hinv := h.inv
  have hR := arrays h hcl hpy hC
  have hinj : Function.Injective C.species := by
    intro i k hik
    rw [hR.species, hR.species] at hik
    have := hinv.ok.names
    have h2 := List.nodup_iff_injective_get.1 this
    have h3 := @h2 ⟨i.1, by simp⟩ ⟨k.1, by simp⟩ (by simpa using hik)
    simpa [Fin.ext_iff] using h3
  have hr' : ∀ t j, 0 ≤ C.rates t j := fun t j => by
    rw [hR.rates]
    exact hr _ (List.getElem_mem _) _ (List.getElem_mem _)
  obtain ⟨Gs, e, hlen, H⟩ := drg_weights C hinj hr' true
  refine ⟨Gs, e, hlen, ?_⟩
  intro t G f w hG hf hw b hb a ha hba part total hp ht
  obtain ⟨htl, hft⟩ := List.getElem?_eq_some_iff.1 hf
  obtain ⟨i, hi, rfl⟩ := List.mem_iff_getElem.1 hb
  obtain ⟨k, hk, rfl⟩ := List.mem_iff_getElem.1 ha
  have hG' : Gs[(⟨t, htl⟩ : Fin F.rows.length)] = G := (List.getElem?_eq_some_iff.1 hG).2
  have hwall : ∀ c : Fin (net.getSpecies st false true true).length, wallSource C true ⟨t, htl⟩ c ⟨k, hk⟩ =
      wall st radius length w (net.getSpecies st false true true)[c] (net.getSpecies st false true true)[k] := by
    intro c
    unfold wallSource wall
    rw [if_pos rfl, hR.fluxes _ _ w hw, hR.area, hR.vol, hR.ret]
    by_cases hs : (net.getSpecies st false true true)[c].isSpecial = true
    · rw [if_pos hs, if_pos hs]; ring
    · rw [if_neg hs, if_neg hs]
      have hiff : (c = ⟨k, hk⟩) ↔ (net.getSpecies st false true true)[c] = (net.getSpecies st false true true)[k] := by
        constructor
        · intro h; rw [h]; rfl
        · intro h
          exact hinj (by rw [hR.species, hR.species]; exact congrArg RP.name h)
      simp only [hiff]
      rfl
  have hyield : ∀ j, |yieldOf C j ⟨k, hk⟩| * C.rates ⟨t, htl⟩ j =
      turnover f (net.getSpecies st false true true)[k] (net.getReactions st false)[j] := by
    intro j
    unfold yieldOf turnover
    rw [hR.lhs, hR.rhs, hR.rates]
    have : F.rows[(⟨t, htl⟩ : Fin F.rows.length)] = f := hft
    rw [this]
    rfl
  have hinvol : ∀ j, Involves C j ⟨i, hi⟩ ↔ (net.getSpecies st false true true)[i] ∈ (net.getReactions st false)[j].reactants ∨
      (net.getSpecies st false true true)[i] ∈ (net.getReactions st false)[j].products := by
    intro j
    unfold Involves
    rw [hR.lhs, hR.rhs]
    simp only [ne_eq, List.count_eq_zero, not_not]
    rfl
  have key := H ⟨t, htl⟩ ⟨i, hi⟩ ⟨k, hk⟩ (fun he => hba (by simp only [Fin.mk.injEq] at he; simp only [he])) part total
    (by
      rw [hp]
      congr 1
      · simp only [hinvol, hyield]
        exact (sum_list_filter _ _ _).symm
      · rw [hwall]; rfl)
    (by
      rw [ht]
      congr 1
      · simp only [hyield]
        exact (sum_list _ _).symm
      · simp only [hwall]
        exact (sum_list _ fun c => |wall st radius length w c _|).symm)
  rw [hG', hR.species, hR.species] at key
  exact key

/-- **C92.** DRG weights of a chemistry. In the graph of a time, the weight of the edge from species `b` to species `a` is the
turnover of `a` in the enabled reactions in which `b` takes part, and by `b` at the walls, divided by the total turnover of
`a`; there is no edge if there is no such turnover. -/
theorem chemistry_weights {net : Net} {st : State} (h : Reachable net st) (hcl : net.RetClosed) (hpy : PyDicts net st)
    {radius length : ℝ} {F : Frame Lab} {W : Frame Str}
    {C : ChemGraph Str ℝ (net.getSpecies st false true true).length (net.getReactions st false).length F.rows.length}
    (hC : init net st radius length F W = .ok C)
    (hr : ∀ f ∈ F.rows, ∀ r ∈ net.getReactions st false, 0 ≤ f (.id r.id)) :
    ∃ Gs, C.distributeWeights .drg true = .ok Gs ∧ Gs.length = F.rows.length ∧
      ∀ (t : ℕ) G f w, Gs[t]? = some G → F.rows[t]? = some f → W.rows[t]? = some w →
        ∀ b ∈ net.getSpecies st false true true, ∀ a ∈ net.getSpecies st false true true, b ≠ a →
        ∀ part total,
          part = (((net.getReactions st false).filter fun r => b ∈ r.reactants ∨ b ∈ r.products).map (turnover f a)).sum +
            |wall st radius length w b a| →
          total = ((net.getReactions st false).map (turnover f a)).sum +
            ((net.getSpecies st false true true).map fun c => |wall st radius length w c a|).sum →
          (part = 0 → ∀ x, ¬ HasEdge G b.name a.name x) ∧
          (part ≠ 0 → HasEdge G b.name a.name (part / total) ∧ 0 < part / total ∧ part / total ≤ 1) :=
  chemistry_weights_sound (.of_reachable h) hcl hpy hC hr

/-! ### the ranking -/

theorem chemistry_ranking_sound {L : Type} [DecidableEq L] {net : Net} {st : State} (h : Sound net st) (hcl : net.RetClosed)
    (hpy : PyDicts net st) {radius length : ℝ} {F : Frame Lab} {W : Frame Str}
    {C : ChemGraph Str ℝ (net.getSpecies st false true true).length (net.getReactions st false).length F.rows.length}
    (hC : init net st radius length F W = .ok C)
    (hr : ∀ f ∈ F.rows, ∀ r ∈ net.getReactions st false, 0 ≤ f (.id r.id)) (hne : F.rows ≠ []) (important : List Str)
    (hrest : ∃ s ∈ net.species, st.enSp s.id = true ∧ s.isSpecial = false ∧ s.name ∉ important)
    (method : SearchMethod) (hmeth : method ≠ .maxFlow)
    (label : Str → ℕ → L) (hlab : ∀ i t i' t', label i t = label i' t' → i = i' ∧ t = t')
    (iter : Finset Str → List Str) (hiter : IterOk iter) (sortValues : List (Str × Score) → List (Str × Score))
    (hsort : SortOk sortValues) :
    ∃ Gs ranking, C.distributeWeights .drg true = .ok Gs ∧
      C.getRanking Gs important method label iter sortValues = .ok ranking ∧
      (ranking.map Prod.fst).Nodup ∧
      (∀ n, n ∈ ranking.map Prod.fst ↔
        ∃ s ∈ net.species, s.name = n ∧ st.enSp s.id = true ∧ s.isSpecial = false ∧ n ∉ important) ∧
      ranking.Pairwise (fun a b => scoreLe a.2 b.2) ∧
      ∃ entry : Str → ℕ → Str → Score,
        (∀ imp ∈ important, ∀ (t : ℕ) G, Gs[t]? = some G → ∀ n ∈ ranking.map Prod.fst,
          EntryOk G method n imp (entry imp t n)) ∧
        ∀ n s, (n, s) ∈ ranking → IsMaxScore {e | ∃ imp ∈ important, ∃ t < F.rows.length, e = entry imp t n} s := by
  have hwf := h.wf
  have hinv := h.inv
  have hR := arrays h hcl hpy hC
  have hinj : Function.Injective C.species := by
    intro i k hik
    rw [hR.species, hR.species] at hik
    have h2 := List.nodup_iff_injective_get.1 hinv.ok.names
    have h3 := @h2 ⟨i.1, by simp⟩ ⟨k.1, by simp⟩ (by simpa using hik)
    simpa [Fin.ext_iff] using h3
  have hr' : ∀ t j, 0 ≤ C.rates t j := fun t j => by
    rw [hR.rates]
    exact hr _ (List.getElem_mem _) _ (List.getElem_mem _)
  have hm : method = .maxBottleneck ∨ method = .shortestPath ∨
      (method = .maxProduct ∧ ((.drg : Weighting) = .drg ∨ (.drg : Weighting) = .drgep)) := by
    cases method with
    | maxBottleneck => exact .inl rfl
    | shortestPath => exact .inr (.inl rfl)
    | maxProduct => exact .inr (.inr ⟨rfl, .inl rfl⟩)
    | maxFlow => exact absurd rfl hmeth
  obtain ⟨Gs, e, hlen, hS⟩ := distributed_searchable C hinj hr' .drg true method hm
  have hchar : ∀ n, ((∃ i, C.species i = n) ∧ n ∉ important ∧ n ∉ C.special) ↔
      ∃ s ∈ net.species, s.name = n ∧ st.enSp s.id = true ∧ s.isSpecial = false ∧ n ∉ important := by
    intro n
    rw [hR.special]
    constructor
    · rintro ⟨⟨i, hi⟩, hn, hsp⟩
      rw [hR.species] at hi
      obtain ⟨h1, h2⟩ := mem_getSpecies.1 (List.getElem_mem (l := net.getSpecies st false true true) i.2)
      refine ⟨_, h1, hi, h2, ?_, hn⟩
      by_contra hc
      exact hsp ⟨_, h1, hi, by simpa using hc⟩
    · rintro ⟨s, h1, rfl, h2, h3, hn⟩
      obtain ⟨i, hi, he⟩ := List.mem_iff_getElem.1 (mem_getSpecies.2 ⟨h1, h2⟩)
      refine ⟨⟨⟨i, hi⟩, ?_⟩, hn, ?_⟩
      · rw [hR.species]; exact congrArg RP.name he
      · rintro ⟨u, hu, hun, hus⟩
        rw [hwf.eq_of_name hu h1 hun, h3] at hus
        cases hus
  obtain ⟨ranking, r1, r2, r3, r4, entry, r5, r6⟩ := ranking_spec C hinj Gs hlen (by simpa using hne) important method label
    hlab iter hiter sortValues hsort _ rfl (by
      obtain ⟨s, h1, h2, h3, h4⟩ := hrest
      obtain ⟨⟨i, hi⟩, h5, h6⟩ := (hchar s.name).2 ⟨s, h1, rfl, h2, h3, h4⟩
      intro hnil
      have := List.filter_eq_nil_iff.1 hnil s.name (List.mem_map.2 ⟨i, List.mem_finRange i, hi⟩)
      simp [h5, h6] at this) (fun G hG => hS _ G hG)
  refine ⟨Gs, ranking, by convert e, r1, r2, fun n => (r3 n).trans (hchar n), r4, entry, fun imp hi t G hG n hn => ?_, r6⟩
  have hr5 := r5 imp hi t G hG n (by
    obtain ⟨⟨i, hi⟩, h5, h6⟩ := (r3 n).1 hn
    rw [List.mem_filter]
    exact ⟨List.mem_map.2 ⟨i, List.mem_finRange i, hi⟩, by simp [h5, h6]⟩)
  convert hr5

/-- **C92.** The ranking of a chemistry. Starting from the chemistry, the logged rates and fluxes of at least one time and any
targets: the ranking lists every enabled species but the targets and the special ones exactly once, ascending by score; the
score of a species is the largest strength of a path from it to a target, over all targets and times, in the graphs whose
weights are given by `chemistry_weights`. -/
theorem chemistry_ranking {L : Type} [DecidableEq L] {net : Net} {st : State} (h : Reachable net st) (hcl : net.RetClosed)
    (hpy : PyDicts net st) {radius length : ℝ} {F : Frame Lab} {W : Frame Str}
    {C : ChemGraph Str ℝ (net.getSpecies st false true true).length (net.getReactions st false).length F.rows.length}
    (hC : init net st radius length F W = .ok C)
    (hr : ∀ f ∈ F.rows, ∀ r ∈ net.getReactions st false, 0 ≤ f (.id r.id)) (hne : F.rows ≠ []) (important : List Str)
    (hrest : ∃ s ∈ net.species, st.enSp s.id = true ∧ s.isSpecial = false ∧ s.name ∉ important)
    (method : SearchMethod) (hmeth : method ≠ .maxFlow)
    (label : Str → ℕ → L) (hlab : ∀ i t i' t', label i t = label i' t' → i = i' ∧ t = t')
    (iter : Finset Str → List Str) (hiter : IterOk iter) (sortValues : List (Str × Score) → List (Str × Score))
    (hsort : SortOk sortValues) :
    ∃ Gs ranking, C.distributeWeights .drg true = .ok Gs ∧
      C.getRanking Gs important method label iter sortValues = .ok ranking ∧
      (ranking.map Prod.fst).Nodup ∧
      (∀ n, n ∈ ranking.map Prod.fst ↔
        ∃ s ∈ net.species, s.name = n ∧ st.enSp s.id = true ∧ s.isSpecial = false ∧ n ∉ important) ∧
      ranking.Pairwise (fun a b => scoreLe a.2 b.2) ∧
      ∃ entry : Str → ℕ → Str → Score,
        (∀ imp ∈ important, ∀ (t : ℕ) G, Gs[t]? = some G → ∀ n ∈ ranking.map Prod.fst,
          EntryOk G method n imp (entry imp t n)) ∧
        ∀ n s, (n, s) ∈ ranking → IsMaxScore {e | ∃ imp ∈ important, ∃ t < F.rows.length, e = entry imp t n} s :=
  chemistry_ranking_sound (.of_reachable h) hcl hpy hC hr hne important hrest method hmeth label hlab iter hiter sortValues hsort

end Verif.Fwork.CoupleInit
