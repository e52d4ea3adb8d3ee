/-
Model of pygmo_fwork/optichem/graph.py: `ChemistryGraph.get_ranking` (C38, C65).

Scores are real numbers or infinity, `nan` is `none`; rounding is not modelled.
-/
import Verif.Fwork.Coupling
import Verif.Fwork.FlowProps
import Mathlib.Analysis.SpecialFunctions.Log.Basic
import Mathlib.Data.List.Sort

namespace Verif.Fwork

open Finset

/-- graph.py:508 -/
inductive SearchMethod where
  | maxBottleneck
  | shortestPath
  | maxProduct
  | maxFlow
deriving DecidableEq

inductive RankErr where
  | value
  | graph (e : GraphErr)

/-- `nan` is `none`, `inf` is `some ⊤` -/
abbrev Score := Option (WithTop ℝ)

/-- graph.py:527: `lambda x: 1/x` for the value of a path; `1/inf` is zero. -/
noncomputable def invLen : WithTop ℝ → WithTop ℝ
  | none => ((0 : ℝ) : WithTop ℝ)
  | some x => ((1 / x : ℝ) : WithTop ℝ)

/-- graph.py:531: `lambda x: 1/np.exp(x)`; for `inf` this is zero. -/
noncomputable def invExp : WithTop ℝ → WithTop ℝ
  | none => ((0 : ℝ) : WithTop ℝ)
  | some x => ((1 / Real.exp x : ℝ) : WithTop ℝ)

section
variable {V : Type} [DecidableEq V]

/-- graph.py:532-536: the loop over the assessed species for `max_flow` -/
noncomputable def flowScores (G : Graph V ℝ) (target : V) (iter : Finset V → List V) :
    List V → (V → Score) → Except GraphErr (V → Score)
  | [], d => .ok d
  | sp :: l, d =>
    match getMaxFlow G sp target id id iter with
    | .error e => .error e
    | .ok x => flowScores G target iter l (Function.update d sp (some (x : WithTop ℝ)))

/-- graph.py:521-538: the dictionary `scores`, with `nan` for species that are not among its keys (this is what
the assignment to a row of the frame does with them). The paths are not used. -/
noncomputable def searchScores (G : Graph V ℝ) (target : V) (method : SearchMethod) (iter : Finset V → List V)
    (assessed : List V) : Except GraphErr (V → Score) :=
  match method with
  | .maxBottleneck =>
    match findMaxBottleneckPaths G target id id iter with
    | .error e => .error e
    | .ok (_, w) => .ok fun v => if v ∈ G.nodes then some (w v) else none
  | .shortestPath =>
    match findShortestPaths G target (fun x => 1 / x) invLen iter with
    | .error e => .error e
    | .ok (_, l) => .ok fun v => if v ∈ G.nodes then l v else none
  | .maxProduct =>
    match findShortestPaths G target (fun x => Real.log (1 / x)) invExp iter with
    | .error e => .error e
    | .ok (_, l) => .ok fun v => if v ∈ G.nodes then l v else none
  | .maxFlow => flowScores G target iter assessed fun _ => none

/-- graph.py:539: `ranking_all.loc[index, :] = scores`: replaces the row with this label or appends one. -/
def setRow {L A : Type} [DecidableEq L] (rows : List (L × A)) (l : L) (row : A) : List (L × A) :=
  if l ∈ rows.map Prod.fst then rows.map fun r => if r.1 = l then (l, row) else r
  else rows ++ [(l, row)]

/-- graph.py:516-539: the two loops; `label` is the format of target and time. -/
noncomputable def rankRows {L : Type} [DecidableEq L] (Gs : List (Graph V ℝ)) (method : SearchMethod)
    (label : V → ℕ → L) (iter : Finset V → List V) (assessed : List V) :
    List (V × ℕ) → List (L × (V → Score)) → Except RankErr (List (L × (V → Score)))
  | [], rows => .ok rows
  | (imp, t) :: l, rows =>
    match Gs[t]? with
    | none => .error .value
    | some G =>
      match searchScores G imp method iter assessed with
      | .error e => .error (.graph e)
      | .ok row =>
        -- pandas: cannot set a row of a frame without columns
        if assessed = [] then .error .value
        else rankRows Gs method label iter assessed l (setRow rows (label imp t) row)

/-- graph.py:541: maximum over the rows, `nan` is skipped -/
noncomputable def maxScore (l : List Score) : Score :=
  l.foldl (fun acc x => match acc, x with
    | none, x => x
    | some a, none => some a
    | some a, some b => some (max a b)) none

end

section
variable {V : Type} [LinearOrder V]

/-- graph.py:493-547 `get_ranking`. `sortValues` is the (unstable) sort of pandas. -/
noncomputable def ChemGraph.getRanking {n m nt : ℕ} {L : Type} [DecidableEq L] (C : ChemGraph V ℝ n m nt)
    (Gs : List (Graph V ℝ)) (important : List V) (method : SearchMethod) (label : V → ℕ → L)
    (iter : Finset V → List V) (sortValues : List (V × Score) → List (V × Score)) :
    Except RankErr (List (V × Score)) :=
  if Gs = [] then .error .value
  else
    let assessed := ((List.finRange n).map C.species).filter fun sp => !(sp ∈ important || sp ∈ C.special)
    match rankRows Gs method label iter assessed
      (important.flatMap fun imp => (List.range nt).map fun t => (imp, t)) [] with
    | .error e => .error e
    | .ok rows =>
      let ranking := (assessed.mergeSort (· ≤ ·)).map fun sp => (sp, maxScore (rows.map fun r => r.2 sp))
      .ok (sortValues ranking)

end

/-! ### specification -/

section
variable {V : Type} [DecidableEq V]

/-- product of the weights along a path -/
noncomputable def pathProd (G : Graph V ℝ) : List V → ℝ
  | [] => 1
  | [_] => 1
  | u :: v :: r => G.weight u v * pathProd G (v :: r)

/-- the strengths of the paths (or flows) from a species to a target; zero is included for the case without
path -/
def strengths (G : Graph V ℝ) (method : SearchMethod) (sp target : V) : Set (WithTop ℝ) :=
  match method with
  | .maxBottleneck => {x | x = (0 : ℝ) ∨ ∃ p, PathFromTo G sp target p ∧ x = pathWidth G id p}
  | .shortestPath => {x | x = (0 : ℝ) ∨ ∃ p, PathFromTo G sp target p ∧
      x = ((1 / pathLen G (fun w => 1 / w) p : ℝ) : WithTop ℝ)}
  | .maxProduct => {x | x = (0 : ℝ) ∨ ∃ p, PathFromTo G sp target p ∧ x = (pathProd G p : ℝ)}
  | .maxFlow => {x | ∃ (y : ℝ) (φ : V → V → ℝ), IsFlow G.nodes (G.cap id) sp target φ y ∧ x = (y : ℝ)}

/-- The entry of a species for one target and one time: `nan` if the species is not in the graph; else the largest
strength, but `nan` for a product that is exactly one. -/
def EntryOk (G : Graph V ℝ) (method : SearchMethod) (sp target : V) (e : Score) : Prop :=
  (sp ∉ G.nodes ∧ e = none) ∨
  (sp ∈ G.nodes ∧ ∃ x, IsGreatest (strengths G method sp target) x ∧
    ((method = .maxProduct ∧ x = ((1 : ℝ) : WithTop ℝ) ∧ e = none) ∨
     (¬ (method = .maxProduct ∧ x = ((1 : ℝ) : WithTop ℝ)) ∧ e = some x)))

/-- `s` is the largest number in a set of scores, `nan` if all of them are -/
def IsMaxScore (S : Set Score) (s : Score) : Prop :=
  (s = none ∧ ∀ e ∈ S, e = none) ∨ (∃ x, s = some x ∧ s ∈ S ∧ ∀ y, some y ∈ S → y ≤ x)

/-- ascending order with `nan` at the end -/
def scoreLe : Score → Score → Prop
  | _, none => True
  | none, some _ => False
  | some a, some b => a ≤ b

end

/-! ### lemmas -/

section
variable {V : Type} [DecidableEq V]

theorem maxScore_ok (l : List Score) : IsMaxScore {e | e ∈ l} (maxScore l) := by
  have H : ∀ (l : List Score) (acc : Score) (S : Set Score), IsMaxScore S acc →
      IsMaxScore {e | e ∈ S ∨ e ∈ l} (l.foldl (fun acc x => match acc, x with
        | none, x => x
        | some a, none => some a
        | some a, some b => some (max a b)) acc) := by
    intro l
    induction l with
    | nil => intro acc S h; simpa using h
    | cons y l ih =>
      intro acc S h
      rw [List.foldl_cons]
      have key : ∀ acc', IsMaxScore {e | e ∈ S ∨ e = y} acc' → IsMaxScore {e | e ∈ S ∨ e ∈ y :: l}
          (l.foldl (fun acc x => match acc, x with
            | none, x => x
            | some a, none => some a
            | some a, some b => some (max a b)) acc') := by
        intro acc' h'
        have := ih acc' _ h'
        convert this using 2
        ext e
        simp only [Set.mem_ofPred_eq, List.mem_cons, or_assoc]
      apply key
      rcases h with ⟨rfl, h⟩ | ⟨x, rfl, hx, h⟩
      · cases y with
        | none =>
          left
          refine ⟨rfl, ?_⟩
          rintro e (he | rfl)
          · exact h e he
          · rfl
        | some y =>
          right
          refine ⟨y, rfl, Or.inr rfl, ?_⟩
          rintro z (hz | hz)
          · have := h _ hz; cases this
          · cases hz; exact le_rfl
      · cases y with
        | none =>
          right
          refine ⟨x, rfl, Or.inl hx, ?_⟩
          rintro z (hz | hz)
          · exact h z hz
          · cases hz
        | some y =>
          right
          refine ⟨max x y, rfl, ?_, ?_⟩
          · rcases le_total x y with hxy | hxy
            · right; simp [max_eq_right hxy]
            · left; simp only [max_eq_left hxy]; exact hx
          · rintro z (hz | hz)
            · exact (h z hz).trans (le_max_left _ _)
            · cases hz; exact le_max_right _ _
  have := H l none ∅ (Or.inl ⟨rfl, fun e he => he.elim⟩)
  simpa [maxScore] using this

theorem setRow_mem {L A : Type} [DecidableEq L] (rows : List (L × A)) (l : L) (row : A) (r : L × A) :
    r ∈ setRow rows l row ↔ (r ∈ rows ∧ r.1 ≠ l) ∨ r = (l, row) := by
  unfold setRow
  split
  · next h =>
    simp only [List.mem_map]
    constructor
    · rintro ⟨r', hr', rfl⟩
      by_cases h : r'.1 = l
      · rw [if_pos h]; exact Or.inr rfl
      · rw [if_neg h]; exact Or.inl ⟨hr', h⟩
    · rintro (⟨h1, h2⟩ | rfl)
      · exact ⟨r, h1, if_neg h2⟩
      · obtain ⟨r', hr', he⟩ := List.mem_map.1 h
        exact ⟨r', hr', if_pos he⟩
  · next h =>
    simp only [List.mem_append, List.mem_singleton]
    constructor
    · rintro (h1 | h1)
      · exact Or.inl ⟨h1, fun h2 => h (List.mem_map.2 ⟨r, h1, h2⟩)⟩
      · exact Or.inr h1
    · rintro (h1 | h1)
      · exact Or.inl h1.1
      · exact Or.inr h1

/-! the scores of one graph -/

omit [DecidableEq V] in
theorem weight_pos {G : Graph V ℝ} (hG : G.Ok) (u v : V) (h : (u, v) ∈ G.edges) : 0 < G.weight u v := by
  obtain ⟨w, hw, h0⟩ := (hG.edge_iff u v).1 h
  unfold Graph.weight; rw [hw]; exact h0

omit [DecidableEq V] in
theorem pathLen_pos {G : Graph V ℝ} (f : ℝ → ℝ) (hf : ∀ u v, (u, v) ∈ G.edges → 0 < f (G.weight u v)) :
    ∀ p : List V, IsPath G p → 0 ≤ pathLen G f p ∧ (2 ≤ p.length → 0 < pathLen G f p)
  | [], h => h.elim
  | [_], _ => ⟨le_rfl, fun h => by simp at h⟩
  | u :: v :: r, h => by
    have h1 := pathLen_pos f hf (v :: r) h.2
    have h2 := hf u v h.1
    rw [pathLen]
    exact ⟨by linarith [h1.1], fun _ => by linarith [h1.1]⟩

omit [DecidableEq V] in
theorem path_two {G : Graph V ℝ} {u v : V} {p : List V} (huv : u ≠ v) (h : PathFromTo G u v p) : 2 ≤ p.length := by
  obtain ⟨h1, h2, h3⟩ := h
  match p, h1, h2, h3 with
  | [x], _, h2, h3 =>
    simp at h2 h3
    exact absurd (h2.symm.trans h3) huv
  | _ :: _ :: _, _, _, _ => simp

omit [DecidableEq V] in
theorem pathProd_spec {G : Graph V ℝ} (hw : ∀ u v, (u, v) ∈ G.edges → 0 < G.weight u v) :
    ∀ p : List V, IsPath G p → 0 < pathProd G p ∧
      pathLen G (fun x => Real.log (1 / x)) p = Real.log (1 / pathProd G p)
  | [], h => h.elim
  | [_], _ => by simp [pathProd, pathLen]
  | u :: v :: r, h => by
    obtain ⟨h1, h2⟩ := pathProd_spec hw (v :: r) h.2
    have h3 := hw u v h.1
    rw [pathProd, pathLen, h2]
    refine ⟨mul_pos h3 h1, ?_⟩
    rw [one_div, one_div, one_div, mul_inv, Real.log_mul (inv_ne_zero h3.ne') (inv_ne_zero h1.ne')]

theorem scores_bottleneck {G : Graph V ℝ} (hG : G.Ok) (hd : G.distributed = true) (target : V)
    (iter : Finset V → List V) (hiter : IterOk iter) (assessed : List V) :
    ∃ row, searchScores G target .maxBottleneck iter assessed = .ok row ∧
      ∀ sp, EntryOk G .maxBottleneck sp target (row sp) := by
  obtain ⟨paths, w, e, H⟩ := widest_paths G hG hd target id id iter hiter fun u v h => (weight_pos hG u v h).le
  refine ⟨fun v => if v ∈ G.nodes then some (w v) else none, by simp only [searchScores, e], fun sp => ?_⟩
  by_cases hsp : sp ∈ G.nodes
  · refine Or.inr ⟨hsp, w sp, ?_, Or.inr ⟨(fun h => by cases h.1), by simp only [if_pos hsp]⟩⟩
    rcases H sp hsp with ⟨p, -, hp, h0, hbest, hv⟩ | ⟨-, hz, hv⟩
    · refine ⟨Or.inr ⟨p, hp, hv⟩, ?_⟩
      rintro x (rfl | ⟨q, hq, rfl⟩)
      · rw [hv]; exact h0.le
      · rw [hv]; exact hbest q hq
    · refine ⟨Or.inl hv, ?_⟩
      rintro x (rfl | ⟨q, hq, rfl⟩)
      · rw [hv]; exact le_rfl
      · rw [hv, hz q hq]; exact le_rfl
  · exact Or.inl ⟨hsp, by simp only [if_neg hsp]⟩

theorem scores_shortest {G : Graph V ℝ} (hG : G.Ok) (hd : G.distributed = true) (target : V)
    (iter : Finset V → List V) (hiter : IterOk iter) (assessed : List V) :
    ∃ row, searchScores G target .shortestPath iter assessed = .ok row ∧
      ∀ sp, sp ≠ target → EntryOk G .shortestPath sp target (row sp) := by
  have hf : ∀ u v, (u, v) ∈ G.edges → 0 < (fun x : ℝ => 1 / x) (G.weight u v) := fun u v h =>
    one_div_pos.2 (weight_pos hG u v h)
  obtain ⟨paths, w, e, H⟩ := shortest_paths G hG hd target (fun x => 1 / x) invLen iter hiter
    fun u v h => (hf u v h).le
  refine ⟨fun v => if v ∈ G.nodes then w v else none, by simp only [searchScores, e], fun sp hne => ?_⟩
  by_cases hsp : sp ∈ G.nodes
  · rcases H sp hsp with ⟨p, -, hp, hbest, hv⟩ | ⟨-, hz, hv⟩
    · have h0 := (pathLen_pos _ hf p hp.1).2 (path_two hne hp)
      rw [if_pos h0] at hv
      refine Or.inr ⟨hsp, _, ⟨Or.inr ⟨p, hp, rfl⟩, ?_⟩, Or.inr ⟨(fun h => by cases h.1), ?_⟩⟩
      · rintro x (rfl | ⟨q, hq, rfl⟩)
        · exact WithTop.coe_le_coe.2 (one_div_pos.2 h0).le
        · exact WithTop.coe_le_coe.2 (one_div_le_one_div_of_le h0 (hbest q hq))
      · simp only [if_pos hsp]
        rw [hv]
        rfl
    · refine Or.inr ⟨hsp, ((0 : ℝ) : WithTop ℝ), ⟨Or.inl rfl, ?_⟩, Or.inr ⟨(fun h => by cases h.1), ?_⟩⟩
      · rintro x (rfl | ⟨q, hq, rfl⟩)
        · exact le_rfl
        · exact absurd hq (hz q)
      · simp only [if_pos hsp]
        rw [hv]
        rfl
  · exact Or.inl ⟨hsp, by simp only [if_neg hsp]⟩

theorem scores_product {G : Graph V ℝ} (hG : G.Ok) (hd : G.distributed = true)
    (h1 : ∀ u v, (u, v) ∈ G.edges → G.weight u v ≤ 1) (target : V)
    (iter : Finset V → List V) (hiter : IterOk iter) (assessed : List V) :
    ∃ row, searchScores G target .maxProduct iter assessed = .ok row ∧
      ∀ sp, EntryOk G .maxProduct sp target (row sp) := by
  have hw := weight_pos hG
  obtain ⟨paths, w, e, H⟩ := shortest_paths G hG hd target (fun x => Real.log (1 / x)) invExp iter hiter
    fun u v h => Real.log_nonneg (by rw [one_div]; exact (one_le_inv₀ (hw u v h)).2 (h1 u v h))
  refine ⟨fun v => if v ∈ G.nodes then w v else none, by simp only [searchScores, e], fun sp => ?_⟩
  by_cases hsp : sp ∈ G.nodes
  · rcases H sp hsp with ⟨p, -, hp, hbest, hv⟩ | ⟨-, hz, hv⟩
    · obtain ⟨hp0, hpl⟩ := pathProd_spec hw p hp.1
      refine Or.inr ⟨hsp, (pathProd G p : ℝ), ⟨Or.inr ⟨p, hp, rfl⟩, ?_⟩, ?_⟩
      · rintro x (rfl | ⟨q, hq, rfl⟩)
        · exact WithTop.coe_le_coe.2 hp0.le
        · obtain ⟨hq0, hql⟩ := pathProd_spec hw q hq.1
          have := hbest q hq
          rw [hpl, hql, Real.log_le_log_iff (one_div_pos.2 hp0) (one_div_pos.2 hq0),
            one_div_le_one_div hp0 hq0] at this
          exact WithTop.coe_le_coe.2 this
      · simp only [if_pos hsp]
        have hnn : 0 ≤ pathLen G (fun x => Real.log (1 / x)) p := by
          have : ∀ q : List V, IsPath G q → 0 ≤ pathLen G (fun x => Real.log (1 / x)) q := by
            intro q
            induction q with
            | nil => intro h; exact h.elim
            | cons x r ih =>
              intro h
              cases r with
              | nil => exact le_rfl
              | cons y r =>
                rw [pathLen]
                refine add_nonneg (Real.log_nonneg ?_) (ih h.2)
                rw [one_div]; exact (one_le_inv₀ (hw x y h.1)).2 (h1 x y h.1)
          exact this p hp.1
        by_cases hz : 0 < pathLen G (fun x => Real.log (1 / x)) p
        · rw [if_pos hz] at hv
          refine Or.inr ⟨?_, ?_⟩
          · rintro ⟨-, h⟩
            rw [WithTop.coe_eq_coe.1 h] at hpl
            rw [hpl] at hz
            simp at hz
          · rw [hv]
            have : invExp (pathLen G (fun x => Real.log (1 / x)) p : ℝ) =
                ((1 / Real.exp (pathLen G (fun x => Real.log (1 / x)) p) : ℝ) : WithTop ℝ) := rfl
            rw [this, hpl, Real.exp_log (one_div_pos.2 hp0), one_div_one_div]
        · rw [if_neg hz] at hv
          refine Or.inl ⟨trivial, ?_, hv⟩
          have h0 : pathLen G (fun x => Real.log (1 / x)) p = 0 := le_antisymm (not_lt.1 hz) hnn
          rw [hpl] at h0
          have h2 := Real.exp_log (one_div_pos.2 hp0)
          rw [h0, Real.exp_zero] at h2
          have : pathProd G p = 1 := by
            rw [eq_div_iff hp0.ne'] at h2
            linarith
          rw [this]
    · refine Or.inr ⟨hsp, ((0 : ℝ) : WithTop ℝ), ⟨Or.inl rfl, ?_⟩, Or.inr ⟨?_, ?_⟩⟩
      · rintro x (rfl | ⟨q, hq, rfl⟩)
        · exact le_rfl
        · exact absurd hq (hz q)
      · rintro ⟨-, h⟩
        exact zero_ne_one (WithTop.coe_eq_coe.1 h)
      · simp only [if_pos hsp]
        rw [hv]
        rfl
  · exact Or.inl ⟨hsp, by simp only [if_neg hsp]⟩

theorem flowScores_ok {G : Graph V ℝ} (hG : G.Ok) (hd : G.distributed = true) (target : V)
    (iter : Finset V → List V) (hiter : IterOk iter) : ∀ (l : List V) (d : V → Score), (∀ sp ∈ l, sp ∈ G.nodes) →
    ∃ row, flowScores G target iter l d = .ok row ∧ (∀ sp, sp ∈ l → EntryOk G .maxFlow sp target (row sp)) ∧
      ∀ sp, sp ∉ l → row sp = d sp
  | [], d, _ => ⟨d, rfl, fun sp h => (by cases h), fun _ _ => rfl⟩
  | sp :: l, d, hl => by
    obtain ⟨x, e, h1, h2, -⟩ := max_flow G hG hd sp target (hl sp (List.mem_cons_self ..)) id id iter hiter
      fun u v h => (weight_pos hG u v h).le
    obtain ⟨row, e', h3, h4⟩ := flowScores_ok hG hd target iter hiter l (Function.update d sp (some (x : WithTop ℝ)))
      fun sp h => hl sp (List.mem_cons_of_mem _ h)
    refine ⟨row, by simp only [flowScores, e, id_eq, e'], ?_, ?_⟩
    · intro sp' h
      by_cases hm : sp' ∈ l
      · exact h3 sp' hm
      · rcases List.mem_cons.1 h with rfl | h
        · rw [h4 _ hm, Function.update_self]
          refine Or.inr ⟨hl _ (List.mem_cons_self ..), (x : WithTop ℝ), ⟨?_, ?_⟩, Or.inr ⟨(fun h => by cases h.1), rfl⟩⟩
          · obtain ⟨φ, hφ⟩ := h1
            exact ⟨x, φ, hφ, rfl⟩
          · rintro y ⟨z, φ, hφ, rfl⟩
            exact WithTop.coe_le_coe.2 (h2 φ z hφ)
        · exact absurd h hm
    · intro sp' h
      rw [h4 sp' fun hm => h (List.mem_cons_of_mem _ hm), Function.update_of_ne]
      rintro rfl
      exact h (List.mem_cons_self ..)

/-- what the searches need of a graph -/
structure Searchable (G : Graph V ℝ) (method : SearchMethod) (assessed : List V) : Prop where
  ok : G.Ok
  distributed : G.distributed = true
  le_one : method = .maxProduct → ∀ u v, (u, v) ∈ G.edges → G.weight u v ≤ 1
  nodes : method = .maxFlow → ∀ sp ∈ assessed, sp ∈ G.nodes

theorem scores_ok {G : Graph V ℝ} {method : SearchMethod} {assessed : List V} (h : Searchable G method assessed)
    (target : V) (ht : target ∉ assessed) (iter : Finset V → List V) (hiter : IterOk iter) :
    ∃ row, searchScores G target method iter assessed = .ok row ∧
      ∀ sp ∈ assessed, EntryOk G method sp target (row sp) := by
  cases method with
  | maxBottleneck =>
    obtain ⟨row, e, H⟩ := scores_bottleneck h.ok h.distributed target iter hiter assessed
    exact ⟨row, e, fun sp _ => H sp⟩
  | shortestPath =>
    obtain ⟨row, e, H⟩ := scores_shortest h.ok h.distributed target iter hiter assessed
    exact ⟨row, e, fun sp hsp => H sp fun he => ht (he ▸ hsp)⟩
  | maxProduct =>
    obtain ⟨row, e, H⟩ := scores_product h.ok h.distributed (h.le_one rfl) target iter hiter assessed
    exact ⟨row, e, fun sp _ => H sp⟩
  | maxFlow =>
    obtain ⟨row, e, H, -⟩ := flowScores_ok h.ok h.distributed target iter hiter assessed (fun _ => none) (h.nodes rfl)
    exact ⟨row, e, H⟩

theorem rankRows_ok {L : Type} [DecidableEq L] {Gs : List (Graph V ℝ)} {method : SearchMethod} {assessed : List V}
    (label : V → ℕ → L) (hlab : ∀ i t i' t', label i t = label i' t' → i = i' ∧ t = t')
    (iter : Finset V → List V) (hne : assessed ≠ []) (scoresOf : V × ℕ → V → Score) :
    ∀ (l done : List (V × ℕ)) (rows : List (L × (V → Score))),
    (∀ p ∈ l, ∃ G, Gs[p.2]? = some G ∧ searchScores G p.1 method iter assessed = .ok (scoresOf p)) →
    (∀ r, r ∈ rows ↔ ∃ p ∈ done, r = (label p.1 p.2, scoresOf p)) →
    ∃ rows', rankRows Gs method label iter assessed l rows = .ok rows' ∧
      ∀ r, r ∈ rows' ↔ ∃ p, (p ∈ done ∨ p ∈ l) ∧ r = (label p.1 p.2, scoresOf p)
  | [], done, rows, _, h => ⟨rows, rfl, by simpa using h⟩
  | (i, t) :: l, done, rows, hl, h => by
    obtain ⟨G, hG, e⟩ := hl (i, t) (List.mem_cons_self ..)
    simp only at hG e
    obtain ⟨rows', e', h'⟩ := rankRows_ok label hlab iter hne scoresOf l (done ++ [(i, t)])
      (setRow rows (label i t) (scoresOf (i, t))) (fun p hp => hl p (List.mem_cons_of_mem _ hp)) (by
        intro r
        rw [setRow_mem, h r]
        simp only [List.mem_append, List.mem_singleton]
        constructor
        · rintro (⟨⟨p, hp, rfl⟩, -⟩ | rfl)
          · exact ⟨p, Or.inl hp, rfl⟩
          · exact ⟨(i, t), Or.inr rfl, rfl⟩
        · rintro ⟨p, hp | rfl, rfl⟩
          · by_cases hq : label p.1 p.2 = label i t
            · obtain ⟨h1, h2⟩ := hlab _ _ _ _ hq
              have : p = (i, t) := Prod.ext h1 h2
              subst this
              exact Or.inr rfl
            · exact Or.inl ⟨⟨p, hp, rfl⟩, hq⟩
          · exact Or.inr rfl)
    refine ⟨rows', by simp only [rankRows, hG, e, if_neg hne, e'], fun r => ?_⟩
    rw [h' r]
    simp only [List.mem_append, List.mem_cons, List.not_mem_nil, or_false, or_assoc]

end

/-! ### C38 -/

section
variable {V : Type} [LinearOrder V] {n m nt : ℕ}

/-- a sort by the score, ascending, with `nan` at the end; the order of equal scores is open -/
def SortOk (sortValues : List (V × Score) → List (V × Score)) : Prop :=
  ∀ l, (sortValues l).Perm l ∧ (sortValues l).Pairwise fun a b => scoreLe a.2 b.2

/-- **C38.** For all graphs on which the search is possible (`Searchable`), any targets and any order of iteration:
the ranking lists every species that is neither a target nor special exactly once, in ascending order of the scores;
a score is the maximum over all targets and times of the largest strength of a path (or flow) from the species to
the target. -/
theorem ranking_spec {L : Type} [DecidableEq L] (C : ChemGraph V ℝ n m nt) (hinj : Function.Injective C.species)
    (Gs : List (Graph V ℝ)) (hlen : Gs.length = nt) (hnt : nt ≠ 0) (important : List V) (method : SearchMethod)
    (label : V → ℕ → L) (hlab : ∀ i t i' t', label i t = label i' t' → i = i' ∧ t = t')
    (iter : Finset V → List V) (hiter : IterOk iter) (sortValues : List (V × Score) → List (V × Score))
    (hsort : SortOk sortValues) (assessed : List V)
    (hass : assessed = ((List.finRange n).map C.species).filter fun sp => !(sp ∈ important || sp ∈ C.special))
    (hne : assessed ≠ []) (hG : ∀ G ∈ Gs, Searchable G method assessed) :
    ∃ ranking, C.getRanking Gs important method label iter sortValues = .ok ranking ∧
      (ranking.map Prod.fst).Nodup ∧
      (∀ sp, sp ∈ ranking.map Prod.fst ↔ (∃ i, C.species i = sp) ∧ sp ∉ important ∧ sp ∉ C.special) ∧
      ranking.Pairwise (fun a b => scoreLe a.2 b.2) ∧
      ∃ entry : V → ℕ → V → Score,
        (∀ imp ∈ important, ∀ t G, Gs[t]? = some G → ∀ sp ∈ assessed, EntryOk G method sp imp (entry imp t sp)) ∧
        ∀ sp s, (sp, s) ∈ ranking → IsMaxScore {e | ∃ imp ∈ important, ∃ t < nt, e = entry imp t sp} s := by
  classical
  have hrow : ∀ p : V × ℕ, ∃ row : V → Score, p.1 ∈ important → ∀ G, Gs[p.2]? = some G →
      searchScores G p.1 method iter assessed = .ok row ∧ ∀ sp ∈ assessed, EntryOk G method sp p.1 (row sp) := by
    rintro ⟨imp, t⟩
    by_cases himp : imp ∈ important
    · cases hg : Gs[t]? with
      | none => exact ⟨fun _ => none, fun _ G h => (by cases h)⟩
      | some G =>
        have hmem : G ∈ Gs := List.mem_of_getElem? hg
        obtain ⟨row, e, H⟩ := scores_ok (hG G hmem) imp (by
          rw [hass, List.mem_filter]
          rintro ⟨-, h⟩
          simp [himp] at h) iter hiter
        refine ⟨row, fun _ G' h => ?_⟩
        obtain rfl : G = G' := by cases h; rfl
        exact ⟨e, H⟩
    · exact ⟨fun _ => none, fun h => absurd h himp⟩
  choose row hrow using hrow
  have hpairs : ∀ p, p ∈ (important.flatMap fun imp => (List.range nt).map fun t => (imp, t)) ↔
      p.1 ∈ important ∧ p.2 < nt := by
    rintro ⟨i, t⟩
    simp only [List.mem_flatMap, List.mem_map, List.mem_range, Prod.mk.injEq]
    constructor
    · rintro ⟨i', hi, t', ht, rfl, rfl⟩; exact ⟨hi, ht⟩
    · rintro ⟨hi, ht⟩; exact ⟨i, hi, t, ht, rfl, rfl⟩
  obtain ⟨rows, e, hrows⟩ := rankRows_ok (Gs := Gs) (method := method) label hlab iter hne row
    (important.flatMap fun imp => (List.range nt).map fun t => (imp, t)) [] [] (by
      intro p hp
      obtain ⟨h1, h2⟩ := (hpairs p).1 hp
      have hlt : p.2 < Gs.length := hlen ▸ h2
      exact ⟨Gs[p.2], List.getElem?_eq_getElem hlt, (hrow p h1 _ (List.getElem?_eq_getElem hlt)).1⟩) (by simp)
  have hGs : Gs ≠ [] := by
    rintro rfl
    exact hnt hlen.symm
  refine ⟨sortValues ((assessed.mergeSort (· ≤ ·)).map fun sp => (sp, maxScore (rows.map fun r => r.2 sp))), ?_, ?_, ?_,
    (hsort _).2, fun imp t => row (imp, t), ?_, ?_⟩
  · unfold ChemGraph.getRanking
    rw [if_neg hGs]
    simp only [← hass, e]
  · rw [((hsort _).1.map Prod.fst).nodup_iff, List.map_map]
    have : (Prod.fst ∘ fun sp : V => (sp, maxScore (rows.map fun r => r.2 sp))) = id := rfl
    rw [this, List.map_id, (List.mergeSort_perm _ _).nodup_iff, hass]
    exact ((List.nodup_finRange n).map hinj).filter _
  · intro sp
    rw [((hsort _).1.map Prod.fst).mem_iff, List.map_map]
    have : (Prod.fst ∘ fun sp : V => (sp, maxScore (rows.map fun r => r.2 sp))) = id := rfl
    rw [this, List.map_id, (List.mergeSort_perm _ _).mem_iff, hass, List.mem_filter]
    simp
  · intro imp himp t G hg sp hsp
    exact (hrow (imp, t) himp G hg).2 sp hsp
  · intro sp s hs
    have hs' := (hsort _).1.mem_iff.1 hs
    obtain ⟨sp', -, h⟩ := List.mem_map.1 hs'
    cases h
    convert maxScore_ok (rows.map fun r => r.2 sp) using 2
    ext e
    simp only [List.mem_map]
    constructor
    · rintro ⟨imp, himp, t, ht, rfl⟩
      exact ⟨_, (hrows _).2 ⟨(imp, t), Or.inr ((hpairs _).2 ⟨himp, ht⟩), rfl⟩, rfl⟩
    · rintro ⟨r, hr, rfl⟩
      obtain ⟨p, hp, rfl⟩ := (hrows r).1 hr
      obtain ⟨h1, h2⟩ := (hpairs p).1 (hp.resolve_left (by simp))
      exact ⟨p.1, h1, p.2, h2, rfl⟩

omit [LinearOrder V] in
/-- An entry is determined by the graph, so the scores do not depend on the order of iteration. -/
theorem entry_unique [DecidableEq V] {G : Graph V ℝ} {method : SearchMethod} {sp target : V} {e e' : Score}
    (h : EntryOk G method sp target e) (h' : EntryOk G method sp target e') : e = e' := by
  rcases h with ⟨h1, rfl⟩ | ⟨h1, x, hx, h⟩ <;> rcases h' with ⟨h1', rfl⟩ | ⟨h1', x', hx', h'⟩
  · rfl
  · exact absurd h1' h1
  · exact absurd h1 h1'
  · cases hx.unique hx'
    rcases h with ⟨h2, h3, rfl⟩ | ⟨h2, rfl⟩ <;> rcases h' with ⟨h2', h3', rfl⟩ | ⟨h2', rfl⟩
    · rfl
    · exact absurd ⟨h2, h3⟩ h2'
    · exact absurd ⟨h2', h3'⟩ h2
    · rfl

omit [LinearOrder V] in
/-- A maximum of scores is determined. -/
theorem maxScore_unique {S : Set Score} {s s' : Score} (h : IsMaxScore S s) (h' : IsMaxScore S s') : s = s' := by
  rcases h with ⟨rfl, h⟩ | ⟨x, rfl, hx, h⟩ <;> rcases h' with ⟨rfl, h'⟩ | ⟨x', rfl, hx', h'⟩
  · rfl
  · exact (h _ hx').symm
  · exact h' _ hx
  · rw [le_antisymm (h' _ hx) (h _ hx')]

/-- **C38.** The graphs made by `distribute_weights` from non-negative rates can be searched: with every method of
weighting for bottlenecks and shortest paths, with the weights of DRG and DRGEP also for products. -/
theorem distributed_searchable (C : ChemGraph V ℝ n m nt) (hinj : Function.Injective C.species)
    (hr : ∀ t j, 0 ≤ C.rates t j) (weighting : Weighting) (surface : Bool) (method : SearchMethod)
    (hmeth : method = .maxBottleneck ∨ method = .shortestPath ∨
      (method = .maxProduct ∧ (weighting = .drg ∨ weighting = .drgep))) :
    ∃ Gs, C.distributeWeights weighting surface = .ok Gs ∧ Gs.length = nt ∧
      ∀ assessed, ∀ G ∈ Gs, Searchable G method assessed := by
  obtain ⟨Gs, e, hlen, H⟩ := distribute_ok C hinj hr weighting surface
  refine ⟨Gs, e, hlen, fun assessed G hG => ?_⟩
  obtain ⟨t, ht, rfl⟩ := List.mem_iff_getElem.1 hG
  obtain ⟨h1, h2, h3, -⟩ := H ⟨t, hlen ▸ ht⟩
  refine ⟨h1, h2, fun hm u v huv => ?_, fun hm => ?_⟩
  · obtain ⟨w, hw, h0⟩ := (h1.edge_iff u v).1 huv
    obtain ⟨b, a, rfl, rfl, hne, hq⟩ := (h3 u v w).1 ⟨huv, hw⟩
    have hba : b ≠ a := fun h => hne (by rw [h])
    have hwt : (Gs[t]).weight (C.species b) (C.species a) = w := by
      unfold Graph.weight
      have : (Gs[t]).attrs (C.species b, C.species a) = some (some w) := hw
      rw [this]
    rw [hwt]
    have huniq : ∀ w', HasEdge (Gs[(⟨t, hlen ▸ ht⟩ : Fin nt)]) (C.species b) (C.species a) w' → w' = w := by
      intro w' h'
      have := h'.2
      rw [hw] at this
      cases this
      rfl
    have hE : HasEdge (Gs[(⟨t, hlen ▸ ht⟩ : Fin nt)]) (C.species b) (C.species a) w := ⟨huv, hw⟩
    rcases hmeth with rfl | rfl | ⟨rfl, rfl | rfl⟩
    · cases hm
    · cases hm
    · obtain ⟨Gs', e', hlen', H'⟩ := drg_weights C hinj hr surface
      rw [e] at e'
      cases e'
      obtain ⟨h5, h6⟩ := H' ⟨t, hlen ▸ ht⟩ b a hba _ _ rfl rfl
      have hp := fun h => h5 h w hE
      obtain ⟨h7, -, h8⟩ := h6 hp
      rw [← huniq _ h7]
      exact h8
    · obtain ⟨Gs', e', hlen', H'⟩ := drgep_weights C hinj hr surface
      rw [e] at e'
      cases e'
      obtain ⟨h5, h6⟩ := H' ⟨t, hlen ▸ ht⟩ b a hba _ _ _ rfl rfl rfl
      obtain ⟨h7, -, h8⟩ := h6 (fun h => h5 (Or.inl h) w hE) (fun h => h5 (Or.inr h) w hE)
      rw [← huniq _ h7]
      exact h8
  · subst hm
    rcases hmeth with h | h | ⟨h, -⟩ <;> cases h

omit [LinearOrder V] in
/-- Finding: with a weight above one on an edge to the target, `max_product` fails with an AssertionError. -/
theorem max_product_refuses [DecidableEq V] (G : Graph V ℝ) (hG : G.Ok) (hd : G.distributed = true) (target p : V)
    (hp : (p, target) ∈ G.edges) (hpt : p ≠ target) (hw : 1 < G.weight p target) (iter : Finset V → List V)
    (hiter : IterOk iter) (assessed : List V) :
    searchScores G target .maxProduct iter assessed = .error .assertion := by
  have hT : target ∈ G.nodes := (hG.edge_nodes p target hp).2
  have hP : p ∈ G.nodes := (hG.edge_nodes p target hp).1
  let key : V → WithTop ℝ := fun v => if v = target then 0 else ⊤
  have hne : G.nodes ≠ ∅ := fun h => by rw [h] at hT; exact absurd hT (Finset.notMem_empty _)
  have hmin : (iter G.nodes).argmin key = some target := by
    cases h : (iter G.nodes).argmin key with
    | none =>
      rw [List.argmin_eq_none] at h
      have := ((hiter G.nodes).2 target).2 hT
      rw [h] at this
      cases this
    | some v =>
      have h1 := List.le_of_mem_argmin (f := key) (((hiter G.nodes).2 target).2 hT) (by rw [h]; rfl)
      have h2 : key target = 0 := if_pos rfl
      rw [h2] at h1
      by_cases hv : v = target
      · rw [hv]
      · have : key v = ⊤ := if_neg hv
        rw [this] at h1
        exact absurd h1 (not_le.2 (WithTop.coe_lt_top 0))
  obtain ⟨ps, hps, hpm⟩ := hG.pred_ok target hT
  have hstep : searchStep G (fun x => Real.log (1 / x)) (fun d w => d + (w : WithTop ℝ)) iter
      ⟨key, fun _ => none, G.nodes⟩ = .error .assertion := by
    unfold searchStep
    simp only [hmin, hps]
    have hloop : ∀ (l : List V) (s : Search V (WithTop ℝ)), s.unrelaxed = G.nodes.erase target →
        (∀ x ∈ l, (x, target) ∈ G.edges) → p ∈ l →
        forLoop (relaxOne G (fun x => Real.log (1 / x)) (fun d w => d + (w : WithTop ℝ)) target) l s =
          .error .assertion := by
      intro l
      induction l with
      | nil => intro s _ _ h; cases h
      | cons y l ih =>
        intro s hs hl hpl
        rw [forLoop]
        obtain ⟨a, ha, ha0⟩ := (hG.edge_iff y target).1 (hl y (List.mem_cons_self ..))
        by_cases hyp : y = p
        · subst hyp
          have hwa : G.weight y target = a := by unfold Graph.weight; rw [ha]
          have hneg : ¬ 0 ≤ Real.log (1 / a) := by
            rw [not_le, one_div, Real.log_inv, neg_lt_zero]
            exact Real.log_pos (hwa ▸ hw)
          have : relaxOne G (fun x => Real.log (1 / x)) (fun d w => d + (w : WithTop ℝ)) target s y =
              .error .assertion := by
            unfold relaxOne
            rw [if_pos (by rw [hs]; exact Finset.mem_erase.2 ⟨hpt, hP⟩), ha]
            simp only
            rw [if_neg hneg]
          rw [this]
        · have hpl' : p ∈ l := (List.mem_cons.1 hpl).resolve_left fun h => hyp h.symm
          have hl' : ∀ x ∈ l, (x, target) ∈ G.edges := fun x hx => hl x (List.mem_cons_of_mem _ hx)
          have hcase : relaxOne G (fun x => Real.log (1 / x)) (fun d w => d + (w : WithTop ℝ)) target s y =
              .error .assertion ∨ ∃ s', relaxOne G (fun x => Real.log (1 / x)) (fun d w => d + (w : WithTop ℝ))
                target s y = .ok s' ∧ s'.unrelaxed = s.unrelaxed := by
            unfold relaxOne
            split
            · rw [ha]
              simp only
              split
              · split
                · exact Or.inr ⟨_, rfl, rfl⟩
                · exact Or.inr ⟨_, rfl, rfl⟩
              · exact Or.inl rfl
            · exact Or.inr ⟨_, rfl, rfl⟩
          rcases hcase with h | ⟨s', h, hs'⟩
          · rw [h]
          · rw [h]
            exact ih s' (hs'.trans hs) hl' hpl'
    exact hloop _ _ rfl (fun x hx => (hpm x).1 (((hiter ps).2 x).1 hx)) (((hiter ps).2 p).2 ((hpm p).2 hp))
  have hcard : ∃ k, G.nodes.card = k + 1 := Nat.exists_eq_succ_of_ne_zero (Finset.card_ne_zero.2 ⟨_, hT⟩)
  obtain ⟨k, hk⟩ := hcard
  have hloop : searchLoop G (fun x => Real.log (1 / x)) (fun d w => d + (w : WithTop ℝ)) iter G.nodes.card
      ⟨key, fun _ => none, G.nodes⟩ = .error .assertion := by
    rw [hk]
    unfold searchLoop
    rw [if_neg hne]
    simp only [hstep]
  have : findShortestPaths G target (fun x => Real.log (1 / x)) invExp iter = .error .assertion := by
    unfold findShortestPaths
    rw [if_pos hd]
    have h : searchLoop (D := WithTop ℝ) G (fun x => Real.log (1 / x)) (fun d w => d + (w : WithTop ℝ)) iter G.nodes.card
      ⟨fun v => if v = target then 0 else ⊤, fun _ => none, G.nodes⟩ = .error .assertion := hloop
    rw [h]
  simp only [searchScores, this]

/-- Finding: a species that is not coupled to anything at any time gets `nan`, and `nan` comes at the end of the
ranking, the place of the most important species. -/
theorem decoupled_ranked_last {ranking : List (V × Score)} {Gs : List (Graph V ℝ)} {important : List V}
    {method : SearchMethod} {assessed : List V} {entry : V → ℕ → V → Score}
    (hlen : Gs.length = nt) (hsorted : ranking.Pairwise (fun a b => scoreLe a.2 b.2))
    (hentry : ∀ imp ∈ important, ∀ t G, Gs[t]? = some G → ∀ sp ∈ assessed, EntryOk G method sp imp (entry imp t sp))
    (hmax : ∀ sp s, (sp, s) ∈ ranking → IsMaxScore {e | ∃ imp ∈ important, ∃ t < nt, e = entry imp t sp} s)
    {sp : V} (hsp : sp ∈ assessed) (hno : ∀ G ∈ Gs, sp ∉ G.nodes) {before after : List (V × Score)} {s : Score}
    (h : ranking = before ++ (sp, s) :: after) : s = none ∧ ∀ x ∈ after, x.2 = none := by
  have hs : s = none := by
    rcases hmax sp s (by rw [h]; simp) with ⟨h1, -⟩ | ⟨x, rfl, ⟨imp, himp, t, ht, he⟩, -⟩
    · exact h1
    · have hlt : t < Gs.length := hlen ▸ ht
      rcases hentry imp himp t _ (List.getElem?_eq_getElem hlt) sp hsp with ⟨-, h2⟩ | ⟨h1, -⟩
      · rw [← he] at h2; cases h2
      · exact absurd h1 (hno _ (List.getElem_mem hlt))
  refine ⟨hs, fun x hx => ?_⟩
  rw [h, List.pairwise_append] at hsorted
  have := (List.pairwise_cons.1 hsorted.2.1).1 x hx
  rw [hs] at this
  cases hx2 : x.2 with
  | none => rfl
  | some y => rw [hx2] at this; exact this.elim

/-- Finding: the rows are labelled by the target and the time in the format `{:.3e}`. If two times are equal in this
format, the scores of the first are overwritten: only the second graph matters. -/
theorem label_clash {L : Type} [DecidableEq L] (G₀ G₁ : Graph V ℝ) (imp : V) (method : SearchMethod)
    (label : V → ℕ → L) (hlab : label imp 0 = label imp 1) (iter : Finset V → List V) (assessed : List V)
    (hne : assessed ≠ []) (row₀ row₁ : V → Score)
    (h₀ : searchScores G₀ imp method iter assessed = .ok row₀)
    (h₁ : searchScores G₁ imp method iter assessed = .ok row₁) :
    rankRows [G₀, G₁] method label iter assessed [(imp, 0), (imp, 1)] [] = .ok [(label imp 1, row₁)] := by
  simp only [rankRows, List.getElem?_cons_zero, List.getElem?_cons_succ, h₀, h₁, if_neg hne, setRow]
  simp [hlab]

end

/-! ### examples -/

/-- a chain of three species with weights one half and one third: 0 -> 1 -> 2 -/
example : ∃ G, (Graph.empty : Graph ℕ ℝ).build [(0, 1, 1 / 2), (1, 2, 1 / 3)] = .ok G ∧
    Searchable G .maxProduct [0, 1] ∧ Searchable G .maxFlow [0, 1] := by
  have hpos : ∀ u v w, (u, v, w) ∈ [(0, 1, (1 / 2 : ℝ)), (1, 2, 1 / 3)] → 0 < w := by
    intro u v w h
    simp only [List.mem_cons, Prod.mk.injEq, List.not_mem_nil, or_false] at h
    rcases h with ⟨-, -, rfl⟩ | ⟨-, -, rfl⟩ <;> norm_num
  obtain ⟨G, e, hd, hn, he, ha, -⟩ := graph_build [(0, 1, (1 / 2 : ℝ)), (1, 2, 1 / 3)] hpos (by decide)
  have hok := (graph_build_ok _ hpos e).1
  refine ⟨G, e, ⟨hok, hd, fun _ u v huv => ?_, fun h => (by cases h)⟩, ⟨hok, hd, fun h => (by cases h), fun _ sp hsp => ?_⟩⟩
  · obtain ⟨w, hw⟩ := (he u v).1 huv
    have hw' := (ha u v w).2 hw
    unfold Graph.weight
    rw [hw']
    simp only [List.mem_cons, Prod.mk.injEq, List.not_mem_nil, or_false] at hw
    rcases hw with ⟨-, -, rfl⟩ | ⟨-, -, rfl⟩ <;> norm_num
  · rw [hn]
    simp only [List.mem_cons, List.not_mem_nil, or_false] at hsp
    rcases hsp with rfl | rfl
    · exact ⟨0, 1, 1 / 2, by simp, Or.inl rfl⟩
    · exact ⟨0, 1, 1 / 2, by simp, Or.inr rfl⟩

/-- a possible sort -/
example : ∃ sortValues : List (ℕ × Score) → List (ℕ × Score), SortOk sortValues := by
  classical
  refine ⟨fun l => l.mergeSort fun a b => decide (scoreLe a.2 b.2), fun l => ⟨List.mergeSort_perm _ _, ?_⟩⟩
  have htrans : ∀ a b c : ℕ × Score, decide (scoreLe a.2 b.2) = true → decide (scoreLe b.2 c.2) = true →
      decide (scoreLe a.2 c.2) = true := by
    rintro ⟨-, a⟩ ⟨-, b⟩ ⟨-, c⟩
    simp only [decide_eq_true_eq]
    intro h1 h2
    match a, b, c, h1, h2 with
    | _, _, none, _, _ => simp only [scoreLe]
    | some a, some b, some c, h1, h2 => exact le_trans (a := a) (b := b) h1 h2
  have htot : ∀ a b : ℕ × Score, (decide (scoreLe a.2 b.2) || decide (scoreLe b.2 a.2)) = true := by
    rintro ⟨-, a⟩ ⟨-, b⟩
    simp only [Bool.or_eq_true, decide_eq_true_eq]
    match a, b with
    | _, none => exact Or.inl (by simp only [scoreLe])
    | none, some b => exact Or.inr (by simp only [scoreLe])
    | some a, some b => exact le_total a b
  have := List.pairwise_mergeSort htrans htot l
  exact this.imp fun h => of_decide_eq_true h

end Verif.Fwork
