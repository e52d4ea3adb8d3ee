/-
The breadth first search of `get_max_flow` finds shortest paths of the residual graph.
-/
import Verif.Fwork.Flow
import Verif.Fwork.GraphLemmas

namespace Verif.Fwork

section
variable {V R : Type} [DecidableEq V] [AddCommGroup R] [LinearOrder R]

/-- `Within c cols s k v`: `v` can be reached from `s` over at most `k` residual edges. -/
def Within (c : V → V → R) (cols : List V) (s : V) : ℕ → V → Prop
  | 0, v => v = s
  | k + 1, v => Within c cols s k v ∨ ∃ u, Within c cols s k u ∧ v ∈ cols ∧ 0 < c u v

omit [DecidableEq V] in
theorem Within.mono {c : V → V → R} {cols : List V} {s v : V} {k m : ℕ} (h : k ≤ m)
    (hv : Within c cols s k v) : Within c cols s m v := by
  induction h with
  | refl => exact hv
  | step _ ih => exact Or.inl ih

/-- the predecessor relation found by the search -/
def PredOk (c : V → V → R) (cols : List V) (s : V) (b : Bfs V) : Prop :=
  ∀ v ∈ b.visited, v ∈ cols ∧ (v ≠ s → ∃ u j, b.pred v = some u ∧ u ∈ b.visited ∧ 0 < c u v ∧
    Within c cols s j u ∧ ¬ Within c cols s j v)

theorem scan_spec (c : V → V → R) (t u : V) (l : List V) : ∀ (b : Bfs V), b.found = false →
    ∃ new : List V, (scan c t u l b).queue = b.queue ++ new ∧
      (∀ v, v ∈ (scan c t u l b).visited ↔ v ∈ b.visited ∨ v ∈ new) ∧ new.Nodup ∧
      (∀ v ∈ new, v ∉ b.visited ∧ v ∈ l ∧ 0 < c u v ∧ (scan c t u l b).pred v = some u) ∧
      (∀ v, v ∉ new → (scan c t u l b).pred v = b.pred v) ∧
      (((scan c t u l b).found = false ∧ t ∉ new ∧ ∀ v ∈ l, 0 < c u v → v ∈ (scan c t u l b).visited) ∨
        ((scan c t u l b).found = true ∧ t ∈ new)) := by
  induction l with
  | nil =>
    intro b hb
    refine ⟨[], by simp [scan], by simp [scan], List.nodup_nil, by simp, by simp [scan], Or.inl ⟨hb, by simp, by simp⟩⟩
  | cons v l ih =>
    intro b hb
    unfold scan
    by_cases h : v ∉ b.visited ∧ 0 < c u v
    · rw [if_pos h]
      simp only
      by_cases hvt : v = t
      · rw [if_pos hvt]
        refine ⟨[v], rfl, fun x => ?_, List.nodup_singleton _, fun x hx => ?_, fun x hx => ?_, Or.inr ⟨rfl, by simp [hvt]⟩⟩
        · simp [or_comm]
        · rw [List.mem_singleton.1 hx]
          exact ⟨h.1, List.mem_cons_self .., h.2, Function.update_self ..⟩
        · exact Function.update_of_ne (fun hc => hx (by simp [hc])) _ _
      · rw [if_neg hvt]
        obtain ⟨new, h1, h2, h3, h4, h5, h6⟩ :=
          ih ⟨Function.update b.pred v (some u), insert v b.visited, b.queue ++ [v], b.found⟩ hb
        generalize scan c t u l ⟨Function.update b.pred v (some u), insert v b.visited, b.queue ++ [v], b.found⟩ = b'
          at h1 h2 h3 h4 h5 h6
        have hvn : v ∉ new := fun hc => (h4 v hc).1 (Finset.mem_insert_self _ _)
        refine ⟨v :: new, ?_, fun x => ?_, List.nodup_cons.2 ⟨hvn, h3⟩, fun x hx => ?_, fun x hx => ?_, ?_⟩
        · rw [h1]; simp
        · rw [h2 x]; simp only [Finset.mem_insert, List.mem_cons]; tauto
        · rcases List.mem_cons.1 hx with hx | hx
          · subst hx
            refine ⟨h.1, List.mem_cons_self .., h.2, ?_⟩
            rw [h5 x hvn]; exact Function.update_self ..
          · obtain ⟨k1, k2, k3, k4⟩ := h4 x hx
            exact ⟨fun hc => k1 (Finset.mem_insert_of_mem hc), List.mem_cons_of_mem _ k2, k3, k4⟩
        · rw [List.mem_cons, not_or] at hx
          rw [h5 x hx.2]; exact Function.update_of_ne hx.1 _ _
        · rcases h6 with ⟨k1, k2, k3⟩ | ⟨k1, k2⟩
          · refine Or.inl ⟨k1, ?_, fun x hx hc => ?_⟩
            · rw [List.mem_cons, not_or]; exact ⟨fun h => hvt h.symm, k2⟩
            · rcases List.mem_cons.1 hx with hx | hx
              · rw [h2, hx]; exact Or.inl (Finset.mem_insert_self _ _)
              · exact k3 x hx hc
          · exact Or.inr ⟨k1, List.mem_cons_of_mem _ k2⟩
    · rw [if_neg h]
      obtain ⟨new, h1, h2, h3, h4, h5, h6⟩ := ih b hb
      refine ⟨new, h1, h2, h3, fun x hx => ?_, h5, ?_⟩
      · obtain ⟨k1, k2, k3, k4⟩ := h4 x hx
        exact ⟨k1, List.mem_cons_of_mem _ k2, k3, k4⟩
      · rcases h6 with ⟨k1, k2, k3⟩ | h6
        · refine Or.inl ⟨k1, k2, fun x hx hc => ?_⟩
          rcases List.mem_cons.1 hx with hx | hx
          · subst hx
            rw [h2]
            left
            by_contra hn
            exact h ⟨hn, hc⟩
          · exact k3 x hx hc
        · exact Or.inr h6

/-- invariant of the search -/
structure BInv (c : V → V → R) (cols : List V) (s t : V) (b : Bfs V) (popped : Finset V) (ℓ : ℕ)
    (q₁ q₂ : List V) : Prop where
  queue : b.queue = q₁ ++ q₂
  lev₁ : ∀ x ∈ q₁, Within c cols s ℓ x
  lev₂ : ∀ x ∈ q₂, Within c cols s (ℓ + 1) x ∧ ¬ Within c cols s ℓ x
  sub : ∀ x, Within c cols s ℓ x → x ∈ b.visited
  vis : ∀ x ∈ b.visited, x ∈ b.queue ∨ x ∈ popped
  closed : ∀ x ∈ popped, ∀ v ∈ cols, 0 < c x v → v ∈ b.visited
  pred : PredOk c cols s b
  svis : s ∈ b.visited
  tvis : t = s ∨ t ∉ b.visited
  nodup : b.queue.Nodup
  qvis : ∀ x ∈ b.queue, x ∈ b.visited ∧ x ∉ popped
  pvis : popped ⊆ b.visited
  found : b.found = false

/-- what the search returns -/
structure BDone (c : V → V → R) (cols : List V) (s t : V) (b : Bfs V) : Prop where
  pred : PredOk c cols s b
  svis : s ∈ b.visited
  out : (b.found = true ∧ t ∈ b.visited ∧ t ≠ s) ∨
    (b.found = false ∧ (t = s ∨ t ∉ b.visited) ∧ ∀ x ∈ b.visited, ∀ v ∈ cols, 0 < c x v → v ∈ b.visited)

theorem bfsLoop_spec (c : V → V → R) (cols : List V) (s t : V) (n : ℕ) :
    ∀ (b : Bfs V) (popped : Finset V) (ℓ : ℕ) (q₁ q₂ : List V), BInv c cols s t b popped ℓ q₁ q₂ →
    cols.length + 1 ≤ popped.card + n → ∃ b', bfsLoop c t cols n b = .ok b' ∧ BDone c cols s t b' := by
  induction n with
  | zero =>
    intro b popped ℓ q₁ q₂ hb hn
    exfalso
    have h1 : popped ⊆ cols.toFinset := fun x hx => List.mem_toFinset.2 (hb.pred x (hb.pvis hx)).1
    have h2 := Finset.card_le_card h1
    have h3 := List.toFinset_card_le cols
    omega
  | succ n ih =>
    -- first without the change of the level
    have main : ∀ (b : Bfs V) (popped : Finset V) (ℓ : ℕ) (u : V) (q₁ q₂ : List V),
        BInv c cols s t b popped ℓ (u :: q₁) q₂ → cols.length + 1 ≤ popped.card + (n + 1) →
        ∃ b', bfsLoop c t cols (n + 1) b = .ok b' ∧ BDone c cols s t b' := by
      intro b popped ℓ u q₁ q₂ hb hn
      have hq : b.queue = u :: (q₁ ++ q₂) := by rw [hb.queue]; rfl
      have huq : u ∈ b.queue := by rw [hq]; exact List.mem_cons_self ..
      obtain ⟨huv, hup⟩ := hb.qvis u huq
      have hnd : u ∉ q₁ ++ q₂ ∧ (q₁ ++ q₂).Nodup := by
        have := hb.nodup; rw [hq] at this; exact List.nodup_cons.1 this
      obtain ⟨new, h1, h2, h3, h4, h5, h6⟩ := scan_spec c t u cols { b with queue := q₁ ++ q₂ } hb.found
      have hloop : bfsLoop c t cols (n + 1) b =
          bfsLoop c t cols n (scan c t u cols { b with queue := q₁ ++ q₂ }) := by
        conv_lhs => unfold bfsLoop
        rw [hb.found, if_neg (by simp), hq]
        simp only
        rw [if_pos (hb.pred u huv).1]
      rw [hloop]
      generalize scan c t u cols { b with queue := q₁ ++ q₂ } = b₁ at h1 h2 h3 h4 h5 h6
      simp only at h1 h2 h3 h4 h5 h6
      have hu : Within c cols s ℓ u := hb.lev₁ u (List.mem_cons_self ..)
      have hlevnew : ∀ v ∈ new, Within c cols s (ℓ + 1) v ∧ ¬ Within c cols s ℓ v := by
        intro v hv
        obtain ⟨k1, k2, k3, -⟩ := h4 v hv
        exact ⟨Or.inr ⟨u, hu, k2, k3⟩, fun hc => k1 (hb.sub v hc)⟩
      have hpred : PredOk c cols s b₁ := by
        intro v hv
        rcases (h2 v).1 hv with hv' | hv'
        · obtain ⟨k1, k2⟩ := hb.pred v hv'
          refine ⟨k1, fun hvs => ?_⟩
          obtain ⟨w, j, m1, m2, m3⟩ := k2 hvs
          refine ⟨w, j, ?_, (h2 w).2 (Or.inl m2), m3⟩
          rw [h5 v fun hc => (h4 v hc).1 hv']; exact m1
        · obtain ⟨k1, k2, k3, k4⟩ := h4 v hv'
          exact ⟨k2, fun _ => ⟨u, ℓ, k4, (h2 u).2 (Or.inl huv), k3, hu, (hlevnew v hv').2⟩⟩
      rcases h6 with ⟨k1, k2, k3⟩ | ⟨k1, k2⟩
      · -- not found
        refine ih b₁ (insert u popped) ℓ q₁ (q₂ ++ new) ?_ ?_
        · constructor
          · rw [h1, List.append_assoc]
          · exact fun x hx => hb.lev₁ x (List.mem_cons_of_mem _ hx)
          · intro x hx
            rcases List.mem_append.1 hx with hx | hx
            · exact hb.lev₂ x hx
            · exact hlevnew x hx
          · exact fun x hx => (h2 x).2 (Or.inl (hb.sub x hx))
          · intro x hx
            rw [h1]
            rcases (h2 x).1 hx with hx | hx
            · rcases hb.vis x hx with h | h
              · rw [hq] at h
                rcases List.mem_cons.1 h with h | h
                · right; rw [h]; exact Finset.mem_insert_self _ _
                · left; exact List.mem_append_left _ h
              · right; exact Finset.mem_insert_of_mem h
            · left; exact List.mem_append_right _ hx
          · intro x hx v hv hc
            rcases Finset.mem_insert.1 hx with hx | hx
            · subst hx; exact k3 v hv hc
            · exact (h2 v).2 (Or.inl (hb.closed x hx v hv hc))
          · exact hpred
          · exact (h2 s).2 (Or.inl hb.svis)
          · rcases hb.tvis with h | h
            · exact Or.inl h
            · right
              intro hc
              rcases (h2 t).1 hc with hc | hc
              · exact h hc
              · exact k2 hc
          · rw [h1]
            refine List.Nodup.append hnd.2 h3 ?_
            intro x hx hx'
            refine (h4 x hx').1 (hb.qvis x ?_).1
            rw [hq]; exact List.mem_cons_of_mem _ hx
          · intro x hx
            rw [h1] at hx
            rcases List.mem_append.1 hx with hx | hx
            · have := hb.qvis x (by rw [hq]; exact List.mem_cons_of_mem _ hx)
              refine ⟨(h2 x).2 (Or.inl this.1), ?_⟩
              rw [Finset.mem_insert, not_or]
              exact ⟨fun h => hnd.1 (h ▸ hx), this.2⟩
            · refine ⟨(h2 x).2 (Or.inr hx), ?_⟩
              rw [Finset.mem_insert, not_or]
              exact ⟨fun h => (h4 x hx).1 (h ▸ huv), fun h => (h4 x hx).1 (hb.pvis h)⟩
          · intro x hx
            rcases Finset.mem_insert.1 hx with hx | hx
            · subst hx; exact (h2 x).2 (Or.inl huv)
            · exact (h2 x).2 (Or.inl (hb.pvis hx))
          · exact k1
        · rw [Finset.card_insert_of_notMem hup]; omega
      · refine ⟨b₁, by unfold bfsLoop; rw [k1, if_pos rfl], ?_⟩
        refine ⟨hpred, (h2 s).2 (Or.inl hb.svis), Or.inl ⟨k1, (h2 t).2 (Or.inr k2), ?_⟩⟩
        intro hc
        exact (h4 t k2).1 (hc ▸ hb.svis)
    intro b popped ℓ q₁ q₂ hb hn
    cases q₁ with
    | cons u q₁ => exact main b popped ℓ u q₁ q₂ hb hn
    | nil =>
      have hq : b.queue = q₂ := by rw [hb.queue]; rfl
      have hall : ∀ x, Within c cols s ℓ x → x ∈ popped := by
        intro x hx
        rcases hb.vis x (hb.sub x hx) with h | h
        · rw [hq] at h; exact absurd hx (hb.lev₂ x h).2
        · exact h
      have hnext : ∀ x, Within c cols s (ℓ + 1) x → x ∈ b.visited := by
        rintro x (hx | ⟨w, hw, hx, hc⟩)
        · exact hb.sub x hx
        · exact hb.closed w (hall w hw) x hx hc
      cases q₂ with
      | cons u q₂ =>
        refine main b popped (ℓ + 1) u q₂ [] ?_ hn
        exact ⟨by rw [hq, List.append_nil], fun x hx => (hb.lev₂ x hx).1, fun x hx => (by cases hx), hnext, hb.vis,
          hb.closed, hb.pred, hb.svis, hb.tvis, hb.nodup, hb.qvis, hb.pvis, hb.found⟩
      | nil =>
        refine ⟨b, ?_, hb.pred, hb.svis, Or.inr ⟨hb.found, hb.tvis, ?_⟩⟩
        · unfold bfsLoop
          rw [hb.found, if_neg (by simp), hq]
        · intro x hx v hv hc
          rcases hb.vis x hx with h | h
          · rw [hq] at h; cases h
          · exact hb.closed x h v hv hc

theorem bfs_spec (c : V → V → R) (cols : List V) (s t : V) (hs : s ∈ cols) :
    ∃ b, bfsLoop c t cols (cols.length + 1) ⟨fun _ => none, {s}, [s], false⟩ = .ok b ∧ BDone c cols s t b := by
  refine bfsLoop_spec c cols s t _ _ ∅ 0 [s] [] ?_ (by simp)
  constructor
  · rfl
  · intro x hx; exact List.mem_singleton.1 hx
  · intro x hx; cases hx
  · intro x hx; exact Finset.mem_singleton.2 hx
  · intro x hx; exact Or.inl (List.mem_singleton.2 (Finset.mem_singleton.1 hx))
  · intro x hx; exact absurd hx (Finset.notMem_empty _)
  · intro v hv
    rw [Finset.mem_singleton.1 hv]
    exact ⟨hs, fun h => absurd rfl h⟩
  · exact Finset.mem_singleton_self _
  · by_cases h : t = s
    · exact Or.inl h
    · exact Or.inr fun hc => h (Finset.mem_singleton.1 hc)
  · exact List.nodup_singleton _
  · intro x hx
    exact ⟨Finset.mem_singleton.2 (List.mem_singleton.1 hx), Finset.notMem_empty _⟩
  · exact Finset.empty_subset _
  · rfl

end

end Verif.Fwork
