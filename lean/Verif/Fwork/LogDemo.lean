/-
Logged results: a call can always finish (so the hypotheses of C76 and C77 are met), and what can go wrong (C78).
-/
import Verif.Fwork.LogProps

namespace Verif.Fwork.Log
open Verif.Plaschem

variable {δ : Type}

theorem Steps.trans {s s' s'' : Sys δ} {ls ls' : List (Label δ)} (h : Steps s ls s') (h' : Steps s' ls' s'') :
    Steps s (ls ++ ls') s'' := by
  induction h' with
  | nil => simpa using h
  | snoc _ hl ih => rw [← List.append_assoc]; exact .snoc ih hl

theorem Steps.one {s s' : Sys δ} {l : Label δ} (h : Step s l s') : Steps s [l] s' := .snoc (ls := []) .nil h

/-- `rmtree` can remove everything below -/
theorem can_remove (j : Job δ) (n : Nat) : ∀ fs : FS δ, ∀ S : Finset Path,
    S.card = n → (∀ q, Below j.target q → fs q ≠ none → q ∈ S) →
    ∃ acts fs', (∀ l ∈ acts, l = .act) ∧ Steps ⟨fs, .removing j⟩ acts ⟨fs', .removing j⟩ ∧
      (∀ q, Below j.target q → fs' q = none) ∧ ∀ p, ¬ Below j.target p → fs' p = fs p := by
  classical
  induction n with
  | zero =>
    intro fs S hS h
    have : S = ∅ := Finset.card_eq_zero.1 hS
    subst this
    refine ⟨[], fs, by simp, .nil, fun q hq => ?_, fun _ _ => rfl⟩
    by_contra hne
    simpa using h q hq hne
  | succ n ih =>
    intro fs S hS h
    by_cases hex : ∃ q, Below j.target q ∧ fs q ≠ none
    · -- an entry of maximal depth is a leaf
      have hT : (S.filter (fun q => Below j.target q ∧ fs q ≠ none)).Nonempty := by
        obtain ⟨q, h1, h2⟩ := hex
        exact ⟨q, Finset.mem_filter.2 ⟨h q h1 h2, h1, h2⟩⟩
      obtain ⟨q, hq, hmax⟩ := Finset.exists_max_image _ List.length hT
      obtain ⟨hqS, hb, hne⟩ := Finset.mem_filter.1 hq
      have hleaf : ∀ r, Below q r → fs r = none := by
        intro r hr
        by_contra hrn
        have hbr := below_trans hb.1 hr
        have := hmax r (Finset.mem_filter.2 ⟨h r hbr hrn, hbr, hrn⟩)
        exact hr.2 (hr.1.eq_of_length_le this).symm
      obtain ⟨acts, fs', h1, h2, h3, h4⟩ := ih (fs.put q none) (S.erase q)
        (by rw [Finset.card_erase_of_mem hqS, hS]; rfl) (fun r hr hrn => by
          by_cases hrq : r = q
          · subst hrq; rw [put_same] at hrn; exact absurd rfl hrn
          · rw [put_ne _ _ hrq] at hrn
            exact Finset.mem_erase.2 ⟨hrq, h r hr hrn⟩)
      refine ⟨.act :: acts, fs', ?_, (Steps.one (.remove hb hne hleaf)).trans h2, h3, fun p hp => ?_⟩
      · intro l hl
        rcases List.mem_cons.1 hl with rfl | hl
        · rfl
        · exact h1 l hl
      · rw [h4 p hp, put_ne]
        rintro rfl
        exact hp hb
    · refine ⟨[], fs, by simp, .nil, fun q hq => ?_, fun _ _ => rfl⟩
      by_contra hne
      exact hex ⟨q, hq, hne⟩

/-- the files can be written -/
theorem can_write (fs : FS δ) (j : Job δ) (k : Nat) (hk : k ≤ 6) :
    ∃ acts fs', (∀ l ∈ acts, l = .act) ∧ Steps ⟨fs, .writing j 0 false⟩ acts ⟨fs', .writing j k false⟩ := by
  induction k with
  | zero => exact ⟨[], fs, by simp, .nil⟩
  | succ k ih =>
    obtain ⟨acts, fs', h1, h2⟩ := ih (by omega)
    refine ⟨acts ++ [.act] ++ [.act], _, ?_, .snoc (.snoc h2 (.opened ⟨k, by omega⟩)) (.filled ⟨k, by omega⟩)⟩
    intro l hl
    simp only [List.mem_append, List.mem_singleton] at hl
    rcases hl with (hl | hl) | hl
    · exact h1 l hl
    · exact hl
    · exact hl

/-- A call that is not refused can finish, if there are finitely many entries to remove, the directory can be
removed and its path does not lead through it. -/
theorem can_finish {fs : FS δ} {R : Path} {id : Str} {ow : Bool} {docs : Fin 6 → δ} {s : Sys δ} {t : Path}
    (h0 : start fs R id ow docs = .ok s) (hloc : locate fs R id = some t)
    (hdot : (comps id).getLast? ≠ some str!".") (hdots : (comps id).getLast? ≠ some str!"..") (hroot : t ≠ [])
    (hpath : ∀ fs' : FS δ, (∀ p, ¬ t <+: p → fs' p = fs p) → locate fs' R id = some t)
    (hfin : ∃ S : Finset Path, ∀ q, Below t q → fs q ≠ none → q ∈ S) :
    ∃ fs', Exec fs R id ow docs fs' := by
  have h0' := h0
  obtain ⟨hR, j, hloc', -, hb, hp, -, hor⟩ := start_ok h0
  rw [hloc] at hloc'
  have ht := Option.some.inj hloc'
  rcases hor with ⟨hd, how, rfl⟩ | ⟨hn, rfl⟩
  · obtain ⟨S, hS⟩ := hfin
    obtain ⟨acts, fs1, h1, h2, h3, h4⟩ := can_remove j S.card fs S rfl (by rw [← ht]; exact hS)
    have hst : j.stuck = false := by
      unfold start at h0'
      rw [if_pos hR, hloc] at h0'
      simp only at h0'
      rw [if_pos (by rw [ht]; exact hd), if_pos how] at h0'
      injection h0' with h0'
      injection h0' with _ h0'
      injection h0' with h0'
      rw [← h0']
      simp only [hdot, hdots, hroot, decide_false, Bool.or_self]
    have hw : walk (fs1.put j.target none) j.base j.path = some j.target := by
      rw [hb, hp, ← ht]
      refine hpath _ fun p hp => ?_
      rw [put_ne _ _ (fun hh : p = t => hp (hh ▸ List.prefix_refl _))]
      exact h4 p (fun hb => hp (ht ▸ hb.1))
    obtain ⟨acts', fs', h5, h6⟩ := can_write ((fs1.put j.target none).put j.target (some .dir)) j 6 le_rfl
    refine ⟨fs', ⟨_, acts ++ ([.act] ++ ([.act] ++ acts')), _, h0, ?_,
      h2.trans ((Steps.one (.removed h3 hst)).trans ((Steps.one (.make hw)).trans h6)), .done⟩⟩
    intro l hl
    simp only [List.mem_append, List.mem_singleton] at hl
    rcases hl with hl | hl | hl | hl
    · exact h1 l hl
    · exact hl
    · exact hl
    · exact h5 l hl
  · obtain ⟨acts', fs', h5, h6⟩ := can_write (fs.put j.target (some .dir)) j 6 le_rfl
    exact ⟨fs', ⟨_, acts', _, h0, h5, h6, .done⟩⟩

/-- **C76.** A call for a plain run id that is not refused can finish, if there are finitely many entries in an
existing directory of the run. -/
theorem log_can_finish {fs : FS δ} {R : Path} {id : Str} (hid : Plain id) {ow : Bool}
    {docs : Fin 6 → δ} {s : Sys δ} (h0 : start fs R id ow docs = .ok s)
    (hfin : ∃ S : Finset Path, ∀ q, Below (R ++ [id]) q → fs q ≠ none → q ∈ S) :
    ∃ fs', Exec fs R id ow docs fs' := by
  obtain ⟨hR, -⟩ := start_ok h0
  refine can_finish h0 (locate_plain hid hR) ?_ ?_ (by simp) (fun fs' h => locate_plain hid ?_) hfin
  · rw [comps_plain hid]; simpa using hid.notDot
  · rw [comps_plain hid]; simpa using hid.notDots
  · rw [isDir_congr (h R ?_)]; exact hR
    intro hbb
    have := hbb.length_le
    rw [List.length_append, List.length_singleton] at this
    omega

/-! ### what can go wrong -/

/-- **C78.** A call that was stopped after it made the directory blocks every later call for the same run, unless
this is told to overwrite. -/
theorem stopped_blocks {fs : FS δ} {R : Path} {id : Str} {ow : Bool} {docs : Fin 6 → δ} {s : Sys δ}
    {acts : List (Label δ)} (hid : Plain id) (hwf : fs.WF) (hnew : fs (R ++ [id]) = none)
    (h0 : start fs R id ow docs = .ok s) {s' : Sys δ} (h1 : Steps s acts s')
    (hacts : ∀ l ∈ acts, l.isCall = false) (docs' : Fin 6 → δ) :
    start s'.fs R id false docs' = .error .exists := by
  obtain ⟨hR, j, hloc, -, -, -, -, hor⟩ := start_ok h0
  rw [locate_plain hid hR] at hloc
  have ht := Option.some.inj hloc
  rcases hor with ⟨hd, -, -⟩ | ⟨-, rfl⟩
  · rw [← ht] at hd; have := isDir_iff.1 hd; rw [hnew] at this; cases this
  · have hinv : Inv (⟨fs.put j.target (some .dir), .writing j 0 false⟩ : Sys δ) :=
      inv_step (s := ⟨fs, .idle⟩) ⟨hwf, trivial⟩ (.started h0)
    -- the directory is not removed again
    have key : s'.fs.isDir j.target = true ∧
        (s'.pc = .idle ∨ ∃ k o, s'.pc = .writing j k o) := by
      clear h0
      induction h1 with
      | nil => exact ⟨isDir_put_dir _ _, .inr ⟨0, false, rfl⟩⟩
      | @snoc s' s'' ls l h hl ih =>
        obtain ⟨h3, h4⟩ := ih (fun l hm => hacts l (by simp [hm]))
        have hc := hacts l (by simp)
        cases hl with
        | refused _ => cases hc
        | started _ => cases hc
        | remove _ _ _ => rcases h4 with h4 | ⟨k, o, h4⟩ <;> cases h4
        | removed _ _ => rcases h4 with h4 | ⟨k, o, h4⟩ <;> cases h4
        | make => rcases h4 with h4 | ⟨k, o, h4⟩ <;> cases h4
        | @opened fs j' k =>
          rcases h4 with h4 | ⟨k', o, h4⟩
          · cases h4
          · cases h4
            refine ⟨?_, .inr ⟨_, _, rfl⟩⟩
            rw [isDir_put_ne _ _ (fun hh => (snoc_below _ _).2 hh.symm)]; exact h3
        | @filled fs j' k =>
          rcases h4 with h4 | ⟨k', o, h4⟩
          · cases h4
          · cases h4
            refine ⟨?_, .inr ⟨_, _, rfl⟩⟩
            rw [isDir_put_ne _ _ (fun hh => (snoc_below _ _).2 hh.symm)]; exact h3
        | done => exact ⟨h3, .inl rfl⟩
        | stop => exact ⟨h3, .inl rfl⟩
    have hwf' := (inv_steps hinv h1).wf
    have hd' : s'.fs.isDir (R ++ [id]) = true := by rw [ht]; exact key.1
    have hR' : s'.fs.isDir R = true := hwf'.parent R id (by rw [isDir_iff.1 hd']; simp)
    unfold start
    rw [if_pos hR', locate_plain hid hR']
    simp only
    rw [if_pos hd']
    rfl

/-- **C78.** With an empty run id and `overwrite` a call that returns has deleted all other runs in the results
directory. -/
theorem empty_id_wipes {fs fs' : FS δ} (hwf : fs.WF) {R : Path} {docs : Fin 6 → δ}
    (h : Exec fs R [] true docs fs') {id : Str} (hid : Plain id) (hne : ∀ i, id ≠ fileName i) :
    fs' (R ++ [id]) = none ∧ ∀ i, fetch fs' R id (fileName i) = none := by
  obtain ⟨t, hloc, -, -, -, -, hrest, -⟩ := log_exact hwf h
  have : locate fs R [] = some R := by simp [locate, base, comps, splitSlash, walk]
  rw [this] at hloc
  cases hloc
  have h1 : fs' (R ++ [id]) = none := hrest _ (snoc_below _ _) (fun i hi => hne i (by simpa using hi))
  refine ⟨h1, fun i => ?_⟩
  rw [fetch_plain hid, if_neg]
  rintro ⟨-, h2⟩
  rw [isDir_iff, h1] at h2; cases h2

/-- a results directory with one run in it -/
def demoFS : FS Nat := fun p =>
  if p = [] ∨ p = [str!"res"] ∨ p = [str!"res", str!"old"] then some .dir
  else if p ∈ fileNames.map (fun f => [str!"res", str!"old", f]) then some (.file (some 7))
  else none

theorem demo_wf : demoFS.WF := by
  refine ⟨by decide +kernel, fun p c h => ?_⟩
  unfold demoFS at h
  split at h
  · rename_i h1
    rcases h1 with h1 | h1 | h1
    · simp at h1
    · have : p = [] := by simpa using congrArg List.dropLast h1
      subst this; decide +kernel
    · have : p = [str!"res"] := by simpa using congrArg List.dropLast h1
      subst this; decide +kernel
  · split at h
    · rename_i h2
      obtain ⟨f, -, h2⟩ := List.mem_map.1 h2
      have : p = [str!"res", str!"old"] := by simpa using (congrArg List.dropLast h2).symm
      subst this; decide +kernel
    · exact absurd rfl h

theorem plain_old : Plain str!"old" := ⟨by decide, by decide, by decide, by decide⟩
theorem plain_new : Plain str!"new" := ⟨by decide, by decide, by decide, by decide⟩

theorem demo_finite (t : Path) : ∃ S : Finset Path, ∀ q, Below t q → demoFS q ≠ none → q ∈ S := by
  classical
  refine ⟨([[], [str!"res"], [str!"res", str!"old"]] ++
    fileNames.map (fun f => [str!"res", str!"old", f])).toFinset, fun q _ h => ?_⟩
  rw [List.mem_toFinset, List.mem_append]
  unfold demoFS at h
  split at h
  · rename_i h1; left; simpa using h1
  · split at h
    · rename_i h2; exact .inr h2
    · exact absurd rfl h

/-- the hypotheses of `log_exact`, `log_persists` are met: a new run next to an old one, and overwriting -/
example : demoFS.WF ∧ (∃ fs', Exec demoFS [str!"res"] str!"new" false (fun i => i.val) fs') ∧
    (∃ fs', Exec demoFS [str!"res"] str!"old" true (fun i => i.val) fs') ∧
    (∀ i, fetch demoFS [str!"res"] str!"old" (fileName i) = some (some 7)) := by
  refine ⟨demo_wf, ?_, ?_, ?_⟩
  · exact log_can_finish plain_new (s := _) rfl (demo_finite _)
  · exact log_can_finish plain_old (s := _) rfl (demo_finite _)
  · decide +kernel

/-- **C78.** An interrupted overwriting call can leave neither the old nor the new results: here the old solution
is deleted, the old rates are there and nothing of the new run. -/
theorem overwrite_not_atomic : ∃ ls s, Steps ⟨demoFS, .idle⟩ ls s ∧ s.pc = .idle ∧
    (∀ l ∈ ls, l.isCall = true → l = .call [str!"res"] str!"old" true (fun i => i.val)) ∧
    fetch s.fs [str!"res"] str!"old" (fileName 0) = none ∧
    fetch s.fs [str!"res"] str!"old" (fileName 1) = some (some 7) := by
  let j : Job Nat := ⟨[str!"res"], [str!"old"], [str!"res", str!"old"], false, fun i => i.val⟩
  have h1 : Step ⟨demoFS, .idle⟩ (.call [str!"res"] str!"old" true (fun i => i.val)) ⟨demoFS, .removing j⟩ :=
    .started rfl
  have h2 : Step ⟨demoFS, .removing j⟩ .act
      ⟨demoFS.put [str!"res", str!"old", fileName 0] none, .removing j⟩ := by
    refine .remove (snoc_below [str!"res", str!"old"] _) (by decide +kernel) fun r hr => ?_
    by_contra hne
    have := demo_wf.above hr.1 (Ne.symm hr.2) hne
    revert this; decide +kernel
  refine ⟨_, _, ((Steps.one h1).trans ((Steps.one h2).trans (Steps.one .stop))), rfl, ?_, ?_, ?_⟩
  · intro l hl hc
    simp only [List.mem_append, List.mem_singleton] at hl
    rcases hl with rfl | rfl | rfl
    · rfl
    · cases hc
    · cases hc
  · decide +kernel
  · decide +kernel

/-- **C78.** An incomplete file is read without an error: after a call was stopped while it wrote the solution,
reading the solution returns the incomplete content. -/
theorem incomplete_read : ∃ ls s, Steps ⟨demoFS, .idle⟩ ls s ∧ s.pc = .idle ∧
    (∀ l ∈ ls, l.isCall = true → l = .call [str!"res"] str!"new" false (fun i => i.val)) ∧
    fetch s.fs [str!"res"] str!"new" (fileName 0) = some none := by
  have h1 := Step.started (fs := demoFS) (R := [str!"res"]) (id := str!"new") (ow := false)
    (docs := fun i => i.val) rfl
  refine ⟨_, _, ((Steps.one h1).trans ((Steps.one (.opened 0)).trans (Steps.one .stop))), rfl, ?_, ?_⟩
  · intro l hl hc
    simp only [List.mem_append, List.mem_singleton] at hl
    rcases hl with rfl | rfl | rfl
    · rfl
    · cases hc
    · cases hc
  · decide +kernel

/-- **C78.** A run id with `..` is written outside the results directory. -/
theorem dotdot_escapes (fs : FS δ) (hwf : fs.WF) {R : Path} {d : Str} (hR : fs.isDir (R ++ [d]) = true) :
    locate fs (R ++ [d]) str!"../x" = some (R ++ [str!"x"]) := by
  have hR' : fs.isDir R = true := hwf.parent R d (by rw [isDir_iff.1 hR]; simp)
  have hc : comps str!"../x" = [str!"..", str!"x"] := by decide +kernel
  unfold locate
  rw [hc, show base (R ++ [d]) str!"../x" = R ++ [d] from rfl, walk, if_pos hR, if_neg (by decide),
    if_pos rfl, List.dropLast_concat, walk, if_pos hR', if_neg (by decide), if_neg (by decide), walk]

/-- an empty run id with `overwrite` is accepted and can finish -/
example : ∃ fs', Exec demoFS [str!"res"] [] true (fun i => i.val) fs' :=
  can_finish (t := [str!"res"]) rfl rfl (by decide) (by decide) (by decide) (fun _ _ => rfl) (demo_finite _)

end Verif.Fwork.Log
