/-
Properties of logged results: C76 (a finished call), C77 (other runs, histories and crashes).
-/
import Verif.Fwork.Log
import Mathlib.Data.Finset.Card
import Mathlib.Data.Finset.Max
import Mathlib.Data.Set.Finite.Basic

namespace Verif.Fwork.Log
open Verif.Plaschem

variable {δ : Type}

/-! ### paths and entries -/

theorem put_same (fs : FS δ) (p : Path) (n : Option (Node δ)) : fs.put p n p = n := by simp [FS.put]

theorem put_ne (fs : FS δ) {p q : Path} (n : Option (Node δ)) (h : q ≠ p) : fs.put p n q = fs q := by
  simp [FS.put, h]

theorem isDir_iff {fs : FS δ} {p : Path} : fs.isDir p = true ↔ fs p = some .dir := by
  unfold FS.isDir
  split
  · rename_i h; simp [h]
  · rename_i h
    simp only [Bool.false_eq_true, false_iff]
    exact fun h' => h h'

theorem isDir_congr {fs fs' : FS δ} {p : Path} (h : fs' p = fs p) : fs'.isDir p = fs.isDir p := by
  unfold FS.isDir; rw [h]

theorem isDir_put_ne (fs : FS δ) {p q : Path} (n : Option (Node δ)) (h : q ≠ p) :
    (fs.put p n).isDir q = fs.isDir q := isDir_congr (put_ne fs n h)

theorem isDir_put_dir (fs : FS δ) (p : Path) : (fs.put p (some .dir)).isDir p = true := by
  rw [isDir_iff, put_same]

theorem snoc_below (t : Path) (c : Str) : Below t (t ++ [c]) := by
  refine ⟨List.prefix_append _ _, fun h => ?_⟩
  have := congrArg List.length h
  simp at this

theorem fileName_inj {i k : Fin 6} (h : fileName i = fileName k) : i = k := by
  revert i k; decide +kernel

theorem file_inj {t : Path} {i k : Fin 6} (h : t ++ [fileName i] = t ++ [fileName k]) : i = k :=
  fileName_inj (by simpa using h)

/-- what is above something that exists is a directory -/
theorem FS.WF.above {fs : FS δ} (h : fs.WF) {p q : Path} (hpq : p <+: q) (hne : p ≠ q) (he : fs q ≠ none) :
    fs.isDir p = true := by
  obtain ⟨l, rfl⟩ := hpq
  induction l using List.reverseRecOn with
  | nil => simp at hne
  | append_singleton l c ih =>
    rw [← List.append_assoc] at he
    have h1 := h.parent _ _ he
    rcases eq_or_ne l [] with rfl | hl
    · simpa using h1
    · refine ih (fun hh => hl (by simpa using hh)) ?_
      rw [isDir_iff.1 h1]; simp

theorem FS.WF.isDir_dropLast {fs : FS δ} (h : fs.WF) {p : Path} (hp : fs.isDir p = true) :
    fs.isDir p.dropLast = true := by
  rcases List.eq_nil_or_concat p with rfl | ⟨q, c, rfl⟩
  · simpa using h.root
  · rw [List.concat_eq_append] at hp ⊢
    rw [List.dropLast_concat]
    exact h.parent q c (by rw [isDir_iff.1 hp]; simp)

/-! ### resolution of paths -/

theorem walk_mono {fs fs' : FS δ} (h : ∀ q, fs.isDir q = true → fs'.isDir q = true) {cs : List Str} :
    ∀ {cur t}, walk fs cur cs = some t → walk fs' cur cs = some t := by
  induction cs with
  | nil => intro cur t h; exact h
  | cons c cs ih =>
    intro cur t hw
    rw [walk] at hw ⊢
    by_cases hd : fs.isDir cur = true
    · rw [if_pos hd] at hw
      rw [if_pos (h _ hd)]
      exact ih hw
    · rw [if_neg hd] at hw; cases hw

theorem walk_append {fs : FS δ} {cs ds : List Str} :
    ∀ {cur}, walk fs cur (cs ++ ds) = (walk fs cur cs).bind (fun t => walk fs t ds) := by
  induction cs with
  | nil => intro cur; rfl
  | cons c cs ih =>
    intro cur
    rw [List.cons_append, walk, walk]
    split
    · exact ih
    · rfl

/-- a path that resolves to something that does not exist yet resolves to a new entry of a directory -/
theorem walk_new {fs : FS δ} (hwf : fs.WF) {cs : List Str} :
    ∀ {cur t}, fs.isDir cur = true → walk fs cur cs = some t → fs.isDir t = false →
      ∃ p c, t = p ++ [c] ∧ fs.isDir p = true := by
  induction cs with
  | nil => intro cur t hc h hn; cases h; rw [hc] at hn; cases hn
  | cons c cs ih =>
    intro cur t hc h hn
    rw [walk, if_pos hc] at h
    by_cases h1 : c = str!"."
    · rw [if_pos h1] at h; exact ih hc h hn
    rw [if_neg h1] at h
    by_cases h2 : c = str!".."
    · rw [if_pos h2] at h; exact ih (hwf.isDir_dropLast hc) h hn
    rw [if_neg h2] at h
    by_cases h3 : fs.isDir (cur ++ [c]) = true
    · exact ih h3 h hn
    · cases cs with
      | nil => cases h; exact ⟨cur, c, rfl, hc⟩
      | cons d ds => rw [walk, if_neg h3] at h; cases h

theorem splitSlash_plain {s : Str} (h : '/' ∉ s) : splitSlash s = [s] := by
  induction s with
  | nil => rfl
  | cons c s ih =>
    rw [splitSlash, if_neg (fun hc => h (by simp [hc])), ih (fun hm => h (by simp [hm]))]

theorem comps_plain {s : Str} (h : Plain s) : comps s = [s] := by
  unfold comps
  rw [splitSlash_plain h.noSlash]
  simp [h.nonempty]

theorem base_plain {s : Str} (h : Plain s) (R : Path) : base R s = R := by
  unfold base
  rw [if_neg]
  intro hh
  exact h.noSlash (List.mem_of_head? hh)

theorem plain_fileName (i : Fin 6) : Plain (fileName i) := by
  refine ⟨?_, ?_, ?_, ?_⟩ <;> revert i <;> decide +kernel

/-- a plain run id stands for the directory of that name in the results directory -/
theorem locate_plain {fs : FS δ} {R : Path} {id : Str} (h : Plain id) (hR : fs.isDir R = true) :
    locate fs R id = some (R ++ [id]) := by
  unfold locate
  rw [base_plain h, comps_plain h, walk, if_pos hR, if_neg h.notDot, if_neg h.notDots, walk]

/-! ### the first step -/

theorem start_ok {fs : FS δ} {R : Path} {id : Str} {ow : Bool} {docs : Fin 6 → δ} {s : Sys δ}
    (h : start fs R id ow docs = .ok s) :
    fs.isDir R = true ∧ ∃ j : Job δ, locate fs R id = some j.target ∧ j.docs = docs ∧ j.base = base R id ∧
      j.path = comps id ∧ (j.stuck = false → j.target ≠ []) ∧
      ((fs.isDir j.target = true ∧ ow = true ∧ s = ⟨fs, .removing j⟩) ∨
       (fs j.target = none ∧ s = ⟨fs.put j.target (some .dir), .writing j 0 false⟩)) := by
  unfold start at h
  by_cases hR : fs.isDir R = true
  · rw [if_pos hR] at h
    refine ⟨hR, ?_⟩
    cases ht : locate fs R id with
    | none => simp [ht] at h
    | some t =>
      simp only [ht] at h
      by_cases hd : fs.isDir t = true
      · rw [if_pos hd] at h
        by_cases ho : ow = true
        · rw [if_pos ho] at h
          cases h
          exact ⟨_, rfl, rfl, rfl, rfl, by simp, .inl ⟨hd, ho, rfl⟩⟩
        · rw [if_neg ho] at h; cases h
      · rw [if_neg hd] at h
        by_cases he : (fs t).isSome = true
        · rw [if_pos he] at h; cases h
        · rw [if_neg he] at h
          cases h
          have hn : fs t = none := by simpa using he
          exact ⟨⟨base R id, comps id, t, _, docs⟩, rfl, rfl, rfl, rfl, by simp, .inr ⟨hn, rfl⟩⟩
  · rw [if_neg hR] at h; cases h

/-! ### the invariant -/

/-- what the directory of a run holds while it is written: the first `k` files complete, the next one possibly
opened, nothing else -/
structure Written (fs : FS δ) (t : Path) (docs : Fin 6 → δ) (k : Nat) (o : Bool) : Prop where
  dir : fs.isDir t = true
  full : ∀ i : Fin 6, i.val < k → fs (t ++ [fileName i]) = some (.file (some (docs i)))
  next : ∀ i : Fin 6, i.val = k → fs (t ++ [fileName i]) = if o then some (.file none) else none
  rest : ∀ q, Below t q → (∀ i : Fin 6, i.val ≤ k → q ≠ t ++ [fileName i]) → fs q = none

def PcInv (fs : FS δ) : Pc δ → Prop
  | .idle => True
  | .removing j => fs.isDir j.target = true ∧ (j.stuck = false → j.target ≠ [])
  | .making j => (∀ q, j.target <+: q → fs q = none) ∧ ∃ p c, j.target = p ++ [c] ∧ fs.isDir p = true
  | .writing j k o => Written fs j.target j.docs k o ∧ walk fs j.base j.path = some j.target

structure Inv (s : Sys δ) : Prop where
  wf : s.fs.WF
  pc : PcInv s.fs s.pc

theorem wf_put_none {fs : FS δ} (h : fs.WF) {q : Path} (hq : q ≠ []) (hleaf : ∀ r, Below q r → fs r = none) :
    (fs.put q none).WF := by
  refine ⟨?_, fun p c he => ?_⟩
  · rw [isDir_put_ne _ _ (Ne.symm hq)]; exact h.root
  · by_cases hpc : p ++ [c] = q
    · rw [hpc, put_same] at he; exact absurd rfl he
    · rw [put_ne _ _ hpc] at he
      by_cases hp : p = q
      · subst hp; exact absurd (hleaf _ (snoc_below p c)) he
      · rw [isDir_put_ne _ _ hp]; exact h.parent p c he

theorem wf_put_some {fs : FS δ} (h : fs.WF) {p : Path} {c : Str} {n : Node δ} (hp : fs.isDir p = true)
    (hno : n = .dir ∨ ∀ d, fs (p ++ [c] ++ [d]) = none) : (fs.put (p ++ [c]) (some n)).WF := by
  refine ⟨?_, fun q d he => ?_⟩
  · rw [isDir_put_ne _ _ (by simp)]; exact h.root
  · by_cases hqd : q ++ [d] = p ++ [c]
    · obtain ⟨rfl, -⟩ := List.append_inj' hqd rfl
      rw [isDir_put_ne _ _ (fun hh => (snoc_below q c).2 hh.symm)]; exact hp
    · rw [put_ne _ _ hqd] at he
      by_cases hq : q = p ++ [c]
      · subst hq
        rcases hno with rfl | hno
        · exact isDir_put_dir _ _
        · exact absurd (hno d) he
      · rw [isDir_put_ne _ _ hq]; exact h.parent q d he

theorem below_ne_nil {t q : Path} (h : Below t q) : q ≠ [] := by
  rintro rfl
  exact h.2 (List.prefix_nil.1 h.1).symm

theorem below_trans {t q r : Path} (h1 : t <+: q) (h2 : Below q r) : Below t r := by
  refine ⟨h1.trans h2.1, fun h => h2.2 ?_⟩
  subst h
  exact (h2.1.eq_of_length_le (h1.length_le)).symm

theorem below_snoc_snoc (t : Path) (c d : Str) : Below t (t ++ [c] ++ [d]) :=
  below_trans (List.prefix_append _ _) (snoc_below _ _)

theorem rest_child {fs : FS δ} {t : Path} {docs : Fin 6 → δ} {k : Nat} {o : Bool} (h : Written fs t docs k o)
    (i : Fin 6) (d : Str) : fs (t ++ [fileName i] ++ [d]) = none := by
  refine h.rest _ (below_snoc_snoc _ _ _) fun k hk he => ?_
  have := congrArg List.length he
  simp at this

theorem written_new {fs : FS δ} {t : Path} (docs : Fin 6 → δ) (h : ∀ q, t <+: q → fs q = none) :
    Written (fs.put t (some .dir)) t docs 0 false := by
  have hb : ∀ q, Below t q → fs.put t (some .dir) q = none := fun q hq => by
    rw [put_ne _ _ hq.2]; exact h q hq.1
  exact ⟨isDir_put_dir _ _, fun i hi => absurd hi (by omega),
    fun i _ => by simpa using hb _ (snoc_below _ _), fun q hq _ => hb q hq⟩

theorem walk_put_file {fs : FS δ} {b : Path} {cs : List Str} {t p : Path} {n : Option (Node δ)}
    (hp : fs.isDir p = false) (h : walk fs b cs = some t) : walk (fs.put p n) b cs = some t := by
  refine walk_mono (fun q hq => ?_) h
  have : q ≠ p := by rintro rfl; rw [hq] at hp; cases hp
  rw [isDir_put_ne _ _ this]; exact hq

theorem walk_put_dir {fs : FS δ} {b : Path} {cs : List Str} {t p : Path} (h : walk fs b cs = some t) :
    walk (fs.put p (some .dir)) b cs = some t := by
  refine walk_mono (fun q hq => ?_) h
  by_cases hqp : q = p
  · subst hqp; exact isDir_put_dir _ _
  · rw [isDir_put_ne _ _ hqp]; exact hq

theorem base_isDir {fs : FS δ} (hwf : fs.WF) {R : Path} (hR : fs.isDir R = true) (id : Str) :
    fs.isDir (base R id) = true := by
  unfold base; split
  · exact hwf.root
  · exact hR

theorem written_open {fs : FS δ} {t : Path} {docs : Fin 6 → δ} {k : Fin 6} (hw : Written fs t docs k false) :
    Written (fs.put (t ++ [fileName k]) (some (.file none))) t docs k true := by
  refine ⟨?_, ?_, ?_, ?_⟩
  · rw [isDir_put_ne _ _ (fun hh => (snoc_below t _).2 hh.symm)]; exact hw.dir
  · intro i hi
    rw [put_ne _ _ (fun hh => by have := file_inj hh; omega)]; exact hw.full i hi
  · intro i hi
    have : i = k := Fin.ext hi
    subst this
    rw [put_same]; rfl
  · intro q hq hne
    rw [put_ne _ _ (hne k le_rfl)]
    exact hw.rest q hq hne

theorem written_fill {fs : FS δ} {t : Path} {docs : Fin 6 → δ} {k : Fin 6} (hw : Written fs t docs k true) :
    Written (fs.put (t ++ [fileName k]) (some (.file (some (docs k))))) t docs (k + 1) false := by
  refine ⟨?_, ?_, ?_, ?_⟩
  · rw [isDir_put_ne _ _ (fun hh => (snoc_below t _).2 hh.symm)]; exact hw.dir
  · intro i hi
    by_cases hik : i = k
    · subst hik; rw [put_same]
    · rw [put_ne _ _ (fun hh => hik (file_inj hh))]
      exact hw.full i (by have : i.val ≠ k.val := fun hh => hik (Fin.ext hh); omega)
  · intro i hi
    rw [put_ne _ _ (fun hh => by have := file_inj hh; omega)]
    refine hw.rest _ (snoc_below _ _) fun i' hi' he => ?_
    have := file_inj he
    omega
  · intro q hq hne
    have hqk : q ≠ t ++ [fileName k] := hne k (by omega)
    rw [put_ne _ _ hqk]
    exact hw.rest q hq (fun i hi => hne i (by omega))

theorem inv_step {s s' : Sys δ} {l : Label δ} (h : Inv s) (hs : Step s l s') : Inv s' := by
  obtain ⟨hwf, hpc⟩ := h
  cases hs with
  | refused h => exact ⟨hwf, trivial⟩
  | @started fs R id ow docs s h =>
    obtain ⟨hR, j, hloc, hdocs, hb, hp, hst, hor⟩ := start_ok h
    rcases hor with ⟨hd, -, rfl⟩ | ⟨hn, rfl⟩
    · exact ⟨hwf, hd, hst⟩
    · have hnd : fs.isDir j.target = false := by unfold FS.isDir; rw [hn]
      obtain ⟨p, c, ht, hpd⟩ := walk_new hwf (base_isDir hwf hR id) hloc hnd
      have hall : ∀ q, j.target <+: q → fs q = none := by
        intro q hq
        by_contra hne
        rcases eq_or_ne j.target q with h' | h'
        · rw [← h'] at hne; exact hne hn
        · have := hwf.above hq h' hne
          rw [hnd] at this; cases this
      refine ⟨?_, written_new _ hall, ?_⟩
      · rw [ht]; exact wf_put_some hwf hpd (.inl rfl)
      · rw [hb, hp]; exact walk_put_dir hloc
  | @remove fs j q hq he hleaf =>
    refine ⟨wf_put_none hwf (below_ne_nil hq) hleaf, ?_, hpc.2⟩
    rw [isDir_put_ne _ _ (Ne.symm hq.2)]; exact hpc.1
  | @removed fs j hempty hst =>
    have hne := hpc.2 hst
    refine ⟨wf_put_none hwf hne hempty, fun q hq => ?_, ?_⟩
    · dsimp only
      by_cases hqt : q = j.target
      · rw [hqt, put_same]
      · rw [put_ne _ _ hqt]; exact hempty q ⟨hq, hqt⟩
    · rcases List.eq_nil_or_concat j.target with h0 | ⟨p, c, h0⟩
      · exact absurd h0 hne
      · rw [List.concat_eq_append] at h0
        refine ⟨p, c, h0, ?_⟩
        have hpt : p ≠ j.target := by rw [h0]; exact fun hh => (snoc_below p c).2 hh.symm
        rw [isDir_put_ne _ _ hpt]
        exact hwf.parent p c (by rw [← h0, isDir_iff.1 hpc.1]; simp)
  | @make fs j hw =>
    obtain ⟨hall, p, c, ht, hp⟩ := hpc
    refine ⟨?_, written_new _ hall, walk_put_dir hw⟩
    rw [ht]; exact wf_put_some hwf hp (.inl rfl)
  | @opened fs j k =>
    obtain ⟨hw, hwalk⟩ := hpc
    have hnone : fs (j.target ++ [fileName k]) = none := by simpa using hw.next k rfl
    exact ⟨wf_put_some hwf hw.dir (.inr (rest_child hw k)), written_open hw,
      walk_put_file (by unfold FS.isDir; rw [hnone]) hwalk⟩
  | @filled fs j k =>
    obtain ⟨hw, hwalk⟩ := hpc
    have hold : fs (j.target ++ [fileName k]) = some (.file none) := by simpa using hw.next k rfl
    exact ⟨wf_put_some hwf hw.dir (.inr (rest_child hw k)), written_fill hw,
      walk_put_file (by unfold FS.isDir; rw [hold]) hwalk⟩
  | done => exact ⟨hwf, trivial⟩
  | stop => exact ⟨hwf, trivial⟩

theorem inv_steps {s s' : Sys δ} {ls : List (Label δ)} (h : Inv s) (hs : Steps s ls s') : Inv s' := by
  induction hs with
  | nil => exact h
  | snoc _ hl ih => exact inv_step ih hl

/-! ### one call -/

def Pc.job? : Pc δ → Option (Job δ)
  | .idle => none
  | .removing j => some j
  | .making j => some j
  | .writing j _ _ => some j

def Label.isCall : Label δ → Bool
  | .call .. => true
  | _ => false

theorem step_frame {s s' : Sys δ} {l : Label δ} (hs : Step s l s') (hl : l.isCall = false) :
    (s'.pc.job? = s.pc.job? ∨ s'.pc.job? = none) ∧
    ∀ p, s'.fs p = s.fs p ∨ ∃ j, s.pc.job? = some j ∧ j.target <+: p := by
  cases hs with
  | refused h => cases hl
  | started h => cases hl
  | @remove fs j q hq he hleaf =>
    refine ⟨.inl rfl, fun p => ?_⟩
    by_cases h : p = q
    · subst h; exact .inr ⟨j, rfl, hq.1⟩
    · exact .inl (put_ne _ _ h)
  | @removed fs j hempty hst =>
    refine ⟨.inl rfl, fun p => ?_⟩
    by_cases h : p = j.target
    · subst h; exact .inr ⟨j, rfl, List.prefix_refl _⟩
    · exact .inl (put_ne _ _ h)
  | @make fs j =>
    refine ⟨.inl rfl, fun p => ?_⟩
    by_cases h : p = j.target
    · subst h; exact .inr ⟨j, rfl, List.prefix_refl _⟩
    · exact .inl (put_ne _ _ h)
  | @opened fs j k =>
    refine ⟨.inl rfl, fun p => ?_⟩
    by_cases h : p = j.target ++ [fileName k]
    · subst h; exact .inr ⟨j, rfl, List.prefix_append _ _⟩
    · exact .inl (put_ne _ _ h)
  | @filled fs j k =>
    refine ⟨.inl rfl, fun p => ?_⟩
    by_cases h : p = j.target ++ [fileName k]
    · subst h; exact .inr ⟨j, rfl, List.prefix_append _ _⟩
    · exact .inl (put_ne _ _ h)
  | done => exact ⟨.inr rfl, fun p => .inl rfl⟩
  | stop => exact ⟨.inr rfl, fun p => .inl rfl⟩

theorem steps_frame {s s' : Sys δ} {ls : List (Label δ)} (hs : Steps s ls s')
    (hl : ∀ l ∈ ls, l.isCall = false) :
    (s'.pc.job? = s.pc.job? ∨ s'.pc.job? = none) ∧
    ∀ p, s'.fs p = s.fs p ∨ ∃ j, s.pc.job? = some j ∧ j.target <+: p := by
  induction hs with
  | nil => exact ⟨.inl rfl, fun _ => .inl rfl⟩
  | @snoc s' s'' ls l h hl' ih =>
    obtain ⟨h1, h2⟩ := ih (fun l hm => hl l (by simp [hm]))
    obtain ⟨h3, h4⟩ := step_frame hl' (hl l (by simp))
    constructor
    · rcases h3 with h3 | h3
      · rw [h3]; exact h1
      · exact .inr h3
    · intro p
      rcases h4 p with h5 | ⟨j, hj, hp⟩
      · rw [h5]; exact h2 p
      · rcases h1 with h1 | h1
        · rw [h1] at hj; exact .inr ⟨j, hj, hp⟩
        · rw [h1] at hj; cases hj

/-- **C77.** A call touches nothing outside the directory of its run, whenever it is stopped and whether or not
it overwrites. For a run id that is a plain name this is the directory of that name in the results directory,
so no other run is affected. -/
theorem log_frame {fs : FS δ} {R : Path} {id : Str} {ow : Bool} {docs : Fin 6 → δ} {s s' : Sys δ}
    {acts : List (Label δ)} (h0 : start fs R id ow docs = .ok s) (h1 : Steps s acts s')
    (hacts : ∀ l ∈ acts, l.isCall = false) :
    ∃ t, locate fs R id = some t ∧ (Plain id → t = R ++ [id]) ∧ ∀ p, ¬ t <+: p → s'.fs p = fs p := by
  obtain ⟨hR, j, hloc, -, -, -, -, hor⟩ := start_ok h0
  refine ⟨j.target, hloc, fun hp => ?_, fun p hp => ?_⟩
  · have := locate_plain (fs := fs) hp hR
    rw [hloc] at this; exact Option.some.inj this
  · obtain ⟨-, h2⟩ := steps_frame h1 hacts
    have hj : s.pc.job? = some j := by rcases hor with ⟨-, -, rfl⟩ | ⟨-, rfl⟩ <;> rfl
    rcases h2 p with h3 | ⟨j', hj', hp'⟩
    · rw [h3]
      rcases hor with ⟨-, -, rfl⟩ | ⟨-, rfl⟩
      · rfl
      · exact put_ne _ _ (fun hh => hp (hh ▸ List.prefix_refl _))
    · rw [hj] at hj'; cases hj'; exact absurd hp' hp

/-- **C76.** When a call is refused: if and only if the results directory does not exist, the path cannot be
resolved or is a file, or the run exists and is not to be overwritten. A refused call changes nothing. -/
theorem log_refused_iff {fs : FS δ} {R : Path} {id : Str} {ow : Bool} {docs : Fin 6 → δ} :
    (∃ e, start fs R id ow docs = .error e) ↔
      fs.isDir R = false ∨ locate fs R id = none ∨
      ∃ t, locate fs R id = some t ∧ ((fs.isDir t = true ∧ ow = false) ∨ ∃ c, fs t = some (.file c)) := by
  unfold start
  by_cases hR : fs.isDir R = true
  · rw [if_pos hR]
    cases ht : locate fs R id with
    | none => simp
    | some t =>
      simp only
      by_cases hd : fs.isDir t = true
      · rw [if_pos hd]
        have := isDir_iff.1 hd
        cases ow <;> simp [hR, hd, this]
      · rw [if_neg hd]
        cases hf : fs t with
        | none => simp [hR, hd, hf]
        | some n =>
          cases n with
          | dir => exact absurd (isDir_iff.2 hf) hd
          | file c => simp [hf]
  · rw [if_neg hR]
    simp only [Except.error.injEq, exists_eq', true_iff]
    exact .inl (by simpa using hR)

theorem refused_no_effect {fs : FS δ} {R : Path} {id : Str} {ow : Bool} {docs : Fin 6 → δ} {e : LErr}
    {s' : Sys δ} (h : start fs R id ow docs = .error e) (hs : Step ⟨fs, .idle⟩ (.call R id ow docs) s') :
    s' = ⟨fs, .idle⟩ := by
  cases hs with
  | refused _ => rfl
  | started h' => rw [h] at h'; cases h'

/-- **C76.** What a call that returns has done, for every run id: the directory of the run is there, with the six
files, complete, and nothing else; everything outside is as before. Reading the files back under the same id
gives what was logged. -/
theorem log_exact {fs fs' : FS δ} (hwf : fs.WF) {R : Path} {id : Str} {ow : Bool} {docs : Fin 6 → δ}
    (h : Exec fs R id ow docs fs') :
    ∃ t, locate fs R id = some t ∧ (Plain id → t = R ++ [id]) ∧
      (fs t = none ∨ (fs.isDir t = true ∧ ow = true)) ∧
      fs'.isDir t = true ∧ (∀ i, fs' (t ++ [fileName i]) = some (.file (some (docs i)))) ∧
      (∀ q, Below t q → (∀ i, q ≠ t ++ [fileName i]) → fs' q = none) ∧
      (∀ p, ¬ t <+: p → fs' p = fs p) ∧ fs'.WF ∧
      ∀ i, fetch fs' R id (fileName i) = some (some (docs i)) := by
  obtain ⟨s, acts, s', h0, hacts, h1, h2⟩ := h
  have hnc : ∀ l ∈ acts, Label.isCall l = false := fun l hl => by rw [hacts l hl]; rfl
  obtain ⟨t, hloc, hpl, hframe⟩ := log_frame h0 h1 hnc
  have hstart : Inv s := inv_step (s := ⟨fs, .idle⟩) ⟨hwf, trivial⟩ (.started h0)
  have hinv := inv_steps hstart h1
  obtain ⟨hR, j, hloc', hdocs, hb, hp, -, hor⟩ := start_ok h0
  rw [hloc] at hloc'
  have hjt := Option.some.inj hloc'
  have hj : s.pc.job? = some j := by rcases hor with ⟨-, -, rfl⟩ | ⟨-, rfl⟩ <;> rfl
  have hj' := (steps_frame h1 hnc).1
  rw [hj] at hj'
  cases h2 with
  | @done _ j' =>
    have : j' = j := by
      rcases hj' with h | h
      · exact Option.some.inj h
      · cases h
    subst this
    obtain ⟨hwf', hw, hwalk⟩ := hinv
    rw [← hjt, hdocs] at hw
    rw [← hjt, hb, hp] at hwalk
    refine ⟨t, hloc, hpl, ?_, hw.dir, fun i => hw.full i i.2, fun q hq hne => hw.rest q hq (fun i _ => hne i),
      hframe, hwf', fun i => ?_⟩
    · rw [hjt]
      rcases hor with ⟨h3, h4, -⟩ | ⟨h3, -⟩
      · exact .inr ⟨h3, h4⟩
      · exact .inl h3
    · have hpf := plain_fileName i
      have hh : (fileName i).head? ≠ some '/' := fun hh => hpf.noSlash (List.mem_of_head? hh)
      unfold fetch
      rw [if_neg hh, walk_append]
      dsimp only at hwalk
      rw [hwalk, comps_plain hpf, Option.bind_some, walk, if_pos hw.dir, if_neg hpf.notDot, if_neg hpf.notDots,
        walk]
      have := hw.full i i.2
      dsimp only at this ⊢
      rw [this]

/-! ### histories -/

/-- **C77.** A logged file survives every later history (other calls, stopped anywhere) in which no call is told to
overwrite a directory above it. -/
theorem file_survives {s s' : Sys δ} {ls : List (Label δ)} (hinv : Inv s) (hidle : s.pc = .idle)
    (hs : Steps s ls s') {p : Path} {c : Option δ} (hp : s.fs p = some (.file c))
    (hcalls : ∀ R id ow docs, Label.call R id ow docs ∈ ls → ow = true → Plain id ∧ ¬ Below (R ++ [id]) p) :
    s'.fs p = some (.file c) := by
  suffices h : s'.fs p = some (.file c) ∧ ∀ j, s'.pc.job? = some j → ¬ j.target <+: p from h.1
  induction hs with
  | nil => exact ⟨hp, by rw [hidle]; intro j h; cases h⟩
  | @snoc s' s'' ls l h hl ih =>
    obtain ⟨h1, h2⟩ := ih (fun R id ow docs hm => hcalls R id ow docs (by simp [hm]))
    have hinv' := inv_steps hinv h
    by_cases hc : l.isCall = false
    · obtain ⟨h3, h4⟩ := step_frame hl hc
      constructor
      · rcases h4 p with h5 | ⟨j, hj, hjp⟩
        · rw [h5]; exact h1
        · exact absurd hjp (h2 j hj)
      · intro j hj
        rcases h3 with h3 | h3
        · rw [h3] at hj; exact h2 j hj
        · rw [h3] at hj; cases hj
    · cases l with
      | call R id ow docs =>
        have hcall := hcalls R id ow docs (by simp)
        cases hl with
        | refused _ => exact ⟨h1, fun j hj => by cases hj⟩
        | started h0 =>
          obtain ⟨hR, j, hloc, -, -, -, -, hor⟩ := start_ok h0
          rcases hor with ⟨hd, how, rfl⟩ | ⟨hn, rfl⟩
          · refine ⟨h1, fun j' hj' => ?_⟩
            cases hj'
            obtain ⟨hpl, hnp⟩ := hcall how
            rw [locate_plain hpl hR] at hloc
            rw [Option.some.inj hloc] at hnp
            refine fun hpre => hnp ⟨hpre, fun he => ?_⟩
            rw [← he] at hd
            have := isDir_iff.1 hd
            dsimp only at h1
            rw [h1] at this; cases this
          · have hnp : ¬ j.target <+: p := by
              intro hpre
              rcases eq_or_ne j.target p with h' | h'
              · rw [h'] at hn; dsimp only at h1; rw [h1] at hn; cases hn
              · have := hinv'.wf.above hpre h' (by rw [h1]; simp)
                rw [isDir_iff] at this
                dsimp only at this
                rw [hn] at this; cases this
            refine ⟨?_, fun j' hj' => by cases hj'; exact hnp⟩
            dsimp only
            rw [put_ne _ _ (fun hh : p = j.target => hnp (hh ▸ List.prefix_refl _))]
            exact h1
      | act => exact absurd rfl hc
      | done => exact absurd rfl hc
      | stop => exact absurd rfl hc

theorem fetch_plain {fs : FS δ} {R : Path} {id : Str} (hid : Plain id) {i : Fin 6} :
    fetch fs R id (fileName i) =
      if fs.isDir R = true ∧ fs.isDir (R ++ [id]) = true then
        match fs (R ++ [id] ++ [fileName i]) with
        | some (.file c) => some c
        | _ => none
      else none := by
  have hpf := plain_fileName i
  have hh : (fileName i).head? ≠ some '/' := fun hh => hpf.noSlash (List.mem_of_head? hh)
  unfold fetch
  rw [if_neg hh, comps_plain hid, comps_plain hpf, base_plain hid, List.singleton_append, walk]
  by_cases hR : fs.isDir R = true
  · rw [if_pos hR, if_neg hid.notDot, if_neg hid.notDots, walk]
    by_cases hd : fs.isDir (R ++ [id]) = true
    · rw [if_pos hd, if_neg hpf.notDot, if_neg hpf.notDots, walk, if_pos ⟨hR, hd⟩]
      rfl
    · rw [if_neg hd, if_neg (fun h => hd h.2)]
  · rw [if_neg hR, if_neg (fun h => hR h.1)]

theorem fetch_wf {fs : FS δ} (hwf : fs.WF) {R : Path} {id : Str} (hid : Plain id) {i : Fin 6} {c : Option δ} :
    fetch fs R id (fileName i) = some c ↔ fs (R ++ [id] ++ [fileName i]) = some (.file c) := by
  rw [fetch_plain hid]
  constructor
  · intro h
    split at h
    · split at h
      · rename_i h'; cases h; exact h'
      · cases h
    · cases h
  · intro h
    have h1 := hwf.parent _ _ (by rw [h]; simp)
    have h2 := hwf.parent _ _ (by rw [isDir_iff.1 h1]; simp)
    rw [if_pos ⟨h2, h1⟩, h]

/-- **C77.** The results of a run stay readable, unchanged, through every later history, in which any calls are made
and stopped anywhere, as long as no call is told to overwrite this run. -/
theorem log_persists {fs fs' : FS δ} (hwf : fs.WF) {R : Path} {id : Str} (hid : Plain id) {ow : Bool}
    {docs : Fin 6 → δ} (h : Exec fs R id ow docs fs') {ls : List (Label δ)} {s : Sys δ}
    (hs : Steps ⟨fs', .idle⟩ ls s)
    (hcalls : ∀ R' id' docs', Label.call R' id' true docs' ∈ ls → Plain id' ∧ ¬ R' ++ [id'] <+: R ++ [id]) :
    ∀ i, fetch s.fs R id (fileName i) = some (some (docs i)) := by
  intro i
  obtain ⟨t, -, ht, -, -, hfiles, -, -, hwf', -⟩ := log_exact hwf h
  have ht := ht hid
  subst ht
  have hinv : Inv (⟨fs', .idle⟩ : Sys δ) := ⟨hwf', trivial⟩
  rw [fetch_wf (inv_steps hinv hs).wf hid]
  refine file_survives hinv rfl hs (hfiles i) fun R' id' ow' docs' hm how => ?_
  subst how
  obtain ⟨h1, h2⟩ := hcalls R' id' docs' hm
  refine ⟨h1, fun hb => h2 ?_⟩
  rcases List.prefix_concat_iff.1 hb.1 with h3 | h3
  · exact absurd h3.symm hb.2
  · exact h3

/-! ### files of one run belong together -/

/-- some of the files of one logging: complete ones, and possibly one incomplete file, with none after it -/
def Coherent (fs : FS δ) (t : Path) (docs : Fin 6 → δ) (k : Nat) : Prop :=
  ∀ i : Fin 6, (i.val < k → fs (t ++ [fileName i]) = none ∨
      fs (t ++ [fileName i]) = some (.file (some (docs i)))) ∧
    (i.val = k → fs (t ++ [fileName i]) = none ∨ fs (t ++ [fileName i]) = some (.file none)) ∧
    (k < i.val → fs (t ++ [fileName i]) = none)

theorem Written.coherent {fs : FS δ} {t : Path} {docs : Fin 6 → δ} {k : Nat} {o : Bool}
    (h : Written fs t docs k o) : Coherent fs t docs k := by
  refine fun i => ⟨fun hi => .inr (h.full i hi), fun hi => ?_, fun hi => ?_⟩
  · rw [h.next i hi]; cases o <;> simp
  · refine h.rest _ (snoc_below _ _) fun i' hi' he => ?_
    have := file_inj he
    omega

theorem Coherent.congr {fs fs' : FS δ} {t : Path} {docs : Fin 6 → δ} {k : Nat} (h : Coherent fs t docs k)
    (hfs : ∀ i, fs' (t ++ [fileName i]) = fs (t ++ [fileName i]) ∨ fs' (t ++ [fileName i]) = none) :
    Coherent fs' t docs k := by
  intro i
  rcases hfs i with h' | h'
  · rw [h']; exact h i
  · rw [h']; exact ⟨fun _ => .inl rfl, fun _ => .inl rfl, fun _ => rfl⟩

/-- two directories neither of which contains the other -/
def Apart (t t' : Path) : Prop := ¬ t <+: t' ∧ ¬ t' <+: t

structure CohInv (R : Path) (id : Str) (ls : List (Label δ)) (s : Sys δ) : Prop where
  files : (∀ i, s.fs (R ++ [id] ++ [fileName i]) = none) ∨
    ∃ ow docs k, Label.call R id ow docs ∈ ls ∧ Coherent s.fs (R ++ [id]) docs k
  job : ∀ j, s.pc.job? = some j → (j.target = R ++ [id] ∧ ∃ ow, Label.call R id ow j.docs ∈ ls) ∨
    Apart j.target (R ++ [id])

theorem apart_file {t t' : Path} (h : Apart t t') (i : Fin 6) : ¬ t <+: t' ++ [fileName i] := by
  intro hp
  rcases List.prefix_concat_iff.1 hp with h1 | h1
  · exact h.2 (h1 ▸ List.prefix_append _ _)
  · exact h.1 h1

theorem cohInv_files {R : Path} {id : Str} {ls : List (Label δ)} {fs fs' : FS δ} {l : Label δ}
    (h : (∀ i, fs (R ++ [id] ++ [fileName i]) = none) ∨
      ∃ ow docs k, Label.call R id ow docs ∈ ls ∧ Coherent fs (R ++ [id]) docs k)
    (hfs : ∀ i, fs' (R ++ [id] ++ [fileName i]) = fs (R ++ [id] ++ [fileName i]) ∨
      fs' (R ++ [id] ++ [fileName i]) = none) :
    (∀ i, fs' (R ++ [id] ++ [fileName i]) = none) ∨
      ∃ ow docs k, Label.call R id ow docs ∈ ls ++ [l] ∧ Coherent fs' (R ++ [id]) docs k := by
  rcases h with h | ⟨ow, docs, k, h1, h2⟩
  · refine .inl fun i => ?_
    rcases hfs i with h' | h'
    · rw [h', h i]
    · exact h'
  · exact .inr ⟨ow, docs, k, by simp [h1], h2.congr hfs⟩

theorem coherent_history {fs : FS δ} (hwf : fs.WF) {R : Path} {id : Str}
    (hnew : fs (R ++ [id]) = none) {ls : List (Label δ)} {s : Sys δ} (hs : Steps ⟨fs, .idle⟩ ls s)
    (hcalls : ∀ R' id' ow docs, Label.call R' id' ow docs ∈ ls →
      Plain id' ∧ (R' = R ∧ id' = id ∨ Apart (R' ++ [id']) (R ++ [id]))) :
    CohInv R id ls s := by
  generalize hs0 : (⟨fs, .idle⟩ : Sys δ) = s0 at hs
  induction hs with
  | nil =>
    subst hs0
    refine ⟨.inl fun i => ?_, fun j h => by cases h⟩
    by_contra hne
    have := isDir_iff.1 (hwf.parent _ _ hne)
    rw [hnew] at this; cases this
  | @snoc s' s'' ls l h hl ih =>
    obtain ⟨hfiles, hjob⟩ := ih (fun R' id' ow docs hm => hcalls R' id' ow docs (by simp [hm]))
    have hinv' : Inv s' := inv_steps (hs0 ▸ ⟨hwf, trivial⟩) h
    have hinv'' := inv_step hinv' hl
    by_cases hc : l.isCall = false
    · obtain ⟨h3, h4⟩ := step_frame hl hc
      have hjob' : ∀ j, s''.pc.job? = some j → (j.target = R ++ [id] ∧
          ∃ ow, Label.call R id ow j.docs ∈ ls ++ [l]) ∨ Apart j.target (R ++ [id]) := by
        intro j hj
        rcases h3 with h3 | h3
        · rw [h3] at hj
          rcases hjob j hj with ⟨h5, ow, h6⟩ | h5
          · exact .inl ⟨h5, ow, by simp [h6]⟩
          · exact .inr h5
        · rw [h3] at hj; cases hj
      refine ⟨?_, hjob'⟩
      have apart : ∀ j, s'.pc.job? = some j → Apart j.target (R ++ [id]) →
          ∀ i, s''.fs (R ++ [id] ++ [fileName i]) = s'.fs (R ++ [id] ++ [fileName i]) := by
        intro j hj hap i
        rcases h4 (R ++ [id] ++ [fileName i]) with h5 | ⟨j', hj', hp⟩
        · exact h5
        · rw [hj] at hj'; cases hj'
          exact absurd hp (apart_file hap i)
      have written : ∀ j k o, s''.pc = .writing j k o → j.target = R ++ [id] →
          (∃ ow, Label.call R id ow j.docs ∈ ls ++ [l]) →
          ∃ ow docs k, Label.call R id ow docs ∈ ls ++ [l] ∧ Coherent s''.fs (R ++ [id]) docs k := by
        intro j k o hpc ht ⟨ow, how⟩
        have hw := hinv''.pc
        rw [hpc] at hw
        exact ⟨ow, j.docs, k, how, ht ▸ hw.1.coherent⟩
      cases hl with
      | refused h => cases hc
      | started h => cases hc
      | @remove fs j q hq he hleaf =>
        refine cohInv_files hfiles fun i => ?_
        by_cases h : R ++ [id] ++ [fileName i] = q
        · right; dsimp only; rw [h, put_same]
        · left; exact put_ne _ _ h
      | @removed fs j hempty hst =>
        refine cohInv_files hfiles fun i => ?_
        by_cases h : R ++ [id] ++ [fileName i] = j.target
        · right; dsimp only; rw [h, put_same]
        · left; exact put_ne _ _ h
      | @make fs j hw =>
        rcases hjob j rfl with ⟨h5, ow, h6⟩ | h5
        · exact .inr (written j _ _ rfl h5 ⟨ow, by simp [h6]⟩)
        · exact cohInv_files hfiles fun i => .inl (apart j rfl h5 i)
      | @opened fs j k =>
        rcases hjob j rfl with ⟨h5, ow, h6⟩ | h5
        · exact .inr (written j _ _ rfl h5 ⟨ow, by simp [h6]⟩)
        · exact cohInv_files hfiles fun i => .inl (apart j rfl h5 i)
      | @filled fs j k =>
        rcases hjob j rfl with ⟨h5, ow, h6⟩ | h5
        · exact .inr (written j _ _ rfl h5 ⟨ow, by simp [h6]⟩)
        · exact cohInv_files hfiles fun i => .inl (apart j rfl h5 i)
      | done => exact cohInv_files hfiles fun i => .inl rfl
      | stop => exact cohInv_files hfiles fun i => .inl rfl
    · cases l with
      | call R' id' ow docs =>
        obtain ⟨hpl, hor'⟩ := hcalls R' id' ow docs (by simp)
        cases hl with
        | refused _ => exact ⟨cohInv_files hfiles fun i => .inl rfl, fun j hj => by cases hj⟩
        | started h0 =>
          obtain ⟨hR, j, hloc, hd, -, -, -, hor⟩ := start_ok h0
          rw [locate_plain hpl hR] at hloc
          have ht := Option.some.inj hloc
          have hjob' : (j.target = R ++ [id] ∧ ∃ ow', Label.call R id ow' j.docs ∈
              ls ++ [Label.call R' id' ow docs]) ∨ Apart j.target (R ++ [id]) := by
            rw [← ht]
            rcases hor' with ⟨rfl, rfl⟩ | h
            · exact .inl ⟨rfl, ow, by simp [hd]⟩
            · exact .inr h
          rcases hor with ⟨-, -, rfl⟩ | ⟨hn, rfl⟩
          · exact ⟨cohInv_files hfiles fun i => .inl rfl, fun j' hj' => by cases hj'; exact hjob'⟩
          · refine ⟨?_, fun j' hj' => by cases hj'; exact hjob'⟩
            refine cohInv_files hfiles fun i => ?_
            left
            refine put_ne _ _ fun he => ?_
            rcases hjob' with ⟨h5, -⟩ | h5
            · rw [h5] at he; exact (snoc_below _ _).2 he
            · exact apart_file h5 i (he ▸ List.prefix_refl _)
      | act => exact absurd rfl hc
      | done => exact absurd rfl hc
      | stop => exact absurd rfl hc

/-- **C77.** Whatever calls were made and wherever they were stopped, the files that can be read for a run are
files of one and the same call for this run; at most one of them is incomplete, and then the files written
after it are missing. So results of two runs are never mixed. -/
theorem files_of_one_call {fs : FS δ} (hwf : fs.WF) {R : Path} {id : Str} (hid : Plain id)
    (hnew : fs (R ++ [id]) = none) {ls : List (Label δ)} {s : Sys δ} (hs : Steps ⟨fs, .idle⟩ ls s)
    (hcalls : ∀ R' id' ow docs, Label.call R' id' ow docs ∈ ls →
      Plain id' ∧ (R' = R ∧ id' = id ∨ Apart (R' ++ [id']) (R ++ [id]))) :
    (∀ i, fetch s.fs R id (fileName i) = none) ∨
    ∃ ow docs, Label.call R id ow docs ∈ ls ∧
      (∀ i x, fetch s.fs R id (fileName i) = some (some x) → x = docs i) ∧
      (∀ i, fetch s.fs R id (fileName i) = some none → ∀ k, i < k → fetch s.fs R id (fileName k) = none) := by
  have hwf' := (inv_steps (s := ⟨fs, .idle⟩) ⟨hwf, trivial⟩ hs).wf
  have hf := fun i c => fetch_wf hwf' (R := R) hid (i := i) (c := c)
  have hnone : ∀ i, s.fs (R ++ [id] ++ [fileName i]) = none → fetch s.fs R id (fileName i) = none := by
    intro i h
    cases hc : fetch s.fs R id (fileName i) with
    | none => rfl
    | some c => rw [(hf i c).1 hc] at h; cases h
  rcases (coherent_history hwf hnew hs hcalls).files with h | ⟨ow, docs, k, h1, h2⟩
  · exact .inl fun i => hnone i (h i)
  · refine .inr ⟨ow, docs, h1, fun i x hx => ?_, fun i hi m him => ?_⟩
    · have := (hf i _).1 hx
      rcases lt_trichotomy i.val k with h | h | h
      · rcases (h2 i).1 h with h3 | h3 <;> rw [h3] at this <;> cases this
        rfl
      · rcases (h2 i).2.1 h with h3 | h3 <;> rw [h3] at this <;> cases this
      · rw [(h2 i).2.2 h] at this; cases this
    · have := (hf i _).1 hi
      rcases lt_trichotomy i.val k with h | h | h
      · rcases (h2 i).1 h with h3 | h3 <;> rw [h3] at this <;> cases this
      · exact hnone m ((h2 m).2.2 (by have : i.val < m.val := him; omega))
      · rw [(h2 i).2.2 h] at this; cases this

end Verif.Fwork.Log
