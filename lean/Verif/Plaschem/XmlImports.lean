/-
C86: histories of a builder that include imports of HPEM files and from the QDB database; renaming in HPEM files.
-/
import Verif.Plaschem.XmlQdbDemo
import Verif.Plaschem.ChemChar
import Verif.Plaschem.ClassifyHeavy

namespace Verif.Plaschem.Xml
open Verif.Plaschem

variable {F : Type}

/-! ### Specification -/

/-- the methods of the builder that change it, with the imports -/
inductive Call (F : Type)
  | op (o : Op F)
  | hpem (lines : List Str) (skip : Bool)
  | qdb (xs : List (QdbRx F))
  | qdbRp (r : QdbRp F)

/-- one call; it may raise -/
def Builder.call [DecidableEq F] (C : Codec F) (A : Str → Option (Dict Str Nat)) (b : Builder F) :
    Call F → Except Err Unit × Builder F
  | .op o => b.step C A o
  | .hpem lines skip => b.addHpem C lines skip
  | .qdb xs => b.addQdb C xs
  | .qdbRp r => atomic b (b.addQdbRp C r)

/-- the builder after a history of calls -/
def calls [DecidableEq F] (C : Codec F) (A : Str → Option (Dict Str Nat)) (l : List (Call F)) : Builder F :=
  l.foldl (fun b c => (b.call C A c).2) {}

/-- Every species has a name. Nothing is asked of the lines of HPEM files. -/
def Call.Named : Call F → Prop
  | .op o => o.Named
  | .hpem _ _ => True
  | .qdb xs => ∀ r ∈ qdbSpecies xs, r.name ≠ []
  | .qdbRp r => r.name ≠ []

/-- no elements of a file are taken over -/
def Call.NoFile : Call F → Prop
  | .op o => o.NoFile
  | _ => True

/-- how a name is changed: the electron is `e`, and a hat becomes a plus -/
def Renamed (n n' : Str) : Prop :=
  (n = str!"E" ∧ n' = str!"e") ∨
  (n ≠ str!"E" ∧ n'.length = n.length ∧ ∀ (i : Nat) (c : Char), n[i]? = some c → n'[i]? = some (if c = '^' then '+' else c))

/-- how a formula of the database is written: the electron without its charge, up to three charges as signs -/
inductive Written : Str → Str → Prop
  | electron : Written str!"e-" str!"e"
  | neutral {body} : (∀ c ∈ body, c ∉ str!"+-*(") → Written body body
  | one {body sign} : (∀ c ∈ body, c ∉ str!"+-*(") → sign = '+' ∨ sign = '-' → body ++ [sign] ≠ str!"e-" →
      Written (body ++ [sign]) (body ++ [sign])
  | two {body sign} : (∀ c ∈ body, c ∉ str!"+-*(") → sign = '+' ∨ sign = '-' →
      Written (body ++ [sign, '2']) (body ++ List.replicate 2 sign)
  | three {body sign} : (∀ c ∈ body, c ∉ str!"+-*(") → sign = '+' ∨ sign = '-' →
      Written (body ++ [sign, '3']) (body ++ List.replicate 3 sign)

/-- how the states are written: with commas between them, in parentheses unless there is nothing but stars -/
inductive WrittenStates : List Str → Str → Prop
  | stars {l} : (∀ c ∈ joinStr str!"," l, c = '*') → WrittenStates l (joinStr str!"," l)
  | states {l c} : c ∈ joinStr str!"," l → c ≠ '*' → WrittenStates l ('(' :: joinStr str!"," l ++ [')'])

/-! ### Proofs -/

/-- the name of a species of the database -/
theorem qdb_name (r : QdbRp F) {w t : Str} (h : Written r.formula w) (h' : WrittenStates r.states t) :
    r.name = w ++ t := by
  unfold QdbRp.name
  congr 1
  · generalize hf : r.formula = f at h
    have key : ∀ {body q : Str}, q ∈ [str!"", str!"+", str!"+2", str!"+3", str!"-", str!"-2", str!"-3"] → f = body ++ q →
        (∀ c ∈ body, c ∉ str!"+-*(") → f ≠ str!"e-" → r.stateless = body ++ longCharge q := by
      intro body q hq he hb hne
      rw [QdbRp.stateless_eq hq (hf.trans he) hb, if_neg (by rw [hf]; exact hne)]
    cases h with
    | electron =>
      unfold QdbRp.stateless
      rw [hf]
      decide
    | neutral hb =>
      have := key (body := w) (q := []) (by decide) (by simp) hb (fun e => hb '-' (by rw [e]; decide) (by decide))
      simpa [longCharge] using this
    | one hb hs hne => rcases hs with rfl | rfl <;> exact key (by decide) rfl hb hne
    | @two body sign hb hs =>
      have hne : body ++ [sign, '2'] ≠ str!"e-" := fun e => by
        have := congrArg List.getLast? e
        simp at this
      rcases hs with rfl | rfl <;> exact key (by decide) rfl hb hne
    | @three body sign hb hs =>
      have hne : body ++ [sign, '3'] ≠ str!"e-" := fun e => by
        have := congrArg List.getLast? e
        simp at this
      rcases hs with rfl | rfl <;> exact key (by decide) rfl hb hne
  · unfold QdbRp.state
    dsimp only
    generalize r.states = l at h'
    cases h' with
    | stars h => rw [if_neg (not_not.2 (stripStars_eq_nil.2 h))]
    | states h hc => rw [if_pos fun e => hc (stripStars_eq_nil.1 e _ h)]; rfl

/-- how names in HPEM files are changed -/
theorem hpem_rename (n n' : Str) : rename n = n' ↔ Renamed n n' := by
  unfold rename Renamed
  by_cases h : n = str!"E"
  · rw [if_pos h]
    simp only [h, true_and, ne_eq, not_true, false_and, or_false]
    exact ⟨fun e => e.symm, fun e => e.symm⟩
  · rw [if_neg h]
    simp only [h, false_and, ne_eq, not_false_eq_true, true_and, false_or]
    constructor
    · rintro rfl
      refine ⟨by simp, fun i c hc => ?_⟩
      rw [List.getElem?_map, hc]
      rfl
    · rintro ⟨h1, h2⟩
      apply List.ext_getElem?
      intro i
      rw [List.getElem?_map]
      cases hi : n[i]? with
      | none =>
        rw [List.getElem?_eq_none_iff] at hi
        symm
        rw [Option.map_none, List.getElem?_eq_none_iff]
        omega
      | some c => exact (h2 i c hi).symm

section steps
variable [DecidableEq F] {C : Codec F} {A : Str → Option (Dict Str Nat)}

/-- what every call keeps -/
def Keep (C : Codec F) (b b' : Builder F) : Prop := Tidy b' ∧ (Closed C b → Closed C b')

omit [DecidableEq F] in
theorem Keep.trans {b b' b'' : Builder F} (h : Keep C b b') (g : Keep C b' b'') : Keep C b b'' :=
  ⟨g.1, fun hc => g.2 (h.2 hc)⟩

theorem keep_addRp {b b' : Builder F} (h : Tidy b) {id : Option Int} {attrs : Dict Str (Val F)}
    {ret : Option (Dict Str (Val F))} {units : Dict Str Str}
    (hn : ∀ v, attrs.get? str!"name" = some v → Xml.Named v) (hs : b.addRp C id attrs ret units = .ok b') : Keep C b b' := by
  obtain ⟨h1, h2, h3⟩ := h.addRp hn hs
  exact ⟨h1, fun hc => hc.mono h2 h3⟩

theorem keep_qdbRp {b b' : Builder F} (h : Tidy b) {r : QdbRp F} (hn : r.name ≠ []) (hs : b.addQdbRp C r = .ok b') :
    Keep C b b' := by
  refine keep_addRp h ?_ hs
  intro v hv
  have : (r.attrs C).get? str!"name" = some (.str r.name) := rfl
  rw [this] at hv
  cases hv
  exact ⟨_, hn, rfl⟩

theorem keep_qdbRps {b : Builder F} (h : Tidy b) {l : List (QdbRp F)} (hn : ∀ r ∈ l, r.name ≠ []) :
    Keep C b (b.addQdbRps C l).2 := by
  induction l generalizing b with
  | nil => exact ⟨h, id⟩
  | cons r l ih =>
    have hn' : ∀ r ∈ l, r.name ≠ [] := fun q hq => hn q (List.mem_cons_of_mem _ hq)
    unfold Builder.addQdbRps
    split
    · exact ih h hn'
    · split
      · exact ⟨h, id⟩
      · rename_i b1 hs
        have h1 := keep_qdbRp h (hn r (by simp)) hs
        exact h1.trans (ih h1.1 hn')

theorem keep_qdbLeaf {b : Builder F} (h : Tidy b) {x : QdbLeaf F} (hn : ∀ r ∈ x.master.all, r.name ≠ []) :
    Keep C b (b.addQdbLeaf C x).2 := by
  unfold Builder.addQdbLeaf
  split
  · exact ⟨h, id⟩
  · have h1 := keep_qdbRps (C := C) h hn
    generalize b.addQdbRps C x.master.all = q at h1
    obtain ⟨r, b1⟩ := q
    cases r with
    | error e => exact h1
    | ok u =>
      dsimp only
      split
      · exact h1
      · split
        · exact h1
        · split
          · exact h1
          · rename_i b2 hs
            exact h1.trans ⟨h1.1.addRx hs, fun hc => hc.addRx hs⟩

theorem keep_qdb {b : Builder F} (h : Tidy b) {xs : List (QdbRx F)} (hn : ∀ r ∈ qdbSpecies xs, r.name ≠ []) :
    Keep C b (b.addQdb C xs).2 := by
  rw [addQdb_leaves]
  unfold qdbSpecies at hn
  generalize leavesAll xs = l at hn
  induction l generalizing b with
  | nil => exact ⟨h, id⟩
  | cons x l ih =>
    rw [List.flatMap_cons] at hn
    unfold Builder.addLeaves
    have h1 := keep_qdbLeaf (C := C) h (x := x) fun r hr => hn r (List.mem_append_left _ hr)
    generalize b.addQdbLeaf C x = q at h1
    obtain ⟨r, b1⟩ := q
    cases r with
    | error e => exact h1
    | ok u => exact h1.trans (ih h1.1 fun r hr => hn r (List.mem_append_right _ hr))

theorem keep_hpemSps {b : Builder F} (h : Tidy b) {present : List Str} {l : List (HpemSp F)} (hn : ∀ s ∈ l, s.name ≠ []) :
    Keep C b (b.addHpemSps C present l).2 := by
  induction l generalizing b with
  | nil => exact ⟨h, id⟩
  | cons s l ih =>
    have hn' : ∀ s ∈ l, s.name ≠ [] := fun q hq => hn q (List.mem_cons_of_mem _ hq)
    unfold Builder.addHpemSps
    split
    · split
      · exact ⟨h, id⟩
      · rename_i b1 hs
        have h1 : Keep C b b1 := by
          refine keep_addRp h ?_ hs
          intro v hv
          have : s.attrs.get? str!"name" = some (.str s.name) := rfl
          rw [this] at hv
          cases hv
          exact ⟨_, hn s (by simp), rfl⟩
        exact h1.trans (ih h1.1 hn')
    · exact ih h hn'

theorem keep_hpemRxs {b : Builder F} (h : Tidy b) {l : List (HpemRx F)} : Keep C b (b.addHpemRxs C l).2 := by
  induction l generalizing b with
  | nil => exact ⟨h, id⟩
  | cons x l ih =>
    unfold Builder.addHpemRxs
    split
    · exact ⟨h, id⟩
    · split
      · exact ⟨h, id⟩
      · rename_i b1 hs
        have h1 : Keep C b b1 := ⟨h.addRx hs, fun hc => hc.addRx hs⟩
        exact h1.trans (ih h1.1)

omit [DecidableEq F] in
/-- a species that was read from a line has a name -/
theorem readSp_named {line : Str} {s : HpemSp F} (h : readSp C line = .ok s) : s.name ≠ [] := by
  unfold readSp at h
  cases hm : firstMatch (pattern true spSeps) line with
  | error e => rw [hm] at h; cases h
  | ok caps =>
    rw [hm] at h
    have hne : ∀ n l, caps = n :: l → n ≠ [] := by
      intro n l e
      unfold firstMatch at hm
      split at hm
      · rename_i r hf
        cases hm
        have hr := List.mem_of_find?_eq_some hf
        have hr2 : r.2 = [] := by simpa using List.find?_some hf
        obtain ⟨r1, r2⟩ := r
        dsimp only at hr2 e
        subst hr2
        obtain ⟨t, v, ts, vs, -, hfit, g3, -⟩ := mem_pattern.1 hr
        rw [e] at g3
        cases g3
        obtain ⟨w, w', -, -, hv, -⟩ : Word t n := by simpa [Fits] using hfit
        exact hv
      · cases hm
    simp only [bind, Except.bind] at h
    split at h
    · rename_i n q m st u r t c
      have hn := hne n _ rfl
      repeat' split at h
      all_goals cases h
      exact rename_ne_nil hn
    · cases h

theorem keep_hpem {b : Builder F} (h : Tidy b) {lines : List Str} {skip : Bool} : Keep C b (b.addHpem C lines skip).2 := by
  unfold Builder.addHpem
  dsimp only
  split
  · exact ⟨h, id⟩
  · split
    · exact ⟨h, id⟩
    · rename_i sps hsps
      split
      · exact ⟨h, id⟩
      · rename_i rxs _
        have hn : ∀ s ∈ sps, s.name ≠ [] := by
          intro s hs
          obtain ⟨l, -, hl⟩ := (Classify.collect_mem hsps s).1 hs
          exact readSp_named hl
        have hd : ∀ (l : List (HpemSp F)) (d : Dict Str (HpemSp F)), (∀ s ∈ l, s.name ≠ []) → (∀ p ∈ d, p.2.name ≠ []) →
            ∀ p ∈ l.foldl (fun d s => d.set s.name s) d, p.2.name ≠ [] := by
          intro l
          induction l with
          | nil => exact fun d _ h => h
          | cons s l ih =>
            intro d h1 h2
            refine ih _ (fun q hq => h1 q (List.mem_cons_of_mem _ hq)) ?_
            intro p hp
            rcases Net.mem_set hp with rfl | hp
            · exact h1 s (by simp)
            · exact h2 p hp
        have h1 := keep_hpemSps (C := C) h (present := (rxs.filter (HpemRx.kept skip)).flatMap fun x => x.reactants ++ x.products)
          (l := (sps.foldl (fun (d : Dict Str (HpemSp F)) s => d.set s.name s) []).map Prod.snd) (by
            intro s hs
            obtain ⟨p, hp, rfl⟩ := List.mem_map.1 hs
            exact hd sps [] hn (by simp) p hp)
        revert h1
        generalize b.addHpemSps C _ _ = q
        intro h1
        obtain ⟨r, b1⟩ := q
        cases r with
        | error e => exact h1
        | ok u => exact h1.trans (keep_hpemRxs h1.1)

theorem keep_call {b : Builder F} (h : Tidy b) {c : Call F} (hn : c.Named) :
    Tidy (b.call C A c).2 ∧ (c.NoFile → Closed C b → Closed C (b.call C A c).2) := by
  cases c with
  | op o => exact ⟨h.step hn, fun hf hc => hc.step h hn hf⟩
  | hpem lines skip => exact ⟨(keep_hpem (C := C) h).1, fun _ => (keep_hpem h).2⟩
  | qdb xs => exact ⟨(keep_qdb (C := C) h hn).1, fun _ => (keep_qdb h hn).2⟩
  | qdbRp r =>
    change Tidy (atomic b (b.addQdbRp C r)).2 ∧ (_ → Closed C b → Closed C (atomic b (b.addQdbRp C r)).2)
    cases hs : b.addQdbRp C r with
    | error e => exact ⟨h, fun _ => id⟩
    | ok b' => exact ⟨(keep_qdbRp h hn hs).1, fun _ => (keep_qdbRp h hn hs).2⟩

/-- **C86.** Whatever was called before, imports that failed half way among it, a builder has one species of each name;
and unless elements were taken over from a file, every reaction names species that are there. -/
theorem imports_history {l : List (Call F)} (hn : ∀ c ∈ l, c.Named) :
    ((calls C A l).species.map Elem.name).Nodup ∧
    ((∀ c ∈ l, c.NoFile) → ∀ r ∈ (calls C A l).reactions, ∃ rs ps : List Str,
      (∃ s, r.find str!"reactants" = some s ∧ s.text = some (joinStr str!", " rs)) ∧
      (∃ s, r.find str!"products" = some s ∧ s.text = some (joinStr str!", " ps)) ∧
      ∀ n ∈ rs ++ ps, ∃ e ∈ (calls C A l).species, e.name = some n) := by
  have key : ∀ (l : List (Call F)) (b : Builder F), Tidy b → (∀ c ∈ l, c.Named) →
      Tidy (l.foldl (fun b c => (b.call C A c).2) b) ∧
      ((∀ c ∈ l, c.NoFile) → Closed C b → Closed C (l.foldl (fun b c => (b.call C A c).2) b)) := by
    intro l
    induction l with
    | nil => exact fun b h _ => ⟨h, fun _ => id⟩
    | cons c l ih =>
      intro b h hn
      obtain ⟨h1, h2⟩ := keep_call (C := C) (A := A) h (hn c (by simp))
      obtain ⟨h3, h4⟩ := ih _ h1 fun d hd => hn d (List.mem_cons_of_mem _ hd)
      exact ⟨h3, fun hf hc => h4 (fun d hd => hf d (List.mem_cons_of_mem _ hd)) (h2 (hf c (by simp)) hc)⟩
  obtain ⟨ht, hc⟩ := key l {} .new hn
  have ht : Tidy (calls C A l) := ht
  refine ⟨ht.distinct, fun hf r hr => ?_⟩
  have hc : Closed C (calls C A l) := hc hf fun e he => by cases he
  obtain ⟨rs, ps, id, attrs, units, h1, h2⟩ := hc r hr
  refine ⟨rs, ps, ?_, ?_, fun n hn => (ht.mem n).1 (h2 n hn)⟩
  · unfold Elem.find
    rw [h1]
    exact ⟨_, rfl, rfl⟩
  · unfold Elem.find
    rw [h1]
    exact ⟨_, rfl, rfl⟩

end steps

end Verif.Plaschem.Xml

namespace Verif.Plaschem.DemoX
open Verif.Plaschem Xml

/-- a file, a chemistry of the database with species of the same names, and an import that fails -/
def callDemo : List (Call Int) :=
  [.hpem hpemLines true, .qdb qChem, .qdb [.mk ⟨qIonisation, [], []⟩ []], .hpem hpemLines false, .op .assign, .qdbRp qAr]

example : ∀ c ∈ callDemo, c.Named ∧ c.NoFile := by
  simp only [callDemo, List.mem_cons, List.not_mem_nil, or_false, forall_eq_or_imp, forall_eq, Call.Named, Call.NoFile,
    Op.Named, Op.NoFile, and_true, true_and]
  refine ⟨?_, ?_, by decide +kernel⟩
  · intro r hr
    exact (by decide +kernel : ∀ r ∈ [qe, qAr, qArS, qArL, qArP, qArPP], r.name ≠ []) r (species_qChem r hr)
  · intro r hr
    have : r ∈ [qe, qAr, qArP] := by
      simpa [qdbSpecies, leavesAll, QdbRx.leaves, QdbLeaf.master, qIonisation] using hr
    exact (by decide +kernel : ∀ r ∈ [qe, qAr, qArP], r.name ≠ []) r this

/-- the names of a doubly charged ion, an excited atom and a molecule with two states -/
example : (⟨1, str!"Ar+2", [], 40, 2, none, none, none, none⟩ : QdbRp Int).name = str!"Ar++" :=
  qdb_name (w := str!"Ar++") (t := []) _ (.two (body := str!"Ar") (by decide) (.inl rfl)) (.stars (l := []) (by decide))
example : (⟨1, str!"Ar", [str!"***"], 40, 0, none, none, none, none⟩ : QdbRp Int).name = str!"Ar***" :=
  qdb_name _ (.neutral (by decide)) (.stars (by decide))
example : qN2.name = str!"N2(X,v=1)" := qdb_name _ (.neutral (by decide)) (.states (c := 'X') (by decide) (by decide))

/-- Two names of an HPEM file can become one. -/
theorem hpem_names_collide : Renamed str!"AR^" str!"AR+" ∧ Renamed str!"AR+" str!"AR+" ∧ str!"AR^" ≠ str!"AR+" :=
  ⟨(hpem_rename _ _).1 (by decide), (hpem_rename _ _).1 (by decide), by decide⟩

end Verif.Plaschem.DemoX
