/-
Dumping and loading of the chemistry state (plaschem/chemistry.py:447-610) and property C22.
-/
import Verif.Plaschem.AdhocRet
import Verif.Plaschem.ReactStr

namespace Verif.Plaschem

/-- a list `[attr, species_id, value]` of plaschem/chemistry.py:470-477. -/
inductive AdEntry
  | stick (i : Nat) (v : ℚ)
  | ret (i : Nat) (v : Dict Str ℚ)
  deriving DecidableEq

/-- plaschem/chemistry.py:487-494: the dictionary written to the yaml file. -/
structure Attrs where
  enabledSp : List Nat
  disabledSp : List Nat
  protSp : List Nat
  adhocSp : List Nat
  enabledR : List Nat
  disabledR : List Nat
  adSp : List AdEntry
  adR : List (Nat × ℚ)
  xmlPath : Option Str
  xmlHash : Option Str
  deriving DecidableEq

/-- insertion into a dictionary sorted by key -/
def insKey (p : Str × ℚ) : Dict Str ℚ → Dict Str ℚ
  | [] => [p]
  | q :: qs => if strLe p.1 q.1 then p :: q :: qs else q :: insKey p qs

/-- `yaml.dump` writes the items of a dictionary sorted by key. -/
def sortKeys : Dict Str ℚ → Dict Str ℚ
  | [] => []
  | p :: d => insKey p (sortKeys d)

/-- plaschem/chemistry.py:584-598 `xml_hash`: `hash p = none` means that there is no such file. -/
def xmlHashOf (hash : Str → Option Str) : Option Str → Except Err (Option Str)
  | none => .ok none
  | some p =>
    match hash p with
    | some h => .ok (some h)
    | none => .error .chemAttribute

namespace Net

/-- plaschem/chemistry.py:447-496 `_chemistry_attributes` of a chemistry with `xml_path` attribute
`path` when the file system maps paths to hashes by `hash`. Values are numbers, so the conversions with
`float` are the identity. -/
def chemistryAttributes (net : Net) (path : Option Str) (hash : Str → Option Str) (st : State) :
    Except Err Attrs :=
  match xmlHashOf hash path with
  | .error e => .error e
  | .ok h => .ok {
      enabledSp := (net.species.filter (fun s => st.enSp s.id)).map RP.id
      disabledSp := (net.species.filter (fun s => !st.enSp s.id)).map RP.id
      protSp := (net.species.filter (fun s => st.protSp s.id)).map RP.id
      adhocSp := (net.species.filter (fun s => st.adhocSp s.id)).map RP.id
      enabledR := (net.reactions.filter (fun r => st.enR r.id)).map Reaction.id
      disabledR := (net.reactions.filter (fun r => !st.enR r.id)).map Reaction.id
      adSp := st.adStick.map (fun e => .stick e.1 e.2) ++ st.adRet.map (fun e => .ret e.1 e.2)
      adR := st.adArrhA
      xmlPath := path
      xmlHash := h }

/-- an ad-hoc entry after the round trip through yaml -/
def yamlEntry : AdEntry → AdEntry
  | .stick i v => .stick i v
  | .ret i v => .ret i (sortKeys v)

/-- the effect of writing a value with `yaml.dump` and reading it with `yaml.load`: dictionaries come
back sorted by key (plaschem/chemistry.py:513-515, 537-538; the yaml library is trusted to preserve
numbers, strings and lists). -/
def throughYaml (a : Attrs) : Attrs :=
  { a with adSp := a.adSp.map yamlEntry }

/-- plaschem/chemistry.py:498-515 `dump_chemistry_attributes`: the content of the yaml file. -/
def dump (net : Net) (path : Option Str) (hash : Str → Option Str) (st : State) : Except Err Attrs :=
  match net.chemistryAttributes path hash st with
  | .error e => .error e
  | .ok a => .ok (throughYaml a)

/-- `series[ids] = b`: unknown labels raise before anything is changed. -/
def assign (labels : List Nat) (f : Nat → Bool) (ids : List Nat) (b : Bool) :
    Except Err (Nat → Bool) :=
  if ids.all (fun i => i ∈ labels) then .ok (setMask f ids b) else .error .keyError

/-- plaschem/chemistry.py:560-567: restoring the masks, one assignment after the other. -/
def loadMasks (net : Net) (st : State) (a : Attrs) : State × Option Err :=
  let sp := net.species.map RP.id
  let rx := net.reactions.map Reaction.id
  match assign sp st.enSp a.enabledSp true with
  | .error e => (st, some e)
  | .ok f1 =>
    let st := { st with enSp := f1 }
    match assign sp st.enSp a.disabledSp false with
    | .error e => (st, some e)
    | .ok f2 =>
      let st := { st with enSp := f2, protSp := fun _ => false }
      match assign sp st.protSp a.protSp true with
      | .error e => (st, some e)
      | .ok f3 =>
        let st := { st with protSp := f3, adhocSp := fun _ => false }
        match assign sp st.adhocSp a.adhocSp true with
        | .error e => (st, some e)
        | .ok f4 =>
          let st := { st with adhocSp := f4 }
          match assign rx st.enR a.enabledR true with
          | .error e => (st, some e)
          | .ok f5 =>
            let st := { st with enR := f5 }
            match assign rx st.enR a.disabledR false with
            | .error e => (st, some e)
            | .ok f6 => ({ st with enR := f6 }, none)

/-- plaschem/chemistry.py:570-571: replaying the ad-hoc settings of species. -/
def loadSp (net : Net) (st : State) : List AdEntry → State × Option Err
  | [] => (st, none)
  | .stick i v :: es =>
    match net.setAdhocStick st (.id i) v with
    | (st', some e) => (st', some e)
    | (st', none) => net.loadSp st' es
  | .ret i v :: es =>
    match net.setAdhocRet st (.id i) v with
    | (st', some e) => (st', some e)
    | (st', none) => net.loadSp st' es

/-- plaschem/chemistry.py:573-574: replaying the ad-hoc settings of reactions. -/
def loadR (net : Net) (st : State) : List (Nat × ℚ) → State × Option Err
  | [] => (st, none)
  | (i, v) :: es =>
    match net.setAdhocArrhA st i v with
    | (st', some e) => (st', some e)
    | (st', none) => net.loadR st' es

/-- plaschem/chemistry.py:558-577: restoring the state from the file content. -/
def loadState (net : Net) (st : State) (a : Attrs) : State × Option Err :=
  match net.loadMasks st a with
  | (st1, some e) => (st1, some e)
  | (st1, none) =>
    match net.loadSp (resetAdhocSpecies st1 true true) a.adSp with
    | (st2, some e) => (st2, some e)
    | (st2, none) =>
      match net.loadR (resetAdhocReactions st2) a.adR with
      | (st3, some e) => (st3, some e)
      | (st3, none) =>
        match net.assertConsistency st3 with
        | .error e => (st3, some e)
        | .ok () => (st3, none)

/-- plaschem/chemistry.py:517-582 `load_chemistry_attributes` for an existing, complete yaml file. -/
def load (net : Net) (path : Option Str) (hash : Str → Option Str) (st : State) (a : Attrs)
    (checkHash : Bool) : State × Option Err :=
  if checkHash then
    if a.xmlPath ≠ path then (st, some .chemAttribute)
    else match xmlHashOf hash path with
      | .error e => (st, some e)
      | .ok h => if a.xmlHash ≠ h then (st, some .chemAttribute) else net.loadState st a
  else net.loadState st a

/-- equality of the values of the two dictionaries: Python compares nested dictionaries without regard
to order, which is modelled by comparing them sorted by key. -/
def attrsEq (a b : Attrs) : Bool := decide (throughYaml a = throughYaml b)

/-- plaschem/chemistry.py:600-610 `check_coherence`. -/
def checkCoherence (net : Net) (path : Option Str) (hash : Str → Option Str) (st : State)
    (file : Attrs) : Except Err Bool :=
  match net.chemistryAttributes path hash st with
  | .error e => .error e
  | .ok a => .ok (attrsEq file a)

end Net
open Net

/-- Specification: two states agree on a chemistry: same enabled species and reactions, same protection,
same ad-hoc values; ad-hoc return dictionaries agree as dictionaries (same items, order disregarded). -/
structure SameState (net : Net) (a b : State) : Prop where
  enSp : ∀ s ∈ net.species, a.enSp s.id = b.enSp s.id
  protSp : ∀ s ∈ net.species, a.protSp s.id = b.protSp s.id
  adhocSp : ∀ s ∈ net.species, a.adhocSp s.id = b.adhocSp s.id
  enR : ∀ r ∈ net.reactions, a.enR r.id = b.enR r.id
  stick : a.adStick = b.adStick
  arrh : a.adArrhA = b.adArrhA
  ret : List.Forall₂ (fun x y => x.1 = y.1 ∧ x.2.Perm y.2) a.adRet b.adRet

/-! ### lemmas -/

theorem insKey_perm (p : Str × ℚ) (d : Dict Str ℚ) : (insKey p d).Perm (p :: d) := by
  induction d with
  | nil => exact List.Perm.refl _
  | cons q d ih =>
    unfold insKey
    split
    · exact List.Perm.refl _
    · exact (List.Perm.cons q ih).trans (List.Perm.swap p q d)

theorem sortKeys_perm (d : Dict Str ℚ) : (sortKeys d).Perm d := by
  induction d with
  | nil => exact List.Perm.refl _
  | cons p d ih => exact (insKey_perm p _).trans (ih.cons p)

private theorem assign_ok {labels : List Nat} {f : Nat → Bool} {ids : List Nat} {b : Bool}
    (h : ∀ i ∈ ids, i ∈ labels) : assign labels f ids b = .ok (setMask f ids b) := by
  unfold assign
  rw [if_pos]
  rw [List.all_eq_true]
  intro i hi
  exact decide_eq_true (h i hi)

private theorem mem_filter_map {α : Type} {l : List α} {key : α → Nat} {p : α → Bool} {i : Nat}
    (h : i ∈ (l.filter p).map key) : i ∈ l.map key := by
  obtain ⟨s, hs, rfl⟩ := List.mem_map.1 h
  exact List.mem_map_of_mem (List.mem_filter.1 hs).1

private theorem mask_restored {α : Type} {l : List α} {key : α → Nat} (hn : (l.map key).Nodup)
    (f g : Nat → Bool) {s : α} (hs : s ∈ l) :
    setMask (setMask f ((l.filter (fun s => g (key s))).map key) true)
      ((l.filter (fun s => !g (key s))).map key) false (key s) = g (key s) := by
  have memp : ∀ p : α → Bool, key s ∈ (l.filter p).map key ↔ p s = true := by
    intro p
    constructor
    · intro hm
      obtain ⟨t, ht, hts⟩ := List.mem_map.1 hm
      obtain ⟨h1, h2⟩ := List.mem_filter.1 ht
      have : t = s := List.inj_on_of_nodup_map hn h1 hs hts
      exact this ▸ h2
    · intro hp; exact List.mem_map_of_mem (List.mem_filter.2 ⟨hs, hp⟩)
  unfold setMask
  simp only [memp]
  cases g (key s) <;> simp

private theorem mask_set {α : Type} {l : List α} {key : α → Nat}
    (g : Nat → Bool) {s : α} (hs : s ∈ l) :
    setMask (fun _ => false) ((l.filter (fun s => g (key s))).map key) true (key s) = g (key s) := by
  have memp : key s ∈ (l.filter (fun s => g (key s))).map key ↔ g (key s) = true := by
    constructor
    · intro hm
      obtain ⟨t, ht, hts⟩ := List.mem_map.1 hm
      obtain ⟨h1, h2⟩ := List.mem_filter.1 ht
      exact hts ▸ h2
    · intro hp; exact List.mem_map_of_mem (List.mem_filter.2 ⟨hs, hp⟩)
  unfold setMask
  simp only [memp]
  cases g (key s) <;> simp

private theorem set_new {κ α : Type} [DecidableEq κ] {d : Dict κ α} {k : κ} (h : k ∉ d.keys) (v : α) :
    d.set k v = d ++ [(k, v)] := by
  induction d with
  | nil => rfl
  | cons e d ih =>
    obtain ⟨k', v'⟩ := e
    have hk : k' ≠ k := fun hc => h (by simp [Dict.keys, hc])
    have : k ∉ Dict.keys d := fun hc => h (by simp only [Dict.keys, List.map_cons, List.mem_cons] at hc ⊢; exact .inr hc)
    unfold Dict.set
    rw [if_neg hk, ih this]; rfl

theorem reachable_stickKeys {net : Net} {st : State} (h : Reachable net st) :
    st.adStick.keys.Nodup ∧ ∀ i ∈ st.adStick.keys, i ∈ net.species.map RP.id := by
  induction h with
  | init h => rw [(init_spec h).2.2.2.2.2.1]; exact ⟨by simp [Dict.keys], fun i hi => by cases hi⟩
  | @step st o hr ih =>
    obtain ⟨hwf, hinv⟩ := reachable_inv hr
    cases o with
    | disable sp rx =>
      simp only [step]
      rcases disable_cases hinv sp rx with ⟨e, -, -, -, he, -⟩ | ⟨sids, -, -, he, -⟩ | ⟨sids, st', -, -, hrec, he⟩
      · rw [he]; exact ih
      · rw [he]; exact ih
      · rw [he]; simp only; rw [(cascade_of_ok hwf hrec).stick]; exact ih
    | reset => exact ih
    | protect sp => simp only [step]; rw [setProtected_spec.2.2.2.1]; exact ih
    | adhocStick p v =>
      simp only [step, setAdhocStick]
      split
      · exact ih
      · rename_i s hs
        have key : (st.adStick.set s.id v).keys.Nodup ∧
            ∀ i ∈ (st.adStick.set s.id v).keys, i ∈ net.species.map RP.id := by
          rw [Dict.keys_set]
          split
          · exact ih
          · rename_i hk
            refine ⟨?_, fun i hi => ?_⟩
            · rw [List.nodup_append]
              refine ⟨ih.1, by simp, ?_⟩
              rintro a ha b hb rfl
              rw [List.mem_singleton] at hb
              exact hk (hb ▸ ha)
            · rcases List.mem_append.1 hi with hi | hi
              · exact ih.2 i hi
              · rw [List.mem_singleton] at hi
                exact hi ▸ List.mem_map_of_mem (getRp_mem hs)
        split <;> exact key
    | adhocRet p v =>
      simp only [step, setAdhocRet]
      split
      · exact ih
      · split
        · exact ih
        · split <;> exact ih
    | resetAdhocSpecies a b =>
      simp only [step, resetAdhocSpecies]
      split
      · exact ⟨by simp [Dict.keys], fun i hi => by cases hi⟩
      · exact ih
    | adhocArrhA r v => simp only [step, setAdhocArrhA]; split <;> exact ih
    | resetAdhocReactions => exact ih

theorem reachable_arrhKeys' {net : Net} {st : State} (h : Reachable net st) :
    st.adArrhA.keys.Nodup ∧ ∀ i ∈ st.adArrhA.keys, i ∈ net.reactions.map Reaction.id := by
  induction h with
  | init h => rw [(init_spec h).2.2.2.2.2.2.2.1]; exact ⟨by simp [Dict.keys], fun i hi => by cases hi⟩
  | @step st o hr ih =>
    obtain ⟨hwf, hinv⟩ := reachable_inv hr
    cases o with
    | disable sp rx =>
      simp only [step]
      rcases disable_cases hinv sp rx with ⟨e, -, -, -, he, -⟩ | ⟨sids, -, -, he, -⟩ | ⟨sids, st', -, -, hrec, he⟩
      · rw [he]; exact ih
      · rw [he]; exact ih
      · rw [he]; simp only; rw [(cascade_of_ok hwf hrec).arrh]; exact ih
    | reset => exact ih
    | protect sp => simp only [step]; rw [setProtected_spec.2.2.2.2.2.1]; exact ih
    | adhocStick p v =>
      simp only [step, setAdhocStick]
      split
      · exact ih
      · split <;> exact ih
    | adhocRet p v =>
      simp only [step, setAdhocRet]
      split
      · exact ih
      · split
        · exact ih
        · split <;> exact ih
    | resetAdhocSpecies a b => exact ih
    | adhocArrhA r v =>
      simp only [step, setAdhocArrhA]
      split
      · rename_i hr
        rw [Dict.keys_set]
        split
        · exact ih
        · rename_i hk
          refine ⟨?_, fun i hi => ?_⟩
          · rw [List.nodup_append]
            refine ⟨ih.1, by simp, ?_⟩
            rintro a ha b hb rfl
            rw [List.mem_singleton] at hb
            exact hk (hb ▸ ha)
          · rcases List.mem_append.1 hi with hi | hi
            · exact ih.2 i hi
            · rw [List.mem_singleton] at hi; exact hi ▸ hr
      · exact ih
    | resetAdhocReactions => exact ⟨by simp [step, Net.resetAdhocReactions, Dict.keys], fun i hi => by cases hi⟩

private theorem consistency_of {net : Net} (hwf : WF net) (hnom : ∀ s ∈ net.species, ∃ c, s.getRetCoefs = .ok c)
    (hcl : net.RetClosed) {st a : State} (hok : NetOk net st)
    (h1 : ∀ s ∈ net.species, a.enSp s.id = st.enSp s.id) (h2 : ∀ r ∈ net.reactions, a.enR r.id = st.enR r.id)
    (h3 : ∀ e ∈ a.adRet, ∀ p ∈ e.2, ∃ t ∈ net.species, t.name = p.1) :
    net.assertConsistency a = .ok () := by
  refine assertConsistency_iff.2 ⟨?_, retOk_of hnom hcl h3⟩
  refine netOk_of hwf ?_ ?_ ?_
  · intro hq
    obtain ⟨s, hs, he, hn⟩ := hok.electron hq
    exact ⟨s, hs, by rw [h1 s hs]; exact he, hn⟩
  · intro hq hc
    obtain ⟨s, hs⟩ := List.exists_mem_of_ne_nil _ (hok.ion hq)
    obtain ⟨a1, a2, a3⟩ := mem_positiveIons.1 hs
    have : s ∈ net.positiveIons a := mem_positiveIons.2 ⟨a1, by rw [h1 s a1]; exact a2, a3⟩
    rw [hc] at this; cases this
  · refine ⟨?_, ?_⟩
    · intro r hr her i ho
      obtain ⟨p, hp, rfl⟩ := ho
      have hps := hwf.closed r hr p hp
      show a.enSp p.id = true
      rw [h1 p hps]
      exact (hok.present r hr (by rw [← h2 r hr]; exact her) p hp).2
    · intro s hs hes
      obtain ⟨r, hr, her, hsr⟩ := hok.used s hs (by rw [← h1 s hs]; exact hes)
      exact ⟨r, hr, by show a.enR r.id = true; rw [h2 r hr]; exact her, s, hsr, rfl⟩

private theorem loadSp_stick {net : Net} (hwf : WF net)
    (hnom : ∀ s ∈ net.species, ∃ c, s.getRetCoefs = .ok c) (hcl : net.RetClosed) {st : State}
    (hok : NetOk net st) (l : Dict Nat ℚ) (rest : List AdEntry) (a : State)
    (h1 : ∀ s ∈ net.species, a.enSp s.id = st.enSp s.id)
    (h2 : ∀ r ∈ net.reactions, a.enR r.id = st.enR r.id)
    (h3 : ∀ e ∈ a.adRet, ∀ p ∈ e.2, ∃ t ∈ net.species, t.name = p.1)
    (hk : ∀ i ∈ l.keys, i ∈ net.species.map RP.id) (hn : (a.adStick.keys ++ l.keys).Nodup) :
    net.loadSp a (l.map (fun e => .stick e.1 e.2) ++ rest) =
      net.loadSp { a with adStick := a.adStick ++ l } rest := by
  induction l generalizing a with
  | nil => simp
  | cons e l ih =>
    obtain ⟨i, v⟩ := e
    obtain ⟨s, hs, rfl⟩ := List.mem_map.1 (hk i (by simp [Dict.keys]))
    have hnot : s.id ∉ a.adStick.keys := by
      intro hc
      rw [List.nodup_append] at hn
      exact hn.2.2 _ hc _ (by simp [Dict.keys]) rfl
    have hset : net.setAdhocStick a (.id s.id) v =
        ({ a with adStick := a.adStick ++ [(s.id, v)] }, none) := by
      unfold setAdhocStick
      rw [find_id hwf.spNodup hs]
      simp only [set_new hnot]
      rw [consistency_of hwf hnom hcl (a := { a with adStick := a.adStick ++ [(s.id, v)] }) hok h1 h2 h3]
    simp only [List.map_cons, List.cons_append, loadSp, hset]
    rw [ih]
    · simp [List.append_assoc]
    · exact h1
    · exact h2
    · exact h3
    · exact fun j hj => hk j (by simp only [Dict.keys, List.map_cons, List.mem_cons] at hj ⊢; exact .inr hj)
    · simpa [Dict.keys, List.append_assoc] using hn

private theorem loadSp_ret {net : Net} (hwf : WF net)
    (hnom : ∀ s ∈ net.species, ∃ c, s.getRetCoefs = .ok c) (hcl : net.RetClosed) {st : State}
    (hok : NetOk net st) (l : Dict Nat (Dict Str ℚ)) (a : State)
    (h1 : ∀ s ∈ net.species, a.enSp s.id = st.enSp s.id)
    (h2 : ∀ r ∈ net.reactions, a.enR r.id = st.enR r.id)
    (h3 : ∀ e ∈ a.adRet, ∀ p ∈ e.2, ∃ t ∈ net.species, t.name = p.1)
    (h4 : ∀ e ∈ l, ∀ p ∈ e.2, EnabledName net st p.1)
    (hk : ∀ i ∈ l.keys, i ∈ net.species.map RP.id) (hn : (a.adRet.keys ++ l.keys).Nodup) :
    net.loadSp a (l.map (fun e => .ret e.1 e.2)) = ({ a with adRet := a.adRet ++ l }, none) := by
  induction l generalizing a with
  | nil => simp [loadSp]
  | cons e l ih =>
    obtain ⟨i, v⟩ := e
    obtain ⟨s, hs, rfl⟩ := List.mem_map.1 (hk i (by simp [Dict.keys]))
    have hnot : s.id ∉ a.adRet.keys := by
      intro hc
      rw [List.nodup_append] at hn
      exact hn.2.2 _ hc _ (by simp [Dict.keys]) rfl
    have hnames : ∀ p ∈ v, ∃ t ∈ net.species, t.name = p.1 := fun p hp => by
      obtain ⟨t, ht, htn, -⟩ := h4 (s.id, v) (by simp) p hp
      exact ⟨t, ht, htn⟩
    have h3' : ∀ e ∈ a.adRet ++ [(s.id, v)], ∀ p ∈ e.2, ∃ t ∈ net.species, t.name = p.1 := by
      intro e he
      rcases List.mem_append.1 he with he | he
      · exact h3 e he
      · rw [List.mem_singleton] at he; subst he; exact hnames
    have hall : (v.all fun p => decide (p.1 ∈ net.getSpeciesName a false true true)) = true := by
      rw [List.all_eq_true]
      intro p hp
      obtain ⟨t, ht, htn, he⟩ := h4 (s.id, v) (by simp) p hp
      refine decide_eq_true (List.mem_map.2 ⟨t, mem_getSpecies.2 ⟨ht, ?_⟩, htn⟩)
      rw [h1 t ht]; exact he
    have hset : net.setAdhocRet a (.id s.id) v =
        ({ a with adRet := a.adRet ++ [(s.id, v)] }, none) := by
      unfold setAdhocRet
      rw [find_id hwf.spNodup hs]
      simp only
      rw [if_neg (not_not.2 hall), set_new hnot,
        consistency_of hwf hnom hcl (a := { a with adRet := a.adRet ++ [(s.id, v)] }) hok h1 h2 h3']
    simp only [List.map_cons, loadSp, hset]
    rw [ih]
    · simp [List.append_assoc]
    · exact h1
    · exact h2
    · exact h3'
    · exact fun e he => h4 e (by simp [he])
    · exact fun j hj => hk j (by simp only [Dict.keys, List.map_cons, List.mem_cons] at hj ⊢; exact .inr hj)
    · simpa [Dict.keys, List.append_assoc] using hn

private theorem loadR_spec {net : Net} (l : Dict Nat ℚ) (a : State)
    (hk : ∀ i ∈ l.keys, i ∈ net.reactions.map Reaction.id) (hn : (a.adArrhA.keys ++ l.keys).Nodup) :
    net.loadR a l = ({ a with adArrhA := a.adArrhA ++ l }, none) := by
  induction l generalizing a with
  | nil => simp [loadR]
  | cons e l ih =>
    obtain ⟨i, v⟩ := e
    have hnot : i ∉ a.adArrhA.keys := by
      intro hc
      rw [List.nodup_append] at hn
      exact hn.2.2 _ hc _ (by simp [Dict.keys]) rfl
    have hset : net.setAdhocArrhA a i v = ({ a with adArrhA := a.adArrhA ++ [(i, v)] }, none) := by
      unfold setAdhocArrhA
      rw [if_pos (hk i (by simp [Dict.keys])), set_new hnot]
    simp only [loadR, hset]
    rw [ih]
    · simp [List.append_assoc]
    · exact fun j hj => hk j (by simp only [Dict.keys, List.map_cons, List.mem_cons] at hj ⊢; exact .inr hj)
    · simpa [Dict.keys, List.append_assoc] using hn

theorem loadMasks_spec {net : Net} (hwf : WF net) (a : State) (st : State) (at' : Attrs)
    (h1 : at'.enabledSp = (net.species.filter (fun s => st.enSp s.id)).map RP.id)
    (h2 : at'.disabledSp = (net.species.filter (fun s => !st.enSp s.id)).map RP.id)
    (h3 : at'.protSp = (net.species.filter (fun s => st.protSp s.id)).map RP.id)
    (h4 : at'.adhocSp = (net.species.filter (fun s => st.adhocSp s.id)).map RP.id)
    (h5 : at'.enabledR = (net.reactions.filter (fun r => st.enR r.id)).map Reaction.id)
    (h6 : at'.disabledR = (net.reactions.filter (fun r => !st.enR r.id)).map Reaction.id) :
    ∃ b, net.loadMasks a at' = (b, none) ∧ (∀ s ∈ net.species, b.enSp s.id = st.enSp s.id) ∧
      (∀ s ∈ net.species, b.protSp s.id = st.protSp s.id) ∧
      (∀ s ∈ net.species, b.adhocSp s.id = st.adhocSp s.id) ∧
      (∀ r ∈ net.reactions, b.enR r.id = st.enR r.id) := by
  unfold loadMasks
  rw [h1, h2, h3, h4, h5, h6]
  simp only [assign_ok (fun i hi => mem_filter_map hi)]
  exact ⟨_, rfl, fun s hs => mask_restored hwf.spNodup _ _ hs, fun s hs => mask_set _ hs,
    fun s hs => mask_set _ hs, fun r hr => mask_restored hwf.rNodup _ _ hr⟩

/-! ### C22 -/

/-- what the proofs below need to know about a state; it holds of all reachable states (`Sound.of_reachable`) and is
kept by loading (`Sound.same`) -/
structure Sound (net : Net) (st : State) : Prop where
  wf : WF net
  inv : Inv net st
  nom : ∀ s ∈ net.species, ∃ c, s.getRetCoefs = .ok c
  ad : ∀ e ∈ st.adRet, ∀ p ∈ e.2, ∃ t ∈ net.species, t.name = p.1
  stick : st.adStick.keys.Nodup ∧ ∀ i ∈ st.adStick.keys, i ∈ net.species.map RP.id
  ret : st.adRet.keys.Nodup ∧ ∀ i ∈ st.adRet.keys, i ∈ net.species.map RP.id
  arrh : st.adArrhA.keys.Nodup ∧ ∀ i ∈ st.adArrhA.keys, i ∈ net.reactions.map Reaction.id

theorem Sound.of_reachable {net : Net} {st : State} (h : Reachable net st) : Sound net st :=
  ⟨(reachable_inv h).1, (reachable_inv h).2, (reachable_ret h).1, (reachable_ret h).2, reachable_stickKeys h,
    reachable_retKeys h, reachable_arrhKeys' h⟩

theorem load_dump_sound {net : Net} {st : State} (h : Sound net st) (hcl : net.RetClosed)
    (henab : ∀ e ∈ st.adRet, ∀ p ∈ e.2, EnabledName net st p.1)
    {path : Option Str} {hash : Str → Option Str} {file : Attrs}
    (hd : net.dump path hash st = .ok file) (cur : State) (checkHash : Bool) :
    ∃ st', net.load path hash cur file checkHash = (st', none) ∧ SameState net st' st := by
  obtain ⟨hwf, hinv, hnom, had, ⟨k1, k2⟩, ⟨k3, k4⟩, ⟨k5, k6⟩⟩ := h
  unfold dump chemistryAttributes at hd
  cases hx : xmlHashOf hash path with
  | error e => rw [hx] at hd; cases hd
  | ok hv =>
    rw [hx] at hd
    simp only [Except.ok.injEq] at hd
    have hload : net.load path hash cur file checkHash = net.loadState cur file := by
      unfold load
      cases checkHash with
      | false => rfl
      | true =>
        have e1 : file.xmlPath = path := by rw [← hd]; rfl
        have e2 : file.xmlHash = hv := by rw [← hd]; rfl
        simp only [if_true, e1, e2, hx, ne_eq, not_true_eq_false, if_false]
    rw [hload]
    obtain ⟨b, hb, b1, b2, b3, b4⟩ := loadMasks_spec hwf cur st file (by rw [← hd]; rfl)
      (by rw [← hd]; rfl) (by rw [← hd]; rfl) (by rw [← hd]; rfl) (by rw [← hd]; rfl) (by rw [← hd]; rfl)
    have hsp : file.adSp = st.adStick.map (fun e => AdEntry.stick e.1 e.2) ++
        (st.adRet.map (fun e => (e.1, sortKeys e.2))).map (fun e => AdEntry.ret e.1 e.2) := by
      rw [← hd]
      simp [throughYaml, yamlEntry, Function.comp_def]
    have hr : file.adR = st.adArrhA := by rw [← hd]; rfl
    have hkr : Dict.keys (st.adRet.map (fun e => (e.1, sortKeys e.2))) = st.adRet.keys := by
      simp [Dict.keys, Function.comp_def]
    unfold loadState
    rw [hb]
    simp only [hsp, hr]
    rw [loadSp_stick hwf hnom hcl hinv.ok st.adStick _ (resetAdhocSpecies b true true) b1 b4
      (fun e he => by cases he) k2 (by simpa [resetAdhocSpecies, Dict.keys] using k1)]
    rw [loadSp_ret hwf hnom hcl hinv.ok (st.adRet.map (fun e => (e.1, sortKeys e.2)))
      { resetAdhocSpecies b true true with adStick := (resetAdhocSpecies b true true).adStick ++ st.adStick }
      b1 b4 (fun e he => by cases he) ?_ (by rw [hkr]; exact k4)
      (by rw [hkr]; simpa [resetAdhocSpecies, Dict.keys] using k3)]
    · simp only
      rw [loadR_spec st.adArrhA _ k6 (by simpa [resetAdhocReactions, Dict.keys] using k5)]
      simp only
      have hret : (resetAdhocSpecies b true true).adRet ++ st.adRet.map (fun e => (e.1, sortKeys e.2)) =
          st.adRet.map (fun e => (e.1, sortKeys e.2)) := by simp [resetAdhocSpecies]
      rw [consistency_of hwf hnom hcl hinv.ok]
      · refine ⟨_, rfl, b1, b2, b3, b4, ?_, ?_, ?_⟩
        · simp [resetAdhocReactions, resetAdhocSpecies]
        · simp [resetAdhocReactions]
        · simp only [resetAdhocReactions]
          rw [hret]
          rw [List.forall₂_map_left_iff, List.forall₂_same]
          exact fun e _ => ⟨rfl, sortKeys_perm e.2⟩
      · exact b1
      · exact b4
      · simp only [resetAdhocReactions]
        rw [hret]
        intro e he p hp
        obtain ⟨e0, he0, rfl⟩ := List.mem_map.1 he
        exact had e0 he0 p ((sortKeys_perm e0.2).mem_iff.1 hp)
    · intro e he p hp
      obtain ⟨e0, he0, rfl⟩ := List.mem_map.1 he
      exact henab e0 he0 p ((sortKeys_perm e0.2).mem_iff.1 hp)

/-- **C22.** Dump the state of a chemistry after any history, then load the file into any state of a
chemistry with the same species and reactions (and the same xml file, if that is checked): the load
succeeds and restores the dumped state, provided the return species of the nominal data exist and no
stored ad-hoc return coefficient names a disabled species. -/
theorem load_dump {net : Net} {st : State} (h : Reachable net st) (hcl : net.RetClosed)
    (henab : ∀ e ∈ st.adRet, ∀ p ∈ e.2, EnabledName net st p.1)
    {path : Option Str} {hash : Str → Option Str} {file : Attrs}
    (hd : net.dump path hash st = .ok file) (cur : State) (checkHash : Bool) :
    ∃ st', net.load path hash cur file checkHash = (st', none) ∧ SameState net st' st :=
  load_dump_sound (.of_reachable h) hcl henab hd cur checkHash

end Verif.Plaschem
