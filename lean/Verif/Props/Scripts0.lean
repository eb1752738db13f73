import Verif.Props.Demo

/-! # Evaluation of a script that builds one fruit

A configuration is the content of the heap as lists; `Conf.step` computes with it and `Conf.run_sound` says that the calls of the model do the same. -/

namespace Fruits
set_option linter.unusedSectionVars false
variable {R P I W S V : Type} [Field R] [LinearOrder R] [FloorRing R]

/-- The objects of a heap with at most one fruit whose slices are all the slices there are. -/
structure Conf (R P I W S : Type) where
  preps : List P := []
  iss : List (I × ℕ) := []
  words : List W := []
  sieves : List S := []
  slices : List (SliceObj R S) := []
  made : Bool := false

/-- Adds an object to the last slice. -/
def Conf.addLast (c : Conf R P I W S) (f : SliceObj R S → SliceObj R S) : Conf R P I W S :=
  { c with slices := c.slices.modify (c.slices.length - 1) f }

/-- The effect of a call on the lists (only the calls that occur in scripts). -/
def Conf.step : Op R P I W S → Conf R P I W S → Option (Conf R P I W S)
  | .newPrep p, c => some { c with preps := c.preps ++ [p] }
  | .newWords ws, c => some { c with words := c.words ++ [ws] }
  | .newIss i a, c => if a < c.words.length then some { c with iss := c.iss ++ [(i, a)] } else none
  | .newSieve v, c => some { c with sieves := c.sieves ++ [v] }
  | .newFruit _, c => if c.made || !c.slices.isEmpty then none else some { c with made := true }
  | .cut 0 none, c => if c.made then some { c with slices := c.slices ++ [{}] } else none
  | .fruitAdd 0 [.prep a], c =>
    if c.made && !c.slices.isEmpty && decide (a < c.preps.length) then some (c.addLast fun o => { o with preps := o.preps ++ [a], fitted := false }) else none
  | .fruitAdd 0 [.iss a], c =>
    if c.made && !c.slices.isEmpty && decide (a < c.iss.length) then some (c.addLast fun o => { o with iss := o.iss ++ [a], fitted := false }) else none
  | .fruitAdd 0 [.sieve a], c =>
    if c.made && !c.slices.isEmpty && decide (a < c.sieves.length) then some (c.addLast fun o => { o with sieves := o.sieves ++ [a], fitted := false }) else none
  | .fruitAdd 0 [.prepClass p], c =>
    if c.made && !c.slices.isEmpty then
      some { c.addLast (fun o => { o with preps := o.preps ++ [c.preps.length], fitted := false }) with preps := c.preps ++ [p] } else none
  | .fruitAdd 0 [.sieveClass v], c =>
    if c.made && !c.slices.isEmpty then
      some { c.addLast (fun o => { o with sieves := o.sieves ++ [c.sieves.length], fitted := false }) with sieves := c.sieves ++ [v] } else none
  | .setSample s k, c => if s < c.slices.length then some { c with slices := c.slices.modify s fun o => { o with sample := k } } else none
  | _, _ => none

/-- A list of calls. -/
def Conf.run : List (Op R P I W S) → Conf R P I W S → Option (Conf R P I W S)
  | [], c => some c
  | o :: os, c => (c.step o).bind (Conf.run os)

/-- The world has these objects. -/
structure Rep (w : World R P I W S) (c : Conf R P I W S) : Prop where
  nPrep : w.nPrep = c.preps.length
  nIss : w.nIss = c.iss.length
  nWords : w.nWords = c.words.length
  nSieve : w.nSieve = c.sieves.length
  nSlice : w.nSlice = c.slices.length
  prep : ∀ i p, c.preps[i]? = some p → w.prep i = p
  iss : ∀ i p, c.iss[i]? = some p → w.iss i = p
  words : ∀ i p, c.words[i]? = some p → w.words i = p
  sieve : ∀ i p, c.sieves[i]? = some p → w.sieve i = p
  slice : ∀ i p, c.slices[i]? = some p → w.slice i = p
  nFruit : w.nFruit = if c.made then 1 else 0
  fruit : c.made = true → (w.fruit 0).slices = List.range c.slices.length ∧ (w.fruit 0).cur = c.slices.length - 1

theorem Rep.empty {w : World R P I W S} (h : w.Empty) : Rep w {} := by
  obtain ⟨e1, e2, e3, e4, e5, e6⟩ := h
  constructor <;> simp [*]

theorem append_one {α : Type} {l : List α} {x : α} {f : ℕ → α} (h : ∀ i p, l[i]? = some p → f i = p) :
    ∀ i p, (l ++ [x])[i]? = some p → Function.update f l.length x i = p := by
  intro i p hi
  rcases Nat.lt_trichotomy i l.length with hlt | rfl | hgt
  · rw [List.getElem?_append_left hlt] at hi
    rw [Function.update_of_ne (by omega)]
    exact h i p hi
  · rw [List.getElem?_append_right (by omega)] at hi
    simpa using hi
  · rw [List.getElem?_eq_none (by simp; omega)] at hi
    cases hi

theorem modify_one {α : Type} {l : List α} {g : α → α} {f : ℕ → α} {k : ℕ} (h : ∀ i p, l[i]? = some p → f i = p) (hk : k < l.length) :
    ∀ i p, (l.modify k g)[i]? = some p → Function.update f k (g (f k)) i = p := by
  intro i p hi
  rw [List.getElem?_modify] at hi
  rcases he : l[i]? with _ | a
  · rw [he] at hi; cases hi
  · rw [he] at hi
    simp only [Option.map_eq_map, Option.map_some, Option.some.injEq] at hi
    by_cases hik : k = i
    · subst hik
      rw [if_pos rfl] at hi
      rw [Function.update_self, h _ _ he, hi]
    · rw [if_neg hik] at hi
      rw [Function.update_of_ne (fun e => hik e.symm), h i a he]
      exact hi

theorem Rep.current {w : World R P I W S} {c : Conf R P I W S} (h : Rep w c) (hm : c.made = true) (hs : c.slices ≠ []) :
    ensureSlice 0 w = w ∧ currentSlice w 0 = .ok (c.slices.length - 1) ∧ c.slices.length - 1 < c.slices.length := by
  have hl := List.length_pos_iff.2 hs
  obtain ⟨e1, e2⟩ := h.fruit hm
  refine ⟨?_, ?_, by omega⟩
  · unfold ensureSlice
    rw [if_neg]
    rw [e1]
    simp [hs]
  · unfold currentSlice
    rw [e1, e2, List.getElem?_range (by omega)]

theorem Rep.addLast {w w' : World R P I W S} {c c' : Conf R P I W S} (h : Rep w c) (hm : c.made = true) (hs : c.slices ≠ []) (f : SliceObj R S → SliceObj R S)
    (e1 : w'.nPrep = c'.preps.length) (e2 : w'.nSieve = c'.sieves.length) (e3 : ∀ i p, c'.preps[i]? = some p → w'.prep i = p)
    (e4 : ∀ i p, c'.sieves[i]? = some p → w'.sieve i = p) (e5 : c'.iss = c.iss ∧ c'.words = c.words ∧ c'.made = c.made ∧
      c'.slices = c.slices.modify (c.slices.length - 1) f)
    (e6 : w'.iss = w.iss ∧ w'.words = w.words ∧ w'.nIss = w.nIss ∧ w'.nWords = w.nWords ∧ w'.nSlice = w.nSlice ∧ w'.nFruit = w.nFruit ∧
      w'.slice = Function.update w.slice (c.slices.length - 1) (f (w.slice (c.slices.length - 1))) ∧ (w'.fruit 0).slices = (w.fruit 0).slices ∧
      (w'.fruit 0).cur = (w.fruit 0).cur) : Rep w' c' := by
  obtain ⟨a1, a2, a3, a4⟩ := e5
  obtain ⟨b1, b2, b3, b4, b5, b6, b7, b8, b9⟩ := e6
  have hl := List.length_pos_iff.2 hs
  constructor
  · exact e1
  · rw [b3, a1, h.nIss]
  · rw [b4, a2, h.nWords]
  · exact e2
  · rw [b5, a4, h.nSlice, List.length_modify]
  · exact e3
  · rw [b1, a1]; exact h.iss
  · rw [b2, a2]; exact h.words
  · exact e4
  · rw [b7, a4]; exact modify_one h.slice (by omega)
  · rw [b6, a3, h.nFruit]
  · rw [b8, b9, a4, List.length_modify]
    exact fun _ => h.fruit hm

/-- The calls of the model do what `Conf.step` computes, and refer to existing objects. -/
theorem Conf.step_sound (K : Sem R P I W S V) (ρ : ℕ → Rng R) {w : World R P I W S} {c c' : Conf R P I W S} (h : Rep w c) (o : Op R P I W S)
    (hc : c.step o = some c') : o.Live w ∧ Rep (Fruits.step K ρ o w).2 c' := by
  unfold Conf.step at hc
  split at hc
  · cases hc
    refine ⟨trivial, ?_⟩
    exact { h with
      nPrep := by simp [Fruits.step, World.newPrep, h.nPrep]
      prep := by
        simp only [Fruits.step, World.newPrep, World.setPrep, h.nPrep]
        exact append_one h.prep }
  · cases hc
    refine ⟨trivial, ?_⟩
    exact { h with
      nWords := by simp [Fruits.step, World.newWords, h.nWords]
      words := by
        simp only [Fruits.step, World.newWords, World.setWords, h.nWords]
        exact append_one h.words }
  · split at hc
    case isFalse => cases hc
    cases hc
    refine ⟨by simpa [Op.Live, h.nWords], ?_⟩
    exact { h with
      nIss := by simp [Fruits.step, World.newIss, h.nIss]
      iss := by
        simp only [Fruits.step, World.newIss, h.nIss]
        exact append_one h.iss }
  · cases hc
    refine ⟨trivial, ?_⟩
    exact { h with
      nSieve := by simp [Fruits.step, World.newSieve, h.nSieve]
      sieve := by
        simp only [Fruits.step, World.newSieve, World.setSieve, h.nSieve]
        exact append_one h.sieve }
  · split at hc
    case isTrue => cases hc
    rename_i hm
    cases hc
    simp only [Bool.or_eq_true, Bool.not_eq_true', not_or, Bool.not_eq_true, Bool.not_eq_false, List.isEmpty_iff] at hm
    have hn : w.nFruit = 0 := by rw [h.nFruit, hm.1]; rfl
    refine ⟨trivial, ?_⟩
    exact { h with
      nFruit := by simp [Fruits.step, World.newFruit, hn]
      fruit := by simp [Fruits.step, World.newFruit, World.setFruit, hn, hm.2] }
  · split at hc
    case isFalse => cases hc
    rename_i hm
    cases hc
    obtain ⟨g1, g2⟩ := h.fruit hm
    refine ⟨by simp [Op.Live, h.nFruit, hm], ?_⟩
    exact { h with
      nSlice := by simp [Fruits.step, fruitCutNew, fruitCut, World.newSlice, World.setSlice, World.setFruit, h.nSlice]
      slice := by
        simp only [Fruits.step, fruitCutNew, fruitCut, World.newSlice, World.setSlice, World.setFruit, h.nSlice]
        exact append_one h.slice
      fruit := by
        intro _
        simp [Fruits.step, fruitCutNew, fruitCut, World.newSlice, World.setSlice, World.setFruit, g1, h.nSlice, List.range_succ] }
  · split at hc
    case isFalse => cases hc
    rename_i hm
    cases hc
    simp only [Bool.and_eq_true, Bool.not_eq_true', decide_eq_true_eq, List.isEmpty_eq_false_iff] at hm
    obtain ⟨⟨hm, hs⟩, ha⟩ := hm
    obtain ⟨g1, g2, g3⟩ := h.current hm hs
    refine ⟨by simp [Op.Live, Arg.Live, h.nFruit, hm, h.nPrep, ha], ?_⟩
    simp only [Fruits.step, fruitAdd, g1, g2, sliceAdd]
    exact h.addLast hm hs _ h.nPrep h.nSieve h.prep h.sieve ⟨rfl, rfl, rfl, rfl⟩
      ⟨rfl, rfl, rfl, rfl, rfl, rfl, rfl, by simp [World.setFruit, sliceAddPrep, World.setSlice], by simp [World.setFruit, sliceAddPrep, World.setSlice]⟩
  · split at hc
    case isFalse => cases hc
    rename_i hm
    cases hc
    simp only [Bool.and_eq_true, Bool.not_eq_true', decide_eq_true_eq, List.isEmpty_eq_false_iff] at hm
    obtain ⟨⟨hm, hs⟩, ha⟩ := hm
    obtain ⟨g1, g2, g3⟩ := h.current hm hs
    refine ⟨by simp [Op.Live, Arg.Live, h.nFruit, hm, h.nIss, ha], ?_⟩
    simp only [Fruits.step, fruitAdd, g1, g2, sliceAdd]
    exact h.addLast hm hs _ h.nPrep h.nSieve h.prep h.sieve ⟨rfl, rfl, rfl, rfl⟩
      ⟨rfl, rfl, rfl, rfl, rfl, rfl, rfl, by simp [World.setFruit, sliceAddIss, World.setSlice], by simp [World.setFruit, sliceAddIss, World.setSlice]⟩
  · split at hc
    case isFalse => cases hc
    rename_i hm
    cases hc
    simp only [Bool.and_eq_true, Bool.not_eq_true', decide_eq_true_eq, List.isEmpty_eq_false_iff] at hm
    obtain ⟨⟨hm, hs⟩, ha⟩ := hm
    obtain ⟨g1, g2, g3⟩ := h.current hm hs
    refine ⟨by simp [Op.Live, Arg.Live, h.nFruit, hm, h.nSieve, ha], ?_⟩
    simp only [Fruits.step, fruitAdd, g1, g2, sliceAdd]
    exact h.addLast hm hs _ h.nPrep h.nSieve h.prep h.sieve ⟨rfl, rfl, rfl, rfl⟩
      ⟨rfl, rfl, rfl, rfl, rfl, rfl, rfl, by simp [World.setFruit, sliceAddSieve, World.setSlice], by simp [World.setFruit, sliceAddSieve, World.setSlice]⟩
  · split at hc
    case isFalse => cases hc
    rename_i hm
    cases hc
    simp only [Bool.and_eq_true, Bool.not_eq_true', List.isEmpty_eq_false_iff] at hm
    obtain ⟨hm, hs⟩ := hm
    obtain ⟨g1, g2, g3⟩ := h.current hm hs
    refine ⟨by simp [Op.Live, Arg.Live, h.nFruit, hm], ?_⟩
    simp only [Fruits.step, fruitAdd, g1, g2, sliceAdd]
    refine h.addLast hm hs (fun o => { o with preps := o.preps ++ [c.preps.length], fitted := false }) ?_ h.nSieve ?_ h.sieve ⟨rfl, rfl, rfl, rfl⟩
      ⟨rfl, rfl, rfl, rfl, rfl, rfl, ?_, by simp [World.setFruit, sliceAddPrep, World.setSlice, World.newPrep, World.setPrep], by simp [World.setFruit, sliceAddPrep, World.setSlice, World.newPrep, World.setPrep]⟩
    · simp [World.setFruit, sliceAddPrep, World.setSlice, World.newPrep, h.nPrep]
    · simp only [World.setFruit, sliceAddPrep, World.setSlice, World.newPrep, World.setPrep, h.nPrep]
      exact append_one h.prep
    · simp only [World.setFruit, sliceAddPrep, World.setSlice, World.newPrep, World.setPrep, h.nPrep]
  · split at hc
    case isFalse => cases hc
    rename_i hm
    cases hc
    simp only [Bool.and_eq_true, Bool.not_eq_true', List.isEmpty_eq_false_iff] at hm
    obtain ⟨hm, hs⟩ := hm
    obtain ⟨g1, g2, g3⟩ := h.current hm hs
    refine ⟨by simp [Op.Live, Arg.Live, h.nFruit, hm], ?_⟩
    simp only [Fruits.step, fruitAdd, g1, g2, sliceAdd]
    refine h.addLast hm hs (fun o => { o with sieves := o.sieves ++ [c.sieves.length], fitted := false }) h.nPrep ?_ h.prep ?_ ⟨rfl, rfl, rfl, rfl⟩
      ⟨rfl, rfl, rfl, rfl, rfl, rfl, ?_, by simp [World.setFruit, sliceAddSieve, World.setSlice, World.newSieve, World.setSieve], by simp [World.setFruit, sliceAddSieve, World.setSlice, World.newSieve, World.setSieve]⟩
    · simp [World.setFruit, sliceAddSieve, World.setSlice, World.newSieve, h.nSieve]
    · simp only [World.setFruit, sliceAddSieve, World.setSlice, World.newSieve, World.setSieve, h.nSieve]
      exact append_one h.sieve
    · simp only [World.setFruit, sliceAddSieve, World.setSlice, World.newSieve, World.setSieve, h.nSieve]
  · split at hc
    case isFalse => cases hc
    rename_i hs
    cases hc
    refine ⟨by simpa [Op.Live, h.nSlice], ?_⟩
    exact { h with
      nSlice := by simp [Fruits.step, sliceSetSample, World.setSlice, h.nSlice]
      slice := by
        simp only [Fruits.step, sliceSetSample, World.setSlice]
        exact modify_one h.slice hs
      fruit := by simpa [Fruits.step, sliceSetSample, World.setSlice] using h.fruit }
  · cases hc

theorem Conf.run_sound (K : Sem R P I W S V) (ρ : ℕ → Rng R) (ops : List (Op R P I W S)) {w : World R P I W S} {c c' : Conf R P I W S} (h : Rep w c)
    (hc : c.run ops = some c') : LiveAll K ρ ops w ∧ Rep (runOps K ρ ops w) c' := by
  induction ops generalizing w c with
  | nil => cases hc; exact ⟨trivial, h⟩
  | cons o os ih =>
    rw [Conf.run, Option.bind_eq_some_iff] at hc
    obtain ⟨c1, h1, h2⟩ := hc
    obtain ⟨g1, g2⟩ := Conf.step_sound K ρ h o h1
    obtain ⟨g3, g4⟩ := ih g2 h2
    exact ⟨⟨g1, g3⟩, g4⟩

end Fruits
