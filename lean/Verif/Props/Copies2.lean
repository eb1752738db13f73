import Verif.Props.Copies
import Verif.Props.Builtin2

/-! # Copies of `ISS` and `CosWISS` objects of a fruit (property C71, continued) -/

namespace Fruits
set_option linter.unusedSectionVars false
variable {R : Type} [Field R] [LinearOrder R] [IsStrictOrderedRing R] [FloorRing R]

/-- What `_transform` of a `CosWISS` looks at. -/
structure CosSame (a b : CosWISS R) : Prop where
  freqs : a.freqs = b.freqs
  exponent : a.exponent = b.exponent
  total : a.total = b.total
  ffnSize : a.ffnSize = b.ffnSize
  dropout : a.dropout = b.dropout
  net : a.ffnSize ≠ none → a.net = b.net
  drops : a.dropout ≠ none → a.drops = b.drops

theorem CosSame.wordResult [NpMath R] {a b : CosWISS R} (h : CosSame a b) (pi : R) (X : Data R) (w : ℕ) (word : SWord R) :
    a.wordResult pi X w word = b.wordResult pi X w word := by
  obtain ⟨f, e, t, fs, dr, n, ds⟩ := a
  obtain ⟨f', e', t', fs', dr', n', ds'⟩ := b
  obtain ⟨h1, h2, h3, h4, h5, h6, h7⟩ := h
  simp only at h1 h2 h3 h4 h5 h6 h7
  subst h1 h2 h3 h4 h5
  rcases fs with _ | fs
  · rcases dr with _ | dr
    · simp only [CosWISS.wordResult]
    · have := h7 (by simp)
      subst this
      simp only [CosWISS.wordResult]
  · have := h6 (by simp)
    subst this
    simp only [CosWISS.wordResult]

theorem CosSame.batchTransform [NpMath R] {a b : CosWISS R} (h : CosSame a b) (pi : R) (words : List (SWord R)) (X : Data R) (k : ℕ) :
    a.batchTransform pi words X k = b.batchTransform pi words X k := by
  have : ∀ (ws : List (SWord R)) (w : ℕ) (rs : List (Data R)), a.batchLoop pi X k ws w rs = b.batchLoop pi X k ws w rs := by
    intro ws
    induction ws with
    | nil => intro w rs; rfl
    | cons v ws ih =>
      intro w rs
      simp only [CosWISS.batchLoop, h.wordResult, ih]
  exact this words 0 []

theorem CosSame.transform [NpMath R] {a b : CosWISS R} (h : CosSame a b) (pi : R) (words : List (SWord R)) (X : Data R) :
    a.transform pi words X = b.transform pi words X := by
  unfold CosWISS.transform CosWISS.nIteratedSums
  rw [h.batchTransform, h.freqs]

/-- **C71** for `CosWISS`: the copy has the same number of iterated sums, the same labels, needs fitting exactly if the original does, and
fitted on the same data with the same random numbers it gives the same values (also if the original had been fitted before copying). -/
theorem C71_coswiss [NpMath R] (pi : R) (c : CosWISS R) (words : List (SWord R)) :
    c.copy.nIteratedSums words = c.nIteratedSums words ∧ (∀ fl i, c.copy.label fl words i = c.label fl words i) ∧
    c.copy.requiresFitting = c.requiresFitting ∧
    (c.requiresFitting = false → ∀ X, c.copy.transform pi words X = c.transform pi words X) ∧
    (∀ (g : Rng R) X, (c.copy.fit g words X).map (fun c' => fun Y => c'.transform pi words Y) =
      (c.fit g words X).map fun c' => fun Y => c'.transform pi words Y) := by
  refine ⟨rfl, fun _ _ => rfl, rfl, fun h X => ?_, fun g X => ?_⟩
  · refine CosSame.transform (a := c.copy) (b := c) ⟨rfl, rfl, rfl, rfl, rfl, fun hn => ?_, fun hn => ?_⟩ pi words X
    · exfalso
      simp only [CosWISS.requiresFitting, Bool.or_eq_false_iff] at h
      exact hn (by simpa [CosWISS.copy] using h.1)
    · exfalso
      simp only [CosWISS.requiresFitting, Bool.or_eq_false_iff] at h
      exact hn (by simpa [CosWISS.copy] using h.2)
  · have key : (∃ e, c.copy.fit g words X = .error e ∧ c.fit g words X = .error e) ∨
        ∃ a b, c.copy.fit g words X = .ok a ∧ c.fit g words X = .ok b ∧ CosSame a b := by
      obtain ⟨f, e, t, fs, dr, n, ds⟩ := c
      rcases dr with _ | dr
      · right
        rcases fs with _ | fs
        · exact ⟨_, _, rfl, rfl, rfl, rfl, rfl, rfl, rfl, fun h => absurd rfl h, fun h => absurd rfl h⟩
        · exact ⟨_, _, rfl, rfl, rfl, rfl, rfl, rfl, rfl, fun _ => rfl, fun h => absurd rfl h⟩
      · rcases hd : cosDrops g words.length f.length ((words.map fun w => w.els.length).foldr max 0) (shape2 X) (pyInt (dr * (shape2 X : R))) with er | D
        · left
          refine ⟨er, ?_, ?_⟩ <;> simp [CosWISS.fit, CosWISS.copy, hd, bind, Except.bind]
        · right
          rcases fs with _ | fs
          · refine ⟨⟨f, e, t, none, some dr, none, some D⟩, ⟨f, e, t, none, some dr, n, some D⟩, by simp only [CosWISS.fit, CosWISS.copy, hd, ok_bind]; rfl, by simp only [CosWISS.fit, hd, ok_bind]; rfl, rfl, rfl, rfl, rfl, rfl,
              fun h => absurd rfl h, fun _ => rfl⟩
          · exact ⟨_, _, by simp only [CosWISS.fit, CosWISS.copy, hd, ok_bind]; rfl, by simp only [CosWISS.fit, hd, ok_bind]; rfl, rfl, rfl, rfl, rfl, rfl,
              fun _ => rfl, fun _ => rfl⟩
    rcases key with ⟨e, h1, h2⟩ | ⟨a, b, h1, h2, h3⟩
    · rw [h1, h2]
    · rw [h1, h2]
      simp only [Except.map]
      congr 1
      funext Y
      exact h3.transform pi words Y

/-- A fitted `CosWISS` with dropout and its copy: the copy is not fitted. -/
example [NpMath ℚ] : (({ freqs := [1 / 2], total := true, dropout := some (1 / 2), drops := some [[[[0]]]] } : CosWISS ℚ).copy).drops = none ∧
    (({ freqs := [1 / 2], total := true, dropout := some (1 / 2), drops := some [[[[0]]]] } : CosWISS ℚ).copy).total = true := ⟨rfl, rfl⟩

end Fruits
