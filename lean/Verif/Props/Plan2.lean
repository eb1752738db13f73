import Verif.Props.Plan

/-! # Which word an iterated sum of EXTENDED mode belongs to (property C18) -/

namespace Fruits
set_option linter.unusedSectionVars false

theorem getWordIndex_spec {α : Type} (ds : List ℕ) (F : ℕ → List α) (hF : ∀ i < ds.length, (F i).length = ds.getD i 0) (n k : ℕ) :
    (∃ v < ds.length, getWordIndex ds n k = .ok (k + v) ∧ ∃ x ∈ F v, ((List.range ds.length).flatMap F)[n]? = some x) ∨
      (getWordIndex ds n k = .error .indexError ∧ ((List.range ds.length).flatMap F)[n]? = none) := by
  induction ds generalizing F n k with
  | nil => right; exact ⟨rfl, by simp⟩
  | cons d ds ih =>
    have h0 : (F 0).length = d := by simpa using hF 0 (by simp)
    rw [getWordIndex, List.length_cons, List.range_succ_eq_map, List.flatMap_cons, List.flatMap_map]
    by_cases hn : n < d
    · left
      refine ⟨0, by omega, ?_, (F 0)[n], List.getElem_mem _, ?_⟩
      · rw [if_pos (by omega)]; simp
      · rw [List.getElem?_append_left (by omega), List.getElem?_eq_getElem]
    · rw [if_neg (by omega), List.getElem?_append_right (by omega), h0, show ((n : ℤ) - d) = ((n - d : ℕ) : ℤ) by omega]
      rcases ih (fun i => F (i + 1)) (fun i hi => by simpa using hF (i + 1) (by simpa using hi)) (n - d) (k + 1) with ⟨v, h1, h2, h3⟩ | h
      · left
        exact ⟨v + 1, by omega, by rw [h2]; congr 1; omega, h3⟩
      · right; exact h

variable {R : Type} [Field R] [LinearOrder R] [IsStrictOrderedRing R] [FloorRing R]

/-- **C18**, the word an iterated sum is computed from: `get_word_index(i)` of the cache plan is the first of the words that begin with the `i`-th label, and
raises exactly if there is no `i`-th label. -/
theorem C18_word_index (c : ISSConf R) (hm : c.mode = .extended) (hw : ∀ w ∈ c.words, ∃ bs, HasBlocks w bs) (i : ℕ) :
    (∃ v, getWordIndex c.plan i 0 = .ok v ∧ ∃ h : v < c.words.length, ∃ bs q, HasBlocks c.words[v] bs ∧ 1 ≤ q ∧ q ≤ bs.length ∧
      c.label i = .ok (render (bs.take q) ++ c.suffix) ∧
      ∀ u, (hu : u < v) → ∀ bs', HasBlocks (c.words[u]'(hu.trans h)) bs' → ¬ bs.take q <+: bs') ∨
    (getWordIndex c.plan i 0 = .error .indexError ∧ c.label i = .error .indexError) := by
  obtain ⟨W, h1, h2, h3, h4⟩ := strs_eq hw
  have hplan : c.plan = cachePlan (W.map render) := by simp only [ISSConf.plan, hm, h3]
  have hlen : (cachePlan (W.map render)).length = W.length := by simp [cachePlan]
  rw [ext_labels hm h2 h3 i, hplan]
  have key := getWordIndex_spec (cachePlan (W.map render)) (newOnes W) (by
    intro k hk
    rw [hlen] at hk
    simp [newOnes, tab_length, cachePlan, List.getD_eq_getElem?_getD, hk]) i 0
  rw [hlen] at key
  change (∃ v < W.length, _ ∧ ∃ x ∈ _, (reported W)[i]? = _) ∨ (_ ∧ (reported W)[i]? = _) at key
  rcases key with ⟨v, g1, g2, x, g3, g4⟩ | ⟨g1, g2⟩
  · left
    rw [Nat.zero_add] at g2
    obtain ⟨hne, hp, hold⟩ := (mem_newOnes h2 v x).1 g3
    refine ⟨v, g2, by omega, W.getD v [], x.length, h4 v (by omega), List.length_pos_iff.2 hne, hp.length_le, ?_, ?_⟩
    · rw [g4, ← List.prefix_iff_eq_take.1 hp]
    · rw [← List.prefix_iff_eq_take.1 hp]
      intro u hu bs' hb hpre
      rw [(h4 u (by omega)).unique hb |>.symm] at hpre
      exact hold ⟨u, hu, hpre⟩
  · right
    rw [g2]
    exact ⟨g1, rfl⟩

/-- `[1][12]`, `[1][2]`: the sums `[1]`, `[1][12]` belong to the first word, `[1][2]` to the second, and there is no fourth. -/
example : (List.range 4).map (fun i => (getWordIndex (cachePlan ["[1][12]".toList, "[1][2]".toList]) i 0).toOption) = [some 0, some 0, some 1, none] := by
  decide +kernel

/-- **C18** (depths): `unique_el_depth(v)` counts the prefixes of word `v` that no earlier word begins with; these are the longest ones.  There is no
depth for an index beyond the words. -/
theorem C18_unique_depth (c : ISSConf R) (hm : c.mode = .extended) (hw : ∀ w ∈ c.words, ∃ bs, HasBlocks w bs) :
    (∀ (v : ℕ) (h : v < c.words.length), ∃ d bs, uniqueElDepth c.plan v = .ok d ∧ HasBlocks c.words[v] bs ∧ d ≤ bs.length ∧
      ∀ q, 1 ≤ q → q ≤ bs.length → (bs.length - d < q ↔ ∀ u, (hu : u < v) → ∀ bs', HasBlocks (c.words[u]'(hu.trans h)) bs' → ¬ bs.take q <+: bs')) ∧
    ∀ v : ℕ, c.words.length ≤ v → uniqueElDepth c.plan v = .error .indexError := by
  obtain ⟨W, h1, h2, h3, h4⟩ := strs_eq hw
  have hplan : c.plan = cachePlan (W.map render) := by simp only [ISSConf.plan, hm, h3]
  rw [hplan]
  constructor
  · intro v h
    obtain ⟨m, ⟨ho1, ho2, ho3⟩, hd⟩ := planDepth_spec h2 v
    refine ⟨planDepth (W.map render) v, W.getD v [], ?_, h4 v h, by omega, fun q hq1 hq2 => ?_⟩
    · simp [uniqueElDepth, cachePlan, h1, h]
    · constructor
      · intro hlt u hu bs' hb hpre
        rw [(h4 u (by omega)).unique hb |>.symm] at hpre
        exact ho3 q (by omega) hq2 ⟨u, hu, hpre⟩
      · intro hall
        by_contra hle
        have hqm : q ≤ m := by omega
        rcases ho2 with h0 | ⟨u, hu, hpre⟩
        · omega
        · exact hall u hu _ (h4 u (by omega)) ((List.take_prefix_take_left hqm).trans hpre)
  · intro v h
    simp [uniqueElDepth, cachePlan, h1, h]

/-- `[1][12]`, `[1][2]`, `[1]`: two new prefixes, one, none. -/
example : (List.range 4).map (fun i => (uniqueElDepth (cachePlan ["[1][12]".toList, "[1][2]".toList, "[1]".toList]) i).toOption) =
    [some 2, some 1, some 0, none] := by decide +kernel

end Fruits
