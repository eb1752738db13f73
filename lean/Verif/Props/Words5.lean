import Verif.Props.Words4
import Mathlib.Data.Nat.Choose.Basic
import Mathlib.Algebra.BigOperators.Intervals

/-! # The number of words of a given weight (property C111) -/

namespace Fruits
set_option linter.unusedSectionVars false
variable {R : Type}

/-- There are `C(d + k - 1, k)` multisets of size `k` over `d` letters. -/
theorem length_combsRepl {α : Type} (xs : List α) (k : ℕ) : (combsRepl xs k).length = (xs.length + k - 1).choose k := by
  induction xs generalizing k with
  | nil => cases k <;> simp [combsRepl]
  | cons x xs ihx =>
    induction k with
    | zero => simp [combsRepl]
    | succ k ih =>
      rw [combsRepl, List.length_append, List.length_map, ih, ihx]
      simp only [List.length_cons]
      rw [show xs.length + 1 + (k + 1) - 1 = xs.length + k + 1 by omega, Nat.choose_succ_succ,
        show xs.length + 1 + k - 1 = xs.length + k by omega, show xs.length + (k + 1) - 1 = xs.length + k by omega]

/-- A word of weight `w` is an extended letter of weight `k` followed by a word of weight `w - k`. -/
theorem numWords_perm {permSet : List ℕ → List (List ℕ)} (h : PermOrder permSet) {w : ℕ} (hw : 1 ≤ w) (dim : ℕ) :
    (numWords permSet w dim).Perm
      ((combsRepl (List.range' 1 dim) w).map (fun el => [el]) ++
        (List.range' 1 (w - 1)).flatMap fun k => (combsRepl (List.range' 1 dim) k).flatMap fun el => (numWords permSet (w - k) dim).map (el :: ·)) := by
  have hr := range'_sorted 1 dim
  have hmem : ∀ a, a ∈ List.range' 1 dim ↔ 1 ≤ a ∧ a ≤ dim := by intro a; rw [List.mem_range'_1]; omega
  rw [List.perm_ext_iff_of_nodup (nodup_numWords h hw dim)]
  · intro ns
    rw [mem_numWords h hw, List.mem_append, List.mem_map, List.mem_flatMap]
    constructor
    · rintro ⟨h1, h2⟩
      rcases ns with _ | ⟨el, ns⟩
      · simp at h1; omega
      · obtain ⟨g1, g2, g3⟩ := h2 el (by simp)
        have hlen := List.length_pos_iff.2 g1
        simp only [List.map_cons, List.sum_cons] at h1
        rcases ns with _ | ⟨el', ns⟩
        · left
          simp only [List.map_nil, List.sum_nil] at h1
          exact ⟨el, (mem_combsRepl _ hr _ _).2 ⟨by omega, g2, fun a ha => (hmem a).2 (g3 a ha)⟩, rfl⟩
        · right
          have hpos : 1 ≤ (((el' :: ns)).map List.length).sum := sum_pos_of (by simp) fun e he => (h2 e (List.mem_cons_of_mem _ he)).1
          refine ⟨el.length, List.mem_range'_1.2 ⟨hlen, by omega⟩, ?_⟩
          rw [List.mem_flatMap]
          refine ⟨el, (mem_combsRepl _ hr _ _).2 ⟨rfl, g2, fun a ha => (hmem a).2 (g3 a ha)⟩, ?_⟩
          rw [List.mem_map]
          exact ⟨el' :: ns, (mem_numWords h (by omega) dim _).2 ⟨by omega, fun e he => h2 e (List.mem_cons_of_mem _ he)⟩, rfl⟩
    · rintro (⟨el, hel, rfl⟩ | ⟨k, hk, hx⟩)
      · obtain ⟨g1, g2, g3⟩ := (mem_combsRepl _ hr _ _).1 hel
        refine ⟨by simpa using g1, ?_⟩
        intro e he
        rw [List.mem_singleton] at he
        subst he
        exact ⟨by rintro rfl; simp at g1; omega, g2, fun a ha => (hmem a).1 (g3 a ha)⟩
      · rw [List.mem_range'_1] at hk
        obtain ⟨el, hel, hx⟩ := List.mem_flatMap.1 hx
        obtain ⟨v, hv, rfl⟩ := List.mem_map.1 hx
        obtain ⟨g1, g2, g3⟩ := (mem_combsRepl _ hr _ _).1 hel
        rw [mem_numWords h (by omega)] at hv
        refine ⟨by simp only [List.map_cons, List.sum_cons]; omega, ?_⟩
        intro e he
        rcases List.mem_cons.1 he with rfl | he
        · exact ⟨by rintro rfl; simp at g1; omega, g2, fun a ha => (hmem a).1 (g3 a ha)⟩
        · exact hv.2 e he
  · rw [List.nodup_append']
    refine ⟨(nodup_combsRepl _ hr _).map (fun _ _ e => by simpa using e), ?_, ?_⟩
    · rw [List.nodup_flatMap]
      refine ⟨fun k hk => ?_, ?_⟩
      · rw [List.mem_range'_1] at hk
        rw [List.nodup_flatMap]
        refine ⟨fun el _ => (nodup_numWords h (by omega) dim).map (List.cons_injective), ?_⟩
        refine List.Pairwise.imp ?_ (nodup_combsRepl _ hr k)
        intro a b hab x hx hy
        obtain ⟨u, _, rfl⟩ := List.mem_map.1 hx
        obtain ⟨v, _, e⟩ := List.mem_map.1 hy
        exact hab (List.cons.inj e).1.symm
      · refine List.Pairwise.imp ?_ (range'_sorted 1 (w - 1))
        intro a b hab x hx hy
        obtain ⟨ea, ha, hx⟩ := List.mem_flatMap.1 hx
        obtain ⟨u, _, rfl⟩ := List.mem_map.1 hx
        obtain ⟨eb, hb, hy⟩ := List.mem_flatMap.1 hy
        obtain ⟨v, _, e⟩ := List.mem_map.1 hy
        have h1 := ((mem_combsRepl _ hr _ _).1 ha).1
        have h2 := ((mem_combsRepl _ hr _ _).1 hb).1
        rw [(List.cons.inj e).1] at h2
        omega
    · intro x hx hy
      obtain ⟨el, _, rfl⟩ := List.mem_map.1 hx
      obtain ⟨k, hk, hy⟩ := List.mem_flatMap.1 hy
      rw [List.mem_range'_1] at hk
      obtain ⟨eb, hb, hy⟩ := List.mem_flatMap.1 hy
      obtain ⟨v, hv, e⟩ := List.mem_map.1 hy
      obtain rfl := (List.cons.inj e).2
      rw [mem_numWords h (by omega)] at hv
      have := hv.1
      simp at this; omega

theorem length_numWords {permSet : List ℕ → List (List ℕ)} (h : PermOrder permSet) {w : ℕ} (hw : 1 ≤ w) (dim : ℕ) :
    (numWords permSet w dim).length = (dim + w - 1).choose w +
      ((List.range' 1 (w - 1)).map fun k => (dim + k - 1).choose k * (numWords permSet (w - k) dim).length).sum := by
  rw [(numWords_perm h hw dim).length_eq, List.length_append, List.length_map, length_combsRepl, List.length_range', List.length_flatMap]
  congr 2
  apply List.map_congr_left
  intro k _
  rw [List.length_flatMap]
  have : (combsRepl (List.range' 1 dim) k).map (fun el => ((numWords permSet (w - k) dim).map (el :: ·)).length) =
      (combsRepl (List.range' 1 dim) k).map fun _ => (numWords permSet (w - k) dim).length := by
    apply List.map_congr_left
    intro el _
    rw [List.length_map]
  rw [this, List.map_const', List.sum_replicate, length_combsRepl, List.length_range', smul_eq_mul]

/-- **C111.** `of_weight(w, dim)` never fails and has as many words as the weight `w` can be split into a first extended letter of weight `k`
(a multiset of `k` of the `dim` letters, `C(dim + k - 1, k)` of them) and either nothing or a word of weight `w - k`. -/
theorem C111_number_of_words (order : List ℤ → List ℤ) (ho : SetOrder order) (permSet : List ℕ → List (List ℕ)) (hp : PermOrder permSet) (dim : ℕ) :
    ∃ a : ℕ → ℕ, (∀ w, 1 ≤ w → ∃ l : List (SWord R), ofWeight R order permSet w dim = .ok l ∧ l.length = a w) ∧
      ∀ w, 1 ≤ w → a w = (dim + w - 1).choose w + ((List.range' 1 (w - 1)).map fun k => (dim + k - 1).choose k * a (w - k)).sum :=
  ⟨fun w => (numWords permSet w dim).length, fun w hw => ⟨_, ofWeight_eq ho hp hw dim, by rw [List.length_map]⟩, fun _ hw => length_numWords hp hw dim⟩

/-- Two dimensions: 2, 7, 24, 82, 280, 956 words of weight 1 to 6 (every permutation order). -/
theorem C111_two_dimensions (order : List ℤ → List ℤ) (ho : SetOrder order) (permSet : List ℕ → List (List ℕ)) (hp : PermOrder permSet)
    {w : ℕ} (h1 : 1 ≤ w) (h6 : w ≤ 6) {l : List (SWord R)} (hl : ofWeight R order permSet w 2 = .ok l) :
    l.length = [1, 2, 7, 24, 82, 280, 956].getD w 0 := by
  rw [ofWeight_eq ho hp h1 2] at hl
  cases hl
  rw [List.length_map]
  have e1 := length_numWords hp (w := 1) (by omega) 2
  have e2 := length_numWords hp (w := 2) (by omega) 2
  have e3 := length_numWords hp (w := 3) (by omega) 2
  have e4 := length_numWords hp (w := 4) (by omega) 2
  have e5 := length_numWords hp (w := 5) (by omega) 2
  have e6 := length_numWords hp (w := 6) (by omega) 2
  simp [List.range'_succ, Nat.choose] at e1 e2 e3 e4 e5 e6
  simp only [e1] at e2 e3 e4 e5 e6
  simp only [e2] at e3 e4 e5 e6
  simp only [e3] at e4 e5 e6
  simp only [e4] at e5 e6
  simp only [e5] at e6
  interval_cases w <;> simp [*]

theorem choose_two (k : ℕ) : (2 + k - 1).choose k = k + 1 := by
  rw [show 2 + k - 1 = k + 1 by omega, Nat.choose_succ_self_right]

theorem sum_map_range' (f : ℕ → ℕ) (n : ℕ) : ((List.range' 1 n).map f).sum = ∑ i ∈ Finset.range n, f (i + 1) := by
  induction n with
  | zero => simp
  | succ n ih => rw [List.range'_concat, List.map_append, List.sum_append, ih, Finset.sum_range_succ]; simp [Nat.add_comm]

/-- In two dimensions the number of words of weight `w + 2` is four times that of weight `w + 1` minus twice that of weight `w`. -/
theorem C111_two_dimensions_recurrence (order : List ℤ → List ℤ) (ho : SetOrder order) (permSet : List ℕ → List (List ℕ)) (hp : PermOrder permSet)
    {w : ℕ} (hw : 1 ≤ w) {l l' l'' : List (SWord R)} (h : ofWeight R order permSet w 2 = .ok l) (h' : ofWeight R order permSet (w + 1) 2 = .ok l')
    (h'' : ofWeight R order permSet (w + 2) 2 = .ok l'') : (l''.length : ℤ) = 4 * l'.length - 2 * l.length := by
  rw [ofWeight_eq ho hp (by omega) 2] at h h' h''
  cases h
  cases h'
  cases h''
  simp only [List.length_map]
  generalize ha : (fun w => (numWords permSet w 2).length) = a
  have e : ∀ n, a (n + 1) = (n + 2) + ∑ j ∈ Finset.range n, (n + 1 - j) * a (j + 1) := by
    intro n
    rw [← ha]
    simp only
    rw [length_numWords hp (by omega) 2, sum_map_range', choose_two, ← Finset.sum_range_reflect]
    congr 1
    rw [show n + 1 - 1 = n by omega]
    apply Finset.sum_congr rfl
    intro j hj
    rw [Finset.mem_range] at hj
    rw [choose_two, show n - 1 - j + 1 + 1 = n + 1 - j by omega, show n + 1 - (n - 1 - j + 1) = j + 1 by omega]
  have d : ∀ n, a (n + 2) = a (n + 1) + 1 + 2 * a (n + 1) + ∑ j ∈ Finset.range n, a (j + 1) := by
    intro n
    rw [e (n + 1), Finset.sum_range_succ, show n + 1 + 1 - n = 2 by omega]
    have : ∑ j ∈ Finset.range n, (n + 1 + 1 - j) * a (j + 1) = ∑ j ∈ Finset.range n, (n + 1 - j) * a (j + 1) + ∑ j ∈ Finset.range n, a (j + 1) := by
      rw [← Finset.sum_add_distrib]
      apply Finset.sum_congr rfl
      intro j hj
      rw [Finset.mem_range] at hj
      rw [show n + 1 + 1 - j = (n + 1 - j) + 1 by omega, Nat.add_mul, one_mul]
    have := e n
    omega
  obtain ⟨n, rfl⟩ : ∃ n, w = n + 1 := ⟨w - 1, by omega⟩
  have d1 := d n
  have d2 := d (n + 1)
  rw [Finset.sum_range_succ] at d2
  have g : ∀ w, (numWords permSet w 2).length = a w := fun w => congrFun ha w
  rw [g, g, g]
  simp only [show n + 1 + 1 = n + 2 by omega, show n + 1 + 2 = n + 3 by omega] at *
  omega

/-- Non-vacuity: both orders that Python may choose are admissible. -/
example : ∃ l : List (SWord ℚ), ofWeight ℚ List.dedup (fun p => p.permutations.dedup) 3 2 = .ok l ∧ l.length = 24 := by
  obtain ⟨l, h⟩ : ∃ l, ofWeight ℚ List.dedup (fun p => p.permutations.dedup) 3 2 = .ok l := ⟨_, ofWeight_eq dedup_order permOrder_dedup (by omega) 2⟩
  exact ⟨l, h, C111_two_dimensions _ dedup_order _ permOrder_dedup (by omega) (by omega) h⟩

end Fruits
