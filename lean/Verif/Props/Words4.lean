import Verif.Props.Words2
import Verif.Props.Plan

/-! # EXTENDED mode over `of_weight` (property C107) -/

namespace Fruits
set_option linter.unusedSectionVars false
variable {R : Type}

/-- The blocks of a word of numbers. -/
def numBlocks (ns : List (List ℕ)) : List PStr := (numToks ns).map (·.flatMap Tok.str)

theorem numBlocks_ok (ns : List (List ℕ)) : BlocksOK (numBlocks ns) := blocksOK_toks _

theorem numBlocks_inj {a b : List (List ℕ)} (h : numBlocks a = numBlocks b) : a = b := by
  unfold numBlocks numToks at h
  rw [List.map_map, List.map_map] at h
  have hi : Function.Injective ((fun ts : List Tok => ts.flatMap Tok.str) ∘ fun el : List ℕ => el.map numTok) := by
    intro x y hxy
    simp only [Function.comp_apply] at hxy
    have h1 := scan_toks (x.map numTok)
    rw [hxy, scan_toks (y.map numTok)] at h1
    simp only [Except.ok.injEq, List.map_map] at h1
    have hv : (Tok.value ∘ numTok) = fun n : ℕ => (n : ℤ) := by
      funext n; simp [(numTok_spec n).2]
    rw [hv] at h1
    exact (List.map_injective_iff.2 (fun _ _ e => by simpa using e) h1).symm
  exact List.map_injective_iff.2 hi h

theorem wordStr_numToks (ns : List (List ℕ)) : wordStr (numToks ns) = render (numBlocks ns) := rfl

/-- A word of positive weight at most `w` over the dimensions `1..dim`. -/
def NumWord (w dim : ℕ) (ns : List (List ℕ)) : Prop :=
  ns ≠ [] ∧ (ns.map List.length).sum ≤ w ∧ ∀ el ∈ ns, el ≠ [] ∧ el.Pairwise (· ≤ ·) ∧ ∀ a ∈ el, 1 ≤ a ∧ a ≤ dim

theorem sum_pos_of {ns : List (List ℕ)} (h : ns ≠ []) (h2 : ∀ el ∈ ns, el ≠ []) : 1 ≤ (ns.map List.length).sum := by
  rcases ns with _ | ⟨a, l⟩
  · exact absurd rfl h
  · have := List.length_pos_iff.2 (h2 a (by simp))
    simp only [List.map_cons, List.sum_cons]; omega

/-- The words of weight at most `w` are the non-empty beginnings of the words of weight `w`. -/
theorem numWord_iff_prefix {permSet : List ℕ → List (List ℕ)} (h : PermOrder permSet) {w : ℕ} (hw : 1 ≤ w) {dim : ℕ} (hd : 1 ≤ dim)
    (ns : List (List ℕ)) : NumWord w dim ns ↔ ns ≠ [] ∧ ∃ v ∈ numWords permSet w dim, ns <+: v := by
  constructor
  · rintro ⟨h1, h2, h3⟩
    refine ⟨h1, ?_⟩
    rcases Nat.lt_or_eq_of_le h2 with hlt | he
    · refine ⟨ns ++ [List.replicate (w - (ns.map List.length).sum) 1], ?_, List.prefix_append _ _⟩
      rw [mem_numWords h hw]
      refine ⟨by simp only [List.map_append, List.map_cons, List.map_nil, List.sum_append, List.length_replicate, List.sum_cons, List.sum_nil]; omega, ?_⟩
      intro el hel
      rcases List.mem_append.1 hel with hel | hel
      · exact h3 el hel
      · rw [List.mem_singleton] at hel
        subst hel
        refine ⟨fun h0 => ?_, List.pairwise_replicate.2 (Or.inr (le_refl 1)), fun a ha => ?_⟩
        · have := congrArg List.length h0
          simp only [List.length_replicate, List.length_nil] at this
          omega
        · rw [(List.mem_replicate.1 ha).2]; omega
    · exact ⟨ns, (mem_numWords h hw dim ns).2 ⟨he, h3⟩, List.prefix_rfl⟩
  · rintro ⟨h1, v, hv, t, rfl⟩
    rw [mem_numWords h hw] at hv
    refine ⟨h1, ?_, fun el hel => hv.2 el (List.mem_append_left _ hel)⟩
    have := hv.1
    rw [List.map_append, List.sum_append] at this
    omega

/-- All words of weight `1..w` as enumerated by `of_weight(1), of_weight(2), …`. -/
def numWordsUpTo (permSet : List ℕ → List (List ℕ)) (w dim : ℕ) : List (List (List ℕ)) :=
  (List.range' 1 w).flatMap fun k => numWords permSet k dim

theorem mem_numWordsUpTo {permSet : List ℕ → List (List ℕ)} (h : PermOrder permSet) (w dim : ℕ) (ns : List (List ℕ)) :
    ns ∈ numWordsUpTo permSet w dim ↔ NumWord w dim ns := by
  unfold numWordsUpTo NumWord
  rw [List.mem_flatMap]
  constructor
  · rintro ⟨k, hk, hns⟩
    rw [List.mem_range'_1] at hk
    rw [mem_numWords h (by omega)] at hns
    refine ⟨?_, by omega, hns.2⟩
    rintro rfl
    simp at hns; omega
  · rintro ⟨h1, h2, h3⟩
    have := sum_pos_of h1 fun el hel => (h3 el hel).1
    exact ⟨_, List.mem_range'_1.2 ⟨this, by omega⟩, (mem_numWords h this dim ns).2 ⟨rfl, h3⟩⟩

theorem nodup_numWordsUpTo {permSet : List ℕ → List (List ℕ)} (h : PermOrder permSet) (w dim : ℕ) :
    (numWordsUpTo permSet w dim).Nodup := by
  unfold numWordsUpTo
  rw [List.nodup_flatMap]
  refine ⟨fun k hk => nodup_numWords h (by rw [List.mem_range'_1] at hk; omega) dim, ?_⟩
  refine List.Pairwise.imp_of_mem ?_ (range'_sorted 1 w)
  intro a b ha hb hab ns h1 h2
  rw [List.mem_range'_1] at ha hb
  rw [mem_numWords h (by omega)] at h1 h2
  omega

theorem ofWeight_blocks {order : List ℤ → List ℤ} (ho : SetOrder order) {permSet : List ℕ → List (List ℕ)} (hp : PermOrder permSet) {w : ℕ}
    (hw : 1 ≤ w) (dim : ℕ) {l : List (SWord R)} (hl : ofWeight R order permSet w dim = .ok l) :
    (∀ u ∈ l, ∃ ns ∈ numWords permSet w dim, HasBlocks (.simple u) (numBlocks ns)) ∧
    ∀ ns ∈ numWords permSet w dim, ∃ u ∈ l, HasBlocks (.simple u) (numBlocks ns) := by
  rw [ofWeight_eq ho hp hw dim] at hl
  cases hl
  have key : ∀ ns : List (List ℕ), HasBlocks (.simple (⟨storedEls (maxLetter (ns.map (·.map fun n : ℕ => (n : ℤ)))) (ns.map (·.map fun n : ℕ => (n : ℤ))),
      maxLetter (ns.map (·.map fun n : ℕ => (n : ℤ))), wordStr (numToks ns), none⟩ : SWord R)) (numBlocks ns) := by
    intro ns
    refine ⟨numBlocks_ok ns, rfl, ?_⟩
    simp [numBlocks, numToks, IWord.len, storedEls]
  constructor
  · intro u hu
    obtain ⟨ns, hns, rfl⟩ := List.mem_map.1 hu
    exact ⟨ns, hns, key ns⟩
  · intro ns hns
    exact ⟨_, List.mem_map.2 ⟨ns, hns, rfl⟩, key ns⟩

variable [Field R] [LinearOrder R] [IsStrictOrderedRing R] [FloorRing R]

/-- **C107.** An ISS over `of_weight(w, dim)` in EXTENDED mode reports every word of weight `1, …, w` over the dimensions `1..dim` exactly
once: its labels are, without repetition, the strings of the words in `of_weight(1, dim), …, of_weight(w, dim)`. -/
theorem C107_extended_of_weight (order : List ℤ → List ℤ) (ho : SetOrder order) (permSet : List ℕ → List (List ℕ)) (hp : PermOrder permSet)
    (w : ℕ) (hw : 1 ≤ w) (dim : ℕ) (hd : 1 ≤ dim) (l : List (SWord R)) (hl : ofWeight R order permSet w dim = .ok l) (c : ISSConf R)
    (hc : c.words = l.map .simple) (hm : c.mode = .extended) :
    ∃ L : List PStr, L.Nodup ∧
      (∀ s, s ∈ L ↔ ∃ k, 1 ≤ k ∧ k ≤ w ∧ ∃ lk : List (SWord R), ofWeight R order permSet k dim = .ok lk ∧ ∃ u ∈ lk, (IWord.simple u).str = s) ∧
      (∀ i (h : i < L.length), c.label i = .ok (L[i] ++ c.suffix)) ∧
      (∀ i, L.length ≤ i → c.label i = .error .indexError) ∧
      (c.semiring ≠ .arcticArgmax → c.nIteratedSums = .ok L.length) ∧
      L.length = ((List.range' 1 w).map fun k => match ofWeight R order permSet k dim with | .ok lk => lk.length | .error _ => 0).sum := by
  obtain ⟨hb1, hb2⟩ := ofWeight_blocks ho hp hw dim hl
  have hw' : ∀ v ∈ c.words, ∃ bs, HasBlocks v bs := by
    intro v hv
    rw [hc] at hv
    obtain ⟨u, hu, rfl⟩ := List.mem_map.1 hv
    obtain ⟨ns, _, h⟩ := hb1 u hu
    exact ⟨_, h⟩
  obtain ⟨L, h1, h2, h3, h4, h5⟩ := C18_labels_are_prefixes c hm hw'
  have hmem : ∀ s, s ∈ L ↔ ∃ ns ∈ numWordsUpTo permSet w dim, render (numBlocks ns) = s := by
    intro s
    rw [h2]
    constructor
    · rintro ⟨v, hv, bs, hbs, q, hq1, hq2, rfl⟩
      rw [hc] at hv
      obtain ⟨u, hu, rfl⟩ := List.mem_map.1 hv
      obtain ⟨ns, hns, h⟩ := hb1 u hu
      have := hbs.unique h
      subst this
      refine ⟨ns.take q, ?_, ?_⟩
      · rw [mem_numWordsUpTo hp, numWord_iff_prefix hp hw hd]
        refine ⟨?_, ns, hns, List.take_prefix _ _⟩
        intro h0
        have := congrArg List.length h0
        simp only [List.length_take, List.length_nil] at this
        simp only [numBlocks, numToks, List.length_map] at hq2
        omega
      · simp [numBlocks, numToks, List.map_take]
    · rintro ⟨ns, hns, rfl⟩
      rw [mem_numWordsUpTo hp, numWord_iff_prefix hp hw hd] at hns
      obtain ⟨hne, v, hv, t, rfl⟩ := hns
      obtain ⟨u, hu, h⟩ := hb2 _ hv
      refine ⟨.simple u, by rw [hc]; exact List.mem_map.2 ⟨u, hu, rfl⟩, _, h, ns.length, List.length_pos_iff.2 hne, ?_, ?_⟩
      · simp [numBlocks, numToks]
      · simp [numBlocks, numToks]
  refine ⟨L, h1, ?_, h3, h4, h5, ?_⟩
  · intro s
    rw [hmem]
    constructor
    · rintro ⟨ns, hns, rfl⟩
      obtain ⟨k, hk, hns⟩ := List.mem_flatMap.1 hns
      rw [List.mem_range'_1] at hk
      have hk1 : 1 ≤ k := hk.1
      refine ⟨k, hk1, by omega, _, ofWeight_eq ho hp hk1 dim, ?_⟩
      obtain ⟨u, hu, h⟩ := (ofWeight_blocks ho hp hk1 dim (ofWeight_eq (R := R) ho hp hk1 dim)).2 ns hns
      exact ⟨u, hu, h.2.1⟩
    · rintro ⟨k, hk1, hk2, lk, hlk, u, hu, rfl⟩
      obtain ⟨ns, hns, h⟩ := (ofWeight_blocks ho hp hk1 dim hlk).1 u hu
      exact ⟨ns, List.mem_flatMap.2 ⟨k, List.mem_range'_1.2 ⟨hk1, by omega⟩, hns⟩, h.2.1.symm⟩
  · have hperm : L.Perm ((numWordsUpTo permSet w dim).map fun ns => render (numBlocks ns)) := by
      rw [List.perm_ext_iff_of_nodup h1]
      · intro s
        rw [hmem, List.mem_map]
      · exact (nodup_numWordsUpTo hp w dim).map fun a b hab => numBlocks_inj (render_injective (numBlocks_ok a) (numBlocks_ok b) hab)
    rw [hperm.length_eq, List.length_map, numWordsUpTo, List.length_flatMap]
    congr 1
    apply List.map_congr_left
    intro k hk
    rw [List.mem_range'_1] at hk
    rw [ofWeight_eq ho hp hk.1 dim]
    simp

/-- In dimension one there are `2^w - 1` iterated sums. -/
theorem C107_one_dimension (order : List ℤ → List ℤ) (ho : SetOrder order) (permSet : List ℕ → List (List ℕ)) (hp : PermOrder permSet)
    (w : ℕ) (hw : 1 ≤ w) (l : List (SWord R)) (hl : ofWeight R order permSet w 1 = .ok l) (c : ISSConf R)
    (hc : c.words = l.map .simple) (hm : c.mode = .extended) (hs : c.semiring ≠ .arcticArgmax) : c.nIteratedSums = .ok (2 ^ w - 1) := by
  obtain ⟨L, _, _, _, _, h5, h6⟩ := C107_extended_of_weight order ho permSet hp w hw 1 (le_refl 1) l hl c hc hm
  rw [h5 hs, h6]
  clear h5 h6
  congr 1
  have : ((List.range' 1 w).map fun k => match ofWeight R order permSet k 1 with | .ok lk => lk.length | .error _ => 0) =
      (List.range' 1 w).map fun k => 2 ^ (k - 1) := by
    apply List.map_congr_left
    intro k hk
    rw [List.mem_range'_1] at hk
    obtain ⟨lk, e1, e2⟩ := C27_count (R := R) order ho permSet hp k hk.1
    rw [e1]
    exact e2
  rw [this]
  clear * -
  induction w with
  | zero => rfl
  | succ w ih =>
    rw [List.range'_concat, List.map_append, List.sum_append, ih]
    have : 1 ≤ 2 ^ w := Nat.one_le_two_pow
    simp only [List.map_cons, List.map_nil, List.sum_cons, List.sum_nil, Nat.one_mul, Nat.add_sub_cancel_left, pow_succ]
    omega

/-- The hypotheses hold: `of_weight(3, 2)` with the iteration orders of `List.dedup`; 33 words of weight at most three. -/
example : ∃ l : List (SWord ℚ), ofWeight ℚ List.dedup (fun p => p.permutations.dedup) 3 2 = .ok l := by
  obtain ⟨l, h, _⟩ := C26_of_weight (R := ℚ) List.dedup (fun _ => .refl _) _ permOrder_dedup 3 (by omega) 2
  exact ⟨l, h⟩

end Fruits
