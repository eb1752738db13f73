import Verif.Props.Scripts2

/-! # `experiments/fruit_general.py` and `experiments/fruit_reduced.py` (property C112) -/

namespace Fruits
set_option linter.unusedSectionVars false
variable {R : Type} [Field R] [LinearOrder R] [IsStrictOrderedRing R] [FloorRing R] [NpMath R]

theorem exp_total (L : Lib R) (hT : L.T.Lawful) {ρ : ℕ → Rng R} (hρ : ∀ k, (ρ k).Valid)
    (w0 : World R (SafePrep R) (BIss R) (List (IWord R)) (SafeSieve R)) (h0 : w0.Empty)
    {order : List ℤ → List ℤ} (ho : SetOrder order) {permSet : List ℕ → List (List ℕ)} (hp : PermOrder permSet) (name : PStr) {k n : ℕ} (hk : 1 ≤ k) (hk6 : k ≤ 6)
    (hn : 1 ≤ n) {l cs : List (SWord R)} (hl : ofWeight R order permSet k 2 = .ok l) (hne : cs ≠ [])
    (hcs : ∀ u ∈ cs, ∃ j, 1 ≤ j ∧ ∃ lj, ofWeight R order permSet j 2 = .ok lj ∧ u ∈ lj)
    {Xtrain : Data R} {m₀ d n₀ : ℕ} (hX₀ : HasShape Xtrain m₀ d n₀) (hm₀ : 0 < m₀) (hd : 0 < d) (hn₀ : 0 < n₀) :
    fruitN (builtin L) (runOps (builtin L) ρ (expScript name (l.map .simple) ((altWords R n).map .simple) (cs.map .simple)) w0) 0 =
        .ok (7 * (([0, 2, 9, 33, 115, 395, 1351].getD k 0 : ℕ) + (8 * n - 4 : ℕ) + 2 * (5 * cs.length))) ∧
      ∃ w, fruitFit (builtin L) ρ 0 Xtrain Xtrain
          (runOps (builtin L) ρ (expScript name (l.map .simple) ((altWords R n).map .simple) (cs.map .simple)) w0) = (.ok (), w) ∧
        ∀ (c : ℕ) (X : Data R) (m n' : ℕ), HasShape X m d n' → 0 < m → 0 < n' →
          ∃ A, (fruitTransform (builtin L) w c 0 X X).1 = .ok A ∧
            HasShape2 A m (7 * ([0, 2, 9, 33, 115, 395, 1351].getD k 0 + (8 * n - 4) + 2 * (5 * cs.length))) := by
  obtain ⟨hlive, hrep⟩ := Conf.run_sound (builtin L) ρ _ (Rep.empty h0) (expScript_conf name (l.map .simple) ((altWords R n).map .simple) (cs.map .simple))
  have hhist := Hist.run _ hlive
  have hcs' : ∀ u ∈ cs, u.els ≠ [] ∧ ∀ el ∈ u.els, PositiveLetter 2 el := by
    intro u hu
    obtain ⟨j, hj, lj, h1, h2⟩ := hcs u hu
    exact ofWeight_letters ho hp hj h1 (le_refl 2) u h2
  have hcount : BIss.count (genReals : BIss R) (l.map .simple) = .ok ([0, 2, 9, 33, 115, 395, 1351].getD k 0) := by
    obtain ⟨M, _, _, _, _, h5, h6⟩ := C107_extended_of_weight order ho permSet hp k hk 2 (by omega) l hl ⟨l.map .simple, .extended, .reals, none⟩ rfl rfl
    have h5 := h5 (by simp)
    show (ISSConf.mk (l.map .simple) .extended .reals none : ISSConf R).nIteratedSums = _
    rw [h5]
    congr 1
    rw [h6]
    refine (congrArg List.sum (List.map_congr_left (g := fun k => [1, 2, 7, 24, 82, 280, 956].getD k 0) fun j hj => ?_)).trans ?_
    · rw [List.mem_range'_1] at hj
      obtain ⟨lj, hlj⟩ : ∃ lj, ofWeight R order permSet j 2 = .ok lj := ⟨_, ofWeight_eq ho hp hj.1 2⟩
      simp only [hlj]
      exact C111_two_dimensions order ho permSet hp hj.1 (by omega) hlj
    interval_cases k <;> rfl
  have hN := exp_nfeatures L hrep hcount (altWords_count hn .arctic (by decide) none)
  rw [List.length_map] at hN
  refine ⟨hN, ?_⟩
  obtain ⟨w, h1, h2⟩ := C109_columns L hT hρ hhist h0 (by rw [hrep.nFruit]; exact one_pos) hd (exp_sliceFor ho hp hk hl hne hcs' hrep hd) hX₀ hm₀ hn₀ (Nat.zero_le _)
  refine ⟨w, h1, fun c X m n' hX hm hn' => ?_⟩
  obtain ⟨q, e3, A, e4, e5⟩ := h2 c X m n' hX hm hn' (Nat.zero_le _)
  refine ⟨A, e4, ?_⟩
  rw [hN] at e3
  have e3 := Except.ok.inj e3
  have : 7 * ([0, 2, 9, 33, 115, 395, 1351].getD k 0 + (8 * n - 4) + 2 * (5 * cs.length)) = q := by exact_mod_cast e3
  rw [this]
  exact e5

/-- **C112**, `experiments/fruit_general.py`: whatever order Python chooses for its sets, the fruit has 20167 features (seven for each of the 1351 words of weight at most six,
of the 380 beginnings of the eight alternating words, and of the 115 words of weight at most four with five frequencies and two exponents), can be fitted to every dataset
of any number of dimensions and any length, and transforms every dataset with this number of dimensions into so many columns.  Nothing raises. -/
theorem C112_general (L : Lib R) (hT : L.T.Lawful) {ρ : ℕ → Rng R} (hρ : ∀ k, (ρ k).Valid)
    (w0 : World R (SafePrep R) (BIss R) (List (IWord R)) (SafeSieve R)) (h0 : w0.Empty)
    (order : List ℤ → List ℤ) (ho : SetOrder order) (permSet : List ℕ → List (List ℕ)) (hp : PermOrder permSet)
    (l vs l1 l2 l3 l4 : List (SWord R)) (u1 u2 u3 u4 : SWord R) (hl : ofWeight R order permSet 6 2 = .ok l)
    (hu1 : SWord.mk' R order (repStr "[1]".toList 48) = .ok u1) (hu2 : SWord.mk' R order (repStr "[2]".toList 48) = .ok u2)
    (hu3 : SWord.mk' R order (repStr "[1][2]".toList 24) = .ok u3) (hu4 : SWord.mk' R order (repStr "[2][1]".toList 24) = .ok u4)
    (hv : alternateSign order [u1, u2, u3, u4] = .ok vs)
    (hl1 : ofWeight R order permSet 1 2 = .ok l1) (hl2 : ofWeight R order permSet 2 2 = .ok l2)
    (hl3 : ofWeight R order permSet 3 2 = .ok l3) (hl4 : ofWeight R order permSet 4 2 = .ok l4)
    {Xtrain : Data R} {m₀ d n₀ : ℕ} (hX₀ : HasShape Xtrain m₀ d n₀) (hm₀ : 0 < m₀) (hd : 0 < d) (hn₀ : 0 < n₀) :
    fruitN (builtin L) (runOps (builtin L) ρ (expScript "General Fruit".toList (l.map .simple) (vs.map .simple) ((l1 ++ l2 ++ l3 ++ l4).map .simple)) w0) 0 = .ok 20167 ∧
      ∃ w, fruitFit (builtin L) ρ 0 Xtrain Xtrain
          (runOps (builtin L) ρ (expScript "General Fruit".toList (l.map .simple) (vs.map .simple) ((l1 ++ l2 ++ l3 ++ l4).map .simple)) w0) = (.ok (), w) ∧
        ∀ (c : ℕ) (X : Data R) (m n : ℕ), HasShape X m d n → 0 < m → 0 < n →
          ∃ A, (fruitTransform (builtin L) w c 0 X X).1 = .ok A ∧ HasShape2 A m 20167 := by
  obtain rfl := alternate_words ho (k := 24) (by omega) hu1 hu2 hu3 hu4 hv
  have c1 := C111_two_dimensions order ho permSet hp (by omega) (by omega) hl1
  have c2 := C111_two_dimensions order ho permSet hp (by omega) (by omega) hl2
  have c3 := C111_two_dimensions order ho permSet hp (by omega) (by omega) hl3
  have c4 := C111_two_dimensions order ho permSet hp (by omega) (by omega) hl4
  have hlen : (l1 ++ l2 ++ l3 ++ l4).length = 115 := by
    simp only [List.length_append, c1, c2, c3, c4]; rfl
  have := exp_total L hT hρ w0 h0 ho hp "General Fruit".toList (k := 6) (n := 2 * 24) (by omega) (by omega) (by omega) hl (cs := l1 ++ l2 ++ l3 ++ l4)
    (by intro h; rw [h] at hlen; cases hlen) (by
      intro u hu
      rcases List.mem_append.1 hu with hu | hu
      · rcases List.mem_append.1 hu with hu | hu
        · rcases List.mem_append.1 hu with hu | hu
          · exact ⟨1, by omega, l1, hl1, hu⟩
          · exact ⟨2, by omega, l2, hl2, hu⟩
        · exact ⟨3, by omega, l3, hl3, hu⟩
      · exact ⟨4, by omega, l4, hl4, hu⟩) hX₀ hm₀ hd hn₀
  rw [hlen] at this
  exact this

/-- **C112**, `experiments/fruit_reduced.py`: the same with 4431 features (115 words of weight at most four, 188 beginnings, 33 words with five frequencies and two
exponents). -/
theorem C112_reduced (L : Lib R) (hT : L.T.Lawful) {ρ : ℕ → Rng R} (hρ : ∀ k, (ρ k).Valid)
    (w0 : World R (SafePrep R) (BIss R) (List (IWord R)) (SafeSieve R)) (h0 : w0.Empty)
    (order : List ℤ → List ℤ) (ho : SetOrder order) (permSet : List ℕ → List (List ℕ)) (hp : PermOrder permSet)
    (l vs l1 l2 l3 : List (SWord R)) (u1 u2 u3 u4 : SWord R) (hl : ofWeight R order permSet 4 2 = .ok l)
    (hu1 : SWord.mk' R order (repStr "[1]".toList 24) = .ok u1) (hu2 : SWord.mk' R order (repStr "[2]".toList 24) = .ok u2)
    (hu3 : SWord.mk' R order (repStr "[1][2]".toList 12) = .ok u3) (hu4 : SWord.mk' R order (repStr "[2][1]".toList 12) = .ok u4)
    (hv : alternateSign order [u1, u2, u3, u4] = .ok vs)
    (hl1 : ofWeight R order permSet 1 2 = .ok l1) (hl2 : ofWeight R order permSet 2 2 = .ok l2) (hl3 : ofWeight R order permSet 3 2 = .ok l3)
    {Xtrain : Data R} {m₀ d n₀ : ℕ} (hX₀ : HasShape Xtrain m₀ d n₀) (hm₀ : 0 < m₀) (hd : 0 < d) (hn₀ : 0 < n₀) :
    fruitN (builtin L) (runOps (builtin L) ρ (expScript "Reduced Fruit".toList (l.map .simple) (vs.map .simple) ((l1 ++ l2 ++ l3).map .simple)) w0) 0 = .ok 4431 ∧
      ∃ w, fruitFit (builtin L) ρ 0 Xtrain Xtrain
          (runOps (builtin L) ρ (expScript "Reduced Fruit".toList (l.map .simple) (vs.map .simple) ((l1 ++ l2 ++ l3).map .simple)) w0) = (.ok (), w) ∧
        ∀ (c : ℕ) (X : Data R) (m n : ℕ), HasShape X m d n → 0 < m → 0 < n →
          ∃ A, (fruitTransform (builtin L) w c 0 X X).1 = .ok A ∧ HasShape2 A m 4431 := by
  obtain rfl := alternate_words ho (k := 12) (by omega) hu1 hu2 hu3 hu4 hv
  have c1 := C111_two_dimensions order ho permSet hp (by omega) (by omega) hl1
  have c2 := C111_two_dimensions order ho permSet hp (by omega) (by omega) hl2
  have c3 := C111_two_dimensions order ho permSet hp (by omega) (by omega) hl3
  have hlen : (l1 ++ l2 ++ l3).length = 33 := by
    simp only [List.length_append, c1, c2, c3]; rfl
  have := exp_total L hT hρ w0 h0 ho hp "Reduced Fruit".toList (k := 4) (n := 2 * 12) (by omega) (by omega) (by omega) hl (cs := l1 ++ l2 ++ l3)
    (by intro h; rw [h] at hlen; cases hlen) (by
      intro u hu
      rcases List.mem_append.1 hu with hu | hu
      · rcases List.mem_append.1 hu with hu | hu
        · exact ⟨1, by omega, l1, hl1, hu⟩
        · exact ⟨2, by omega, l2, hl2, hu⟩
      · exact ⟨3, by omega, l3, hl3, hu⟩) hX₀ hm₀ hd hn₀
  rw [hlen] at this
  exact this

/-- Non-vacuity: the constructor calls of both scripts succeed, for every order of Python's sets. -/
theorem exp_hypotheses (order : List ℤ → List ℤ) (ho : SetOrder order) (permSet : List ℕ → List (List ℕ)) (hp : PermOrder permSet) {k : ℕ} (hk : 1 ≤ k) {j : ℕ} (hj : 1 ≤ j) :
    (∃ l : List (SWord R), ofWeight R order permSet j 2 = .ok l) ∧
    ∃ u1 u2 u3 u4 : SWord R, SWord.mk' R order (repStr "[1]".toList (2 * k)) = .ok u1 ∧ SWord.mk' R order (repStr "[2]".toList (2 * k)) = .ok u2 ∧
      SWord.mk' R order (repStr "[1][2]".toList k) = .ok u3 ∧ SWord.mk' R order (repStr "[2][1]".toList k) = .ok u4 ∧
      ∃ vs, alternateSign order [u1, u2, u3, u4] = .ok vs := by
  refine ⟨⟨_, ofWeight_eq ho hp hj 2⟩, ?_⟩
  have e3 := repStr_pair k 2 (Or.inl rfl)
  have e4 := repStr_pair k 3 (Or.inr rfl)
  rw [if_pos rfl] at e3
  rw [if_neg (by omega)] at e4
  rw [repStr_one, repStr_two, e3, e4]
  refine ⟨_, _, _, _, mk_line ho _ _ (by omega), mk_line ho _ _ (by omega), mk_line ho _ _ (by omega), mk_line ho _ _ (by omega), _,
    alternate_line ho 0 (by omega) _ _ (alternate_line ho 1 (by omega) _ _ (alternate_line ho 2 (by omega) _ _ (alternate_line ho 3 (by omega) _ _ rfl)))⟩

end Fruits
