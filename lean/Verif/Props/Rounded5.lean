import Verif.Props.Rounded4
import Verif.Props.Warp3

/-!
# C156: time warping invariance holds bit for bit in floating point

Repeating samples of the series (`warp`, `IsWarp` of `Props/Warp`) repeats the computed iterated sums and norm sums, without
any rounding difference.
-/

namespace Fruits
set_option linter.unusedSectionVars false
variable {R : Type} [Field R] [LinearOrder R] [IsStrictOrderedRing R] [FloorRing R]

/-! ### relations between the arrays of the two computations -/

/-- `v'` is `v` with repeated samples. -/
def WarpV (φ : ℕ → ℕ) (n n' : ℕ) (v v' : List R) : Prop := ∃ x : ℕ → R, v = tab n x ∧ v' = tab n' fun t => x (φ t)

/-- `v'` agrees with `v` where the warped series moves. -/
def WarpM (φ : ℕ → ℕ) (n n' : ℕ) (v v' : List R) : Prop :=
  ∃ x y : ℕ → R, v = tab n x ∧ v' = tab n' y ∧ ∀ t < n', Moves φ t → y t = x (φ t)

/-- Moreover it is zero elsewhere. -/
def WarpZ (φ : ℕ → ℕ) (n n' : ℕ) (v v' : List R) : Prop :=
  ∃ x y : ℕ → R, v = tab n x ∧ v' = tab n' y ∧ (∀ t < n', Moves φ t → y t = x (φ t)) ∧ ∀ t < n', ¬ Moves φ t → y t = 0

section
variable {φ : ℕ → ℕ} {n n' : ℕ}

theorem WarpV.toM {v v' : List R} (h : WarpV φ n n' v v') : WarpM φ n n' v v' := by
  obtain ⟨x, h1, h2⟩ := h
  exact ⟨x, _, h1, h2, fun _ _ _ => rfl⟩

theorem WarpZ.toM {v v' : List R} (h : WarpZ φ n n' v v') : WarpM φ n n' v v' := by
  obtain ⟨x, y, h1, h2, h3, _⟩ := h
  exact ⟨x, y, h1, h2, h3⟩

theorem WarpV.eq (hw : IsWarp n n' φ) {v v' : List R} (h : WarpV φ n n' v v') : v' = warpRow φ n' v := by
  obtain ⟨x, rfl, rfl⟩ := h
  apply tab_congr
  intro t ht
  rw [tab_getD _ _ _ _ (hw.lt ht)]

theorem WarpV.const (c : R) : WarpV φ n n' (List.replicate n c) (List.replicate n' c) :=
  ⟨fun _ => c, replicate_eq_tab _ _, replicate_eq_tab _ _⟩

theorem WarpV.map {v v' : List R} (h : WarpV φ n n' v v') (f : R → R) : WarpV φ n n' (v.map f) (v'.map f) := by
  obtain ⟨x, rfl, rfl⟩ := h
  exact ⟨fun t => f (x t), map_tab _ _ _, map_tab _ _ _⟩

theorem WarpV.zip {v v' y y' : List R} (h : WarpV φ n n' v v') (h' : WarpV φ n n' y y') (f : R → R → R) :
    WarpV φ n n' (List.zipWith f v y) (List.zipWith f v' y') := by
  obtain ⟨x, rfl, rfl⟩ := h
  obtain ⟨z, rfl, rfl⟩ := h'
  exact ⟨_, zipWith_tab _ _ _ _, zipWith_tab _ _ _ _⟩

theorem WarpM.zip {v v' y y' : List R} (h : WarpM φ n n' v v') (h' : WarpM φ n n' y y') (f : R → R → R) :
    WarpM φ n n' (List.zipWith f v y) (List.zipWith f v' y') := by
  obtain ⟨x, x', rfl, rfl, e⟩ := h
  obtain ⟨z, z', rfl, rfl, e'⟩ := h'
  exact ⟨_, _, zipWith_tab _ _ _ _, zipWith_tab _ _ _ _, fun t ht hm => by rw [e t ht hm, e' t ht hm]⟩

theorem WarpZ.zip {v v' y y' : List R} (h : WarpZ φ n n' v v') (h' : WarpM φ n n' y y') {f : R → R → R}
    (hf : ∀ b, f 0 b = 0) : WarpZ φ n n' (List.zipWith f v y) (List.zipWith f v' y') := by
  obtain ⟨x, x', rfl, rfl, e, e0⟩ := h
  obtain ⟨z, z', rfl, rfl, e'⟩ := h'
  exact ⟨_, _, zipWith_tab _ _ _ _, zipWith_tab _ _ _ _, fun t ht hm => by rw [e t ht hm, e' t ht hm],
    fun t ht hm => by rw [e0 t ht hm, hf]⟩

theorem WarpM.zipZ {v v' y y' : List R} (h : WarpM φ n n' v v') (h' : WarpZ φ n n' y y') {f : R → R → R}
    (hf : ∀ a, f a 0 = 0) : WarpZ φ n n' (List.zipWith f v y) (List.zipWith f v' y') := by
  obtain ⟨x, x', rfl, rfl, e⟩ := h
  obtain ⟨z, z', rfl, rfl, e', e0⟩ := h'
  exact ⟨_, _, zipWith_tab _ _ _ _, zipWith_tab _ _ _ _, fun t ht hm => by rw [e t ht hm, e' t ht hm],
    fun t ht hm => by rw [e0 t ht hm, hf]⟩

/-- At a later time at which the warped series moves, `φ` has just advanced by one. -/
theorem IsWarp.moves_step (hw : IsWarp n n' φ) {t : ℕ} (ht : t + 1 < n') (hm : Moves φ (t + 1)) : φ (t + 1) = φ t + 1 := by
  have : φ t < φ (t + 1) := hw.moves_lt (Nat.lt_succ_self t) ht hm
  rcases hw.step t ht with h | h <;> omega

theorem WarpV.roll (hw : IsWarp n n' φ) {v v' : List R} (h : WarpV φ n n' v v') :
    WarpM φ n n' (roll1z v) (roll1z v') := by
  obtain ⟨x, rfl, rfl⟩ := h
  refine ⟨_, _, roll1z_tab _ _, roll1z_tab _ _, fun t ht hm => ?_⟩
  cases t with
  | zero => simp [hw.start]
  | succ t =>
    rw [hw.moves_step ht hm]
    rfl

theorem Fp.accum_warp (F : Fp R) (hw : IsWarp n n' φ) {x y : ℕ → R} (h1 : ∀ t < n', Moves φ t → y t = x (φ t))
    (h0 : ∀ t < n', ¬ Moves φ t → y t = 0) {t : ℕ} (ht : t < n') : F.accum y (t + 1) = F.accum x (φ t + 1) := by
  induction t with
  | zero => rw [hw.start, Fp.accum, Fp.accum, h1 0 ht (Or.inl rfl), hw.start]; rfl
  | succ t ih =>
    rw [Fp.accum, ih (by omega)]
    by_cases hm : Moves φ (t + 1)
    · rw [h1 _ ht hm, hw.moves_step ht hm]; rfl
    · rw [h0 _ ht hm, add_zero, F.accum_rep, (hw.not_moves ht hm).2, Nat.add_sub_cancel]

theorem WarpZ.cumsum (F : Fp R) (hw : IsWarp n n' φ) {v v' : List R} (h : WarpZ φ n n' v v') :
    WarpV φ n n' (F.cumsum v) (F.cumsum v') := by
  obtain ⟨x, y, rfl, rfl, h1, h0⟩ := h
  rw [F.cumsum_tab, F.cumsum_tab]
  exact ⟨_, rfl, tab_congr fun t ht => F.accum_warp hw h1 h0 ht⟩

theorem runMax_warp (hw : IsWarp n n' φ) (x : ℕ → R) {t : ℕ} (ht : t < n') : runMax (fun t => x (φ t)) t = runMax x (φ t) := by
  induction t with
  | zero => rw [hw.start]; show x (φ 0) = x 0; rw [hw.start]
  | succ t ih =>
    show max (runMax (fun t => x (φ t)) t) (x (φ (t + 1))) = _
    rw [ih (by omega)]
    rcases hw.step t ht with e | e
    · rw [e]
      exact max_eq_left ((runMax_isGreatest x (φ t)).2 ⟨_, le_rfl, rfl⟩)
    · rw [e]; rfl

theorem WarpV.maxLoop (hw : IsWarp n n' φ) {v v' : List R} (h : WarpV φ n n' v v') :
    WarpV φ n n' (Fruits.maxLoop v) (Fruits.maxLoop v') := by
  obtain ⟨x, rfl, rfl⟩ := h
  rw [maxLoop_tab, maxLoop_tab]
  exact ⟨_, rfl, tab_congr fun t ht => runMax_warp hw x ht⟩

theorem WarpV.maxRow (hw : IsWarp n n' φ) {v v' : List R} (h : WarpV φ n n' v v') (c : R) :
    WarpV φ n n' (maxRowLoop (List.replicate n c) v) (maxRowLoop (List.replicate n' c) v') := by
  obtain ⟨x, rfl, rfl⟩ := h
  rw [replicate_eq_tab, replicate_eq_tab, maxRowLoop_tab, maxRowLoop_tab]
  exact ⟨_, rfl, tab_congr fun t ht => runMax_warp hw x ht⟩

/-! ### letters -/

theorem WarpV.iter {v v' y y' : List R} (h : WarpV φ n n' v v') (h' : WarpV φ n n' y y') (f : R → R → R) (j : ℕ) :
    WarpV φ n n' ((fun t => List.zipWith f t y)^[j] v) ((fun t => List.zipWith f t y')^[j] v') := by
  induction j with
  | zero => exact h
  | succ j ih => rw [Function.iterate_succ_apply', Function.iterate_succ_apply']; exact ih.zip h' f

theorem WarpV.lettersMul (F : Fp R) {Z Z' : List (List R)} {d : ℕ} (hZ : ∀ k < d, WarpV φ n n' (row Z k) (row Z' k))
    {el : List ℤ} (hel : el.length ≤ d) {v v' : List R} (h : WarpV φ n n' v v') :
    WarpV φ n n' (F.lettersMul Z el v) (F.lettersMul Z' el v') := by
  refine enumFold_related (WarpV φ n n') _ _ d (fun k occ s t hd hst => ?_) 0 el (by omega) v v' h
  unfold Fp.letterMul
  by_cases h1 : occ > 0
  · rw [if_pos h1, if_pos h1]
    exact hst.iter (hZ k hd) _ _
  · rw [if_neg h1, if_neg h1]
    by_cases h2 : occ < 0
    · rw [if_pos h2, if_pos h2]
      exact hst.iter (hZ k hd) _ _
    · rw [if_neg h2, if_neg h2]; exact hst

theorem WarpV.lettersAdd (F : Fp R) {Z Z' : List (List R)} {d : ℕ} (hZ : ∀ k < d, WarpV φ n n' (row Z k) (row Z' k))
    {el : List ℤ} (hel : el.length ≤ d) {v v' : List R} (h : WarpV φ n n' v v') :
    WarpV φ n n' (F.lettersAdd Z el v) (F.lettersAdd Z' el v') := by
  refine enumFold_related (WarpV φ n n') _ _ d (fun k e s t hd hst => ?_) 0 el (by omega) v v' h
  exact hst.zip ((hZ k hd).map fun x => F.rnd ((e : R) * x)) _

theorem WarpZ.iter (F : Fp R) {v v' y y' : List R} (h : WarpZ φ n n' v v') (h' : WarpZ φ n n' y y') (j : ℕ) :
    WarpZ φ n n' ((fun t => F.vmul t y)^[j] v) ((fun t => F.vmul t y')^[j] v') := by
  induction j with
  | zero => exact h
  | succ j ih =>
    rw [Function.iterate_succ_apply', Function.iterate_succ_apply']
    exact ih.zip h'.toM (fun b => by rw [zero_mul, F.zero])

theorem WarpM.iter (F : Fp R) {v v' y y' : List R} (h : WarpM φ n n' v v') (h' : WarpZ φ n n' y y') {j : ℕ} (hj : 0 < j) :
    WarpZ φ n n' ((fun t => F.vmul t y)^[j] v) ((fun t => F.vmul t y')^[j] v') := by
  obtain ⟨j, rfl⟩ := Nat.exists_eq_succ_of_ne_zero hj.ne'
  rw [Function.iterate_succ_apply, Function.iterate_succ_apply]
  exact WarpZ.iter F (h.zipZ h' fun a => by rw [mul_zero, F.zero]) h' j

/-- A letter with a positive exponent makes the product zero where the series does not move. -/
theorem WarpM.lettersMul (F : Fp R) {Z Z' : List (List R)} {d : ℕ} (hZ : ∀ k < d, WarpZ φ n n' (row Z k) (row Z' k))
    (k : ℕ) (el : List ℤ) (hk : k + el.length ≤ d) (hnn : ∀ e ∈ el, 0 ≤ e) {v v' : List R} (h : WarpM φ n n' v v')
    (hp : WarpZ φ n n' v v' ∨ ∃ e ∈ el, 0 < e) :
    WarpZ φ n n' (enumFold (fun letter occ tmp => F.letterMul Z letter occ tmp) k el v)
      (enumFold (fun letter occ tmp => F.letterMul Z' letter occ tmp) k el v') := by
  induction el generalizing k v v' with
  | nil =>
    rcases hp with hp | ⟨e, he, _⟩
    · exact hp
    · simp at he
  | cons e el ih =>
    simp only [List.length_cons] at hk
    rw [enumFold, enumFold]
    have he0 := hnn e (by simp)
    by_cases he : e > 0
    · have hz : WarpZ φ n n' (F.letterMul Z k e v) (F.letterMul Z' k e v') := by
        unfold Fp.letterMul
        rw [if_pos he, if_pos he]
        exact h.iter F (hZ k (by omega)) (by omega)
      exact ih (k + 1) (by omega) (fun e he => hnn e (by simp [he])) hz.toM (Or.inl hz)
    · have h1 : ∀ Z : List (List R), ∀ v, F.letterMul Z k e v = v := fun Z v => by
        unfold Fp.letterMul
        rw [if_neg he, if_neg (by omega)]
      rw [h1, h1]
      refine ih (k + 1) (by omega) (fun e he => hnn e (by simp [he])) h ?_
      rcases hp with hp | ⟨e', he', hpos⟩
      · exact Or.inl hp
      · rcases List.mem_cons.1 he' with rfl | he'
        · exact absurd hpos he
        · exact Or.inr ⟨e', he', hpos⟩

/-! ### kernels -/

/-- The rows of `Reals` for increments. -/
theorem WarpV.rowReals (F : Fp R) (expf : R → R) (hw : IsWarp n n' φ) (total : Bool) {Z Z' : List (List R)} {d : ℕ}
    (hZ : ∀ k < d, WarpZ φ n n' (row Z k) (row Z' k)) {word : List (List ℤ)} (hel : ∀ el ∈ word, PositiveLetter d el)
    (alpha : List R) {g g' : List R} (hg : WarpV φ n n' g g') {i : ℕ} (hi : i < word.length) :
    WarpV φ n n' (F.rowK expf .reals total Z n word alpha g i) (F.rowK expf .reals total Z' n' word alpha g' i) := by
  have hmem : ∀ i < word.length, PositiveLetter d (word.getD i []) := fun i hi => by
    rw [List.getD_eq_getElem?_getD, List.getElem?_eq_getElem hi]
    exact hel _ (List.getElem_mem hi)
  have hlet : ∀ i < word.length, ∀ v v', WarpM φ n n' v v' →
      WarpZ φ n n' (F.lettersMul Z (word.getD i []) v) (F.lettersMul Z' (word.getD i []) v') := by
    intro i hi v v' h
    obtain ⟨h1, h2, h3⟩ := hmem i hi
    exact WarpM.lettersMul F hZ 0 _ (by omega) h2 h (Or.inr h3)
  have h0 : ∀ b : R, F.rnd (0 * b) = 0 := fun b => by rw [zero_mul, F.zero]
  cases total with
  | true =>
    have hpre : ∀ i < word.length, ∀ v v', WarpM φ n n' v v' →
        WarpV φ n n' (F.preK expf .reals true Z alpha g i (word.getD i []) v)
          (F.preK expf .reals true Z' alpha g' i (word.getD i []) v') := by
      intro i hi v v' h
      simp only [Fp.preK]
      exact WarpZ.cumsum F hw ((hlet i hi v v' h).zip (hg.map _).toM h0)
    have htmp : ∀ i < word.length, WarpM φ n n' (F.tmpK expf .reals true Z n word alpha g i)
        (F.tmpK expf .reals true Z' n' word alpha g' i) := by
      intro i hi
      induction i with
      | zero => exact (WarpV.const 1).toM
      | succ i ih =>
        have := hpre i (by omega) _ _ (ih (by omega))
        rw [Fp.tmpK, Fp.tmpK]
        simp only [Fp.postK]
        exact (this.roll hw).zip (hg.map _).toM _
    rw [Fp.rowK, Fp.rowK]
    simp only [Fp.outK]
    exact (hpre i hi _ _ (htmp i hi)).zip (hg.map _) _
  | false =>
    have hpre : ∀ i < word.length, ∀ v v', WarpV φ n n' v v' →
        WarpZ φ n n' (F.preK expf .reals false Z alpha g i (word.getD i []) v)
          (F.preK expf .reals false Z' alpha g' i (word.getD i []) v') := by
      intro i hi v v' h
      simp only [Fp.preK]
      by_cases h1 : i > 0
      · simp only [if_pos h1]
        exact (hlet i hi _ _ (h.roll hw)).zip (hg.map _).toM h0
      · simp only [if_neg h1]
        exact hlet i hi _ _ h.toM
    have htmp : ∀ i < word.length, WarpV φ n n' (F.tmpK expf .reals false Z n word alpha g i)
        (F.tmpK expf .reals false Z' n' word alpha g' i) := by
      intro i hi
      induction i with
      | zero => exact WarpV.const 1
      | succ i ih =>
        have := hpre i (by omega) _ _ (ih (by omega))
        rw [Fp.tmpK, Fp.tmpK]
        simp only [Fp.postK]
        exact WarpZ.cumsum F hw (this.zip (hg.map _).toM h0)
    rw [Fp.rowK, Fp.rowK]
    simp only [Fp.outK]
    exact WarpZ.cumsum F hw (hpre i hi _ _ (htmp i hi))

/-- The rows of `Arctic` and `Bayesian` for the series themselves. -/
theorem WarpV.rowMax (F : Fp R) (expf : R → R) (hw : IsWarp n n' φ) {k : RKind} (hk : k ≠ .reals) (total : Bool)
    {Z Z' : List (List R)} {d : ℕ} (hZ : ∀ k < d, WarpV φ n n' (row Z k) (row Z' k)) {word : List (List ℤ)}
    (hel : ∀ el ∈ word, el.length ≤ d) (alpha : List R) {g g' : List R} (hg : WarpV φ n n' g g') (i : ℕ) :
    WarpV φ n n' (F.rowK expf k total Z n word alpha g i) (F.rowK expf k total Z' n' word alpha g' i) := by
  have hmem : ∀ i, (word.getD i []).length ≤ d := fun i => by
    rcases Nat.lt_or_ge i word.length with hi | hi
    · rw [List.getD_eq_getElem?_getD, List.getElem?_eq_getElem hi]
      exact hel _ (List.getElem_mem hi)
    · rw [List.getD_eq_getElem?_getD, List.getElem?_eq_none hi]; simp
  have hpre : ∀ i, ∀ v v', WarpV φ n n' v v' →
      WarpV φ n n' (F.preK expf k total Z alpha g i (word.getD i []) v)
        (F.preK expf k total Z' alpha g' i (word.getD i []) v') := by
    intro i v v' h
    have ha := WarpV.lettersAdd F hZ (hmem i) h
    have hm := WarpV.lettersMul F hZ (hmem i) h
    cases k <;> cases total <;> simp only [Fp.preK] <;> try exact absurd rfl hk
    · by_cases h1 : i > 0
      · simp only [if_pos h1]; exact ha.zip (hg.map _) _
      · simp only [if_neg h1]; exact ha
    · exact (ha.zip (hg.map _) _).maxLoop hw
    · by_cases h1 : i > 0
      · simp only [if_pos h1]; exact hm.zip (hg.map _) _
      · simp only [if_neg h1]; exact hm
    · exact (hm.zip (hg.map _) _).maxLoop hw
  have htmp : ∀ i, WarpV φ n n' (F.tmpK expf k total Z n word alpha g i) (F.tmpK expf k total Z' n' word alpha g' i) := by
    intro i
    induction i with
    | zero => cases k <;> exact WarpV.const _
    | succ i ih =>
      have := hpre i _ _ ih
      rw [Fp.tmpK, Fp.tmpK]
      revert this
      generalize F.preK expf k total Z alpha g i _ _ = a
      generalize F.preK expf k total Z' alpha g' i _ _ = b
      intro this
      cases k <;> cases total <;> simp only [Fp.postK] <;> try exact absurd rfl hk
      · exact (this.zip (hg.map _) _).maxLoop hw
      · exact this.zip (hg.map _) _
      · exact (this.zip (hg.map _) _).maxLoop hw
      · exact this.zip (hg.map _) _
  have := hpre i _ _ (htmp i)
  rw [Fp.rowK, Fp.rowK]
  revert this
  generalize F.preK expf k total Z alpha g i _ _ = a
  generalize F.preK expf k total Z' alpha g' i _ _ = b
  intro this
  cases k <;> cases total <;> simp only [Fp.outK] <;> try exact absurd rfl hk
  · exact this.maxRow hw 0
  · exact this.zip (hg.map _) _
  · exact this.maxRow hw 1
  · exact this.zip (hg.map _) _

end

/-! ### C156 -/

/-- Two lookups of matching weightings, for series `j`. -/
theorem warped_lookup {φ : ℕ → ℕ → ℕ} {n n' : ℕ} {X X' : Data R} (hX : ∀ Z ∈ X, ncols Z = n)
    (hX' : ∀ Z ∈ X', ncols Z = n') (hlen : X'.length = X.length) {wt wt' : Option (Weighting R)}
    (hwt : WarpedWeighting φ n n' X X' wt wt') {j : ℕ} (hj : j < X.length) :
    (∀ w : SWord R, ∃ alpha g g' total, WarpV (φ j) n n' g g' ∧ ∀ (F : Fp R) (expf : R → R) (k : RKind) (ext : ℕ),
      (F.iteratedSums expf k X w ext wt).getD j [] = F.fastSingle expf k X[j] w.els alpha g ext total ∧
      (F.iteratedSums expf k X' w ext wt').getD j []
        = F.fastSingle expf k (X'[j]'(by omega)) w.els alpha g' ext total) := by
  intro w
  have hj' : j < X'.length := by omega
  cases hwt with
  | none =>
    refine ⟨zeros w.els.length, zeros n, zeros n', true, WarpV.const 0, fun F expf k ext => ⟨?_, ?_⟩⟩
    · simp [Fp.iteratedSums, List.getD_eq_getElem?_getD, hj, hX _ (List.getElem_mem hj)]
    · simp [Fp.iteratedSums, List.getD_eq_getElem?_getD, hj', hX' _ (List.getElem_mem hj')]
  | some g g' total look warped =>
    refine ⟨w.getAlpha, (g.lookup X).getD j [], (g'.lookup X').getD j [], g.total, ?_, fun F expf k ext => ⟨?_, ?_⟩⟩
    · have hl := look.1
      have hr := look.2
      have hjl : j < (g.lookup X).length := by omega
      rw [warped]
      have e : (warp2 φ n' (g.lookup X)).getD j [] = warpRow (φ j) n' (g.lookup X)[j] := by
        simp [warp2, List.getD_eq_getElem?_getD, hjl]
      have e' : (g.lookup X).getD j [] = (g.lookup X)[j] := by simp [List.getD_eq_getElem?_getD, hjl]
      rw [e, e']
      refine ⟨fun t => (g.lookup X)[j].getD t 0, ?_, rfl⟩
      rw [← hr _ (List.getElem_mem hjl)]
      exact tab_of_list _ _
    · simp [Fp.iteratedSums, List.getD_eq_getElem?_getD, hj]
    · simp [Fp.iteratedSums, List.getD_eq_getElem?_getD, hj', total]

theorem Fp.iteratedSums_length (F : Fp R) (expf : R → R) (k : RKind) (X : Data R) (w : SWord R) (ext : ℕ)
    (wt : Option (Weighting R)) : (F.iteratedSums expf k X w ext wt).length = X.length := by
  simp [Fp.iteratedSums]

theorem Fp.inc_shape (F : Fp R) {X : Data R} {m d n : ℕ} (hX : HasShape X m d n) : HasShape (F.inc X) m d n := by
  refine ⟨by simp [Fp.inc, hX.1], ?_⟩
  intro s hs
  obtain ⟨Z, hZ, rfl⟩ := List.mem_map.1 hs
  refine ⟨by simpa using (hX.2 Z hZ).1, ?_⟩
  intro x hx
  obtain ⟨y, hy, rfl⟩ := List.mem_map.1 hx
  have e : y = tab n fun t => y.getD t 0 := by rw [← (hX.2 Z hZ).2 y hy]; exact tab_of_list _ _
  rw [e, F.increments1_tab, tab_length]

/-- The increments of the warped series. -/
theorem Fp.inc_warp (F : Fp R) {X : Data R} {m d n n' : ℕ} (hX : HasShape X m d n) {φ : ℕ → ℕ → ℕ}
    (hφ : ∀ i < m, IsWarp n n' (φ i)) {j : ℕ} (hj : j < m) {k : ℕ} (hk : k < d)
    (h1 : j < (F.inc X).length) (h2 : j < (F.inc (warp φ n' X)).length) :
    WarpZ (φ j) n n' (row (F.inc X)[j] k) (row (F.inc (warp φ n' X))[j] k) := by
  have hjX : j < X.length := by rw [hX.1]; exact hj
  have hZ := hX.2 _ (List.getElem_mem hjX)
  have hkZ : k < X[j].length := by rw [hZ.1]; exact hk
  have e : X[j][k] = tab n fun t => X[j][k].getD t 0 := by
    rw [← hZ.2 _ (List.getElem_mem hkZ)]; exact tab_of_list _ _
  have e1 : row (F.inc X)[j] k = F.increments1 X[j][k] := by
    simp [Fp.inc, row, List.getD_eq_getElem?_getD, hkZ]
  have e2 : row (F.inc (warp φ n' X))[j] k = F.increments1 (warpRow (φ j) n' X[j][k]) := by
    simp [Fp.inc, warp, row, List.getD_eq_getElem?_getD, hkZ]
  have hw := hφ j hj
  rw [e1, e2, warpRow]
  generalize hf : (fun t => X[j][k].getD t 0) = f at e
  rw [show (fun t => X[j][k].getD (φ j t) 0) = fun t => f (φ j t) by rw [← hf]]
  rw [e, F.increments1_tab, F.increments1_tab]
  refine ⟨_, _, rfl, rfl, fun t ht hm => ?_, fun t ht hm => ?_⟩
  · cases t with
    | zero => simp [hw.start]
    | succ t =>
      rw [hw.moves_step ht hm]
      simp
  · obtain ⟨h0, h⟩ := hw.not_moves ht hm
    rw [if_neg (by omega), h, sub_self, F.zero]

/-- **C156** (`Reals` of increments): repeating samples of the series repeats the computed iterated sums of their computed
increments, bit for bit, for any number of rows and any weighting whose lookup is warped like the data. -/
theorem C156_reals (F : Fp R) (expf : R → R) {X : Data R} {m d n n' : ℕ} (hX : HasShape X m d n) (hd : 0 < d)
    {φ : ℕ → ℕ → ℕ} (hφ : ∀ i < m, IsWarp n n' (φ i)) {w : SWord R} (hw : ∀ el ∈ w.els, PositiveLetter d el) {ext : ℕ}
    (he : ext ≤ w.els.length) {wt wt' : Option (Weighting R)}
    (hwt : WarpedWeighting φ n n' (F.inc X) (F.inc (warp φ n' X)) wt wt') :
    F.iteratedSums expf .reals (F.inc (warp φ n' X)) w ext wt'
      = (F.iteratedSums expf .reals (F.inc X) w ext wt).mapIdx fun i rows => rows.map (warpRow (φ i) n') := by
  have hY := F.inc_shape hX
  have hY' := F.inc_shape (hX.warp φ n')
  apply List.ext_getElem
  · simp [Fp.iteratedSums, hY.1, hY'.1]
  intro j h1 h2
  have hjm : j < m := by rw [F.iteratedSums_length, hY'.1] at h1; exact h1
  have hj : j < (F.inc X).length := by rw [hY.1]; exact hjm
  have hj' : j < (F.inc (warp φ n' X)).length := by rw [hY'.1]; exact hjm
  obtain ⟨alpha, g, g', total, hg, hs⟩ := warped_lookup (fun Z hZ => ncols_eq (hY.2 Z hZ).2 (warp_ne hY hd hZ))
    (fun Z hZ => ncols_eq (hY'.2 Z hZ).2 (warp_ne hY' hd hZ)) (by rw [hY.1, hY'.1]) hwt hj w
  have e : (F.iteratedSums expf .reals (F.inc (warp φ n' X)) w ext wt')[j]
      = (F.iteratedSums expf .reals (F.inc (warp φ n' X)) w ext wt').getD j [] := by
    simp [List.getD_eq_getElem?_getD, h1]
  have h1' : j < (F.iteratedSums expf .reals (F.inc X) w ext wt).length := by rw [F.iteratedSums_length]; exact hj
  have e' : (F.iteratedSums expf .reals (F.inc X) w ext wt)[j]
      = (F.iteratedSums expf .reals (F.inc X) w ext wt).getD j [] := by
    simp [List.getD_eq_getElem?_getD, h1']
  rw [List.getElem_mapIdx, e, e', (hs F expf .reals ext).1, (hs F expf .reals ext).2,
    F.fastSingle_rows expf .reals total _ w.els alpha g he, F.fastSingle_rows expf .reals total _ w.els alpha g' he,
    map_tab, ncols_eq (hY.2 _ (List.getElem_mem hj)).2 (warp_ne hY hd (List.getElem_mem hj)),
    ncols_eq (hY'.2 _ (List.getElem_mem hj')).2 (warp_ne hY' hd (List.getElem_mem hj'))]
  apply tab_congr
  intro r hr
  exact (WarpV.rowReals F expf (hφ j hjm) total (fun k hk => F.inc_warp hX hφ hjm hk hj hj') hw alpha hg
    (by omega)).eq (hφ j hjm)

/-- **C156** (`Arctic`, `Bayesian`): the same without increments. -/
theorem C156_max (F : Fp R) (expf : R → R) {k : RKind} (hk : k ≠ .reals) {X : Data R} {m d n n' : ℕ}
    (hX : HasShape X m d n) (hd : 0 < d) {φ : ℕ → ℕ → ℕ} (hφ : ∀ i < m, IsWarp n n' (φ i)) {w : SWord R}
    (hw : ∀ el ∈ w.els, el.length ≤ d) {ext : ℕ} (he : ext ≤ w.els.length) {wt wt' : Option (Weighting R)}
    (hwt : WarpedWeighting φ n n' X (warp φ n' X) wt wt') :
    F.iteratedSums expf k (warp φ n' X) w ext wt'
      = (F.iteratedSums expf k X w ext wt).mapIdx fun i rows => rows.map (warpRow (φ i) n') := by
  have hY' := hX.warp φ n'
  apply List.ext_getElem
  · simp [Fp.iteratedSums, hX.1, hY'.1]
  intro j h1 h2
  have hjm : j < m := by rw [F.iteratedSums_length, hY'.1] at h1; exact h1
  have hj : j < X.length := by rw [hX.1]; exact hjm
  have hj' : j < (warp φ n' X).length := by rw [hY'.1]; exact hjm
  obtain ⟨alpha, g, g', total, hg, hs⟩ := warped_lookup (fun Z hZ => ncols_eq (hX.2 Z hZ).2 (warp_ne hX hd hZ))
    (fun Z hZ => ncols_eq (hY'.2 Z hZ).2 (warp_ne hY' hd hZ)) (by rw [hX.1, hY'.1]) hwt hj w
  have e : (F.iteratedSums expf k (warp φ n' X) w ext wt')[j]
      = (F.iteratedSums expf k (warp φ n' X) w ext wt').getD j [] := by
    simp [List.getD_eq_getElem?_getD, h1]
  have h1' : j < (F.iteratedSums expf k X w ext wt).length := by rw [F.iteratedSums_length]; exact hj
  have e' : (F.iteratedSums expf k X w ext wt)[j] = (F.iteratedSums expf k X w ext wt).getD j [] := by
    simp [List.getD_eq_getElem?_getD, h1']
  have hZ : ∀ i < d, WarpV (φ j) n n' (row X[j] i) (row (warp φ n' X)[j] i) := by
    intro i hi
    have hiZ : i < X[j].length := by rw [(hX.2 _ (List.getElem_mem hj)).1]; exact hi
    refine ⟨fun t => entry X[j] i t, row_tab (hX.2 _ (List.getElem_mem hj)).2 hiZ, ?_⟩
    have : row (warp φ n' X)[j] i = warpRow (φ j) n' X[j][i] := by
      simp [warp, row, List.getD_eq_getElem?_getD, hiZ]
    rw [this, warpRow]
    apply tab_congr
    intro t _
    simp [entry, List.getD_eq_getElem?_getD, hiZ]
  rw [List.getElem_mapIdx, e, e', (hs F expf k ext).1, (hs F expf k ext).2,
    F.fastSingle_rows expf k total _ w.els alpha g he, F.fastSingle_rows expf k total _ w.els alpha g' he,
    map_tab, ncols_eq (hX.2 _ (List.getElem_mem hj)).2 (warp_ne hX hd (List.getElem_mem hj)),
    ncols_eq (hY'.2 _ (List.getElem_mem hj')).2 (warp_ne hY' hd (List.getElem_mem hj'))]
  apply tab_congr
  intro r hr
  exact (WarpV.rowMax F expf (hφ j hjm) hk total hZ hw alpha hg _).eq (hφ j hjm)

/-- **C156** (cache): so are the computed norm sums, and the coquantiles move with the samples: the first `c` samples of the
series become the first `c'` samples of the warped series. -/
theorem C156_cache (F : Fp R) (nm : Norm) {X : Data R} {m d n n' : ℕ} (hX : HasShape X m d n) (hd : 0 < d)
    {φ : ℕ → ℕ → ℕ} (hφ : ∀ i < m, IsWarp n n' (φ i)) :
    F.normSum nm (warp φ n' X) = warp2 φ n' (F.normSum nm X) ∧
      ∀ q, ∀ i < m, ∀ t < n', (t < (F.coquantiles nm q (warp φ n' X)).getD i 0 ↔
        φ i t < (F.coquantiles nm q X).getD i 0) := by
  have hX' := hX.warp φ n'
  have key : ∀ i < m, ∀ t < n', F.accum (F.term nm (at3 (warp φ n' X) i 0)) (t + 1)
      = F.accum (F.term nm (at3 X i 0)) (φ i t + 1) := by
    intro i hi t ht
    have hw := hφ i hi
    refine F.accum_warp hw (fun t ht hm => ?_) (fun t ht hm => ?_) ht
    · unfold Fp.term
      cases t with
      | zero => simp [hw.start]
      | succ t =>
        have hs := hw.moves_step ht hm
        rw [at3_warp hX φ hi hd ht, Nat.add_sub_cancel, at3_warp hX φ hi hd (by omega), hs]
        simp
    · obtain ⟨h0, h⟩ := hw.not_moves ht hm
      unfold Fp.term
      rw [at3_warp hX φ hi hd ht, at3_warp hX φ hi hd (by omega), h, sub_self, F.zero, ite_self]
      cases nm <;> simp [Fp.normVal, F.zero]
  have hsum : F.normSum nm (warp φ n' X) = warp2 φ n' (F.normSum nm X) := by
    rw [F.normSum_tab nm hX' hd, F.normSum_tab nm hX hd]
    apply List.ext_getElem
    · simp [warp2]
    intro i h1 h2
    have hi : i < m := by simpa using h1
    simp only [warp2, List.getElem_mapIdx, tab_getElem, warpRow]
    apply tab_congr
    intro t ht
    rw [tab_getD _ _ _ _ ((hφ i hi).lt ht)]
    exact key i hi t ht
  refine ⟨hsum, ?_⟩
  intro q i hi t ht
  have hw := hφ i hi
  have hS := (C155_sums F nm hX hd).1
  rw [((C155_coquantiles F nm hX' hd hw.pos' q).2 i hi).2.2.2.2 t ht,
    ((C155_coquantiles F nm hX hd hw.pos q).2 i hi).2.2.2.2 (φ i t) (hw.lt ht), hsum,
    at2_warp2 hS φ hi ht, at2_warp2 hS φ hi (by have := hw.pos'; omega), hw.stop]

/-- The data and warps of `WarpExample`, three significant bits. -/
example : (Fp.binary 2 : Fp ℚ).iteratedSums (fun _ => 1) .reals ((Fp.binary 2 : Fp ℚ).inc (warp WarpExample.φ 6 WarpExample.X))
      WarpExample.word 2 none
    = ((Fp.binary 2 : Fp ℚ).iteratedSums (fun _ => 1) .reals ((Fp.binary 2 : Fp ℚ).inc WarpExample.X) WarpExample.word 2 none).mapIdx
        fun i rows => rows.map (warpRow (WarpExample.φ i) 6) :=
  C156_reals _ _ WarpExample.shape (by omega) WarpExample.warps
    (WarpExample.positive _ (by simp [WarpExample.words])) (by decide) .none

example : (Fp.binary 2 : Fp ℚ).iteratedSums (fun _ => 1) .arctic (warp WarpExample.φ 6 WarpExample.X) WarpExample.word 2 none
    = ((Fp.binary 2 : Fp ℚ).iteratedSums (fun _ => 1) .arctic WarpExample.X WarpExample.word 2 none).mapIdx
        fun i rows => rows.map (warpRow (WarpExample.φ i) 6) :=
  C156_max _ _ (by simp) WarpExample.shape (by omega) WarpExample.warps
    (fun el hel => (WarpExample.positive _ (by simp [WarpExample.words]) el hel).1) (by decide) .none

/-- Half of the variation of the second series is reached only at its end, before and after warping. -/
example : (Fp.binary 2 : Fp ℚ).coquantiles .L1 (1/2) WarpExample.X = [1, 2] ∧
    (Fp.binary 2 : Fp ℚ).coquantiles .L1 (1/2) (warp WarpExample.φ 6 WarpExample.X) = [2, 5] := by decide +kernel

end Fruits
