import Verif.Checked
import Verif.Props.KernelShape
import Verif.KernelLemmas
import Verif.Props.Argmax
import Verif.Props.Warp

/-! # No access of a compiled kernel leaves its arrays -/

set_option linter.unusedSectionVars false

namespace Fruits
variable {R : Type}

theorem enumFoldE_ok {α σ : Type} (f : ℕ → α → σ → Except Err σ) (g : ℕ → α → σ → σ) (Inv : ℕ → σ → Prop) : ∀ (k : ℕ) (xs : List α) (s : σ),
    Inv k s →
    (∀ j (hj : j < xs.length) s, Inv (k + j) s → f (k + j) xs[j] s = .ok (g (k + j) xs[j] s) ∧ Inv (k + j + 1) (g (k + j) xs[j] s)) →
    enumFoldE f k xs s = .ok (enumFold g k xs s)
  | _, [], _, _, _ => rfl
  | k, x :: xs, s, h0, hs => by
    have h1 := hs 0 (by simp) s (by simpa using h0)
    simp only [Nat.add_zero, List.getElem_cons_zero] at h1
    rw [enumFoldE, h1.1, ok_bind, enumFold]
    refine enumFoldE_ok f g Inv (k + 1) xs _ h1.2 fun j hj s hi => ?_
    have := hs (j + 1) (by simpa using hj) s (by rw [show k + (j + 1) = k + 1 + j by omega]; exact hi)
    rw [show k + (j + 1) = k + 1 + j by omega] at this
    simpa using this

theorem readAt_ok {α : Type} {l : List α} {i : ℕ} (h : i < l.length) (d : α) : readAt l i = .ok (l.getD i d) := by
  simp [readAt, h, List.getD]

theorem readAt_err {α : Type} {l : List α} {i : ℕ} (h : l.length ≤ i) : readAt l i = .error .indexError := by
  simp [readAt, h]

theorem writeAt_ok {α : Type} {l : List α} {i : ℕ} (h : i < l.length) (v : α) : writeAt l i v = .ok (l.set i v) := if_pos h

theorem opE_ok {op : R → R → R} {x y : List R} (h : x.length = y.length) : opE op x y = .ok (List.zipWith op x y) := if_pos h

variable [Field R] [LinearOrder R] [IsStrictOrderedRing R] [FloorRing R]

theorem opE_mul {x y : List R} (h : x.length = y.length) : opE (· * ·) x y = .ok (vmul x y) := if_pos h
theorem opE_add {x y : List R} (h : x.length = y.length) : opE (· + ·) x y = .ok (vadd x y) := if_pos h
theorem opE_sub {x y : List R} (h : x.length = y.length) : opE (· - ·) x y = .ok (vsub x y) := if_pos h

theorem repeatE_ok (op : R → R → R) (z : List R) : ∀ (m : ℕ) (t : List R), t.length = z.length →
    repeatE op z m t = .ok ((fun t => List.zipWith op t z)^[m] t)
  | 0, _, _ => rfl
  | m + 1, t, h => by
    rw [repeatE, opE_ok h, ok_bind, repeatE_ok op z m _ (by simp [h]), Function.iterate_succ_apply]

theorem iter_length (op : R → R → R) (z : List R) : ∀ (m : ℕ) (t : List R), t.length = z.length →
    ((fun t => List.zipWith op t z)^[m] t).length = z.length
  | 0, _, h => h
  | m + 1, t, h => by
    rw [Function.iterate_succ_apply]
    exact iter_length op z m _ (by simp [h])

theorem row_len {Z : List (List R)} {n d : ℕ} (hZ : Rect Z n) (hd : d < Z.length) : (row Z d).length = n := hZ _ (by simp [row, hd])

theorem readRow_ok {Z : List (List R)} {d : ℕ} (hd : d < Z.length) : readAt Z d = .ok (row Z d) := readAt_ok hd []

theorem letterMulE_ok {Z : List (List R)} {n d : ℕ} (hZ : Rect Z n) {occ : ℤ} (hd : occ ≠ 0 → d < Z.length) {t : List R} (ht : t.length = n) :
    letterMulE Z d occ t = .ok (letterMul Z d occ t) ∧ (letterMul Z d occ t).length = n := by
  unfold letterMulE letterMul
  split_ifs with h1 h2
  · have hl := row_len hZ (hd (by omega))
    rw [readRow_ok (hd (by omega)), ok_bind, repeatE_ok _ _ _ _ (ht.trans hl.symm)]
    exact ⟨rfl, (iter_length _ _ _ _ (ht.trans hl.symm)).trans hl⟩
  · have hl := row_len hZ (hd (by omega))
    rw [readRow_ok (hd (by omega)), ok_bind, repeatE_ok _ _ _ _ (ht.trans hl.symm)]
    exact ⟨rfl, (iter_length _ _ _ _ (ht.trans hl.symm)).trans hl⟩
  · exact ⟨rfl, ht⟩

theorem lettersMulE_ok {Z : List (List R)} {n : ℕ} (hZ : Rect Z n) {el : List ℤ} (hd : ∀ d, el.getD d 0 ≠ 0 → d < Z.length) {t : List R}
    (ht : t.length = n) : lettersMulE Z el t = .ok (lettersMul Z el t) ∧ (lettersMul Z el t).length = n := by
  have hst : ∀ j (hj : j < el.length) (s : List R), s.length = n →
      letterMulE Z (0 + j) el[j] s = .ok (letterMul Z (0 + j) el[j] s) ∧ (letterMul Z (0 + j) el[j] s).length = n := by
    intro j hj s hs
    rw [Nat.zero_add]
    exact letterMulE_ok hZ (fun h => hd j (by simpa [List.getD, hj] using h)) hs
  exact ⟨enumFoldE_ok _ _ (fun _ (s : List R) => s.length = n) 0 el t ht hst,
    enumFold_inv _ (fun _ (s : List R) => s.length = n) 0 el t ht fun j hj s hs => (hst j hj s hs).2⟩

theorem lettersAddE_ok {Z : List (List R)} {n : ℕ} (hZ : Rect Z n) {el : List ℤ} (hd : el.length ≤ Z.length) {t : List R}
    (ht : t.length = n) : lettersAddE Z el t = .ok (lettersAdd Z el t) ∧ (lettersAdd Z el t).length = n := by
  have hst : ∀ j (hj : j < el.length) (s : List R), s.length = n →
      (do opE (· + ·) s ((← readAt Z (0 + j)).map fun x => (el[j] : R) * x)) = .ok (vadd s ((row Z (0 + j)).map fun x => (el[j] : R) * x)) ∧
      (vadd s ((row Z (0 + j)).map fun x => (el[j] : R) * x)).length = n := by
    intro j hj s hs
    rw [Nat.zero_add]
    have hl := row_len hZ (show j < Z.length by omega)
    rw [readRow_ok (show j < Z.length by omega), ok_bind, opE_add (by rw [hs, List.length_map, hl])]
    exact ⟨rfl, by simp [hs, hl]⟩
  exact ⟨enumFoldE_ok _ _ (fun _ (s : List R) => s.length = n) 0 el t ht hst,
    enumFold_inv _ (fun _ (s : List R) => s.length = n) 0 el t ht fun j hj s hs => (hst j hj s hs).2⟩

theorem rollE_ok {t : List R} (h : 0 < t.length) : rollE t = .ok (roll1z t) := writeAt_ok (by simpa [roll1] using h) _

theorem foldlM_ok {α σ : Type} (f : σ → α → Except Err σ) (g : σ → α → σ) (Inv : σ → Prop) : ∀ (l : List α) (s : σ), Inv s →
    (∀ a ∈ l, ∀ s, Inv s → f s a = .ok (g s a) ∧ Inv (g s a)) → l.foldlM f s = .ok (l.foldl g s)
  | [], _, _, _ => rfl
  | a :: l, s, h0, hs => by
    obtain ⟨h1, h2⟩ := hs a (by simp) s h0
    rw [List.foldlM_cons, h1, ok_bind, List.foldl_cons]
    exact foldlM_ok f g Inv l _ h2 fun b hb => hs b (by simp [hb])

theorem foldl_inv {α σ : Type} (g : σ → α → σ) (Inv : σ → Prop) : ∀ (l : List α) (s : σ), Inv s →
    (∀ a ∈ l, ∀ s, Inv s → Inv (g s a)) → Inv (l.foldl g s)
  | [], _, h, _ => h
  | a :: l, s, h, hs => foldl_inv g Inv l _ (hs a (by simp) s h) fun b hb => hs b (by simp [hb])

theorem maxLoopE_ok {n : ℕ} {t : List R} (h : t.length = n) : maxLoopE n t = .ok (maxLoop t) := by
  unfold maxLoopE maxLoop
  rw [h]
  refine foldlM_ok _ _ (fun s : List R => s.length = n) _ _ h fun i hi s hs => ?_
  have hi := List.mem_range'_1.1 hi
  rw [readAt_ok (show i - 1 < s.length by omega) 0, ok_bind, readAt_ok (show i < s.length by omega) 0, ok_bind,
    writeAt_ok (by omega)]
  exact ⟨rfl, by simp [hs]⟩

theorem maxRowLoopE_ok {n : ℕ} (hn : 0 < n) {r t : List R} (hr : r.length = n) (h : t.length = n) : maxRowLoopE n r t = .ok (maxRowLoop r t) := by
  unfold maxRowLoopE maxRowLoop
  rw [readAt_ok (show 0 < t.length by omega) 0, ok_bind, writeAt_ok (by omega), ok_bind, h]
  refine foldlM_ok _ _ (fun s : List R => s.length = n) _ _ (by simpa using hr) fun i hi s hs => ?_
  have hi := List.mem_range'_1.1 hi
  rw [readAt_ok (show i - 1 < s.length by omega) 0, ok_bind, readAt_ok (show i < t.length by omega) 0, ok_bind,
    writeAt_ok (by omega)]
  exact ⟨rfl, by simp [hs]⟩

/-- `result` has `ext` rows of length `n`, `tmp` has length `n`. -/
def KInv (n ext : ℕ) (s : List R × List (List R)) : Prop := s.1.length = n ∧ s.2.length = ext ∧ Rect s.2 n

theorem Rect.set {A : List (List R)} {n : ℕ} (h : Rect A n) (i : ℕ) {v : List R} (hv : v.length = n) : Rect (A.set i v) n := fun x hx => by
  rcases List.mem_or_eq_of_mem_set hx with h' | h'
  · exact h x h'
  · exact h' ▸ hv

theorem saveE_ok {A : List (List R)} {n : ℕ} (h : Rect A n) {i : ℕ} (hi : i < A.length) {v : List R} (hv : v.length = n) :
    saveE A i v = .ok (A.set i v) := by
  unfold saveE
  rw [readAt_ok hi ([] : List R), ok_bind, if_pos (by rw [hv]; exact row_len h hi), writeAt_ok hi]

/-- What the kernels need: rectangular data, one weight per time step, one alpha per extended letter, not more rows than letters. -/
structure KArgs (Z : List (List R)) (word : List (List ℤ)) (alpha weights : List R) (ext n : ℕ) : Prop where
  rect : Rect Z n
  ne : Z ≠ []
  pos : 0 < n
  alpha : word.length ≤ alpha.length
  weights : weights.length = n
  ext : ext ≤ word.length

theorem kinv_init {Z : List (List R)} {n : ℕ} (hZ : Rect Z n) (hne : Z ≠ []) (ext : ℕ) (a b : R) :
    KInv n ext (List.replicate (ncols Z) a, List.replicate ext (List.replicate (ncols Z) b)) := by
  rw [ncols_eq hZ hne]
  exact ⟨by simp, by simp, fun x hx => by simp [List.eq_of_mem_replicate hx]⟩

theorem bindOk {σ τ : Type} {x : Except Err (σ × τ)} {y : σ × τ} (h : x = .ok y) : (do let s ← x; pure s.2) = .ok y.2 := by
  rw [h]
  rfl

theorem realsSingleE_ok (expf : R → R) {Z : List (List R)} {word : List (List ℤ)} {alpha weights : List R} {ext n : ℕ}
    (h : KArgs Z word alpha weights ext n) (hd : ∀ el ∈ word, ∀ d, el.getD d 0 ≠ 0 → d < Z.length) :
    realsSingleE expf Z word alpha weights ext = .ok (realsSingle expf Z word alpha weights ext) := by
  obtain ⟨hZ, hne, hn, ha, hw, he⟩ := h
  unfold realsSingleE realsSingle
  refine bindOk (enumFoldE_ok _ _ (fun _ s => KInv n ext s) 0 word _ (kinv_init hZ hne ext 1 0) ?_)
  intro j hj s ⟨h1, h2, h3⟩
  rw [Nat.zero_add]
  have hr : (if j > 0 then roll1z s.1 else s.1).length = n := by split <;> simp [h1]
  obtain ⟨e1, l1⟩ := lettersMulE_ok hZ (hd word[j] (by simp)) hr
  have key : ∀ t : List R, t.length = n →
      KInv n ext ((if j < word.length - 1 then cumsum (vmul t (expW expf weights (alpha.getD j 0))) else t),
        (if word.length - j ≤ ext then s.2.set (ext - (word.length - j)) (cumsum t) else s.2)) := by
    intro t ht
    refine ⟨?_, ?_, ?_⟩
    · simp only; split <;> simp [ht, hw]
    · simp only; split <;> simp [h2]
    · simp only; split
      · exact h3.set _ (by simp [ht])
      · exact h3
  refine ⟨?_, ?_⟩
  · by_cases hj0 : j > 0
    · simp only [hj0, if_true] at e1 l1 ⊢
      rw [rollE_ok (by omega), ok_bind, e1, ok_bind, readAt_ok (show j - 1 < alpha.length by omega) 0, ok_bind,
        opE_mul (by simp [l1, hw]), ok_bind]
      by_cases hx : word.length - j ≤ ext <;> by_cases hlast : j < word.length - 1
      all_goals simp only [hx, hlast, if_true, if_false]
      · rw [saveE_ok h3 (by omega) (by simp [l1, hw]), ok_bind, readAt_ok (show j < alpha.length by omega) 0, ok_bind, opE_mul (by simp [l1, hw])]
        rfl
      · rw [saveE_ok h3 (by omega) (by simp [l1, hw])]
        rfl
      · rw [ok_bind, readAt_ok (show j < alpha.length by omega) 0, ok_bind, opE_mul (by simp [l1, hw])]
        rfl
      · rfl
    · simp only [hj0, if_false] at e1 l1 ⊢
      rw [ok_bind, e1, ok_bind, ok_bind]
      by_cases hx : word.length - j ≤ ext <;> by_cases hlast : j < word.length - 1
      all_goals simp only [hx, hlast, if_true, if_false]
      · rw [saveE_ok h3 (by omega) (by simp [l1]), ok_bind, readAt_ok (show j < alpha.length by omega) 0, ok_bind, opE_mul (by simp [l1, hw])]
        rfl
      · rw [saveE_ok h3 (by omega) (by simp [l1])]
        rfl
      · rw [ok_bind, readAt_ok (show j < alpha.length by omega) 0, ok_bind, opE_mul (by simp [l1, hw])]
        rfl
      · rfl
  · refine key _ ?_
    rw [apply_ite List.length, vmul_length, l1]
    simp [hw]

theorem arcticSingleE_ok {Z : List (List R)} {word : List (List ℤ)} {alpha weights : List R} {ext n : ℕ}
    (h : KArgs Z word alpha weights ext n) (hd : ∀ el ∈ word, el.length ≤ Z.length) :
    arcticSingleE Z word alpha weights ext = .ok (arcticSingle Z word alpha weights ext) := by
  obtain ⟨hZ, hne, hn, ha, hw, he⟩ := h
  unfold arcticSingleE arcticSingle
  refine bindOk (enumFoldE_ok _ _ (fun _ s => KInv n ext s) 0 word _ (kinv_init hZ hne ext 0 0) ?_)
  intro j hj s ⟨h1, h2, h3⟩
  rw [Nat.zero_add]
  obtain ⟨e1, l1⟩ := lettersAddE_ok hZ (hd word[j] (by simp)) h1
  have hrow : word.length - j ≤ ext → (s.2.getD (ext - (word.length - j)) []).length = n := fun hx => row_len h3 (by omega)
  have hnc := ncols_eq hZ hne
  refine ⟨?_, ?_⟩
  · rw [e1, ok_bind, hnc]
    by_cases hj0 : j > 0
    · simp only [hj0, if_true]
      rw [readAt_ok (show j - 1 < alpha.length by omega) 0, ok_bind, opE_sub (by simp [l1, hw]), ok_bind]
      by_cases hx : word.length - j ≤ ext <;> by_cases hlast : j < word.length - 1
      all_goals simp only [hx, hlast, if_true, if_false]
      · rw [readAt_ok (show ext - (word.length - j) < s.2.length by omega) [], ok_bind, maxRowLoopE_ok hn (hrow hx) (by simp [l1, hw]), ok_bind,
          writeAt_ok (by omega), ok_bind, readAt_ok (show j < alpha.length by omega) 0, ok_bind, opE_add (by simp [l1, hw]), ok_bind,
          maxLoopE_ok (by simp [l1, hw])]
        rfl
      · rw [readAt_ok (show ext - (word.length - j) < s.2.length by omega) [], ok_bind, maxRowLoopE_ok hn (hrow hx) (by simp [l1, hw]), ok_bind,
          writeAt_ok (by omega)]
        rfl
      · rw [ok_bind, readAt_ok (show j < alpha.length by omega) 0, ok_bind, opE_add (by simp [l1, hw]), ok_bind, maxLoopE_ok (by simp [l1, hw])]
        rfl
      · rfl
    · simp only [hj0, if_false]
      rw [ok_bind]
      by_cases hx : word.length - j ≤ ext <;> by_cases hlast : j < word.length - 1
      all_goals simp only [hx, hlast, if_true, if_false]
      · rw [readAt_ok (show ext - (word.length - j) < s.2.length by omega) [], ok_bind, maxRowLoopE_ok hn (hrow hx) (by simp [l1]), ok_bind,
          writeAt_ok (by omega), ok_bind, readAt_ok (show j < alpha.length by omega) 0, ok_bind, opE_add (by simp [l1, hw]), ok_bind,
          maxLoopE_ok (by simp [l1, hw])]
        rfl
      · rw [readAt_ok (show ext - (word.length - j) < s.2.length by omega) [], ok_bind, maxRowLoopE_ok hn (hrow hx) (by simp [l1]), ok_bind,
          writeAt_ok (by omega)]
        rfl
      · rw [ok_bind, readAt_ok (show j < alpha.length by omega) 0, ok_bind, opE_add (by simp [l1, hw]), ok_bind, maxLoopE_ok (by simp [l1, hw])]
        rfl
      · rfl
  · refine ⟨?_, ?_, ?_⟩
    · dsimp only
      split_ifs <;> simp [l1, hw]
    · dsimp only
      split_ifs <;> simp [h2]
    · dsimp only
      split_ifs with hx
      · exact h3.set _ (by simp only [maxRowLoop_len]; exact hrow hx)
      · exact h3.set _ (by simp only [maxRowLoop_len]; exact hrow hx)
      all_goals exact h3

theorem bayesianSingleE_ok (expf : R → R) {Z : List (List R)} {word : List (List ℤ)} {alpha weights : List R} {ext n : ℕ}
    (h : KArgs Z word alpha weights ext n) (hd : ∀ el ∈ word, ∀ d, el.getD d 0 ≠ 0 → d < Z.length) :
    bayesianSingleE expf Z word alpha weights ext = .ok (bayesianSingle expf Z word alpha weights ext) := by
  obtain ⟨hZ, hne, hn, ha, hw, he⟩ := h
  unfold bayesianSingleE bayesianSingle
  refine bindOk (enumFoldE_ok _ _ (fun _ s => KInv n ext s) 0 word _ (kinv_init hZ hne ext 1 1) ?_)
  intro j hj s ⟨h1, h2, h3⟩
  rw [Nat.zero_add]
  obtain ⟨e1, l1⟩ := lettersMulE_ok hZ (hd word[j] (by simp)) h1
  have hrow : word.length - j ≤ ext → (s.2.getD (ext - (word.length - j)) []).length = n := fun hx => row_len h3 (by omega)
  have hnc := ncols_eq hZ hne
  refine ⟨?_, ?_⟩
  · rw [e1, ok_bind, hnc]
    by_cases hj0 : j > 0
    · simp only [hj0, if_true]
      rw [readAt_ok (show j - 1 < alpha.length by omega) 0, ok_bind, opE_mul (by simp [l1, hw]), ok_bind]
      by_cases hx : word.length - j ≤ ext <;> by_cases hlast : j < word.length - 1
      all_goals simp only [hx, hlast, if_true, if_false]
      · rw [readAt_ok (show ext - (word.length - j) < s.2.length by omega) [], ok_bind, maxRowLoopE_ok hn (hrow hx) (by simp [l1, hw]), ok_bind,
          writeAt_ok (by omega), ok_bind, readAt_ok (show j < alpha.length by omega) 0, ok_bind, opE_mul (by simp [l1, hw]), ok_bind,
          maxLoopE_ok (by simp [l1, hw])]
        rfl
      · rw [readAt_ok (show ext - (word.length - j) < s.2.length by omega) [], ok_bind, maxRowLoopE_ok hn (hrow hx) (by simp [l1, hw]), ok_bind,
          writeAt_ok (by omega)]
        rfl
      · rw [ok_bind, readAt_ok (show j < alpha.length by omega) 0, ok_bind, opE_mul (by simp [l1, hw]), ok_bind, maxLoopE_ok (by simp [l1, hw])]
        rfl
      · rfl
    · simp only [hj0, if_false]
      rw [ok_bind]
      by_cases hx : word.length - j ≤ ext <;> by_cases hlast : j < word.length - 1
      all_goals simp only [hx, hlast, if_true, if_false]
      · rw [readAt_ok (show ext - (word.length - j) < s.2.length by omega) [], ok_bind, maxRowLoopE_ok hn (hrow hx) (by simp [l1]), ok_bind,
          writeAt_ok (by omega), ok_bind, readAt_ok (show j < alpha.length by omega) 0, ok_bind, opE_mul (by simp [l1, hw]), ok_bind,
          maxLoopE_ok (by simp [l1, hw])]
        rfl
      · rw [readAt_ok (show ext - (word.length - j) < s.2.length by omega) [], ok_bind, maxRowLoopE_ok hn (hrow hx) (by simp [l1]), ok_bind,
          writeAt_ok (by omega)]
        rfl
      · rw [ok_bind, readAt_ok (show j < alpha.length by omega) 0, ok_bind, opE_mul (by simp [l1, hw]), ok_bind, maxLoopE_ok (by simp [l1, hw])]
        rfl
      · rfl
  · refine ⟨?_, ?_, ?_⟩
    · dsimp only
      split_ifs <;> simp [l1, hw]
    · dsimp only
      split_ifs <;> simp [h2]
    · dsimp only
      split_ifs with hx
      · exact h3.set _ (by simp only [maxRowLoop_len]; exact hrow hx)
      · exact h3.set _ (by simp only [maxRowLoop_len]; exact hrow hx)
      all_goals exact h3

theorem totalRealsE_ok (expf : R → R) {Z : List (List R)} {word : List (List ℤ)} {alpha weights : List R} {ext n : ℕ}
    (h : KArgs Z word alpha weights ext n) (hd : ∀ el ∈ word, ∀ d, el.getD d 0 ≠ 0 → d < Z.length) :
    totalRealsE expf Z word alpha weights ext = .ok (totalReals expf Z word alpha weights ext) := by
  obtain ⟨hZ, hne, hn, ha, hw, he⟩ := h
  unfold totalRealsE totalReals
  refine bindOk (enumFoldE_ok _ _ (fun _ s => KInv n ext s) 0 word _ (kinv_init hZ hne ext 1 0) ?_)
  intro j hj s ⟨h1, h2, h3⟩
  rw [Nat.zero_add]
  obtain ⟨e1, l1⟩ := lettersMulE_ok hZ (hd word[j] (by simp)) h1
  have hnc := ncols_eq hZ hne
  refine ⟨?_, ?_⟩
  · rw [e1, ok_bind, readAt_ok (show j < alpha.length by omega) 0, ok_bind, opE_mul (by simp [l1, hw]), ok_bind]
    simp only [readAt_ok (show j < alpha.length by omega) 0]
    by_cases hx : word.length - j ≤ ext <;> by_cases hlast : j < word.length - 1
    all_goals simp only [hx, hlast, if_true, if_false, ok_bind]
    · rw [opE_mul (by simp [l1, hw]), ok_bind, saveE_ok h3 (by omega) (by simp [l1, hw]), ok_bind, rollE_ok (by simp [l1, hw, hn]), ok_bind, opE_mul (by simp [l1, hw])]
      rfl
    · rw [opE_mul (by simp [l1, hw]), ok_bind, saveE_ok h3 (by omega) (by simp [l1, hw])]
      rfl
    · rw [rollE_ok (by simp [l1, hw, hn]), ok_bind, opE_mul (by simp [l1, hw])]
      rfl
    · rfl
  · refine ⟨?_, ?_, ?_⟩
    · dsimp only
      split_ifs <;> simp [l1, hw]
    · dsimp only
      split_ifs <;> simp [h2]
    · dsimp only
      split_ifs with hx
      · exact h3.set _ (by simp [l1, hw])
      · exact h3

theorem totalArcticE_ok {Z : List (List R)} {word : List (List ℤ)} {alpha weights : List R} {ext n : ℕ}
    (h : KArgs Z word alpha weights ext n) (hd : ∀ el ∈ word, el.length ≤ Z.length) :
    totalArcticE Z word alpha weights ext = .ok (totalArctic Z word alpha weights ext) := by
  obtain ⟨hZ, hne, hn, ha, hw, he⟩ := h
  unfold totalArcticE totalArctic
  refine bindOk (enumFoldE_ok _ _ (fun _ s => KInv n ext s) 0 word _ (kinv_init hZ hne ext 0 0) ?_)
  intro j hj s ⟨h1, h2, h3⟩
  rw [Nat.zero_add]
  obtain ⟨e1, l1⟩ := lettersAddE_ok hZ (hd word[j] (by simp)) h1
  have hnc := ncols_eq hZ hne
  refine ⟨?_, ?_⟩
  · rw [e1, ok_bind, readAt_ok (show j < alpha.length by omega) 0, ok_bind, opE_add (by simp [l1, hw]), ok_bind]
    simp only [hnc, readAt_ok (show j < alpha.length by omega) 0]
    rw [maxLoopE_ok (by simp [l1, hw]), ok_bind]
    by_cases hx : word.length - j ≤ ext <;> by_cases hlast : j < word.length - 1
    all_goals simp only [hx, hlast, if_true, if_false, ok_bind]
    · rw [opE_sub (by simp [l1, hw]), ok_bind, saveE_ok h3 (by omega) (by simp [l1, hw])]
      rfl
    · rw [opE_sub (by simp [l1, hw]), ok_bind, saveE_ok h3 (by omega) (by simp [l1, hw])]
      rfl
    · rw [opE_sub (by simp [l1, hw])]
      rfl
    · rfl
  · refine ⟨?_, ?_, ?_⟩
    · dsimp only
      split_ifs <;> simp [l1, hw]
    · dsimp only
      split_ifs <;> simp [h2]
    · dsimp only
      split_ifs with hx
      · exact h3.set _ (by simp [l1, hw])
      · exact h3

theorem totalBayesianE_ok (expf : R → R) {Z : List (List R)} {word : List (List ℤ)} {alpha weights : List R} {ext n : ℕ}
    (h : KArgs Z word alpha weights ext n) (hd : ∀ el ∈ word, ∀ d, el.getD d 0 ≠ 0 → d < Z.length) :
    totalBayesianE expf Z word alpha weights ext = .ok (totalBayesian expf Z word alpha weights ext) := by
  obtain ⟨hZ, hne, hn, ha, hw, he⟩ := h
  unfold totalBayesianE totalBayesian
  refine bindOk (enumFoldE_ok _ _ (fun _ s => KInv n ext s) 0 word _ (kinv_init hZ hne ext 1 0) ?_)
  intro j hj s ⟨h1, h2, h3⟩
  rw [Nat.zero_add]
  obtain ⟨e1, l1⟩ := lettersMulE_ok hZ (hd word[j] (by simp)) h1
  have hnc := ncols_eq hZ hne
  refine ⟨?_, ?_⟩
  · rw [e1, ok_bind, readAt_ok (show j < alpha.length by omega) 0, ok_bind, opE_mul (by simp [l1, hw]), ok_bind]
    simp only [hnc, readAt_ok (show j < alpha.length by omega) 0]
    rw [maxLoopE_ok (by simp [l1, hw]), ok_bind]
    by_cases hx : word.length - j ≤ ext <;> by_cases hlast : j < word.length - 1
    all_goals simp only [hx, hlast, if_true, if_false, ok_bind]
    · rw [opE_mul (by simp [l1, hw]), ok_bind, saveE_ok h3 (by omega) (by simp [l1, hw])]
      rfl
    · rw [opE_mul (by simp [l1, hw]), ok_bind, saveE_ok h3 (by omega) (by simp [l1, hw])]
      rfl
    · rw [opE_mul (by simp [l1, hw])]
      rfl
    · rfl
  · refine ⟨?_, ?_, ?_⟩
    · dsimp only
      split_ifs <;> simp [l1, hw]
    · dsimp only
      split_ifs <;> simp [h2]
    · dsimp only
      split_ifs with hx
      · exact h3.set _ (by simp [l1, hw])
      · exact h3

/-! ### `Arctic(argmax=True)` -/

/-- A row of positions `0 ≤ p < n`. -/
def PosRow (n : ℕ) (r : List R) : Prop := r.length = n ∧ ∀ x ∈ r, ∃ p : ℕ, p < n ∧ x = p

theorem PosRow.zeros {n : ℕ} : PosRow n (zeros n : List R) := ⟨by simp [Fruits.zeros], fun x hx => by
  have h := hx
  simp only [Fruits.zeros, List.mem_replicate] at h
  exact ⟨0, by omega, by simp [h.2]⟩⟩

theorem PosRow.set {n i : ℕ} {r : List R} (h : PosRow n r) {x : R} (hx : ∃ p : ℕ, p < n ∧ x = p) : PosRow n (r.set i x) :=
  ⟨by simp [h.1], fun y hy => by
    rcases List.mem_or_eq_of_mem_set hy with h' | h'
    · exact h.2 y h'
    · exact h' ▸ hx⟩

theorem PosRow.getD {n i : ℕ} {r : List R} (h : PosRow n r) (hi : i < n) (d : R) : ∃ p : ℕ, p < n ∧ r.getD i d = p := by
  refine h.2 _ ?_
  rw [List.getD_eq_getElem?_getD, List.getElem?_eq_getElem (by rw [h.1]; exact hi)]
  simp

theorem argmaxRowsE_ok {n : ℕ} (hn : 0 < n) {t : List R} (h : t.length = n) :
    argmaxRowsE n (zeros n) (zeros n) t = .ok (argmaxRows t) ∧ (argmaxRows t).1.length = n ∧ PosRow n (argmaxRows t).2 := by
  have hstep : ∀ i ∈ List.range' 1 (n - 1), ∀ r : List R × List R, (r.1.length = n ∧ PosRow n r.2) →
      (do
        let a ← readAt r.1 (i - 1)
        let b ← readAt t i
        if a ≥ b then do
          let x ← writeAt r.1 i a
          let y ← writeAt r.2 i (← readAt r.2 (i - 1))
          pure (x, y)
        else do
          let x ← writeAt r.1 i b
          let y ← writeAt r.2 i (i : R)
          pure (x, y)) = Except.ok (if r.1.getD (i - 1) 0 ≥ t.getD i 0
        then (r.1.set i (r.1.getD (i - 1) 0), r.2.set i (r.2.getD (i - 1) 0)) else (r.1.set i (t.getD i 0), r.2.set i (i : R))) ∧
      (if r.1.getD (i - 1) 0 ≥ t.getD i 0
        then (r.1.set i (r.1.getD (i - 1) 0), r.2.set i (r.2.getD (i - 1) 0)) else (r.1.set i (t.getD i 0), r.2.set i (i : R))).1.length = n ∧
      PosRow n (if r.1.getD (i - 1) 0 ≥ t.getD i 0
        then (r.1.set i (r.1.getD (i - 1) 0), r.2.set i (r.2.getD (i - 1) 0)) else (r.1.set i (t.getD i 0), r.2.set i (i : R))).2 := by
    intro i hi r ⟨h1, h2⟩
    have hi := List.mem_range'_1.1 hi
    have hl := h2.1
    rw [readAt_ok (show i - 1 < r.1.length by omega) 0, ok_bind, readAt_ok (show i < t.length by omega) 0, ok_bind]
    split_ifs with hc
    · rw [writeAt_ok (by omega), ok_bind, readAt_ok (show i - 1 < r.2.length by omega) 0, ok_bind, writeAt_ok (by omega)]
      exact ⟨rfl, by simp [h1], h2.set (h2.getD (by omega) 0)⟩
    · rw [writeAt_ok (by omega), ok_bind, writeAt_ok (by omega)]
      exact ⟨rfl, by simp [h1], h2.set ⟨i, by omega, rfl⟩⟩
  have h0 : ((zeros n : List R).set 0 (t.getD 0 0)).length = n ∧ PosRow n (zeros n : List R) := ⟨by simp [zeros], PosRow.zeros⟩
  refine ⟨?_, ?_⟩
  · unfold argmaxRowsE argmaxRows
    rw [readAt_ok (show 0 < t.length by omega) 0, ok_bind, writeAt_ok (by simpa [zeros] using hn), ok_bind, h]
    exact foldlM_ok _ _ (fun r : List R × List R => r.1.length = n ∧ PosRow n r.2) _ _ h0 hstep
  · unfold argmaxRows
    rw [h]
    exact foldl_inv _ (fun r : List R × List R => r.1.length = n ∧ PosRow n r.2) _ _ h0 fun i hi r hr => (hstep i hi r hr).2

theorem getD_set_self {α : Type} {l : List α} {i : ℕ} (h : i < l.length) (v d : α) : (l.set i v).getD i d = v := by simp [List.getD, h]

theorem getD_set_ne {α : Type} {l : List α} {i j : ℕ} (h : i ≠ j) (v d : α) : (l.set i v).getD j d = l.getD j d := by
  simp [List.getD, List.getElem?_set_ne h]

/-- The body of the first loop of the argmax kernel. -/
def argStepM (Z : List (List R)) (word : List (List ℤ)) (alpha weights : List R) (k : ℕ) (el : List ℤ) (s : List R × List (List R)) :
    List R × List (List R) :=
  if el.all (· == 0) then s else
  let tmp := if k > 0 then vsub (vadd s.1 (lettersAdd Z el (zeros (ncols Z)))) (vscale weights (alpha.getD (k - 1) 0))
    else vadd s.1 (lettersAdd Z el (zeros (ncols Z)))
  ((if k < word.length - 1 then maxLoop (vadd tmp (vscale weights (alpha.getD k 0))) else tmp),
    (s.2.set (2 * k) (argmaxRows tmp).1).set (2 * k + 1) (argmaxRows tmp).2)

/-- State of the first loop of the argmax kernel before step `k`. -/
structure AInv (n L k : ℕ) (s : List R × List (List R)) : Prop where
  tmp : s.1.length = n
  len : s.2.length = 2 * L
  rect : Rect s.2 n
  rest : ∀ i, k ≤ i → i < L → s.2.getD (2 * i) [] = zeros n ∧ s.2.getD (2 * i + 1) [] = zeros n
  pos : ∀ i < L, PosRow n (s.2.getD (2 * i + 1) [])

theorem argmaxLoopE_ok {Z : List (List R)} {word : List (List ℤ)} {alpha weights : List R} {n : ℕ}
    (h : KArgs Z word alpha weights 0 n) (hd : ∀ el ∈ word, el.all (· == 0) = false → el.length ≤ Z.length) :
    argmaxLoopE Z word alpha weights = .ok (argmaxLoop Z word alpha weights) ∧ (argmaxLoop Z word alpha weights).length = 2 * word.length ∧
      Rect (argmaxLoop Z word alpha weights) n ∧ ∀ i < word.length, PosRow n ((argmaxLoop Z word alpha weights).getD (2 * i + 1) []) := by
  obtain ⟨hZ, hne, hn, ha, hw, he⟩ := h
  have hnc := ncols_eq hZ hne
  have h0 : AInv n word.length 0 ((zeros (ncols Z) : List R), List.replicate (2 * word.length) (zeros (ncols Z))) := by
    rw [hnc]
    have hg : ∀ i < 2 * word.length, (List.replicate (2 * word.length) (zeros n : List R)).getD i [] = zeros n := by
      intro i hi
      simp [List.getD, hi]
    exact ⟨by simp [zeros], by simp, fun x hx => by simp [List.eq_of_mem_replicate hx, zeros],
      fun i _ hi => ⟨hg _ (by omega), hg _ (by omega)⟩, fun i hi => by
        show PosRow n ((List.replicate (2 * word.length) (zeros n : List R)).getD (2 * i + 1) [])
        rw [hg _ (by omega)]
        exact PosRow.zeros⟩
  have hstep : ∀ j (hj : j < word.length) (s : List R × List (List R)), AInv n word.length (0 + j) s →
      (if word[j].all (· == 0) then .ok s else do
      let C ← lettersAddE Z word[j] (zeros (ncols Z))
      let tmp ← opE (· + ·) s.1 C
      let tmp ← if 0 + j > 0 then do opE (· - ·) tmp (vscale weights (← readAt alpha (0 + j - 1))) else .ok tmp
      let rows ← argmaxRowsE (ncols Z) (← readAt s.2 (2 * (0 + j))) (← readAt s.2 (2 * (0 + j) + 1)) tmp
      let result ← writeAt s.2 (2 * (0 + j)) rows.1
      let result ← writeAt result (2 * (0 + j) + 1) rows.2
      let tmp ← if 0 + j < word.length - 1 then do
          maxLoopE (ncols Z) (← opE (· + ·) tmp (vscale weights (← readAt alpha (0 + j))))
        else .ok tmp
      pure (tmp, result)) = .ok (argStepM Z word alpha weights (0 + j) word[j] s) ∧
      AInv n word.length (0 + j + 1) (argStepM Z word alpha weights (0 + j) word[j] s) := by
    intro j hj s hi
    rw [Nat.zero_add] at hi ⊢
    obtain ⟨h1, h2, h3, h4, h5⟩ := hi
    unfold argStepM
    by_cases hz : word[j].all (· == 0)
    · simp only [hz, if_true]
      exact ⟨trivial, h1, h2, h3, fun i h h' => h4 i (by omega) h', h5⟩
    simp only [hz, if_false, Bool.false_eq_true]
    obtain ⟨e1, l1⟩ := lettersAddE_ok hZ (hd word[j] (by simp) (by simpa using hz)) (t := (zeros (ncols Z) : List R)) (by simp [zeros, hnc])
    obtain ⟨q1, q2⟩ := h4 j le_rfl hj
    rw [e1]
    generalize lettersAdd Z word[j] (zeros (ncols Z)) = C at *
    generalize hT : (if j > 0 then vsub (vadd s.1 C) (vscale weights (alpha.getD (j - 1) 0))
      else vadd s.1 C) = T
    have lT : T.length = n := by
      rw [← hT]
      split_ifs <;> simp [h1, l1, hw]
    obtain ⟨a1, a2, a3⟩ := argmaxRowsE_ok hn lT
    refine ⟨?_, ?_⟩
    · rw [ok_bind, opE_add (by rw [h1, l1]), ok_bind]
      have hcont : (do
          let rows ← argmaxRowsE (ncols Z) (← readAt s.2 (2 * j)) (← readAt s.2 (2 * j + 1)) T
          let result ← writeAt s.2 (2 * j) rows.1
          let result ← writeAt result (2 * j + 1) rows.2
          let tmp ← if j < word.length - 1 then do
              maxLoopE (ncols Z) (← opE (· + ·) T (vscale weights (← readAt alpha j)))
            else .ok T
          pure (tmp, result)) = Except.ok ((if j < word.length - 1 then maxLoop (vadd T (vscale weights (alpha.getD j 0))) else T),
            (s.2.set (2 * j) (argmaxRows T).1).set (2 * j + 1) (argmaxRows T).2) := by
        rw [readAt_ok (show 2 * j < s.2.length by omega) [], ok_bind, readAt_ok (show 2 * j + 1 < s.2.length by omega) [], ok_bind, q1, q2, hnc, a1,
          ok_bind, writeAt_ok (by omega), ok_bind, writeAt_ok (by rw [List.length_set]; omega), ok_bind]
        split_ifs with hl
        · rw [readAt_ok (show j < alpha.length by omega) 0, ok_bind, opE_add (by simp [lT, hw]), ok_bind, maxLoopE_ok (by simp [lT, hw])]
          rfl
        · rfl
      rw [← hcont]
      by_cases hj0 : j > 0
      · simp only [hj0, if_true] at hT ⊢
        rw [readAt_ok (show j - 1 < alpha.length by omega) 0, ok_bind, opE_sub (by simp [h1, l1, hw]), ok_bind, hT]
      · simp only [hj0, if_false] at hT ⊢
        rw [ok_bind, hT]
    · refine ⟨?_, by simp [h2], (h3.set _ a2).set _ a3.1, fun i hi hi' => ?_, fun i hi => ?_⟩
      · dsimp only
        split_ifs <;> simp [lT, hw]
      · dsimp only
        rw [getD_set_ne (by omega), getD_set_ne (by omega), getD_set_ne (by omega), getD_set_ne (by omega)]
        exact h4 i (by omega) hi'
      · dsimp only
        by_cases hij : i = j
        · subst hij
          rw [getD_set_self (by simp; omega)]
          exact a3
        · rw [getD_set_ne (by omega), getD_set_ne (by omega)]
          exact h5 i hi
  have hfin := enumFold_inv (argStepM Z word alpha weights) (fun k s => AInv n word.length k s) 0 word _ h0 fun j hj s hs => (hstep j hj s hs).2
  exact ⟨bindOk (enumFoldE_ok _ (argStepM Z word alpha weights) (fun k s => AInv n word.length k s) 0 word _ h0 hstep), hfin.len, hfin.rect, hfin.pos⟩

theorem translateInnerE_ok {n L : ℕ} (hn : 0 < n) {result : List (List R)} (hl : result.length = 2 * L) (hr : Rect result n)
    (hp : ∀ i < L, PosRow n (result.getD (2 * i + 1) [])) (index : ℕ) : ∀ (s : ℕ) (tr : List (List R)), s ≤ L → index + s + 1 < tr.length → Rect tr n →
    (0 < s → PosRow n (tr.getD (index + s + 1) [])) →
    translateInnerE n result index s tr = .ok (translateInner n result index s tr) ∧ (translateInner n result index s tr).length = tr.length ∧
      Rect (translateInner n result index s tr) n
  | 0, tr, _, _, ht, _ => ⟨rfl, rfl, ht⟩
  | s + 1, tr, hs, hi, ht, hpos => by
    have hq := hpos (by omega)
    obtain ⟨p, hp1, hp2⟩ := hq.getD (show n - 1 < n by omega) 0
    have hsrc := hp s (by omega)
    have hrow : (row result (2 * s + 1)).length = n := hsrc.1
    have hnew : (List.take (p + 1) (row result (2 * s + 1)) ++ List.replicate (n - (p + 1)) ((row result (2 * s + 1)).getD (p + 1 - 1) 0)).length = n := by
      rw [List.length_append, List.length_take, hrow, List.length_replicate]
      omega
    have hposn : PosRow n (List.take (p + 1) (row result (2 * s + 1)) ++
        List.replicate (n - (p + 1)) ((row result (2 * s + 1)).getD (p + 1 - 1) 0)) := by
      refine ⟨hnew, fun x hx => ?_⟩
      rcases List.mem_append.1 hx with h | h
      · exact hsrc.2 x (List.mem_of_mem_take h)
      · rw [List.eq_of_mem_replicate h]
        exact hsrc.getD (by omega) 0
    have hc : (⌊((p : ℕ) : R)⌋ + 1).toNat = p + 1 := by rw [Int.floor_natCast]; omega
    unfold translateInnerE translateInner
    rw [readAt_ok (show index + (s + 1) + 1 < tr.length by omega) [], ok_bind, readAt_ok (by rw [hq.1]; omega) 0, ok_bind]
    simp only [row] at hrow hnew hposn ⊢
    rw [hp2, hc, if_neg (by rw [Int.floor_natCast]; omega), readAt_ok (show 2 * s + 1 < result.length by omega) [], ok_bind,
      readAt_ok (by rw [hrow]; omega) 0, ok_bind, saveE_ok ht (by omega) hnew, ok_bind]
    have ih := translateInnerE_ok hn hl hr hp index s _ (by omega) (show index + s + 1 < (tr.set (index + (s + 1)) _).length by rw [List.length_set]; omega)
      (ht.set _ hnew) (fun _ => by
        rw [show index + s + 1 = index + (s + 1) by omega, getD_set_self (by omega)]
        exact hposn)
    exact ⟨ih.1, ih.2.1.trans (by simp), ih.2.2⟩

theorem translateLoopE_ok {n L : ℕ} (hn : 0 < n) {result : List (List R)} (hl : result.length = 2 * L) (hr : Rect result n)
    (hp : ∀ i < L, PosRow n (result.getD (2 * i + 1) [])) : ∀ (k : ℕ) (tr : List (List R)), k ≤ L → triIndex k ≤ tr.length → Rect tr n →
    translateLoopE n result k tr = .ok (translateLoop n result k tr)
  | 0, _, _, _, _ => rfl
  | k + 1, tr, hk, hi, ht => by
    rw [triIndex_succ] at hi
    have hr0 := row_len hr (show 2 * k < result.length by omega)
    have hr1 : PosRow n (row result (2 * k + 1)) := hp k (by omega)
    unfold translateLoopE translateLoop
    rw [readRow_ok (show 2 * k < result.length by omega), ok_bind, saveE_ok ht (by omega) hr0, ok_bind,
      readRow_ok (show 2 * k + 1 < result.length by omega), ok_bind, saveE_ok (ht.set _ hr0) (by rw [List.length_set]; omega) hr1.1, ok_bind]
    obtain ⟨e, l, r⟩ := translateInnerE_ok hn hl hr hp (triIndex k) k ((tr.set (triIndex k) (row result (2 * k))).set (triIndex k + k + 1) (row result (2 * k + 1)))
      (by omega) (by simp only [List.length_set]; omega) ((ht.set _ hr0).set _ hr1.1) (fun _ => by
        rw [getD_set_self (by rw [List.length_set]; omega)]
        exact hr1)
    rw [e, ok_bind]
    exact translateLoopE_ok hn hl hr hp k _ (by omega) (by rw [l]; simp only [List.length_set]; omega) r

theorem arcticArgmaxE_ok {Z : List (List R)} {word : List (List ℤ)} {alpha weights : List R} {n : ℕ}
    (h : KArgs Z word alpha weights 0 n) (hd : ∀ el ∈ word, el.all (· == 0) = false → el.length ≤ Z.length) :
    arcticArgmaxE Z word alpha weights = .ok (arcticArgmax Z word alpha weights) := by
  obtain ⟨e, l, r, p⟩ := argmaxLoopE_ok h hd
  have hnc := ncols_eq h.rect h.ne
  unfold arcticArgmaxE arcticArgmax
  rw [e, ok_bind, hnc]
  exact translateLoopE_ok h.pos l r p word.length _ le_rfl (by simp) fun x hx => by simp [List.eq_of_mem_replicate hx, zeros]

/-! ### Letters beyond the last dimension -/

theorem enumFoldE_err {α σ : Type} (f : ℕ → α → σ → Except Err σ) : ∀ (k : ℕ) (xs : List α) (s : σ) (j : ℕ) (hj : j < xs.length),
    (∀ s, ∃ e, f (k + j) xs[j] s = .error e) → ∃ e, enumFoldE f k xs s = .error e
  | _, [], _, _, hj, _ => by simp at hj
  | k, x :: xs, s, 0, _, h => by
    obtain ⟨e, he⟩ := h s
    refine ⟨e, ?_⟩
    simp only [Nat.add_zero, List.getElem_cons_zero] at he
    rw [enumFoldE, he, err_bind]
  | k, x :: xs, s, j + 1, hj, h => by
    rw [enumFoldE]
    cases hx : f k x s with
    | error e => exact ⟨e, rfl⟩
    | ok s' =>
      refine enumFoldE_err f (k + 1) xs s' j (by simpa using hj) fun s => ?_
      rw [show k + 1 + j = k + (j + 1) by omega]
      exact h s

theorem lettersMulE_err {Z : List (List R)} {el : List ℤ} {d : ℕ} (hd : Z.length ≤ d) (hel : el.getD d 0 ≠ 0) (t : List R) :
    ∃ e, lettersMulE Z el t = .error e := by
  have hlt : d < el.length := by
    by_contra hc
    exact hel (by simp [List.getD, List.getElem?_eq_none (not_lt.1 hc)])
  refine enumFoldE_err _ 0 el t d hlt fun s => ⟨.indexError, ?_⟩
  rw [Nat.zero_add]
  have h0 : el[d] ≠ 0 := by simpa [List.getD, hlt] using hel
  unfold letterMulE
  rw [readAt_err hd]
  split_ifs with h1 h2
  · rfl
  · rfl
  · omega

theorem lettersAddE_err {Z : List (List R)} {el : List ℤ} (hd : Z.length < el.length) (t : List R) : ∃ e, lettersAddE Z el t = .error e := by
  refine enumFoldE_err _ 0 el t Z.length hd fun s => ⟨.indexError, ?_⟩
  rw [Nat.zero_add, readAt_err le_rfl]
  rfl

/-- The extended letter makes the kernel of the semiring read a dimension that does not exist in data with `D` dimensions. -/
def ReadsOutside (k : SemiringKind) (el : List ℤ) (D : ℕ) : Prop :=
  match k with
  | .reals | .bayesian => ∃ d, D ≤ d ∧ el.getD d 0 ≠ 0
  | .arctic => D < el.length
  | .arcticArgmax => D < el.length ∧ ∃ x ∈ el, x ≠ 0

theorem not_readsOutside_mul {el : List ℤ} {D : ℕ} (h : ¬ ∃ d, D ≤ d ∧ el.getD d 0 ≠ 0) : ∀ d, el.getD d 0 ≠ 0 → d < D := fun d hd => by
  by_contra hc
  exact h ⟨d, by omega, hd⟩

theorem fastSingleE_ok (expf : R → R) {k : SemiringKind} {Z : List (List R)} {word : List (List ℤ)} {alpha weights : List R} {ext n : ℕ}
    (h : KArgs Z word alpha weights ext n) (hd : ∀ el ∈ word, ¬ ReadsOutside k el Z.length) (total : Bool) :
    fastSingleE expf k Z word alpha weights ext total = .ok (fastSingle expf k Z word alpha weights ext total) := by
  cases k <;> cases total <;> simp only [ReadsOutside] at hd
  · exact realsSingleE_ok expf h fun el hel => not_readsOutside_mul (hd el hel)
  · exact totalRealsE_ok expf h fun el hel => not_readsOutside_mul (hd el hel)
  · exact arcticSingleE_ok h fun el hel => not_lt.1 (hd el hel)
  · exact totalArcticE_ok h fun el hel => not_lt.1 (hd el hel)
  iterate 2
    refine arcticArgmaxE_ok ⟨h.rect, h.ne, h.pos, h.alpha, h.weights, Nat.zero_le _⟩ fun el hel hz => ?_
    by_contra hc
    obtain ⟨x, h1, h2⟩ := List.all_eq_false.1 hz
    exact hd el hel ⟨not_le.1 hc, x, h1, by simpa using h2⟩
  · exact bayesianSingleE_ok expf h fun el hel => not_readsOutside_mul (hd el hel)
  · exact totalBayesianE_ok expf h fun el hel => not_readsOutside_mul (hd el hel)

theorem bindErr {σ τ : Type} {x : Except Err σ} {f : σ → Except Err τ} (h : ∃ e, x = .error e) : ∃ e, (x >>= f) = .error e := by
  obtain ⟨e, h⟩ := h
  exact ⟨e, by rw [h, err_bind]⟩

theorem bindErr_of {σ τ : Type} {x : Except Err σ} {f : σ → Except Err τ} (h : ∀ a, ∃ e, f a = .error e) : ∃ e, (x >>= f) = .error e := by
  cases x with
  | error e => exact ⟨e, rfl⟩
  | ok a => exact h a

theorem fastSingleE_err (expf : R → R) {k : SemiringKind} {Z : List (List R)} {word : List (List ℤ)} (alpha weights : List R) (ext : ℕ)
    (hd : ∃ el ∈ word, ReadsOutside k el Z.length) (total : Bool) :
    ∃ e, fastSingleE expf k Z word alpha weights ext total = .error e := by
  obtain ⟨el, hel, hout⟩ := hd
  obtain ⟨j, hj, rfl⟩ := List.getElem_of_mem hel
  cases k <;> cases total <;> simp only [ReadsOutside, fastSingleE] at hout ⊢
  · obtain ⟨d, h1, h2⟩ := hout
    unfold realsSingleE
    refine bindErr (enumFoldE_err _ 0 word _ j hj fun s => ?_)
    split_ifs
    all_goals exact bindErr_of fun t => bindErr (lettersMulE_err h1 h2 t)
  · obtain ⟨d, h1, h2⟩ := hout
    unfold totalRealsE
    exact bindErr (enumFoldE_err _ 0 word _ j hj fun s => bindErr (lettersMulE_err h1 h2 s.1))
  · unfold arcticSingleE
    exact bindErr (enumFoldE_err _ 0 word _ j hj fun s => bindErr (lettersAddE_err hout s.1))
  · unfold totalArcticE
    exact bindErr (enumFoldE_err _ 0 word _ j hj fun s => bindErr (lettersAddE_err hout s.1))
  iterate 2
    obtain ⟨h1, x, h2, h3⟩ := hout
    unfold arcticArgmaxE argmaxLoopE
    refine bindErr (bindErr (enumFoldE_err _ 0 word _ j hj fun s => ?_))
    rw [if_neg (fun hall => h3 (by simpa using List.all_eq_true.1 hall x h2))]
    exact bindErr (lettersAddE_err h1 _)
  · obtain ⟨d, h1, h2⟩ := hout
    unfold bayesianSingleE
    exact bindErr (enumFoldE_err _ 0 word _ j hj fun s => bindErr (lettersMulE_err h1 h2 s.1))
  · obtain ⟨d, h1, h2⟩ := hout
    unfold totalBayesianE
    exact bindErr (enumFoldE_err _ 0 word _ j hj fun s => bindErr (lettersMulE_err h1 h2 s.1))

/-! ### `ISS.transform` -/

/-- A call of `ISS.transform` within the documented domain: data of shape `(·, D, n)` with `D, n ≥ 1`, words with extended letters (in EXTENDED mode
their strings show them), no extended letter that refers to a dimension beyond `D`, one alpha per extended letter and one lookup row of length `n`
per series if there is a weighting. -/
structure SafeCall (c : ISSConf R) (X : Data R) (D n : ℕ) : Prop where
  data : IsData X D n
  dims : 0 < D
  time : 0 < n
  letters : ∀ w ∈ c.words, w.len ≠ 0
  blocks : c.mode = .extended → ∀ w ∈ c.words, ∃ bs, HasBlocks w bs
  fits : ∀ s, IWord.simple s ∈ c.words → ∀ el ∈ s.els, ¬ ReadsOutside c.semiring el D
  alpha : c.weighting ≠ none → ∀ s, IWord.simple s ∈ c.words → s.getAlpha.length = s.els.length
  look : ∀ wt, c.weighting = some wt → LookupFor wt X n

theorem conf_depth_le {c : ISSConf R} (hl : ∀ w ∈ c.words, w.len ≠ 0) (hb : c.mode = .extended → ∀ w ∈ c.words, ∃ bs, HasBlocks w bs) {i : ℕ}
    (hi : i < c.words.length) : c.depth i ≤ (c.words[i]).len := by
  cases hmode : c.mode with
  | single => simp only [ISSConf.depth, hmode]; have := hl _ (List.getElem_mem hi); omega
  | extended =>
    obtain ⟨W, w1, w2, w3, w4⟩ := strs_eq (hb hmode)
    have : c.depth i = planDepth (W.map render) i := by
      simp only [ISSConf.depth, hmode, ISSConf.plan, cachePlan]
      rw [w3]
      simp [List.getD_eq_getElem?_getD, w1, hi]
    rw [this, ← (w4 i hi).2.2]
    exact planDepth_le w2 i

theorem mapM_zipIdx_ok {α β : Type} (f : α → ℕ → Except Err β) (g : ℕ → α → β) : ∀ (l : List α) (m : ℕ),
    (∀ j (hj : j < l.length), f l[j] (m + j) = .ok (g (m + j) l[j])) →
    (l.zipIdx m).mapM (fun p : α × ℕ => f p.1 p.2) = .ok (l.mapIdx fun j a => g (m + j) a)
  | [], _, _ => rfl
  | a :: l, m, h => by
    have h0 := h 0 (by simp)
    simp only [Nat.add_zero, List.getElem_cons_zero] at h0
    rw [List.zipIdx_cons, List.mapM_cons, h0, ok_bind, mapM_zipIdx_ok f g l (m + 1) fun j hj => by
      have := h (j + 1) (by simpa using hj)
      rw [show m + 1 + j = m + (j + 1) by omega]
      simpa using this]
    rw [ok_bind, List.mapIdx_cons]
    simp only [Nat.add_zero, pure, Except.pure]
    congr 3
    funext j b
    rw [show m + 1 + j = m + (j + 1) by omega]

theorem mapM_err_of {α β : Type} {f : α → Except Err β} : ∀ {l : List α}, l ≠ [] → (∀ a ∈ l, ∃ e, f a = .error e) → ∃ e, l.mapM f = .error e
  | [], h, _ => absurd rfl h
  | a :: l, _, h => by
    rw [List.mapM_cons]
    exact bindErr (h a (by simp))

theorem seriesE_ok (expf : R → R) {k : SemiringKind} {X : Data R} {D n : ℕ} (hX : IsData X D n) (hD : 0 < D) (hn : 0 < n) {els : List (List ℤ)}
    {ext : ℕ} (he : ext ≤ els.length) (hfit : ∀ el ∈ els, ¬ ReadsOutside k el D) {alpha : List R} (ha : els.length ≤ alpha.length) {lookup : List (List R)}
    (hl : lookup.length = X.length) (hg : ∀ g ∈ lookup, g.length = n) (total : Bool) :
    (List.zipIdx X).mapM (fun (p : List (List R) × ℕ) => do fastSingleE expf k p.1 els alpha (← readAt lookup p.2) ext total) =
      .ok (X.mapIdx (fun j Z => fastSingle expf k Z els alpha (lookup.getD j []) ext total)) := by
  have key := mapM_zipIdx_ok (fun (Z : List (List R)) (j : ℕ) => do fastSingleE expf k Z els alpha (← readAt lookup j) ext total)
      (fun j Z => fastSingle expf k Z els alpha (lookup.getD j []) ext total) X 0 (by
    intro j hj
    obtain ⟨hZ1, hZ2⟩ := hX _ (List.getElem_mem hj)
    have hne : X[j] ≠ [] := by
      intro h
      rw [h] at hZ1
      simp at hZ1
      omega
    rw [Nat.zero_add, readAt_ok (by omega) ([] : List R), ok_bind]
    refine fastSingleE_ok expf ⟨hZ2, hne, hn, ha, hg _ ?_, he⟩ (fun el hel => by rw [hZ1]; exact hfit el hel) _
    rw [List.getD_eq_getElem?_getD, List.getElem?_eq_getElem (by omega)]
    exact List.getElem_mem _)
  simpa using key

theorem iteratedSumsE_ok (expf : R → R) {k : SemiringKind} {X : Data R} {D n : ℕ} (hX : IsData X D n) (hD : 0 < D) (hn : 0 < n) {word : IWord R}
    {ext : ℕ} (he : ext ≤ word.len) {wt : Option (Weighting R)} (hfit : ∀ s, word = .simple s → ∀ el ∈ s.els, ¬ ReadsOutside k el D)
    (ha : wt ≠ none → ∀ s, word = .simple s → s.getAlpha.length = s.els.length) (hl : ∀ t, wt = some t → LookupFor t X n) :
    iteratedSumsE expf k X word ext wt = .ok (iteratedSums expf k X word ext wt) := by
  cases word with
  | general w => rfl
  | simple s =>
    cases wt with
    | none =>
      refine seriesE_ok expf hX hD hn he (hfit s rfl) (by simp [zeros]) (by simp) (fun g hg => ?_) true
      obtain ⟨Z, hZ, rfl⟩ := List.mem_map.1 hg
      obtain ⟨h1, h2⟩ := hX Z hZ
      rw [ncols_eq h2 (by rintro rfl; simp at h1; omega)]
      simp [zeros]
    | some t => exact seriesE_ok expf hX hD hn he (hfit s rfl) (ha (by simp) s rfl).ge (hl t rfl).1 (hl t rfl).2 t.total

theorem batchLoopE_ok (expf : R → R) {c : ISSConf R} {X : Data R} {D n : ℕ} (h : SafeCall c X D n) : ∀ (ws : List (IWord R)) (i index : ℕ) (results : Data R),
    (∀ j (hj : j < ws.length), ∃ hi : i + j < c.words.length, ws[j] = c.words[i + j]) →
    c.batchLoopE expf X ws i index results = c.batchLoop expf X ws i index results
  | [], _, _, _, _ => rfl
  | w :: ws, i, index, results, hws => by
    obtain ⟨hi, hw⟩ := hws 0 (by simp)
    simp only [Nat.add_zero, List.getElem_cons_zero] at hi hw
    subst hw
    have hm := List.getElem_mem hi
    rw [ISSConf.batchLoopE, ISSConf.batchLoop, iteratedSumsE_ok expf h.data h.dims h.time (conf_depth_le h.letters h.blocks hi)
      (fun s hs => h.fits s (hs ▸ hm)) (fun hne s hs => h.alpha hne s (hs ▸ hm)) h.look, ok_bind]
    refine congrArg (Except.bind _) (funext fun r => ?_)
    refine batchLoopE_ok expf h ws _ _ _ fun j hj => ?_
    obtain ⟨h1, h2⟩ := hws (j + 1) (by simpa using hj)
    refine ⟨by omega, ?_⟩
    simp only [List.getElem_cons_succ] at h2
    rw [h2]
    congr 1
    omega

theorem batchE_ok (expf : R → R) {c : ISSConf R} {X : Data R} {D n : ℕ} (h : SafeCall c X D n) (i b : ℕ) : c.batchE expf X i b = c.batch expf X i b := by
  unfold ISSConf.batchE ISSConf.batch
  refine congrArg (Except.bind _) (funext fun m => batchLoopE_ok expf h _ _ _ _ fun j hj => ?_)
  simp only [List.length_take, List.length_drop] at hj
  exact ⟨by omega, by simp⟩

/-- C149 (partial: the property is false without the hypotheses on dimensions and alpha, `C149_outside`, `Demo.C149_false`).  On a call within the
documented domain no compiled kernel of any semiring, with or without weighting, reads or writes outside its arrays or combines arrays of different
lengths: the version that checks each access computes the same as the version that does not, for `transform` and for each batch. -/
theorem C149_inside_partial (expf : R → R) {c : ISSConf R} {X : Data R} {D n : ℕ} (h : SafeCall c X D n) :
    c.transformE expf X = c.transform expf X ∧ ∀ i b, c.batchE expf X i b = c.batch expf X i b := by
  refine ⟨?_, batchE_ok expf h⟩
  unfold ISSConf.transformE ISSConf.transform
  rw [batchE_ok expf h]

theorem batchLoopE_err (expf : R → R) {c : ISSConf R} {X : Data R} {D n : ℕ} (hX : IsData X D n) (hne : X ≠ []) {s : SWord R}
    (hout : ∃ el ∈ s.els, ReadsOutside c.semiring el D) : ∀ (ws : List (IWord R)) (i index : ℕ) (results : Data R),
    IWord.simple s ∈ ws → ∃ e, c.batchLoopE expf X ws i index results = .error e
  | [], _, _, _, h => by simp at h
  | w :: ws, i, index, results, h => by
    rw [ISSConf.batchLoopE]
    rcases List.mem_cons.1 h with rfl | h
    · refine bindErr ?_
      refine mapM_err_of (by simpa using hne) fun p hp => bindErr_of fun g => fastSingleE_err expf _ _ _ ?_ _
      rw [(hX p.1 (List.fst_mem_of_mem_zipIdx hp)).1]
      exact hout
    · exact bindErr_of fun a => bindErr_of fun r => batchLoopE_err expf hX hne hout ws _ _ _ h

/-- If a simple word has an extended letter that refers to a dimension beyond those of the data, the kernel reads outside its arrays (the version that
checks each access stops with an error); `ISS.transform` itself checks nothing. -/
theorem C149_outside (expf : R → R) {c : ISSConf R} {X : Data R} {D n : ℕ} (hX : IsData X D n) (hne : X ≠ []) {s : SWord R}
    (hs : IWord.simple s ∈ c.words) (hout : ∃ el ∈ s.els, ReadsOutside c.semiring el D) : ∃ e, c.transformE expf X = .error e := by
  unfold ISSConf.transformE
  rw [if_neg (by intro h; simp [List.length_eq_zero_iff.1 h] at hs)]
  unfold ISSConf.batchE
  exact bindErr_of fun m => batchLoopE_err expf hX hne hout _ _ _ _ (by simpa using hs)

namespace Demo.Memory

/-- Two series with one dimension. -/
def X : Data ℚ := [[[1, 2, 3]], [[4, 5, 6]]]

/-- Any lookup. -/
def wt : Weighting ℚ := { total := true, lookup := fun X => X.map fun Z => Z.getD 0 [] }

def conf (k : SemiringKind) (m : ISSMode) (v : Option (Weighting ℚ)) (ws : List (SWord ℚ)) : ISSConf ℚ := ⟨ws.map .simple, m, k, v⟩

/-- `SimpleWord("[1][11]")` and `SimpleWord("[1][-1]")`. -/
def good : List (SWord ℚ) := [⟨[[1], [2]], 1, "[1][11]".toList, none⟩, ⟨[[1], [-1]], 1, "[1][-1]".toList, some [2, 3]⟩]

theorem good_built : SWord.mk' ℚ List.dedup "[1][11]".toList = .ok ⟨[[1], [2]], 1, "[1][11]".toList, none⟩ ∧
    ((SWord.mk' ℚ List.dedup "[1][-1]".toList).bind fun w => w.setAlpha [2, 3]) = .ok ⟨[[1], [-1]], 1, "[1][-1]".toList, some [2, 3]⟩ := by
  decide +kernel

/-- The hypotheses of `C149_inside_partial` hold for a call in EXTENDED mode with a weighting, in each semiring. -/
example (k : SemiringKind) : SafeCall (conf k .extended (some wt) good) X 1 3 where
  data := by unfold IsData Rect; decide
  dims := by decide
  time := by decide
  letters := show ∀ w ∈ good.map IWord.simple, w.len ≠ 0 by decide
  blocks := fun _ w hw => by
    simp only [conf, good, List.map_cons, List.map_nil, List.mem_cons, List.not_mem_nil, or_false] at hw
    rcases hw with rfl | rfl
    · exact ⟨["1".toList, "11".toList], by simp [BlocksOK, BracketFree], rfl, rfl⟩
    · exact ⟨["1".toList, "-1".toList], by simp [BlocksOK, BracketFree], rfl, rfl⟩
  fits := fun s hs el hel => by
    simp only [conf, good, List.map_cons, List.map_nil, List.mem_cons, List.not_mem_nil, or_false, IWord.simple.injEq] at hs
    have hl : el.length = 1 := by
      rcases hs with rfl | rfl <;> simp only [List.mem_cons, List.not_mem_nil, or_false] at hel <;> rcases hel with rfl | rfl <;> rfl
    cases k <;> simp only [conf, ReadsOutside]
    · rintro ⟨d, h1, h2⟩
      exact h2 (by simp [List.getD, List.getElem?_eq_none (hl ▸ h1)])
    · omega
    · omega
    · rintro ⟨d, h1, h2⟩
      exact h2 (by simp [List.getD, List.getElem?_eq_none (hl ▸ h1)])
  alpha := fun _ s hs => by
    simp only [conf, good, List.map_cons, List.map_nil, List.mem_cons, List.not_mem_nil, or_false, IWord.simple.injEq] at hs
    rcases hs with rfl | rfl <;> rfl
  look := fun t ht => by
    cases ht
    unfold LookupFor wt X
    decide

/-- `SimpleWord("[2]")`: the data have one dimension. -/
def beyond : SWord ℚ := ⟨[[0, 1]], 2, "[2]".toList, none⟩

/-- `w = SimpleWord("[1]"); w.alpha = [1/2]; w.multiply("[1]")`. -/
def stale : SWord ℚ := ⟨[[1], [1]], 1, "[1][1]".toList, some [1/2]⟩

theorem built : SWord.mk' ℚ List.dedup "[2]".toList = .ok beyond ∧
    ((SWord.mk' ℚ List.dedup "[1]".toList).bind fun w => (w.setAlpha [1/2]).bind fun w => w.multiply List.dedup "[1]".toList) = .ok stale := by
  decide +kernel

/-- The property without the hypotheses is false: `ISS([SimpleWord("[2]")])` on data with one dimension, and a weighted ISS with a word whose alpha
was set before the last `multiply`, return arrays although their kernels read outside `Z` and outside `alpha`. -/
theorem _root_.Fruits.Demo.C149_false :
    ((conf .reals .single none [beyond]).transformE (fun x => x) X = .error .indexError ∧
      ((conf .reals .single none [beyond]).transform (fun x => x) X).isOk = true) ∧
    ((conf .arctic .single (some wt) [stale]).transformE (fun x => x) X = .error .indexError ∧
      ((conf .arctic .single (some wt) [stale]).transform (fun x => x) X).isOk = true) := by
  decide +kernel

/-- A word inside: both versions compute the same array. -/
example : (conf .arcticArgmax .extended none good).transformE (fun x => x) X = (conf .arcticArgmax .extended none good).transform (fun x => x) X ∧
    ((conf .arcticArgmax .extended none good).transform (fun x => x) X).isOk = true := by decide +kernel

end Demo.Memory

end Fruits
