import Verif.Missing
import Verif.KernelClosed

/-! # C169: missing values in iterated sums (semiring `Reals`) -/

namespace Fruits
set_option linter.unusedSectionVars false

variable {R : Type} [Field R] [LinearOrder R] [IsStrictOrderedRing R]

/-! ## Specification -/

/-- The value of dimension `d` at time `t` is missing. -/
def IsMissing (Z : List (List (Mv R))) (d t : ℕ) : Prop := (Z.getD d []).getD t 0 = Mv.nan

/-- A value of a dimension that the extended letter `el` names is missing at time `t`. -/
def LetterMissing (Z : List (List (Mv R))) (el : List ℤ) (t : ℕ) : Prop := ∃ d, el.getD d 0 ≠ 0 ∧ IsMissing Z d t

/-- `Y` is the series `Z` (`n` time steps) with arbitrary numbers for the missing values. -/
structure Completes (n : ℕ) (Z : List (List (Mv R))) (Y : List (List R)) : Prop where
  dims : Y.length = Z.length
  rect : Rect Z n
  rectY : Rect Y n
  same : ∀ d t x, (Z.getD d []).getD t 0 = Mv.num x → entry Y d t = x

/-! ## Proof -/

namespace Mv

open Classical in
/-- `nan` if `b`, else the number `x`. -/
noncomputable def orNan (b : Prop) (x : R) : Mv R := if b then nan else num x

theorem mk_true {b : Prop} (h : b) (x : R) : orNan b x = nan := if_pos h
theorem mk_false {b : Prop} (h : ¬ b) (x : R) : orNan b x = num x := if_neg h
theorem num_eq (x : R) : num x = orNan False x := (mk_false id x).symm

theorem mk_congr {b c : Prop} (h : b ↔ c) {x y : R} (hxy : x = y) : orNan b x = orNan c y := by
  subst hxy
  rw [propext h]

theorem lift₂_mk (op : R → R → R) (b c : Prop) (x y : R) : lift₂ op (orNan b x) (orNan c y) = orNan (b ∨ c) (op x y) := by
  by_cases hb : b
  · rw [mk_true hb, mk_true (Or.inl hb)]; rfl
  by_cases hc : c
  · rw [mk_true hc, mk_true (Or.inr hc), mk_false hb]; rfl
  rw [mk_false hb, mk_false hc, mk_false (not_or.2 ⟨hb, hc⟩)]; rfl

theorem add_mk (b c : Prop) (x y : R) : orNan b x + orNan c y = orNan (b ∨ c) (x + y) := lift₂_mk _ _ _ _ _
theorem sub_mk (b c : Prop) (x y : R) : orNan b x - orNan c y = orNan (b ∨ c) (x - y) := lift₂_mk _ _ _ _ _
theorem mul_mk (b c : Prop) (x y : R) : orNan b x * orNan c y = orNan (b ∨ c) (x * y) := lift₂_mk _ _ _ _ _
theorem div_mk (b c : Prop) (x y : R) : orNan b x / orNan c y = orNan (b ∨ c) (x / y) := lift₂_mk _ _ _ _ _
theorem zero_mk : (0 : Mv R) = orNan False 0 := num_eq 0
theorem one_mk : (1 : Mv R) = orNan False 1 := num_eq 1

theorem eq_mk (a : Mv R) (x : R) (h : ∀ y, a = num y → x = y) : a = orNan (a = nan) x := by
  cases a with
  | nan => rw [mk_true rfl]
  | num y => rw [mk_false (by simp), h y rfl]

end Mv

open Mv

/-- `x` is `y` with `nan` at the times of `b`. -/
def Sim (n : ℕ) (b : ℕ → Prop) (x : List (Mv R)) (y : List R) : Prop := ∃ v : ℕ → R, x = tab n (fun t => orNan (b t) (v t)) ∧ y = tab n v

theorem Sim.congr {n : ℕ} {b c : ℕ → Prop} {x : List (Mv R)} {y : List R} (h : Sim n b x y) (hbc : ∀ t, b t ↔ c t) : Sim n c x y := by
  obtain ⟨v, hx, hy⟩ := h
  exact ⟨v, by rw [hx]; exact tab_congr fun t _ => mk_congr (hbc t) rfl, hy⟩

theorem Sim.mulNum {n : ℕ} {b : ℕ → Prop} {x : List (Mv R)} {y : List R} (h : Sim n b x y) (g : ℕ → R) :
    Sim n b (vmul x (nums (tab n g))) (vmul y (tab n g)) := by
  obtain ⟨v, hx, hy⟩ := h
  refine ⟨fun t => v t * g t, ?_, by rw [hy, vmul_tab]⟩
  rw [hx, nums, map_tab, vmul_tab]
  exact tab_congr fun t _ => by rw [num_eq, mul_mk]; exact mk_congr (by simp) rfl

theorem Completes.row_eq {n : ℕ} {Z : List (List (Mv R))} {Y : List (List R)} (h : Completes n Z Y) {d : ℕ} (hd : d < Z.length) :
    row Z d = tab n fun t => orNan (IsMissing Z d t) (entry Y d t) := by
  have hl : (row Z d).length = n := by
    have : row Z d ∈ Z := by
      simp only [row, List.getD, List.getElem?_eq_getElem hd, Option.getD_some]
      exact List.getElem_mem hd
    exact h.rect _ this
  rw [← hl, tab_of_list (row Z d) 0, hl]
  simp only [tab_length]
  exact tab_congr fun t _ => eq_mk _ _ fun x hx => h.same d t x hx

theorem Sim.mulRow {n : ℕ} {b : ℕ → Prop} {x : List (Mv R)} {y : List R} (h : Sim n b x y) {Z : List (List (Mv R))} {Y : List (List R)}
    (hZ : Completes n Z Y) {d : ℕ} (hd : d < Z.length) :
    Sim n (fun t => b t ∨ IsMissing Z d t) (vmul x (row Z d)) (vmul y (row Y d)) ∧
      Sim n (fun t => b t ∨ IsMissing Z d t) (vdiv x (row Z d)) (vdiv y (row Y d)) := by
  obtain ⟨v, hx, hy⟩ := h
  have hY := row_tab hZ.rectY (hZ.dims ▸ hd)
  refine ⟨⟨fun t => v t * entry Y d t, ?_, by rw [hy, hY, vmul_tab]⟩, ⟨fun t => v t / entry Y d t, ?_, by rw [hy, hY, vdiv_tab]⟩⟩
  · rw [hx, hZ.row_eq hd, vmul_tab]
    exact tab_congr fun t _ => mul_mk _ _ _ _
  · rw [hx, hZ.row_eq hd, vdiv_tab]
    exact tab_congr fun t _ => div_mk _ _ _ _

/-- Repeated multiplication with (division by) one dimension. -/
private theorem sim_iter {n : ℕ} {b m : ℕ → Prop} (f : List (Mv R) → List (Mv R)) (g : List R → List R)
    (hfg : ∀ b x y, Sim n b x y → Sim n (fun t => b t ∨ m t) (f x) (g y)) {x : List (Mv R)} {y : List R} (h : Sim n b x y) (k : ℕ) :
    Sim n (fun t => b t ∨ (k ≠ 0 ∧ m t)) (f^[k] x) (g^[k] y) := by
  induction k with
  | zero => exact h.congr fun t => by simp
  | succ k ih =>
    rw [Function.iterate_succ_apply', Function.iterate_succ_apply']
    exact (hfg _ _ _ ih).congr fun t => by simp only [ne_eq, Nat.succ_ne_zero, not_false_eq_true, true_and]; tauto

theorem Sim.letterMul {n : ℕ} {b : ℕ → Prop} {x : List (Mv R)} {y : List R} (h : Sim n b x y) {Z : List (List (Mv R))} {Y : List (List R)}
    (hZ : Completes n Z Y) {d : ℕ} (hd : d < Z.length) (occ : ℤ) :
    Sim n (fun t => b t ∨ (occ ≠ 0 ∧ IsMissing Z d t)) (letterMul Z d occ x) (letterMul Y d occ y) := by
  unfold Fruits.letterMul
  by_cases h1 : occ > 0
  · rw [if_pos h1, if_pos h1]
    refine (sim_iter _ _ (fun b x y h => (h.mulRow hZ hd).1) h occ.toNat).congr fun t => ?_
    have : occ.toNat ≠ 0 ↔ occ ≠ 0 := by omega
    simp only [this]
  rw [if_neg h1, if_neg h1]
  by_cases h2 : occ < 0
  · rw [if_pos h2, if_pos h2]
    refine (sim_iter _ _ (fun b x y h => (h.mulRow hZ hd).2) h (-occ).toNat).congr fun t => ?_
    have : (-occ).toNat ≠ 0 ↔ occ ≠ 0 := by omega
    simp only [this]
  rw [if_neg h2, if_neg h2]
  have : occ = 0 := by omega
  exact h.congr fun t => by simp [this]

/-- Two loops over the same list. -/
theorem enumFold_two {α σ τ : Type*} (f : ℕ → α → σ → σ) (g : ℕ → α → τ → τ) (Rel : ℕ → σ → τ → Prop) (xs : List α) :
    ∀ (k : ℕ) (s : σ) (u : τ), Rel k s u → (∀ j (hj : j < xs.length) s u, Rel (k + j) s u → Rel (k + j + 1) (f (k + j) xs[j] s) (g (k + j) xs[j] u)) →
      Rel (k + xs.length) (enumFold f k xs s) (enumFold g k xs u) := by
  induction xs with
  | nil => intro k s u h _; exact h
  | cons x xs ih =>
    intro k s u h hstep
    have := ih (k + 1) (f k x s) (g k x u) (hstep 0 (by simp) s u h) fun j hj s u hr => by
      have := hstep (j + 1) (by simpa using hj) s u (by rwa [show k + (j + 1) = k + 1 + j by omega])
      rwa [show k + (j + 1) = k + 1 + j by omega] at this
    rwa [show k + 1 + xs.length = k + (x :: xs).length by simp; omega] at this

theorem Sim.lettersMul {n : ℕ} {b : ℕ → Prop} {x : List (Mv R)} {y : List R} (h : Sim n b x y) {Z : List (List (Mv R))} {Y : List (List R)}
    (hZ : Completes n Z Y) {el : List ℤ} (hel : Fits Z el) :
    Sim n (fun t => b t ∨ LetterMissing Z el t) (lettersMul Z el x) (lettersMul Y el y) := by
  have := enumFold_two (fun letter occ tmp => Fruits.letterMul Z letter occ tmp) (fun letter occ tmp => Fruits.letterMul Y letter occ tmp)
    (fun k x y => Sim n (fun t => b t ∨ ∃ d < k, el.getD d 0 ≠ 0 ∧ IsMissing Z d t) x y) el 0 x y
    (h.congr fun t => by simp) (by
      intro j hj s u hs
      simp only [zero_add] at hs ⊢
      refine (hs.letterMul hZ (d := j) (by unfold Fits at hel; omega) el[j]).congr fun t => ?_
      have hg : el.getD j 0 = el[j] := by simp [List.getD, hj]
      constructor
      · rintro ((h | ⟨d, hd, h⟩) | h)
        · exact Or.inl h
        · exact Or.inr ⟨d, by omega, h⟩
        · exact Or.inr ⟨j, by omega, by rw [hg]; exact h⟩
      · rintro (h | ⟨d, hd, h⟩)
        · exact Or.inl (Or.inl h)
        · by_cases hdj : d = j
          · subst hdj; rw [hg] at h; exact Or.inr h
          · exact Or.inl (Or.inr ⟨d, by omega, h⟩))
  refine this.congr fun t => or_congr_right ⟨?_, ?_⟩
  · rintro ⟨d, _, h⟩; exact ⟨d, h⟩
  · rintro ⟨d, h⟩
    refine ⟨d, ?_, h⟩
    by_contra hd
    exact h.1 (by simp [List.getD, List.getElem?_eq_none (by omega : el.length ≤ d)])

private theorem cumsumFrom_mk (n : ℕ) : ∀ (b : ℕ → Prop) (v : ℕ → R) (a : Prop) (z : R),
    cumsumFrom (orNan a z) (tab n fun t => orNan (b t) (v t))
      = tab n fun t => orNan (a ∨ ∃ u ≤ t, b u) (z + ∑ s ∈ Finset.range (t + 1), v s) := by
  induction n with
  | zero => intros; rfl
  | succ n ih =>
    intro b v a z
    rw [tab_succ', tab_succ', cumsumFrom, add_mk, ih]
    congr 1
    · exact mk_congr (by simp) (by simp)
    · refine tab_congr fun t _ => mk_congr ?_ ?_
      · constructor
        · rintro ((h | h) | ⟨u, hu, h⟩)
          · exact Or.inl h
          · exact Or.inr ⟨0, by omega, h⟩
          · exact Or.inr ⟨u + 1, by omega, h⟩
        · rintro (h | ⟨u, hu, h⟩)
          · exact Or.inl (Or.inl h)
          · cases u with
            | zero => exact Or.inl (Or.inr h)
            | succ u => exact Or.inr ⟨u, by omega, h⟩
      · rw [Finset.sum_range_succ' _ (t + 1)]; ring

theorem Sim.cumsum {n : ℕ} {b : ℕ → Prop} {x : List (Mv R)} {y : List R} (h : Sim n b x y) :
    Sim n (fun t => ∃ u ≤ t, b u) (cumsum x) (cumsum y) := by
  obtain ⟨v, hx, hy⟩ := h
  refine ⟨fun t => ∑ s ∈ Finset.range (t + 1), v s, ?_, by rw [hy, cumsum_tab]⟩
  rw [hx, Fruits.cumsum, zero_mk, cumsumFrom_mk]
  exact tab_congr fun t _ => mk_congr (by simp) (by simp)

theorem Sim.roll {n : ℕ} {b : ℕ → Prop} {x : List (Mv R)} {y : List R} (h : Sim n b x y) :
    Sim n (fun t => t ≠ 0 ∧ b (t - 1)) (roll1z x) (roll1z y) := by
  obtain ⟨v, hx, hy⟩ := h
  refine ⟨fun t => if t = 0 then 0 else v (t - 1), ?_, by rw [hy, roll1z_tab]⟩
  rw [hx, roll1z_tab]
  refine tab_congr fun t _ => ?_
  by_cases ht : t = 0
  · rw [if_pos ht, zero_mk]; exact mk_congr (by simp [ht]) (by simp [ht])
  · rw [if_neg ht]; exact mk_congr (by simp [ht]) (by simp [ht])

private theorem nums_getD (l : List R) (k : ℕ) : (nums l).getD k 0 = num (l.getD k 0) := by
  by_cases h : k < l.length
  · simp [nums, List.getD, h]
  · simp [nums, List.getD, List.getElem?_eq_none (by omega : l.length ≤ k)]; rfl

private theorem expW_nums (expf : R → R) (weights : List R) (a : R) : expW (lift expf) (nums weights) (num a) = nums (expW expf weights a) := by
  simp only [expW, nums, List.map_map]
  rfl

private theorem expNegW_nums (expf : R → R) (weights : List R) (a : R) :
    expNegW (lift expf) (nums weights) (num a) = nums (expNegW expf weights a) := by
  simp only [expNegW, nums, List.map_map]
  rfl

theorem Sim.mulExp {n : ℕ} {b : ℕ → Prop} {x : List (Mv R)} {y : List R} (h : Sim n b x y) (expf : R → R) {weights : List R}
    (hw : weights.length = n) (alpha : List R) (k : ℕ) :
    Sim n b (vmul x (expW (lift expf) (nums weights) ((nums alpha).getD k 0))) (vmul y (expW expf weights (alpha.getD k 0))) ∧
      Sim n b (vmul x (expNegW (lift expf) (nums weights) ((nums alpha).getD k 0))) (vmul y (expNegW expf weights (alpha.getD k 0))) := by
  rw [nums_getD, expW_nums, expNegW_nums]
  constructor
  · have e : expW expf weights (alpha.getD k 0) = tab n fun t => (expW expf weights (alpha.getD k 0)).getD t 0 := by
      rw [← hw]; conv_lhs => rw [tab_of_list (expW expf weights (alpha.getD k 0)) 0]
      rw [show (expW expf weights (alpha.getD k 0)).length = weights.length by simp [expW]]
    rw [e]; exact h.mulNum _
  · have e : expNegW expf weights (alpha.getD k 0) = tab n fun t => (expNegW expf weights (alpha.getD k 0)).getD t 0 := by
      rw [← hw]; conv_lhs => rw [tab_of_list (expNegW expf weights (alpha.getD k 0)) 0]
      rw [show (expNegW expf weights (alpha.getD k 0)).length = weights.length by simp [expNegW]]
    rw [e]; exact h.mulNum _

/-- The letter `j` misses a value that the first `k` letters have added up at time `t`. -/
def Spoils (Z : List (List (Mv R))) (word : List (List ℤ)) (k t : ℕ) : Prop :=
  ∃ j < k, ∃ u, u + (k - 1 - j) ≤ t ∧ LetterMissing Z (word.getD j []) u

theorem spoils_succ (Z : List (List (Mv R))) (word : List (List ℤ)) (k t : ℕ) :
    (∃ u ≤ t, (u ≠ 0 ∧ Spoils Z word k (u - 1)) ∨ LetterMissing Z (word.getD k []) u) ↔ Spoils Z word (k + 1) t := by
  constructor
  · rintro ⟨u, hu, ⟨hu0, j, hj, x, hx, h⟩ | h⟩
    · exact ⟨j, by omega, x, by omega, h⟩
    · exact ⟨k, by omega, u, by omega, h⟩
  · rintro ⟨j, hj, x, hx, h⟩
    by_cases hjk : j = k
    · subst hjk; exact ⟨x, by omega, Or.inr h⟩
    · exact ⟨t, le_rfl, Or.inl ⟨by omega, j, by omega, x, by omega, h⟩⟩

/-- Rows of the result after `k` letters. -/
def SavedSim (n p ext k : ℕ) (Out : ℕ → ℕ → Prop) (x : List (List (Mv R))) (y : List (List R)) : Prop :=
  x.length = ext ∧ y.length = ext ∧ ∀ r < ext, p - ext + r < k → Sim n (Out (p - ext + r)) (x.getD r []) (y.getD r [])

theorem SavedSim.step {n p ext k : ℕ} {Out : ℕ → ℕ → Prop} {x : List (List (Mv R))} {y : List (List R)} (h : SavedSim n p ext k Out x y)
    (hk : k < p) (he : ext ≤ p) {a : List (Mv R)} {c : List R} (hac : Sim n (Out k) a c) :
    SavedSim n p ext (k + 1) Out (if p - k ≤ ext then x.set (ext - (p - k)) a else x) (if p - k ≤ ext then y.set (ext - (p - k)) c else y) := by
  obtain ⟨h1, h2, h3⟩ := h
  by_cases hc : p - k ≤ ext
  · rw [if_pos hc, if_pos hc]
    refine ⟨by simpa using h1, by simpa using h2, fun r hr hrk => ?_⟩
    by_cases e : ext - (p - k) = r
    · subst e
      have : p - ext + (ext - (p - k)) = k := by omega
      rw [this]
      simpa [List.getD, h1, h2, hr] using hac
    · have := h3 r hr (by omega)
      simpa [List.getD, List.getElem?_set_ne e] using this
  · rw [if_neg hc, if_neg hc]
    exact ⟨h1, h2, fun r hr hrk => h3 r hr (by omega)⟩

private theorem getD_at {word : List (List ℤ)} {k : ℕ} (hk : k < word.length) : word.getD k [] = word[k] := by simp [List.getD, hk]

theorem Completes.ne {n : ℕ} {Z : List (List (Mv R))} {Y : List (List R)} (h : Completes n Z Y) (hne : Z ≠ []) : Y ≠ [] := by
  intro hY
  have := h.dims
  rw [hY] at this
  exact hne (List.length_eq_zero_iff.1 this.symm)

theorem realsSingle_sim (expf : R → R) {n : ℕ} {Z : List (List (Mv R))} {Y : List (List R)} (hZ : Completes n Z Y) (hne : Z ≠ [])
    {word : List (List ℤ)} (hfit : ∀ el ∈ word, Fits Z el) (alpha : List R) {weights : List R} (hw : weights.length = n) {ext : ℕ}
    (he : ext ≤ word.length) :
    SavedSim n word.length ext word.length (fun q t => Spoils Z word (q + 1) t)
      (realsSingle (lift expf) Z word (nums alpha) (nums weights) ext) (realsSingle expf Y word alpha weights ext) := by
  have key := enumFold_two
    (fun k el (s : List (Mv R) × List (List (Mv R))) =>
      let tmp := s.1
      let result := s.2
      let tmp := if k > 0 then roll1z tmp else tmp
      let tmp := Fruits.lettersMul Z el tmp
      let tmp := if k > 0 then vmul tmp (expNegW (lift expf) (nums weights) ((nums alpha).getD (k - 1) 0)) else tmp
      let result := if word.length - k ≤ ext then result.set (ext - (word.length - k)) (Fruits.cumsum tmp) else result
      let tmp := if k < word.length - 1 then Fruits.cumsum (vmul tmp (expW (lift expf) (nums weights) ((nums alpha).getD k 0))) else tmp
      (tmp, result))
    (fun k el (s : List R × List (List R)) =>
      let tmp := s.1
      let result := s.2
      let tmp := if k > 0 then roll1z tmp else tmp
      let tmp := Fruits.lettersMul Y el tmp
      let tmp := if k > 0 then vmul tmp (expNegW expf weights (alpha.getD (k - 1) 0)) else tmp
      let result := if word.length - k ≤ ext then result.set (ext - (word.length - k)) (Fruits.cumsum tmp) else result
      let tmp := if k < word.length - 1 then Fruits.cumsum (vmul tmp (expW expf weights (alpha.getD k 0))) else tmp
      (tmp, result))
    (fun k s u => (k < word.length → Sim n (fun t => Spoils Z word k t) s.1 u.1) ∧ SavedSim n word.length ext k (fun q t => Spoils Z word (q + 1) t) s.2 u.2)
    word 0 (ones (ncols Z), List.replicate ext (zeros (ncols Z))) (ones (ncols Y), List.replicate ext (zeros (ncols Y)))
    ⟨fun _ => ⟨fun _ => 1, by
        rw [ones_eq, ncols_eq hZ.rect hne]
        exact tab_congr fun t _ => by rw [one_mk]; exact mk_congr ⟨False.elim, fun ⟨j, hj, _⟩ => by omega⟩ rfl,
      by rw [ones_eq, ncols_eq hZ.rectY (hZ.ne hne)]⟩, by simp, by simp, fun r _ h => by omega⟩
    (by
      rintro k hk ⟨x, rx⟩ ⟨y, ry⟩ ⟨h1, h2⟩
      simp only [zero_add] at h1 h2 hk ⊢
      have h1 := h1 hk
      have hfk := hfit _ (List.getElem_mem hk)
      have hroll : Sim n (fun t => t ≠ 0 ∧ Spoils Z word k (t - 1)) (if k > 0 then roll1z x else x) (if k > 0 then roll1z y else y) := by
        by_cases h0 : k > 0
        · rw [if_pos h0, if_pos h0]; exact h1.roll
        · rw [if_neg h0, if_neg h0]
          have hno : ∀ t, ¬ Spoils Z word k t := fun t ⟨j, hj, _⟩ => by omega
          exact h1.congr fun t => by simp [hno]
      have hlet := hroll.lettersMul hZ hfk
      have htmp : Sim n (fun t => (t ≠ 0 ∧ Spoils Z word k (t - 1)) ∨ LetterMissing Z word[k] t)
          (if k > 0 then vmul (Fruits.lettersMul Z word[k] (if k > 0 then roll1z x else x))
            (expNegW (lift expf) (nums weights) ((nums alpha).getD (k - 1) 0)) else Fruits.lettersMul Z word[k] (if k > 0 then roll1z x else x))
          (if k > 0 then vmul (Fruits.lettersMul Y word[k] (if k > 0 then roll1z y else y))
            (expNegW expf weights (alpha.getD (k - 1) 0)) else Fruits.lettersMul Y word[k] (if k > 0 then roll1z y else y)) := by
        by_cases h0 : k > 0
        · simp only [if_pos h0] at hlet ⊢
          exact (hlet.mulExp expf hw alpha (k - 1)).2
        · simp only [if_neg h0] at hlet ⊢
          exact hlet
      refine ⟨fun hk' => ?_, h2.step hk he (htmp.cumsum.congr fun t => by rw [← getD_at hk]; exact spoils_succ Z word k t)⟩
      have hlt : k < word.length - 1 := by omega
      rw [if_pos hlt, if_pos hlt]
      refine ((htmp.mulExp expf hw alpha k).1.cumsum).congr fun t => ?_
      rw [← getD_at hk]
      exact spoils_succ Z word k t)
  rw [zero_add] at key
  exact key.2

theorem totalReals_sim (expf : R → R) {n : ℕ} {Z : List (List (Mv R))} {Y : List (List R)} (hZ : Completes n Z Y) (hne : Z ≠ [])
    {word : List (List ℤ)} (hfit : ∀ el ∈ word, Fits Z el) (alpha : List R) {weights : List R} (hw : weights.length = n) {ext : ℕ}
    (he : ext ≤ word.length) :
    SavedSim n word.length ext word.length (fun q t => Spoils Z word (q + 1) t)
      (totalReals (lift expf) Z word (nums alpha) (nums weights) ext) (totalReals expf Y word alpha weights ext) := by
  have key := enumFold_two
    (fun k el (s : List (Mv R) × List (List (Mv R))) =>
      let tmp := s.1
      let result := s.2
      let tmp := Fruits.lettersMul Z el tmp
      let tmp := vmul tmp (expW (lift expf) (nums weights) ((nums alpha).getD k 0))
      let tmp := Fruits.cumsum tmp
      let result := if word.length - k ≤ ext
        then result.set (ext - (word.length - k)) (vmul tmp (expNegW (lift expf) (nums weights) ((nums alpha).getD k 0))) else result
      let tmp := if k < word.length - 1 then vmul (roll1z tmp) (expNegW (lift expf) (nums weights) ((nums alpha).getD k 0)) else tmp
      (tmp, result))
    (fun k el (s : List R × List (List R)) =>
      let tmp := s.1
      let result := s.2
      let tmp := Fruits.lettersMul Y el tmp
      let tmp := vmul tmp (expW expf weights (alpha.getD k 0))
      let tmp := Fruits.cumsum tmp
      let result := if word.length - k ≤ ext
        then result.set (ext - (word.length - k)) (vmul tmp (expNegW expf weights (alpha.getD k 0))) else result
      let tmp := if k < word.length - 1 then vmul (roll1z tmp) (expNegW expf weights (alpha.getD k 0)) else tmp
      (tmp, result))
    (fun k s u => (k < word.length → Sim n (fun t => t ≠ 0 ∧ Spoils Z word k (t - 1)) s.1 u.1) ∧
      SavedSim n word.length ext k (fun q t => Spoils Z word (q + 1) t) s.2 u.2)
    word 0 (ones (ncols Z), List.replicate ext (zeros (ncols Z))) (ones (ncols Y), List.replicate ext (zeros (ncols Y)))
    ⟨fun _ => ⟨fun _ => 1, by
        rw [ones_eq, ncols_eq hZ.rect hne]
        exact tab_congr fun t _ => by rw [one_mk]; exact mk_congr ⟨False.elim, fun ⟨_, j, hj, _⟩ => by omega⟩ rfl,
      by rw [ones_eq, ncols_eq hZ.rectY (hZ.ne hne)]⟩, by simp, by simp, fun r _ h => by omega⟩
    (by
      rintro k hk ⟨x, rx⟩ ⟨y, ry⟩ ⟨h1, h2⟩
      simp only [zero_add] at h1 h2 hk ⊢
      have h1 := h1 hk
      have hfk := hfit _ (List.getElem_mem hk)
      have hcum := (((h1.lettersMul hZ hfk).mulExp expf hw alpha k).1.cumsum).congr
        (c := fun t => Spoils Z word (k + 1) t) fun t => by rw [← getD_at hk]; exact spoils_succ Z word k t
      refine ⟨fun hk' => ?_, h2.step hk he (hcum.mulExp expf hw alpha k).2⟩
      have hlt : k < word.length - 1 := by omega
      rw [if_pos hlt, if_pos hlt]
      exact (hcum.roll.mulExp expf hw alpha k).2)
  rw [zero_add] at key
  exact key.2

/-! ## C169 -/

/-- **C169** (semiring `Reals`, any weighting, `total` or not).  Row `r` of the result belongs to the first `q + 1` extended letters, `q = p - ext + r`.
Its value at time `t` is `nan` exactly if a dimension named by letter `j ≤ q` is missing at a time `u` with `u + (q - j) ≤ t`, i.e. early enough for
the later letters; otherwise it is the number that any completion of the series has there.  Missing values elsewhere (in other dimensions, or
later) have no effect. -/
theorem C169_reals (expf : R → R) {n : ℕ} {Z : List (List (Mv R))} {Y : List (List R)} (hZ : Completes n Z Y) (hne : Z ≠ [])
    {word : List (List ℤ)} (hfit : ∀ el ∈ word, Fits Z el) (alpha : List R) {weights : List R} (hw : weights.length = n) {ext : ℕ}
    (he : ext ≤ word.length) (total : Bool) {r t : ℕ} (hr : r < ext) (ht : t < n) :
    let out := ((Mv.fastSum expf .reals Z word alpha weights ext total).getD r []).getD t 0
    let exact := (((if total then totalReals expf Y word alpha weights ext else realsSingle expf Y word alpha weights ext).getD r []).getD t 0)
    let q := word.length - ext + r
    (out = Mv.nan ↔ ∃ j ≤ q, ∃ u, u + (q - j) ≤ t ∧ LetterMissing Z (word.getD j []) u) ∧ (out ≠ Mv.nan → out = Mv.num exact) := by
  have main : ∀ (x : List (List (Mv R))) (y : List (List R)), SavedSim n word.length ext word.length (fun q t => Spoils Z word (q + 1) t) x y →
      ((x.getD r []).getD t 0 = Mv.nan ↔
        ∃ j ≤ word.length - ext + r, ∃ u, u + (word.length - ext + r - j) ≤ t ∧ LetterMissing Z (word.getD j []) u) ∧
      ((x.getD r []).getD t 0 ≠ Mv.nan → (x.getD r []).getD t 0 = Mv.num ((y.getD r []).getD t 0)) := by
    intro x y h
    obtain ⟨v, hx, hy⟩ := h.2.2 r hr (by omega)
    rw [hx, hy, tab_getD _ _ _ _ ht, tab_getD _ _ _ _ ht]
    have hs : Spoils Z word (word.length - ext + r + 1) t ↔
        ∃ j ≤ word.length - ext + r, ∃ u, u + (word.length - ext + r - j) ≤ t ∧ LetterMissing Z (word.getD j []) u := by
      constructor
      · rintro ⟨j, hj, u, hu, h⟩; exact ⟨j, by omega, u, by omega, h⟩
      · rintro ⟨j, hj, u, hu, h⟩; exact ⟨j, by omega, u, by omega, h⟩
    rw [← hs]
    by_cases hb : Spoils Z word (word.length - ext + r + 1) t
    · rw [mk_true hb]; simp [hb]
    · rw [mk_false hb]; simp [hb]
  cases total with
  | true => exact main _ _ (totalReals_sim expf hZ hne hfit alpha hw he)
  | false => exact main _ _ (realsSingle_sim expf hZ hne hfit alpha hw he)

end Fruits
