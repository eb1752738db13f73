import Verif.Props.MissingPrep4

/-! # C171: missing values and preparateurs, part 5: where `STD`, `NRM` and `LAG` return missing values -/

namespace Fruits
set_option linter.unusedSectionVars false
open Mv

variable {R : Type} [Field R] [LinearOrder R] [IsStrictOrderedRing R] [FloorRing R]

theorem row_known {x : List (Mv R)} (h : nan ∉ x) : ∃ y : List R, RowOf False x y := by
  induction x with
  | nil => exact ⟨[], .nil⟩
  | cons a x ih =>
    obtain ⟨y, hy⟩ := ih fun hx => h (List.mem_cons_of_mem _ hx)
    rcases a with v | _
    · exact ⟨v :: y, .cons (.inl rfl) hy⟩
    · exact absurd List.mem_cons_self h

theorem row_not_nan {x : List (Mv R)} {y : List R} (h : RowOf False x y) {v : Mv R} (hv : v ∈ x) : v ≠ nan := by
  induction h with
  | nil => cases hv
  | cons h _ ih =>
    rcases List.mem_cons.1 hv with rfl | hv
    · rcases h with rfl | h
      · exact fun h => nomatch h
      · exact h.1.elim
    · exact ih hv

theorem mv_div_nan (a b : Mv R) : a / b = nan ↔ a = nan ∨ b = nan := by
  cases a <;> cases b <;> simp [HDiv.hDiv, Div.div, Mv.lift₂]

theorem std_row_nan [NpMath R] (p : MSTD R) (x : List (Mv R)) {v : Mv R} (hv : v ∈ p.row x) : v = nan ↔ nan ∈ x := by
  obtain ⟨u, hu, rfl⟩ := List.mem_map.1 hv
  constructor
  · intro h
    by_contra hx
    obtain ⟨y, hy⟩ := row_known hx
    have hrow : RowOf False (p.row x) (y.map fun v => (v - Fruits.mean y) / ((if p.var then Fruits.npStd y else 1) + p.eps)) := by
      refine rel_map (fun a c hac => ?_) hy
      refine entry_lift₂ (entry_lift₂ hac (rel_mean hy)) (entry_lift₂ ?_ (entry_num _))
      cases p.var
      · exact entry_num 1
      · exact rel_npStd hy
    exact row_not_nan hrow hv h
  · intro h
    rw [mv_div_nan, mv_sub_nan]
    exact .inl (.inr (mv_mean_nan h))

theorem foldl_lift_nan (op : R → R → R) : ∀ (x : List (Mv R)) (a : Mv R), a = nan ∨ nan ∈ x → x.foldl (lift₂ op) a = nan
  | [], a, h => h.resolve_right fun h => nomatch h
  | b :: x, a, h => by
    rw [List.foldl_cons]
    refine foldl_lift_nan op x _ ?_
    rcases h with rfl | h
    · exact .inl (by cases b <;> rfl)
    · rcases List.mem_cons.1 h with rfl | h
      · exact .inl (by cases a <;> rfl)
      · exact .inr h

theorem minE_nan {x : List (Mv R)} (h : nan ∈ x) : Mv.minE x = .ok nan := by
  cases x with
  | nil => cases h
  | cons a x => exact congrArg _ (foldl_lift_nan min x a ((List.mem_cons.1 h).imp Eq.symm id))

theorem maxE_nan {x : List (Mv R)} (h : nan ∈ x) : Mv.maxE x = .ok nan := by
  cases x with
  | nil => cases h
  | cons a x => exact congrArg _ (foldl_lift_nan max x a ((List.mem_cons.1 h).imp Eq.symm id))

/-- The row is scaled with its own least and greatest value. -/
theorem nrm_row_nan {x y : List (Mv R)} (h : (do
    let lo ← Mv.minE x
    let hi ← Mv.maxE x
    pure (x.map (nrmEntry lo hi))) = Except.ok y) {v : Mv R} (hv : v ∈ y) : v = nan ↔ nan ∈ x := by
  constructor
  · intro hn
    by_contra hx
    obtain ⟨z, hz⟩ := row_known hx
    have h1 := rel_minE hz
    have h2 := rel_maxE hz
    rcases e1 : Mv.minE x with e | lo
    · rw [e1] at h; cases h
    rcases e2 : Mv.maxE x with e | hi
    · rw [e1, ok_bind, e2] at h; cases h
    rw [e1, ok_bind, e2, ok_bind] at h
    cases h
    rw [e1] at h1
    rw [e2] at h2
    generalize Fruits.minE z = a at h1
    generalize Fruits.maxE z = c at h2
    rcases a with e | lo'
    · cases h1
    rcases c with e | hi'
    · cases h2
    cases h1 with | ok h1 =>
    cases h2 with | ok h2 =>
    have hrow : RowOf False (x.map (nrmEntry lo hi)) (z.map fun v => if lo' ≠ hi' then (v - lo') / (hi' - lo') else 0) :=
      rel_map (Q := Entry False) (Q' := Entry False) (fun a c hac => rel_nrmEntry h1 h2 hac) hz
    exact row_not_nan hrow hv hn
  · intro hx
    rw [minE_nan hx, ok_bind, maxE_nan hx, ok_bind] at h
    cases h
    obtain ⟨u, _, rfl⟩ := List.mem_map.1 hv
    cases u <;> rfl

theorem mem_row {m d n : ℕ} {X : Data (Mv R)} (hX : HasShape X m d n) {i j : ℕ} (hi : i < m) (hj : j < d) (v : Mv R) :
    v ∈ (X.getD i []).getD j [] ↔ ∃ t < n, at3 X i j t = v := by
  have : (X.getD i []).getD j [] = tab n (at3 X i j) := by
    conv_lhs => rw [hX.eq_tab3]
    rw [tab3, getD_tab hi, tab2, getD_tab hj]
  rw [this, mem_tab]

theorem rows_get {f : List (Mv R) → Except Err (List (Mv R))} {m d n : ℕ} {X Z : Data (Mv R)} (hX : HasShape X m d n) (hZ : mapRowsM f X = .ok Z)
    {i j : ℕ} (hi : i < m) (hj : j < d) : f ((X.getD i []).getD j []) = .ok ((Z.getD i []).getD j []) := by
  obtain ⟨_, h1⟩ := mapM_getD hZ [] []
  have h1 := h1 i (by rw [hX.1]; exact hi)
  obtain ⟨_, h2⟩ := mapM_getD h1 [] []
  refine h2 j ?_
  have := (hX.2 (X.getD i []) (getD_mem_lt (by rw [hX.1]; exact hi))).1
  rw [this]; exact hj

theorem at3_mem {m d n : ℕ} {Z : Data (Mv R)} {i j t : ℕ} (hl : ((Z.getD i []).getD j []).length = n) (ht : t < n) : at3 Z i j t ∈ (Z.getD i []).getD j [] :=
  getD_mem_lt (by rw [hl]; exact ht)

/-- **C171.** `STD(separately=True)` makes a whole dimension of a series missing if one of its values is missing, and nothing else. -/
theorem C171_std [NpMath R] {m d n : ℕ} (p : MSTD R) (hp : p.separately = true) (C : Data (Mv R)) {X : Data (Mv R)} (hX : HasShape X m d n) :
    ∃ Z, (MPrep.std p).transformC C X = .ok Z ∧ ∀ i < m, ∀ j < d, ∀ t < n, (at3 Z i j t = nan ↔ ∃ s < n, at3 X i j s = nan) := by
  refine ⟨mapRows p.row X, by simp only [MPrep.transformC, MSTD.transform, hp, if_true], fun i hi j hj t ht => ?_⟩
  have hr := rows_get hX (show mapRowsM (fun x => .ok (p.row x)) X = .ok (mapRows p.row X) from
    mapM_ok_map fun s _ => mapM_ok_map fun x _ => rfl) hi hj
  injection hr with hr
  have hl : ((X.getD i []).getD j []).length = n :=
    (hX.2 _ (getD_mem_lt (by rw [hX.1]; exact hi))).2 _ (getD_mem_lt (by rw [(hX.2 _ (getD_mem_lt (by rw [hX.1]; exact hi))).1]; exact hj))
  have hm : at3 (mapRows p.row X) i j t ∈ p.row ((X.getD i []).getD j []) := by
    rw [hr]; exact at3_mem (m := m) (d := d) (by rw [← hr]; simpa [MSTD.row] using hl) ht
  rw [std_row_nan p _ hm, mem_row hX hi hj]

/-- **C171.** `NRM()` makes a whole dimension of a series missing if one of its values is missing, and nothing else. -/
theorem C171_nrm [NpMath R] {m d n : ℕ} (C : Data (Mv R)) {X Z : Data (Mv R)} (hX : HasShape X m d n) (hZ : (MPrep.nrm false).transformC C X = .ok Z)
    {i j t : ℕ} (hi : i < m) (hj : j < d) (ht : t < n) : at3 Z i j t = nan ↔ ∃ s < n, at3 X i j s = nan := by
  simp only [MPrep.transformC, nrmTransform, Bool.false_eq_true, if_false] at hZ
  have hr := rows_get hX hZ hi hj
  have hl : ((X.getD i []).getD j []).length = n :=
    (hX.2 _ (getD_mem_lt (by rw [hX.1]; exact hi))).2 _ (getD_mem_lt (by rw [(hX.2 _ (getD_mem_lt (by rw [hX.1]; exact hi))).1]; exact hj))
  have hl' : ((Z.getD i []).getD j []).length = n := by
    rcases e1 : Mv.minE ((X.getD i []).getD j []) with e | lo
    · rw [e1] at hr; cases hr
    rcases e2 : Mv.maxE ((X.getD i []).getD j []) with e | hi
    · rw [e1, ok_bind, e2] at hr; cases hr
    rw [e1, ok_bind, e2, ok_bind] at hr
    injection hr with hr
    rw [← hr, List.length_map, hl]
  rw [nrm_row_nan hr (at3_mem (m := m) (d := d) hl' ht), mem_row hX hi hj]

/-- Non-vacuity of `C171_std` and `C171_nrm`. -/
example [NpMath ℚ] : HasShape gapTwo 2 1 2 ∧ (∃ Z, (MPrep.nrm false : MPrep ℚ).transformC gapTwo gapTwo = .ok Z ∧
    Z = [[[.num 0, .num 1]], [[.nan, .nan]]]) :=
  ⟨⟨rfl, by decide⟩, _, toOption_ok (show (nrmTransform false gapTwo).toOption = some [[[Mv.num 0, .num 1]], [[.nan, .nan]]] by decide +kernel), rfl⟩

end Fruits
