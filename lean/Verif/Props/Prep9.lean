import Verif.Props.Prep8

/-! # C56, C57, C58: FFN, RPE, independence of the series -/

namespace Fruits
set_option linter.unusedSectionVars false

variable {R : Type} [Field R] [LinearOrder R] [IsStrictOrderedRing R] [FloorRing R]

/-! ### C56 -/

theorem zipWith_range {α β γ : Type*} (f : α → β → γ) (n : ℕ) (a : ℕ → α) (b : ℕ → β) :
    List.zipWith f (tab n a) (tab n b) = tab n fun i => f (a i) (b i) := zipWith_tab _ _ _ _

theorem dotp_tab (n : ℕ) (a b : ℕ → R) : dotp (tab n a) (tab n b) = ∑ j ∈ Finset.range n, a j * b j := by
  unfold dotp
  rw [zipWith_tab, sum_tab]

theorem column_tab2 (d n : ℕ) (f : ℕ → ℕ → R) (t : ℕ) (ht : t < n) : column (tab2 d n f) t = tab d fun j => f j t := by
  unfold column tab2
  rw [map_tab]
  exact tab_congr fun j _ => getD_tab ht

/-- The mean over time of dimension `j` of series `i`. -/
def timeMean (X : Data R) (n i j : ℕ) : R := (∑ u ∈ Finset.range n, at3 X i j u) / n

/-- `max(0, v)`. -/
theorem relu_eq_max (v : R) : relu v = max 0 v := by
  unfold relu
  split
  · next h => exact (max_eq_right h.le).symm
  · next h => exact (max_eq_left (not_lt.1 h)).symm

/-- **C56.** After `fit` on a dataset with `d` dimensions there are weights `W1 (h × d)`, `b (h)`, `W2 (out_dim × h)` such
that for every dataset with `d` dimensions output `a` at time `t` is `W2 · max(0, W1 · x_t + b)` (with `relu_out` the
positive part of it), where `x_t` is the time step `t`, minus the mean over time with `center`. -/
theorem C56_network (T : FloatText R) [NpMath R] (g : Rng R) (p : FFN R) (X : Data R) {m d n : ℕ} (hX : HasShape X m d n)
    (hm : 0 < m) :
    ∃ (h : ℕ) (W1 : ℕ → ℕ → R) (b : ℕ → R) (W2 : ℕ → ℕ → R), h = p.dHidden.getD (2 * d) ∧
      ∀ (Y : Data R) (m' n' : ℕ), HasShape Y m' d n' → 0 < m' → 0 < d →
        ∃ Z, (Prep.ffn (p.fit g X)).transform T Y = .ok Z ∧ HasShape Z m' p.dOut n' ∧
          ∀ i < m', ∀ a < p.dOut, ∀ t < n',
            let x := fun j => at3 Y i j t - (if p.center then timeMean Y n' i j else 0)
            let v := ∑ k ∈ Finset.range h, W2 a k * max 0 ((∑ j ∈ Finset.range d, W1 k j * x j) + b k)
            at3 Z i a t = if p.reluOut then max 0 v else v := by
  refine ⟨p.dHidden.getD (2 * d), fun i j => g.normal 0 i j, fun i => g.normal 1 i 0, fun i j => g.normal 2 i j, rfl, ?_⟩
  intro Y m' n' hY hm' hd
  set h := p.dHidden.getD (2 * d) with hh
  refine ⟨tab3 m' p.dOut n' fun i a t =>
      let x := fun j => at3 Y i j t - (if p.center then timeMean Y n' i j else 0)
      let v := ∑ k ∈ Finset.range h, g.normal 2 a k *
        max 0 ((∑ j ∈ Finset.range d, g.normal 0 k j * x j) + g.normal 1 k 0)
      if p.reluOut then max 0 v else v, ?_, hasShape_tab3 _, fun i hi a ha t ht => at3_tab3 hi ha ht⟩
  simp only [Prep.transform, Prep.transformC, FFN.transform, FFN.fit, hX.shape1_eq hm, ← hh]
  rw [hY.shape2_eq hm' hd]
  conv_lhs => rw [hY.eq_tab3]
  refine mapM_ok_tab fun i hi => ?_
  unfold FFN.series
  rw [if_neg (by simp)]
  congr 1
  -- the centred series
  have hc : (if p.center = true then (tab2 d n' (at3 Y i)).map (fun x => let mu := mean x; x.map fun v => v - mu)
      else tab2 d n' (at3 Y i)) = tab2 d n' fun j t => at3 Y i j t - (if p.center then timeMean Y n' i j else 0) := by
    cases p.center with
    | false => simp only [Bool.false_eq_true, if_false, sub_zero]
    | true =>
      simp only [if_true]
      unfold tab2
      rw [map_tab]
      apply tab_congr
      intro j _
      simp only [map_tab]
      apply tab_congr
      intro t _
      simp only [mean, timeMean, sum_tab, tab_length]
  rw [hc]
  set x : ℕ → ℕ → R := fun j t => at3 Y i j t - (if p.center then timeMean Y n' i j else 0) with hx
  have hr : ∀ (k : ℕ) (f : ℕ → R), (List.range k).map f = tab k f := fun _ _ => rfl
  have hr2 : ∀ (k : ℕ) (f : ℕ → List R), (List.range k).map f = tab k f := fun _ _ => rfl
  simp only [hr, hr2, zipWith_tab, map_tab]
  have hout : ∀ a t, t < n' → dotp (tab h fun j => g.normal 2 a j) (column (tab h fun k => tab n' fun t =>
      relu (dotp (tab d fun j => g.normal 0 k j) (column (tab2 d n' x) t) + g.normal 1 k 0)) t)
      = ∑ k ∈ Finset.range h, g.normal 2 a k *
        max 0 ((∑ j ∈ Finset.range d, g.normal 0 k j * x j t) + g.normal 1 k 0) := by
    intro a t ht
    have := column_tab2 h n' (fun k t =>
      relu (dotp (tab d fun j => g.normal 0 k j) (column (tab2 d n' x) t) + g.normal 1 k 0)) t ht
    unfold tab2 at this
    unfold tab2
    rw [this, dotp_tab]
    apply Finset.sum_congr rfl
    intro k _
    have h2 := column_tab2 d n' x t ht
    unfold tab2 at h2
    rw [h2, dotp_tab, relu_eq_max]
  split
  · next hro =>
    refine congrArg Except.ok ?_
    apply tab_congr
    intro a _
    apply tab_congr
    intro t ht
    rw [hout a t ht, relu_eq_max]
  · next hro =>
    refine congrArg Except.ok ?_
    apply tab_congr
    intro a _
    apply tab_congr
    intro t ht
    exact hout a t ht

/-- **C56.** With `center=True`, adding a constant to every dimension of every series changes nothing. -/
theorem C56_offset (T : FloatText R) [NpMath R] (g : Rng R) (p : FFN R) (hp : p.center = true) (X : Data R) {m d n : ℕ}
    (hX : HasShape X m d n) (hm : 0 < m) (hd : 0 < d) (Y Y' : Data R) {m' n' : ℕ} (hY : HasShape Y m' d n')
    (hY' : HasShape Y' m' d n') (hm' : 0 < m') (c : ℕ → ℕ → R)
    (hc : ∀ i < m', ∀ j < d, ∀ t < n', at3 Y' i j t = at3 Y i j t + c i j) :
    (Prep.ffn (p.fit g X)).transform T Y' = (Prep.ffn (p.fit g X)).transform T Y := by
  obtain ⟨h, W1, b, W2, -, H⟩ := C56_network T g p X hX hm
  obtain ⟨Z, e, hZ, hv⟩ := H Y m' n' hY hm' hd
  obtain ⟨Z', e', hZ', hv'⟩ := H Y' m' n' hY' hm' hd
  rw [e, e']
  congr 1
  refine hZ'.ext hZ fun i hi a ha t ht => ?_
  rw [hv i hi a ha t ht, hv' i hi a ha t ht]
  have hx : ∀ j < d, at3 Y' i j t - (if p.center then timeMean Y' n' i j else 0)
      = at3 Y i j t - (if p.center then timeMean Y n' i j else 0) := by
    intro j hj
    rw [hp, if_pos rfl, if_pos rfl, hc i hi j hj t ht]
    have hn : (n' : R) ≠ 0 := by
      have : 0 < n' := by omega
      exact_mod_cast this.ne'
    have : timeMean Y' n' i j = timeMean Y n' i j + c i j := by
      unfold timeMean
      rw [Finset.sum_congr rfl fun u hu => hc i hi j hj u (Finset.mem_range.1 hu), Finset.sum_add_distrib,
        Finset.sum_const, Finset.card_range, nsmul_eq_mul]
      field_simp
    rw [this]; ring
  have hs : ∀ k, (∑ j ∈ Finset.range d, W1 k j * (at3 Y' i j t - (if p.center then timeMean Y' n' i j else 0)))
      = ∑ j ∈ Finset.range d, W1 k j * (at3 Y i j t - (if p.center then timeMean Y n' i j else 0)) := fun k =>
    Finset.sum_congr rfl fun j hj => by rw [hx j (Finset.mem_range.1 hj)]
  simp only [hs]

/-- Non-vacuity: a network with one hidden unit on two dimensions. -/
example : ((FFN.transform ({ dOut := 1, center := true, fitted := some ([[1, 2]], [1], [[3]]) } : FFN ℚ)
    [[[1, 3], [0, 2]]]).toOption) = some [[[0, 12]]] := by decide +kernel

/-! ### C57 -/

/-- The law of sine and cosine that is used. -/
class TrigLaw (R : Type) [Field R] [NpMath R] : Prop where
  pyth : ∀ v : R, NpMath.cos v * NpMath.cos v + NpMath.sin v * NpMath.sin v = 1

noncomputable instance : TrigLaw ℝ := ⟨fun v => by
  show Real.cos v * Real.cos v + Real.sin v * Real.sin v = 1
  have := Real.sin_sq_add_cos_sq v
  nlinarith⟩

/-- **C57.** On datasets with two dimensions `RPE` turns the time step `t` of every series by the angle
`t / length ** freq` (`length` is `max_length` or the series length) and so keeps its norm. -/
theorem C57_rotation (T : FloatText R) [NpMath R] [TrigLaw R] (freq : R) (ml : Option ℕ) (X : Data R) {m n : ℕ}
    (hX : HasShape X m 2 n) (hm : 0 < m) :
    ∃ Z, (Prep.rpe ⟨freq, ml⟩).transform T X = .ok Z ∧ HasShape Z m 2 n ∧ ∀ i < m, ∀ t < n,
      (let θ : R := (t : R) / NpMath.pow ((ml.getD n : ℕ) : R) freq
       at3 Z i 0 t = NpMath.cos θ * at3 X i 0 t - NpMath.sin θ * at3 X i 1 t ∧
       at3 Z i 1 t = NpMath.sin θ * at3 X i 0 t + NpMath.cos θ * at3 X i 1 t) ∧
      at3 Z i 0 t ^ 2 + at3 Z i 1 t ^ 2 = at3 X i 0 t ^ 2 + at3 X i 1 t ^ 2 := by
  have key : (Prep.rpe ⟨freq, ml⟩).transform T X = .ok (tab3 m 2 n fun i a t =>
      let θ : R := (t : R) / NpMath.pow ((ml.getD n : ℕ) : R) freq
      if a = 0 then NpMath.cos θ * at3 X i 0 t - NpMath.sin θ * at3 X i 1 t
      else NpMath.sin θ * at3 X i 0 t + NpMath.cos θ * at3 X i 1 t) := by
    simp only [Prep.transform, Prep.transformC, RPE.transform, hX.shape1_eq hm]
    rw [if_neg (by simp), hX.shape2_eq hm (by norm_num), hX.map]
    congr 1
    apply tab_congr
    intro i _
    unfold RPE.series
    simp only [tab2, tab_succ', tab, List.range_zero, List.map_nil]
    congr 1
    · apply List.map_congr_left
      intro t ht
      have ht' := List.mem_range.1 ht
      have e0 := at2_tab2 (f := at3 X i) (d := 2) (n := n) (j := 0) (t := t) (by norm_num) ht'
      have e1 := at2_tab2 (f := at3 X i) (d := 2) (n := n) (j := 1) (t := t) (by norm_num) ht'
      simp only [tab2, tab_succ', tab, List.range_zero, List.map_nil] at e0 e1
      rw [e0, e1]; simp
    · congr 1
      apply List.map_congr_left
      intro t ht
      have ht' := List.mem_range.1 ht
      have e0 := at2_tab2 (f := at3 X i) (d := 2) (n := n) (j := 0) (t := t) (by norm_num) ht'
      have e1 := at2_tab2 (f := at3 X i) (d := 2) (n := n) (j := 1) (t := t) (by norm_num) ht'
      simp only [tab2, tab_succ', tab, List.range_zero, List.map_nil] at e0 e1
      rw [e0, e1]; simp
  refine ⟨_, key, hasShape_tab3 _, ?_⟩
  intro i hi t ht
  have e0 := at3_tab3 (f := fun i a t =>
      let θ : R := (t : R) / NpMath.pow ((ml.getD n : ℕ) : R) freq
      if a = 0 then NpMath.cos θ * at3 X i 0 t - NpMath.sin θ * at3 X i 1 t
      else NpMath.sin θ * at3 X i 0 t + NpMath.cos θ * at3 X i 1 t) hi (show 0 < 2 by norm_num) ht
  have e1 := at3_tab3 (f := fun i a t =>
      let θ : R := (t : R) / NpMath.pow ((ml.getD n : ℕ) : R) freq
      if a = 0 then NpMath.cos θ * at3 X i 0 t - NpMath.sin θ * at3 X i 1 t
      else NpMath.sin θ * at3 X i 0 t + NpMath.cos θ * at3 X i 1 t) hi (show 1 < 2 by norm_num) ht
  simp only [if_true, one_ne_zero, if_false] at e0 e1
  refine ⟨⟨e0, e1⟩, ?_⟩
  rw [e0, e1]
  have := TrigLaw.pyth ((t : R) / NpMath.pow ((ml.getD n : ℕ) : R) freq)
  set c := NpMath.cos ((t : R) / NpMath.pow ((ml.getD n : ℕ) : R) freq)
  set s := NpMath.sin ((t : R) / NpMath.pow ((ml.getD n : ℕ) : R) freq)
  linear_combination (at3 X i 0 t ^ 2 + at3 X i 1 t ^ 2) * this

/-- **C57.** Any other number of dimensions is an error. -/
theorem C57_wrong_dims (T : FloatText R) [NpMath R] (freq : R) (ml : Option ℕ) (X : Data R) {m d n : ℕ}
    (hX : HasShape X m d n) (hm : 0 < m) (hd : d ≠ 2) :
    (Prep.rpe ⟨freq, ml⟩).transform T X = .error .valueError := by
  simp only [Prep.transform, Prep.transformC, RPE.transform, hX.shape1_eq hm]
  rw [if_pos hd]

end Fruits
