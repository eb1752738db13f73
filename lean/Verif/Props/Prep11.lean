import Verif.Props.Total2
import Verif.Props.Prep2
import Verif.Props.Prep8

/-! # The number of output dimensions of JLD (C114) -/

namespace Fruits
set_option linter.unusedSectionVars false

variable {R : Type} [Field R] [LinearOrder R] [IsStrictOrderedRing R] [FloorRing R]

theorem JLD.fit_dims [NpMath R] {g : Rng R} {p p' : JLD R} {X : Data R} (h : p.fit g X = .ok p') :
    0 ≤ JLD.outDim (shape1 X) p.d ∧ ∃ st, p'.fitted = some st ∧ (st.ndim.length : ℤ) = JLD.outDim (shape1 X) p.d := by
  unfold JLD.fit at h
  simp only at h
  generalize JLD.outDim (shape1 X) p.d = od at h
  split at h
  · split at h
    · cases h
    split at h
    · cases h
    split at h
    · cases h
    next h1 h2 h3 =>
    injection h with h
    subst h
    refine ⟨by omega, _, rfl, ?_⟩
    simp only
    rw [(groupSizes_spec _ od.toNat (by omega)).1]
    omega
  · split at h
    · cases h
    next h1 =>
    injection h with h
    subst h
    refine ⟨by omega, _, rfl, ?_⟩
    simp only [List.length_replicate]
    omega

theorem JLD.fit_ok [NpMath R] (g : Rng R) {p : JLD R} {X : Data R} (h : p.distribute = false) (h0 : 0 ≤ JLD.outDim (shape1 X) p.d) :
    ∃ p', p.fit g X = .ok p' := by
  unfold JLD.fit
  simp only [h, Bool.false_eq_true, if_false]
  rw [if_neg (by omega)]
  exact ⟨_, rfl⟩

theorem JLD.dims [NpMath R] (T : FloatText R) {g : Rng R} {p p' : JLD R} {X : Data R} (h : p.fit g X = .ok p') {Y : Data R} {m d n : ℕ}
    (hY : HasShape Y m d n) (hm : 0 < m) (hd : 0 < d) :
    ∃ Z k, (Prep.jld p').transform T Y = .ok Z ∧ HasShape Z m k n ∧ (k : ℤ) = JLD.outDim (shape1 X) p.d := by
  obtain ⟨_, st, h1, h2⟩ := JLD.fit_dims h
  refine ⟨_, st.ndim.length, by simp only [Prep.transform, Prep.transformC, JLD.transform, h1]; rfl, ⟨by simp [hY.1], ?_⟩, h2⟩
  intro s hs
  obtain ⟨Z, _, rfl⟩ := List.mem_map.1 hs
  rw [hY.shape2_eq hm hd]
  exact JLD.outDims_shape _ _ _ _ _ _

/-- `24*log(d) / (3*f**2 - 2*f**3)`, the bound in the documentation of `JLD`. -/
def jlBound [NpMath R] (d : ℕ) (f : R) : R := 24 * NpMath.log (d : R) / (3 * f ^ 2 - 2 * f ^ 3)

/-- **C114 (partial).** `JLD(f)` with a float `f` in `(0, 1)`, fitted to data with `d` dimensions, returns `k` dimensions
where `k` is the smallest integer greater than the bound of the documentation; this is the smallest integer that is at least
the bound, unless the bound is an integer itself. Missing: the latter case, see `C114_counterexample`. -/
theorem C114_float_partial [NpMath R] (T : FloatText R) (g : Rng R) (p p' : JLD R) {f : R} (hp : p.d = .float f) (h0 : 0 < f) (h1 : f < 1)
    {X : Data R} {m d n : ℕ} (hX : HasShape X m d n) (hm : 0 < m) (hlog : 0 ≤ NpMath.log (d : R)) (hfit : p.fit g X = .ok p')
    {Y : Data R} {m' n' : ℕ} (hY : HasShape Y m' d n') (hm' : 0 < m') (hd : 0 < d) :
    ∃ Z k, (Prep.jld p').transform T Y = .ok Z ∧ HasShape Z m' k n' ∧
      IsLeast {j : ℤ | jlBound d f < j} k ∧ ((∀ j : ℤ, (j : R) ≠ jlBound d f) → IsLeast {j : ℤ | jlBound d f ≤ j} k) := by
  obtain ⟨Z, k, hZ, hs, hk⟩ := JLD.dims T hfit hY hm' hd
  refine ⟨Z, k, hZ, hs, ?_⟩
  have hpos : 0 < 3 * f ^ 2 - 2 * f ^ 3 := by
    have : 3 * f ^ 2 - 2 * f ^ 3 = f ^ 2 * (3 - 2 * f) := by ring
    rw [this]
    exact mul_pos (by positivity) (by linarith)
  have hb : 0 ≤ jlBound d f := div_nonneg (by linarith) hpos.le
  have hkb : (k : ℤ) = ⌊jlBound d f⌋ + 1 := by
    rw [hk, hX.shape1_eq hm, hp]
    show pyInt (jlBound d f) + 1 = _
    unfold pyInt
    rw [if_pos hb]
  have hleast : IsLeast {j : ℤ | jlBound d f < j} k := by
    rw [hkb]
    refine ⟨by simpa using Int.lt_floor_add_one (jlBound d f), fun j hj => ?_⟩
    have : ⌊jlBound d f⌋ < j := Int.floor_lt.2 hj
    omega
  refine ⟨hleast, fun hne => ⟨le_of_lt hleast.1, fun j hj => hleast.2 (lt_of_le_of_ne hj (hne j).symm)⟩⟩

/-- **C114.** `JLD(k)` with an integer `k` returns `k` dimensions. -/
theorem C114_integer [NpMath R] (T : FloatText R) (g : Rng R) (p p' : JLD R) {k : ℕ} (hp : p.d = .int k) {X : Data R}
    (hfit : p.fit g X = .ok p') {Y : Data R} {m d n : ℕ} (hY : HasShape Y m d n) (hm : 0 < m) (hd : 0 < d) :
    ∃ Z, (Prep.jld p').transform T Y = .ok Z ∧ HasShape Z m k n := by
  obtain ⟨Z, k', hZ, hs, hk⟩ := JLD.dims T hfit hY hm hd
  rw [hp] at hk
  have : k' = k := by simpa [JLD.outDim] using hk
  exact ⟨Z, hZ, this ▸ hs⟩

/-- **C114 is false in general**: for one input dimension the bound is 0, but `JLD(f)` returns one dimension. -/
theorem C114_counterexample (T : FloatText ℝ) (g : Rng ℝ) (f : ℝ) : ∃ p' : JLD ℝ, JLD.fit g ⟨.float f, false, false, none⟩ [[[1, 2]]] = .ok p' ∧
    ∃ Z, (Prep.jld p').transform T [[[1, 2]]] = .ok Z ∧ HasShape Z 1 1 2 ∧ ¬ IsLeast {j : ℤ | jlBound 1 f ≤ j} 1 := by
  have hl : NpMath.log (1 : ℝ) = 0 := Real.log_one
  have hb : jlBound 1 f = (0 : ℝ) := by simp [jlBound, hl]
  have ho : JLD.outDim 1 (.float f : IntOrFloat ℝ) = 1 := by simp [JLD.outDim, hl, pyInt]
  have hfit : ∃ p', JLD.fit g (⟨.float f, false, false, none⟩ : JLD ℝ) [[[1, 2]]] = .ok p' :=
    JLD.fit_ok g rfl (by show 0 ≤ JLD.outDim 1 (.float f : IntOrFloat ℝ); omega)
  obtain ⟨p', hp⟩ := hfit
  refine ⟨p', hp, ?_⟩
  obtain ⟨Z, k, hZ, hs, hk⟩ := JLD.dims T hp (Y := [[[1, 2]]]) (m := 1) (d := 1) (n := 2) (by simp [HasShape]) one_pos one_pos
  have hk' : (k : ℤ) = JLD.outDim 1 (.float f : IntOrFloat ℝ) := hk
  rw [ho] at hk'
  have : k = 1 := by omega
  subst this
  refine ⟨Z, hZ, hs, fun h => ?_⟩
  have := h.2 (show (0 : ℤ) ∈ {j : ℤ | jlBound 1 f ≤ j} by simp [hb])
  omega

/-- Non-vacuity: `JLD(0.5)` can be fitted to real data with two dimensions. -/
example (g : Rng ℝ) : ∃ p', JLD.fit g ⟨.float (1 / 2), false, false, none⟩ [[[1, 2], [3, 5]]] = .ok p' ∧ (0 : ℝ) ≤ NpMath.log ((2 : ℕ) : ℝ) := by
  have hlog : (0 : ℝ) ≤ NpMath.log ((2 : ℕ) : ℝ) := Real.log_nonneg (by norm_num)
  suffices h : ∃ p', JLD.fit g ⟨.float (1 / 2), false, false, none⟩ [[[1, 2], [3, 5]]] = .ok p' by
    obtain ⟨p', hp⟩ := h
    exact ⟨p', hp, hlog⟩
  refine JLD.fit_ok g rfl ?_
  have : 0 ≤ pyInt (24 * NpMath.log ((2 : ℕ) : ℝ) / (3 * (1 / 2) ^ 2 - 2 * (1 / 2) ^ 3)) := by
    have h : (0 : ℝ) ≤ 24 * NpMath.log ((2 : ℕ) : ℝ) / (3 * (1 / 2) ^ 2 - 2 * (1 / 2) ^ 3) := div_nonneg (by linarith) (by norm_num)
    unfold pyInt
    rw [if_pos h]
    exact Int.floor_nonneg.2 h
  show 0 ≤ pyInt (24 * NpMath.log ((2 : ℕ) : ℝ) / (3 * (1 / 2) ^ 2 - 2 * (1 / 2) ^ 3)) + 1
  omega

end Fruits
