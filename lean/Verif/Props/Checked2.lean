import Verif.Checked2
import Verif.Props.Checked1
import Verif.Props.Prep8
import Verif.Props.Prep11

/-! # No access of the compiled preparateurs leaves their arrays -/

set_option linter.unusedSectionVars false

namespace Fruits
variable {R : Type} [Field R] [LinearOrder R] [IsStrictOrderedRing R] [FloorRing R]

theorem at2E_ok {A : List (List R)} {n i j : ℕ} (hA : Rect A n) (hi : i < A.length) (hj : j < n) : at2E A i j = .ok (at2 A i j) := by
  unfold at2E
  rw [readRow_ok hi, ok_bind, readAt_ok (by rw [row_len hA hi]; exact hj) 0]
  rfl

/-- What the kernel of `RIN` needs for series with `D` dimensions: one kernel row and one dimension per place of the groups. -/
structure RINState.Fits (st : RINState R) (D : ℕ) : Prop where
  kernel : Rect st.kernel (st.kernel.getD 0 []).length
  rows : st.ndim.sum ≤ st.kernel.length
  places : st.ndim.sum ≤ st.dims.length
  dims : ∀ d ∈ st.dims, d < D
  direct : st.ndim.sum ≤ D

theorem rin_outDimsE_ok {s : Series R} {n D w : ℕ} (hs : D ≤ s.length) (hr : Rect s n) {kernel : List (List R)} (hk : Rect kernel w) {dims : List ℕ}
    (hd : ∀ d ∈ dims, d < D) : ∀ (start : ℕ) (cs : List ℕ), start + cs.sum ≤ kernel.length → start + cs.sum ≤ dims.length → start + cs.sum ≤ D →
    RIN.outDimsE s kernel dims w n start cs = .ok (RIN.outDims s kernel dims w n start cs)
  | _, [], _, _, _ => rfl
  | start, c :: cs, h1, h2, h3 => by
    rw [List.sum_cons] at h1 h2 h3
    unfold RIN.outDimsE RIN.outDims
    rw [mapM_ok_map (g := fun k => if k < w then 0
      else ((List.range' start c).map fun j =>
        ((List.range' (k - w) w).map fun l => - at2 s (dims.getD j 0) l * at2 kernel j (l + w - k)).sum
          + at2 s j k).sum), ok_bind, rin_outDimsE_ok hs hr hk hd (start + c) cs (by omega) (by omega) (by omega), ok_bind]
    · rfl
    intro k hkn
    have hkn := List.mem_range.1 hkn
    split_ifs with hw
    · rfl
    unfold RIN.cellE
    rw [mapM_ok_map (g := fun j =>
        ((List.range' (k - w) w).map fun l => - at2 s (dims.getD j 0) l * at2 kernel j (l + w - k)).sum + at2 s j k), ok_bind]
    · rfl
    intro j hj
    have hj := List.mem_range'_1.1 hj
    rw [mapM_ok_map (g := fun l => - at2 s (dims.getD j 0) l * at2 kernel j (l + w - k)), ok_bind, at2E_ok hr (by omega) hkn, ok_bind]
    · rfl
    intro l hl
    have hl := List.mem_range'_1.1 hl
    have hdj : dims.getD j 0 < D := hd _ (by rw [List.getD_eq_getElem?_getD, List.getElem?_eq_getElem (by omega)]; exact List.getElem_mem _)
    rw [readAt_ok (show j < dims.length by omega) 0, ok_bind, at2E_ok hr (by omega) (by omega), ok_bind, at2E_ok hk (by omega) (by omega), ok_bind]
    rfl

theorem rin_seriesE_ok {st : RINState R} {D n : ℕ} (h : st.Fits D) (adaptive : Bool) {s : Series R} (hs : D ≤ s.length) (hr : Rect s n) :
    RIN.seriesE adaptive st n s = .ok (RIN.series adaptive st n s) := by
  unfold RIN.seriesE RIN.series
  cases adaptive
  · exact rin_outDimsE_ok hs hr h.kernel h.dims 0 _ (by simpa using h.rows) (by simpa using h.places) (by simpa using h.direct)
  · simp only [if_true]
    rw [rin_outDimsE_ok (s := s.map fun x => zeros _ ++ x) (n := n + (st.kernel.getD 0 []).length) (by simpa using hs) ?_ h.kernel h.dims 0 _ (by simpa using h.rows)
      (by simpa using h.places) (by simpa using h.direct), ok_bind]
    · rfl
    · intro x hx
      obtain ⟨y, hy, rfl⟩ := List.mem_map.1 hx
      rw [List.length_append, hr y hy]
      simp [zeros]
      omega

theorem rin_fit_fits {g : Rng R} (hg : g.Valid) {fuel : ℕ} {p p' : RIN R} {X : Data R} {m D n : ℕ} (hX : HasShape X m D n) (hm : 0 < m) (hD : 0 < D)
    (hk : ∀ k, p.constKernel = some k → D ≤ k.length ∧ Rect k (k.getD 0 []).length) (h : RIN.fit g fuel p X = .ok (some p')) :
    ∃ st, p'.fitted = some st ∧ st.Fits D := by
  have hl := hg.choice_length 0 D D le_rfl
  have hlt := hg.choice_lt 0 D D le_rfl
  unfold RIN.fit at h
  simp only [hX.shape1_eq hm, hX.shape2_eq hm hD] at h
  cases hc : p.constKernel with
  | some k =>
    simp only [hc, Except.ok.injEq, Option.some.injEq] at h
    subst h
    exact ⟨_, rfl, (hk k hc).2, by simp [(hk k hc).1], by simp, fun d hd => List.mem_range.1 hd, by simp⟩
  | none =>
    simp only [hc] at h
    generalize ho : (if 0 < p.outDim then p.outDim else (D : ℤ)) = od at h
    have hpos : 0 < od.toNat := by split at ho <;> omega
    obtain ⟨g1, g2, g3⟩ := groupSizes_spec D od.toNat hpos
    split at h
    · cases h
    split at h
    · cases h
    generalize (p.width.eval n).toNat = w at h
    have key : ∀ K : List (List R), K.length = D → Rect K w → RINState.Fits ⟨K, groupSizes D od.toNat, g.choice 0 D D⟩ D := fun K h1 h2 => by
      refine ⟨?_, by simp [g2, h1], by simp [g2, hl], hlt, by simp [g2]⟩
      have : (K.getD 0 []).length = w := row_len h2 (by omega)
      dsimp only
      rw [this]
      exact h2
    split at h
    · injection h with h
      rw [Option.map_eq_some_iff] at h
      obtain ⟨K, hK, rfl⟩ := h
      obtain ⟨r, hr⟩ := drawSumOne_shape hK
      obtain ⟨h1, -⟩ := sumOne_tab D _ (fun i j => g.uniform r i j) hr
      refine ⟨_, rfl, key K (by rw [h1, tab_length]) fun r' hr' => ?_⟩
      rw [h1, mem_tab] at hr'
      obtain ⟨i, _, rfl⟩ := hr'
      exact tab_length _ _
    · injection h with h
      injection h with h
      subst h
      refine ⟨_, rfl, key _ (by simp [RIN.centered]) fun r' hr' => ?_⟩
      simp only [RIN.centered, List.map_map, List.mem_map] at hr'
      obtain ⟨i, _, rfl⟩ := hr'
      simp only [Function.comp, List.length_map, List.length_range]

/-- C150 (partial: false without the hypotheses, `Demo.C150_false`).  `RIN`, fitted on data with `D` dimensions (a kernel handed in has at least `D` rows), on
data with at least `D` dimensions, for all random draws: the version that checks each access computes the same as the version that does not. -/
theorem C150_rin_partial {g : Rng R} (hg : g.Valid) {fuel : ℕ} {p p' : RIN R} {X : Data R} {m D n : ℕ} (hX : HasShape X m D n) (hm : 0 < m) (hD : 0 < D)
    (hk : ∀ k, p.constKernel = some k → D ≤ k.length ∧ Rect k (k.getD 0 []).length) (h : RIN.fit g fuel p X = .ok (some p'))
    {Y : Data R} {m' D' n' : ℕ} (hY : HasShape Y m' D' n') (hm' : 0 < m') (hD' : D ≤ D') : p'.transformE Y = p'.transform Y := by
  obtain ⟨st, h1, h2⟩ := rin_fit_fits hg hX hm hD hk h
  unfold RIN.transformE RIN.transform
  rw [h1, hY.shape2_eq hm' (by omega)]
  exact mapM_ok_map fun s hs => rin_seriesE_ok h2 _ ((hY.2 s hs).1 ▸ hD') (hY.2 s hs).2

/-- What the kernel of `JLD` needs. -/
structure JLDState.Fits (st : JLDState R) (D : ℕ) : Prop where
  weights : st.ndim.sum ≤ st.kernel.length
  bias : st.ndim.length ≤ st.bias.length
  places : st.ndim.sum ≤ st.dims.length
  dims : ∀ d ∈ st.dims, d < D

theorem jld_outDimsE_ok {s : Series R} {n D : ℕ} (hs : D ≤ s.length) (hr : Rect s n) {st : JLDState R} (hd : ∀ d ∈ st.dims, d < D) :
    ∀ (start k : ℕ) (cs : List ℕ), start + cs.sum ≤ st.kernel.length → start + cs.sum ≤ st.dims.length → k + cs.length ≤ st.bias.length →
    JLD.outDimsE s st n start k cs = .ok (JLD.outDims s st n start k cs)
  | _, _, [], _, _, _ => rfl
  | start, k, c :: cs, h1, h2, h3 => by
    rw [List.sum_cons] at h1 h2
    rw [List.length_cons] at h3
    unfold JLD.outDimsE JLD.outDims
    rw [mapM_ok_map (g := fun t => ((List.range' start c).map fun j => at2 s (st.dims.getD j 0) t * st.kernel.getD j 0 + st.bias.getD k 0).sum), ok_bind,
      jld_outDimsE_ok hs hr hd (start + c) (k + 1) cs (by omega) (by omega) (by omega), ok_bind]
    · rfl
    intro t ht
    have ht := List.mem_range.1 ht
    rw [mapM_ok_map (g := fun j => at2 s (st.dims.getD j 0) t * st.kernel.getD j 0 + st.bias.getD k 0), ok_bind]
    · rfl
    intro j hj
    have hj := List.mem_range'_1.1 hj
    have hdj : st.dims.getD j 0 < D := hd _ (by rw [List.getD_eq_getElem?_getD, List.getElem?_eq_getElem (by omega)]; exact List.getElem_mem _)
    rw [readAt_ok (show j < st.dims.length by omega) 0, ok_bind, at2E_ok hr (by omega) ht, ok_bind, readAt_ok (show j < st.kernel.length by omega) 0, ok_bind,
      readAt_ok (show k < st.bias.length by omega) 0, ok_bind]
    rfl

theorem jld_fit_fits [NpMath R] {g : Rng R} (hg : g.Valid) {p p' : JLD R} {X : Data R} {m D n : ℕ} (hX : HasShape X m D n) (hm : 0 < m)
    (h : p.fit g X = .ok p') : ∃ st, p'.fitted = some st ∧ st.Fits D := by
  unfold JLD.fit at h
  simp only [hX.shape1_eq hm] at h
  generalize JLD.outDim D p.d = od at h
  split at h
  · split at h
    · cases h
    split at h
    · cases h
    split at h
    · cases h
    next h1 h2 h3 =>
    injection h with h
    subst h
    obtain ⟨g1, g2, g3⟩ := groupSizes_spec D od.toNat (by omega)
    exact ⟨_, rfl, by simp [g2], by simp [g1], by simp [g2, hg.choice_length 0 D D le_rfl], hg.choice_lt 0 D D le_rfl⟩
  · split at h
    · cases h
    next h1 =>
    injection h with h
    subst h
    refine ⟨_, rfl, by simp [Nat.mul_comm], by simp, by simp, fun d hd => ?_⟩
    simp only [List.mem_flatten, List.mem_replicate] at hd
    obtain ⟨l, ⟨-, rfl⟩, hd⟩ := hd
    exact List.mem_range.1 hd

/-- C150 (partial: false without the hypothesis on dimensions, `Demo.C150_false`).  `JLD`, fitted on data with `D` dimensions, on data with at least `D`
dimensions, for all random draws. -/
theorem C150_jld_partial [NpMath R] {g : Rng R} (hg : g.Valid) {p p' : JLD R} {X : Data R} {m D n : ℕ} (hX : HasShape X m D n) (hm : 0 < m)
    (h : p.fit g X = .ok p') {Y : Data R} {m' D' n' : ℕ} (hY : HasShape Y m' D' n') (hm' : 0 < m') (hp : 0 < D') (hD' : D ≤ D') :
    p'.transformE Y = p'.transform Y := by
  obtain ⟨st, h1, h2⟩ := jld_fit_fits hg hX hm h
  unfold JLD.transformE JLD.transform
  rw [h1, hY.shape2_eq hm' hp]
  exact mapM_ok_map fun s hs => jld_outDimsE_ok ((hY.2 s hs).1 ▸ hD') (hY.2 s hs).2 h2.dims 0 0 _ (by simpa using h2.weights) (by simpa using h2.places)
    (by simpa using h2.bias)

theorem mav_rowE_ok {w : ℕ} (hw : 0 < w) (x : List R) : MAV.rowE w x = .ok (MAV.row w x) := by
  unfold MAV.rowE MAV.row
  refine foldlM_ok _ _ (fun s : List R => s.length = x.length) _ _ (by simp [zeros]) fun k hk s hs => ?_
  have hk := List.mem_range'_1.1 hk
  rw [if_neg (by omega), writeAt_ok (by omega)]
  exact ⟨rfl, by simpa using hs⟩

/-- C150.  `MAV`, fitted on any data, on any data. -/
theorem C150_mav {given : IntOrFloat R} {p : MAV R} (h : MAV.new given = .ok p) (X Y : Data R) : (p.fit X).transformE Y = (p.fit X).transform Y := by
  have hnone : p.w = none := by
    unfold MAV.new at h
    split at h
    · split at h
      · cases h; rfl
      · cases h
    · cases h; rfl
  have hpos : ∀ w, (p.fit X).w = some w → 0 < w := fun w hw => by
    unfold MAV.fit at hw
    split at hw
    · simp only [Option.some.injEq] at hw
      split at hw <;> omega
    · split at hw
      · simp only [Option.some.injEq] at hw
        omega
      · rw [hnone] at hw
        cases hw
  unfold MAV.transformE MAV.transform
  cases hw : (p.fit X).w with
  | none => rfl
  | some w => exact mapM_ok_map fun s _ => mapM_ok_map fun x _ => mav_rowE_ok (hpos w hw) x

/-- C150.  `RPE` on any data (with another number of dimensions than two both raise). -/
theorem C150_rpe [NpMath R] (p : RPE R) {Y : Data R} {m D n : ℕ} (hY : HasShape Y m D n) (hm : 0 < m) : p.transformE Y = p.transform Y := by
  unfold RPE.transformE RPE.transform
  rw [hY.shape1_eq hm]
  split_ifs with h2
  · rfl
  have hD : D = 2 := not_not.1 h2
  subst hD
  rw [hY.shape2_eq hm (by omega)]
  refine mapM_ok_map fun s hs => ?_
  obtain ⟨h1, h2⟩ := hY.2 s hs
  unfold RPE.seriesE RPE.series
  dsimp only
  rw [mapM_ok_map (g := fun (k : ℕ) => NpMath.cos ((k : R) / NpMath.pow ((p.maxLength.getD n : ℕ) : R) p.freq) * at2 s 0 k
      - NpMath.sin ((k : R) / NpMath.pow ((p.maxLength.getD n : ℕ) : R) p.freq) * at2 s 1 k), ok_bind,
    mapM_ok_map (g := fun (k : ℕ) => NpMath.sin ((k : R) / NpMath.pow ((p.maxLength.getD n : ℕ) : R) p.freq) * at2 s 0 k
      + NpMath.cos ((k : R) / NpMath.pow ((p.maxLength.getD n : ℕ) : R) p.freq) * at2 s 1 k), ok_bind]
  · rfl
  all_goals
    intro k hk
    have hk := List.mem_range.1 hk
    rw [at2E_ok h2 (by omega) hk, ok_bind, at2E_ok h2 (by omega) hk, ok_bind]
    rfl

/-! ### The accesses outside -/

theorem mapM_err_mem {α β : Type} {f : α → Except Err β} : ∀ {l : List α} {a : α}, a ∈ l → (∃ e, f a = .error e) → ∃ e, l.mapM f = .error e
  | b :: l, a, ha, h => by
    rw [List.mapM_cons]
    rcases List.mem_cons.1 ha with rfl | ha
    · exact bindErr h
    · exact bindErr_of fun x => bindErr (mapM_err_mem ha h)

theorem at2E_err {A : List (List R)} {i : ℕ} (h : A.length ≤ i) (j : ℕ) : ∃ e, at2E A i j = .error e := bindErr ⟨_, readAt_err h⟩

theorem jld_outDimsE_err {s : Series R} {st : JLDState R} {n : ℕ} (hn : 0 < n) {j : ℕ} (hj : j < st.dims.length) (hd : s.length ≤ st.dims.getD j 0) :
    ∀ (start k : ℕ) (cs : List ℕ), start ≤ j → j < start + cs.sum → ∃ e, JLD.outDimsE s st n start k cs = .error e
  | _, _, [], h1, h2 => by simp at h2; omega
  | start, k, c :: cs, h1, h2 => by
    rw [List.sum_cons] at h2
    unfold JLD.outDimsE
    rcases Nat.lt_or_ge j (start + c) with h | h
    · refine bindErr (mapM_err_mem (List.mem_range.2 hn) (bindErr (mapM_err_mem (List.mem_range'_1.2 ⟨h1, h⟩) ?_)))
      rw [readAt_ok hj 0, ok_bind]
      exact bindErr (at2E_err hd _)
    · exact bindErr_of fun r => bindErr (jld_outDimsE_err hn hj hd (start + c) (k + 1) cs h (by omega))

/-- `JLD`, fitted on data with `D` dimensions, reads outside its arrays on all data with fewer dimensions, unless it has no output dimension. -/
theorem C150_jld_outside [NpMath R] {g : Rng R} (hg : g.Valid) {p p' : JLD R} {X : Data R} {m D n : ℕ} (hX : HasShape X m D n) (hm : 0 < m)
    (h : p.fit g X = .ok p') (hout : JLD.outDim D p.d ≠ 0) {Y : Data R} {m' D' n' : ℕ} (hY : HasShape Y m' D' n') (hm' : 0 < m') (hp : 0 < D') (hn' : 0 < n')
    (hD' : D' < D) : ∃ e, p'.transformE Y = .error e := by
  obtain ⟨st, h1, h2, h3⟩ : ∃ st, p'.fitted = some st ∧ (∃ j, j < st.dims.length ∧ j < st.ndim.sum ∧ D' ≤ st.dims.getD j 0) ∧ True := by
    have hperm := choice_perm hg D
    unfold JLD.fit at h
    simp only [hX.shape1_eq hm] at h
    generalize hod : JLD.outDim D p.d = od at h
    split at h
    · split at h
      · cases h
      split at h
      · cases h
      split at h
      · cases h
      next a1 a2 a3 =>
      injection h with h
      subst h
      obtain ⟨g1, g2, g3⟩ := groupSizes_spec D od.toNat (by omega)
      have hmem : D' ∈ g.choice 0 D D := hperm.mem_iff.2 (List.mem_range.2 hD')
      obtain ⟨j, hj, e⟩ := List.getElem_of_mem hmem
      refine ⟨_, rfl, ⟨j, hj, ?_, ?_⟩, trivial⟩
      · dsimp only
        rw [g2, ← hg.choice_length 0 D D le_rfl]
        exact hj
      · simp [hj, e]
    · split at h
      · cases h
      next a1 =>
      injection h with h
      subst h
      rw [hod] at hout
      obtain ⟨q, hq⟩ : ∃ q, od.toNat = q + 1 := ⟨od.toNat - 1, by omega⟩
      rw [hq]
      refine ⟨_, rfl, ⟨D', ?_, ?_, ?_⟩, trivial⟩
      · simp only [List.replicate_succ, List.flatten_cons, List.length_append, List.length_range]; omega
      · simp only [List.replicate_succ, List.sum_cons]; omega
      · simp [List.replicate_succ, List.getElem?_append_left, hD']
  obtain ⟨j, h4, h5, h6⟩ := h2
  unfold JLD.transformE
  rw [h1, hY.shape2_eq hm' hp]
  obtain ⟨s, hs⟩ := List.exists_mem_of_length_pos (by rw [hY.1]; exact hm')
  exact mapM_err_mem hs (jld_outDimsE_err hn' h4 ((hY.2 s hs).1.trans_le h6) 0 0 _ (by omega) (by omega))

theorem rin_outDimsE_err {s : Series R} {kernel : List (List R)} {dims : List ℕ} {w n j : ℕ} (hn : w < n) (hj : s.length ≤ j) :
    ∀ (start : ℕ) (cs : List ℕ), start ≤ j → j < start + cs.sum → ∃ e, RIN.outDimsE s kernel dims w n start cs = .error e
  | _, [], h1, h2 => by simp at h2; omega
  | start, c :: cs, h1, h2 => by
    rw [List.sum_cons] at h2
    unfold RIN.outDimsE
    rcases Nat.lt_or_ge j (start + c) with h | h
    · refine bindErr (mapM_err_mem (List.mem_range.2 hn) ?_)
      rw [if_neg (lt_irrefl _)]
      exact bindErr (mapM_err_mem (List.mem_range'_1.2 ⟨h1, h⟩) (bindErr_of fun us => bindErr (at2E_err hj _)))
    · exact bindErr_of fun r => bindErr (rin_outDimsE_err hn hj (start + c) cs h (by omega))

/-- `RIN`, fitted on data with `D` dimensions, reads outside its arrays on all data with fewer dimensions that are longer than its kernel (with adaptive
width: on all such data that are not empty). -/
theorem C150_rin_outside {g : Rng R} {fuel : ℕ} {p p' : RIN R} {X : Data R} {m D n : ℕ} (hX : HasShape X m D n) (hm : 0 < m) (hD : 0 < D)
    (h : RIN.fit g fuel p X = .ok (some p')) {Y : Data R} {m' D' n' : ℕ} (hY : HasShape Y m' D' n') (hm' : 0 < m') (hp : 0 < D') (hD' : D' < D)
    (hn' : p.adaptive = true ∧ 0 < n' ∨ ∀ st, p'.fitted = some st → (st.kernel.getD 0 []).length < n') : ∃ e, p'.transformE Y = .error e := by
  obtain ⟨st, h1, h2, h3⟩ : ∃ st, p'.fitted = some st ∧ st.ndim.sum = D ∧ p'.adaptive = p.adaptive := by
    unfold RIN.fit at h
    simp only [hX.shape1_eq hm, hX.shape2_eq hm hD] at h
    cases hc : p.constKernel with
    | some k =>
      simp only [hc, Except.ok.injEq, Option.some.injEq] at h
      subst h
      exact ⟨_, rfl, by simp, rfl⟩
    | none =>
      simp only [hc] at h
      generalize ho : (if 0 < p.outDim then p.outDim else (D : ℤ)) = od at h
      have hpos : 0 < od.toNat := by split at ho <;> omega
      obtain ⟨g1, g2, g3⟩ := groupSizes_spec D od.toNat hpos
      split at h
      · cases h
      split at h
      · cases h
      split at h
      · injection h with h
        rw [Option.map_eq_some_iff] at h
        obtain ⟨K, hK, rfl⟩ := h
        exact ⟨_, rfl, g2, rfl⟩
      · injection h with h
        injection h with h
        subst h
        exact ⟨_, rfl, g2, rfl⟩
  unfold RIN.transformE
  rw [h1, hY.shape2_eq hm' hp]
  obtain ⟨s, hs⟩ := List.exists_mem_of_length_pos (by rw [hY.1]; exact hm')
  refine mapM_err_mem hs ?_
  have hl := (hY.2 s hs).1
  unfold RIN.seriesE
  dsimp only
  rw [h3]
  split_ifs with ha
  · have hn0 : 0 < n' := by
      rcases hn' with h | h
      · exact h.2
      · have := h st h1; omega
    exact bindErr (rin_outDimsE_err (j := D') (by omega) (by simp [hl]) 0 _ (by omega) (by omega))
  · have hn0 : (st.kernel.getD 0 []).length < n' := by
      rcases hn' with h | h
      · exact absurd h.1 ha
      · exact h st h1
    exact rin_outDimsE_err (j := D') hn0 hl.le 0 _ (by omega) (by omega)

end Fruits
