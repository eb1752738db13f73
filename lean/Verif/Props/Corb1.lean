import Verif.CorbData
import Verif.Props.Warp3

/-! # C118, C119: `lengthen` and `implant_stuttering` repeat samples -/

set_option linter.unusedSectionVars false

namespace Fruits
variable {R : Type} [Field R] [LinearOrder R] [IsStrictOrderedRing R] [FloorRing R]

/-- The row the loop has built so far: `φ` tells which sample of `x` stands at which of the first `k` times. -/
def partialRow (x : List R) (φ : ℕ → ℕ) (N k : ℕ) : List R := tab N fun t => if t < k then x.getD (φ t) 0 else 0

theorem additionalLength_ok {length : R} (h : 0 ≤ length) (n : ℕ) : additionalLength length n = .ok (⌊length * (n : R)⌋).toNat := by
  have h0 : (0 : R) ≤ length * n := mul_nonneg h (Nat.cast_nonneg n)
  have h1 : ¬ ⌊length * (n : R)⌋ < 0 := by
    have := Int.floor_nonneg.2 h0
    omega
  simp only [additionalLength, pyInt_nonneg h0]
  rw [if_neg h1]

theorem firstRow {x : List R} {n a : ℕ} (hx : x.length = n) : setSlc (zeros (n + a)) 0 n x = .ok (partialRow x id (n + a) n) := by
  have e : x = tab n fun t => x.getD t 0 := by rw [← hx]; exact tab_of_list x 0
  conv_lhs => rw [e]
  rw [zeros, replicate_eq_tab, setSlc_tab (n + a) n _ _ 0 n (by omega) (by omega) (by omega)]
  congr 1
  apply tab_congr
  intro t ht
  simp

/-- Repeating the sample at time `s` of a warped series `k` more times is again a warp. -/
theorem IsWarp.insert {n n' : ℕ} {φ : ℕ → ℕ} (h : IsWarp n n' φ) {s k : ℕ} (hs : s + 1 < n') :
    IsWarp n (n' + k) fun t => if t ≤ s then φ t else if t ≤ s + k then φ s else φ (t - k) := by
  refine ⟨h.pos, by have := h.pos'; omega, by simpa using h.start, ?_, ?_⟩
  · try dsimp only
    have h1 : ¬ n' + k - 1 ≤ s := by omega
    have h2 : ¬ n' + k - 1 ≤ s + k := by omega
    rw [if_neg h1, if_neg h2, show n' + k - 1 - k = n' - 1 by omega]
    exact h.stop
  · intro t ht
    try dsimp only
    by_cases h1 : t + 1 ≤ s
    · rw [if_pos h1, if_pos (by omega : t ≤ s)]
      exact h.step t (by omega)
    · rw [if_neg h1]
      by_cases h2 : t + 1 ≤ s + k
      · rw [if_pos h2]
        by_cases h3 : t ≤ s
        · rw [if_pos h3, show t = s by omega]; exact Or.inl rfl
        · rw [if_neg h3, if_pos (by omega : t ≤ s + k)]; exact Or.inl rfl
      · rw [if_neg h2]
        by_cases h3 : t ≤ s
        · have hk : k = 0 := by omega
          have hts : t = s := by omega
          subst hk; subst hts
          rw [if_pos le_rfl]
          exact h.step t (by omega)
        · rw [if_neg h3]
          by_cases h4 : t ≤ s + k
          · rw [if_pos h4, show t + 1 - k = s + 1 by omega]
            exact h.step s (by omega)
          · rw [if_neg h4, show t + 1 - k = t - k + 1 by omega]
            exact h.step (t - k) (by omega)

/-- Repeating the last sample is a warp. -/
theorem IsWarp.extend {n n' N : ℕ} {φ : ℕ → ℕ} (h : IsWarp n n' φ) (hN : n' ≤ N) :
    IsWarp n N fun t => if t < n' - 1 then φ t else n - 1 := by
  have hp := h.pos'
  refine ⟨h.pos, by omega, ?_, ?_, ?_⟩
  · try dsimp only
    split
    · exact h.start
    · next h1 =>
      have : n' - 1 = 0 := by omega
      have h2 := h.stop
      rw [this, h.start] at h2
      exact h2.symm
  · try dsimp only
    rw [if_neg (by omega)]
  · intro t ht
    try dsimp only
    by_cases h1 : t + 1 < n' - 1
    · rw [if_pos h1, if_pos (by omega)]
      exact h.step t (by omega)
    · rw [if_neg h1]
      by_cases h2 : t < n' - 1
      · rw [if_pos h2]
        have h3 := h.step t (by omega)
        rw [show t + 1 = n' - 1 by omega, h.stop] at h3
        exact h3
      · rw [if_neg h2]; exact Or.inl rfl

/-- One round of the loop: shift the tail and repeat the sample. -/
theorem stutterStep (x : List R) (φ : ℕ → ℕ) {N k s l : ℕ} (hs : s + 1 < k) (hk : k + l ≤ N) (hl : 1 ≤ l) :
    (do
      let y ← setSlc (partialRow x φ N k) (pyClip N (s + l + 1 : ℕ)) (pyClip N (s + l + 1 + (k - (s + 1)) : ℕ))
        (slc (partialRow x φ N k) (s + 1 : ℕ) (s + 1 + (k - (s + 1)) : ℕ))
      pure (fillSlc y (pyClip y.length (s + 1 : ℕ)) (pyClip y.length (s + l + 1 : ℕ)) (y.getD s 0)) : Except Err (List R)) =
    .ok (partialRow x (fun t => if t ≤ s then φ t else if t ≤ s + l then φ s else φ (t - l)) N (k + l)) := by
  unfold partialRow
  rw [slc_tab, pyClip_nat, pyClip_nat, show min (s + 1 + (k - (s + 1))) N - (s + 1) = k - (s + 1) by omega,
    show min (s + l + 1) N = s + l + 1 by omega, show min (s + l + 1 + (k - (s + 1))) N = k + l by omega,
    setSlc_tab N (k - (s + 1)) _ _ (s + l + 1) (k + l) (by omega) (by omega) (by omega), ok_bind, tab_length, pyClip_nat, pyClip_nat,
    show min (s + 1) N = s + 1 by omega, show min (s + l + 1) N = s + l + 1 by omega, getD_tab (by omega),
    fillSlc_tab N _ (s + 1) (s + l + 1) _ (by omega) (by omega)]
  refine congrArg Except.ok (tab_congr fun t ht => ?_)
  have e1 : ¬ (s + l + 1 ≤ s ∧ s < k + l) := by omega
  have e2 : s < k := by omega
  beta_reduce
  rw [if_neg e1, if_pos e2]
  by_cases h1 : s + 1 ≤ t ∧ t < s + l + 1
  · rw [if_pos h1, if_pos (by omega : t < k + l), if_neg (by omega : ¬ t ≤ s), if_pos (by omega : t ≤ s + l)]
  · rw [if_neg h1]
    by_cases h2 : s + l + 1 ≤ t ∧ t < k + l
    · rw [if_pos h2, if_pos (by omega : s + 1 + (t - (s + l + 1)) < k), if_pos h2.2, if_neg (by omega : ¬ t ≤ s),
        if_neg (by omega : ¬ t ≤ s + l), show s + 1 + (t - (s + l + 1)) = t - l by omega]
    · rw [if_neg h2]
      by_cases h3 : t < k + l
      · rw [if_pos h3, if_pos (by omega : t ≤ s), if_pos (by omega : t < k)]
      · rw [if_neg h3, if_neg (by omega : ¬ t < k)]

theorem stutterLoop_warp {g : Rng R} (hg : g.Valid) {n a : ℕ} (hn : 0 < n) {x : List R} (hx : x.length = n) : ∀ (fuel c len prop : ℕ) (φ : ℕ → ℕ),
    a - len < fuel → len ≤ a → prop + 2 ≤ n + len ∨ prop = 0 → IsWarp n (n + len) φ →
    ∃ (ψ : ℕ → ℕ) (c' : ℕ), IsWarp n (n + a) ψ ∧ stutterLoop g n a x fuel c len prop (partialRow x φ (n + a) (n + len)) = .ok (warpRow ψ (n + a) x, c') := by
  intro fuel
  induction fuel with
  | zero => intro c len prop φ h; omega
  | succ fuel ih =>
    intro c len prop φ hf hle hp hφ
    rw [stutterLoop]
    by_cases hlt : len < a
    · rw [if_pos hlt]
      have r1 : (1 : ℤ) < (a : ℤ) - len + 1 := by omega
      have r2 : (prop : ℤ) + 1 < (n : ℤ) + a := by omega
      obtain ⟨b1, b2⟩ := hg.randint_range c _ _ r1
      obtain ⟨b3, b4⟩ := hg.randint_range (c + 1) _ _ r2
      simp only [randintE, if_pos r1, if_pos r2, ok_bind]
      generalize hl : (g.randint c 1 ((a : ℤ) - len + 1)).toNat = l
      generalize hs : (g.randint (c + 1) ((prop : ℤ) + 1) ((n : ℤ) + a)).toNat = s
      by_cases hbr : n + len ≤ s + 1
      · rw [if_pos hbr]
        refine ⟨_, c + 2, hφ.extend (by omega : n + len ≤ n + a), ?_⟩
        refine congrArg Except.ok (Prod.ext ?_ rfl)
        dsimp only
        unfold partialRow warpRow
        rw [tab_length, fillSlc_tab _ _ _ _ _ le_rfl (by omega)]
        apply tab_congr
        intro t ht
        beta_reduce
        by_cases h1 : t < n + len - 1
        · rw [if_neg (by omega), if_pos (by omega : t < n + len), if_pos h1]
        · rw [if_pos (by omega), if_neg h1]
      · rw [if_neg hbr]
        have hlen : (partialRow x φ (n + a) (n + len)).length = n + a := by simp [partialRow]
        have hst := stutterStep x φ (N := n + a) (k := n + len) (s := s) (l := l) (by omega) (by omega) (by omega)
        rw [hlen]
        obtain ⟨ψ, c', h1, h2⟩ := ih (c + 2) (len + l) (s + l) _ (by omega) (by omega) (Or.inl (by omega)) (by
          have := hφ.insert (s := s) (k := l) (by omega)
          rwa [Nat.add_assoc] at this)
        refine ⟨ψ, c', h1, ?_⟩
        rw [← h2]
        cases hy : setSlc (partialRow x φ (n + a) (n + len)) (pyClip (n + a) (s + l + 1 : ℕ)) (pyClip (n + a) (s + l + 1 + (n + len - (s + 1)) : ℕ))
          (slc (partialRow x φ (n + a) (n + len)) (s + 1 : ℕ) (s + 1 + (n + len - (s + 1)) : ℕ)) with
        | error e => rw [hy] at hst; simp at hst
        | ok y =>
          rw [hy, ok_bind] at hst
          rw [ok_bind]
          have := Except.ok.inj hst
          rw [this, Nat.add_assoc]
    · rw [if_neg hlt]
      have : len = a := by omega
      subst this
      refine ⟨φ, c, hφ, congrArg Except.ok (Prod.ext ?_ rfl)⟩
      unfold partialRow warpRow
      apply tab_congr
      intro t ht
      rw [if_pos ht]

theorem stutterRows_warp {g : Rng R} (hg : g.Valid) {n : ℕ} (a : ℕ) (hn : 0 < n) : ∀ (Z : List (List R)) (c : ℕ), (∀ x ∈ Z, x.length = n) →
    ∃ (ψ : ℕ → ℕ → ℕ) (c' : ℕ), (∀ j < Z.length, IsWarp n (n + a) (ψ j)) ∧
      stutterRows g n a Z c = .ok (Z.mapIdx fun j x => warpRow (ψ j) (n + a) x, c') := by
  intro Z
  induction Z with
  | nil => intro c _; exact ⟨fun _ t => t, c, by simp, rfl⟩
  | cons x Z ih =>
    intro c h
    have hx : x.length = n := h x (by simp)
    have hid : IsWarp n (n + 0) (fun t => t) := isWarp_id hn
    obtain ⟨ψ0, c0, h1, h2⟩ := stutterLoop_warp hg (a := a) hn hx (a + 1) c 0 0 (fun t => t) (by omega) (by omega) (Or.inr rfl) hid
    obtain ⟨ψ, c', h3, h4⟩ := ih c0 (fun y hy => h y (by simp [hy]))
    refine ⟨fun j => if j = 0 then ψ0 else ψ (j - 1), c', ?_, ?_⟩
    · intro j hj
      rcases j with _ | j
      · simpa using h1
      · simpa using h3 j (by simpa using hj)
    · have hf : partialRow x id (n + a) n = partialRow x (fun t => t) (n + a) (n + 0) := rfl
      rw [stutterRows, firstRow hx, ok_bind, hf, h2, ok_bind]
      dsimp only
      rw [h4, ok_bind]
      dsimp only
      refine congrArg Except.ok (Prod.ext ?_ rfl)
      simp [List.mapIdx_cons]

theorem stutterSeries_warp {g : Rng R} (hg : g.Valid) {n d : ℕ} (a : ℕ) (hn : 0 < n) : ∀ (X : Data R) (c : ℕ), (∀ Z ∈ X, Z.length = d ∧ ∀ x ∈ Z, x.length = n) →
    ∃ (ψ : ℕ → ℕ → ℕ → ℕ) (c' : ℕ), (∀ i < X.length, ∀ j < d, IsWarp n (n + a) (ψ i j)) ∧
      stutterSeries g n a X c = .ok (X.mapIdx fun i Z => Z.mapIdx fun j x => warpRow (ψ i j) (n + a) x, c') := by
  intro X
  induction X with
  | nil => intro c _; exact ⟨fun _ _ t => t, c, by simp, rfl⟩
  | cons Z X ih =>
    intro c h
    obtain ⟨ψ0, c0, h1, h2⟩ := stutterRows_warp hg a hn Z c (h Z (by simp)).2
    obtain ⟨ψ, c', h3, h4⟩ := ih c0 (fun y hy => h y (by simp [hy]))
    refine ⟨fun i => if i = 0 then ψ0 else ψ (i - 1), c', ?_, ?_⟩
    · intro i hi j hj
      rcases i with _ | i
      · simpa using h1 j (by rw [(h Z (by simp)).1]; exact hj)
      · simpa using h3 i (by simpa using hi) j hj
    · rw [stutterSeries, h2, ok_bind]
      dsimp only
      rw [h4, ok_bind]
      dsimp only
      refine congrArg Except.ok (Prod.ext ?_ rfl)
      simp [List.mapIdx_cons]

/-- **C119.** Whatever the random draws are, `implant_stuttering(X, s)` returns; the series get `⌊s n⌋` more time steps, and each
dimension of each series is the original with some samples repeated: first and last sample stay first and last, no sample is
left out and none is moved. -/
theorem C119_stuttering {g : Rng R} (hg : g.Valid) {s : R} (hs : 0 ≤ s) {X : Data R} {m d n : ℕ} (hX : HasShape X m d n) (hm : 0 < m) (hd : 0 < d)
    (hn : 0 < n) :
    ∃ Y, implantStuttering g s X = .ok Y ∧ HasShape Y m d (n + ⌊s * (n : R)⌋.toNat) ∧
      ∀ i < m, ∀ j < d, ∃ φ, IsWarp n (n + ⌊s * (n : R)⌋.toNat) φ ∧
        ∀ t < n + ⌊s * (n : R)⌋.toNat, at3 Y i j t = at3 X i j (φ t) := by
  obtain ⟨ψ, c, h1, h2⟩ := stutterSeries_warp hg (⌊s * (n : R)⌋.toNat) hn X 0 hX.2
  refine ⟨X.mapIdx fun i Z => Z.mapIdx fun j x => warpRow (ψ i j) (n + ⌊s * (n : R)⌋.toNat) x, ?_, ?_, ?_⟩
  · rw [implantStuttering, hX.shape2_eq hm hd, additionalLength_ok hs, ok_bind, h2]
    rfl
  · refine ⟨by simpa using hX.1, ?_⟩
    intro Z hZ
    obtain ⟨i, hi, rfl⟩ := List.mem_mapIdx.1 hZ
    refine ⟨by simpa using (hX.2 _ (List.getElem_mem hi)).1, ?_⟩
    intro x hx
    obtain ⟨j, hj, rfl⟩ := List.mem_mapIdx.1 hx
    simp [warpRow]
  · intro i hi j hj
    have hi' : i < X.length := by rw [hX.1]; exact hi
    have hj' : j < X[i].length := by rw [(hX.2 _ (List.getElem_mem hi')).1]; exact hj
    refine ⟨ψ i j, h1 i hi' j hj, ?_⟩
    intro t ht
    simp [at3, List.getD_eq_getElem?_getD, hi', hj', warpRow, tab_getElem?, ht]

/-- **C118.** `lengthen(X, l)` adds `⌊l n⌋` time steps; the old ones keep their values and the new ones have the last value of the
series. -/
theorem C118_lengthen {l : R} (hl : 0 ≤ l) {X : Data R} {m d n : ℕ} (hX : HasShape X m d n) (hm : 0 < m) (hd : 0 < d) (hn : 0 < n) :
    ∃ Y, lengthen l X = .ok Y ∧ HasShape Y m d (n + ⌊l * (n : R)⌋.toNat) ∧
      ∀ i < m, ∀ j < d, (∀ t < n, at3 Y i j t = at3 X i j t) ∧
        ∀ t, n ≤ t → t < n + ⌊l * (n : R)⌋.toNat → at3 Y i j t = at3 X i j (n - 1) := by
  set a := ⌊l * (n : R)⌋.toNat with ha
  have hrow : ∀ x : List R, x.length = n → (do
      let y ← setSlc (zeros (n + a)) 0 n x
      setSlc y n (n + a) (slcFrom x (-1))) = .ok (warpRow (fun t => if t < n - 1 then t else n - 1) (n + a) x) := by
    intro x hx
    rw [firstRow hx, ok_bind]
    have e : slcFrom x (-1) = [x.getD (n - 1) 0] := by
      unfold slcFrom
      rw [show (-1 : ℤ) = -((1 : ℕ) : ℤ) by rfl, pyClip_neg _ _ (by omega), hx]
      have : n - 1 < x.length := by omega
      rw [List.drop_eq_getElem_cons this, List.drop_of_length_le (by omega)]
      simp [List.getD_eq_getElem?_getD, this]
    have hfill : setSlc (partialRow x id (n + a) n) n (n + a) [x.getD (n - 1) 0] =
        .ok (fillSlc (partialRow x id (n + a) n) n (n + a) (x.getD (n - 1) 0)) := by
      unfold setSlc fillSlc
      split
      · next h =>
        simp only [List.length_singleton] at h
        rw [← h]; rfl
      · rfl
    rw [e, hfill]
    unfold partialRow warpRow
    rw [fillSlc_tab _ _ _ _ _ le_rfl (by omega)]
    refine congrArg Except.ok (tab_congr fun t ht => ?_)
    beta_reduce
    by_cases h1 : t < n - 1
    · rw [if_neg (by omega), if_pos (by omega), if_pos h1]; rfl
    · rw [if_neg h1]
      by_cases h2 : n ≤ t
      · rw [if_pos (by omega)]
      · rw [if_neg (by omega), if_pos (by omega), show t = n - 1 by omega]; rfl
  have hZ : ∀ Z ∈ X, (Z.mapM fun x => do
      let y ← setSlc (zeros (n + a)) 0 n x
      setSlc y n (n + a) (slcFrom x (-1))) = .ok (Z.map (warpRow (fun t => if t < n - 1 then t else n - 1) (n + a))) := by
    intro Z hZ
    exact mapM_ok_map fun x hx => hrow x ((hX.2 Z hZ).2 x hx)
  have hsh := hX.warp (fun _ t => if t < n - 1 then t else n - 1) (n + a)
  refine ⟨warp (fun _ t => if t < n - 1 then t else n - 1) (n + a) X, ?_, hsh, ?_⟩
  · unfold lengthen
    rw [hX.shape2_eq hm hd]
    dsimp only
    rw [additionalLength_ok hl, ok_bind, mapM_ok_map hZ]
    refine congrArg Except.ok ?_
    unfold warp
    apply List.ext_getElem <;> simp
  · intro i hi j hj
    refine ⟨fun t ht => ?_, fun t h1 h2 => ?_⟩
    · rw [at3_warp hX _ hi hj (by omega)]
      by_cases h1 : t < n - 1
      · rw [if_pos h1]
      · rw [if_neg h1, show t = n - 1 by omega]
    · rw [at3_warp hX _ hi hj h2, if_neg (by omega)]

/-- A lengthened dataset is the dataset with the last samples repeated. -/
theorem lengthen_warp {l : R} (hl : 0 ≤ l) {X : Data R} {m d n : ℕ} (hX : HasShape X m d n) (hm : 0 < m) (hd : 0 < d) (hn : 0 < n) :
    ∃ φ : ℕ → ℕ, IsWarp n (n + ⌊l * (n : R)⌋.toNat) φ ∧ lengthen l X = .ok (warp (fun _ => φ) (n + ⌊l * (n : R)⌋.toNat) X) := by
  obtain ⟨Y, h1, h2, h3⟩ := C118_lengthen hl hX hm hd hn
  refine ⟨_, (isWarp_id hn).extend (Nat.le_add_right _ _), ?_⟩
  rw [h1]
  refine congrArg Except.ok (h2.ext (hX.warp _ _) fun i hi j hj t ht => ?_)
  rw [at3_warp hX _ hi hj ht]
  by_cases h4 : t < n - 1
  · rw [if_pos h4, (h3 i hi j hj).1 t (by omega)]
  · rw [if_neg h4]
    by_cases h5 : n ≤ t
    · rw [(h3 i hi j hj).2 t h5 ht]
    · rw [(h3 i hi j hj).1 t (by omega), show t = n - 1 by omega]

/-- For series of one dimension the result of `implant_stuttering` is a time warp of the dataset. -/
theorem stuttering_warp {g : Rng R} (hg : g.Valid) {s : R} (hs : 0 ≤ s) {X : Data R} {m n : ℕ} (hX : HasShape X m 1 n) (hm : 0 < m) (hn : 0 < n) :
    ∃ φ : ℕ → ℕ → ℕ, (∀ i < m, IsWarp n (n + ⌊s * (n : R)⌋.toNat) (φ i)) ∧
      implantStuttering g s X = .ok (warp φ (n + ⌊s * (n : R)⌋.toNat) X) := by
  obtain ⟨Y, h1, h2, h3⟩ := C119_stuttering hg hs hX hm (by omega) hn
  choose! φ h4 h5 using fun i hi => h3 i hi 0 (by omega)
  refine ⟨φ, h4, ?_⟩
  rw [h1]
  refine congrArg Except.ok (h2.ext (hX.warp _ _) fun i hi j hj t ht => ?_)
  have : j = 0 := by omega
  subst this
  rw [at3_warp hX _ hi hj ht, h5 i hi t ht]

/-- **C120**, `lengthen`: a fruit of time warping invariant slices, fitted on any training data, returns the same features for a
dataset and for the lengthened dataset. -/
theorem C120_lengthen [NpMath R] (L : Lib R) (hT : L.T.Lawful) (hexp : ExpLike L.expf) (ρ : ℕ → Rng R)
    (w w' : World R (SafePrep R) (BIss R) (List (IWord R)) (SafeSieve R)) (f : ℕ) (C Xtrain X : Data R) {m d n : ℕ}
    (hs : ∀ s ∈ (w.fruit f).slices, TwiSlice w s d X) (hfit : fruitFit (builtin L) ρ f C Xtrain w = (.ok (), w'))
    (hX : HasShape X m d n) (hm : 0 < m) (hd : 0 < d) (hn : 0 < n) {l : R} (hl : 0 ≤ l) (Y : Data R) (hY : lengthen l X = .ok Y) (c c' : ℕ) :
    (fruitTransform (builtin L) w' c' f Y Y).1 = (fruitTransform (builtin L) w' c f X X).1 := by
  obtain ⟨φ, h1, h2⟩ := lengthen_warp hl hX hm hd hn
  rw [hY] at h2
  cases h2
  exact C106_fitted L hT hexp ρ w w' f C Xtrain X hs hfit hX hm hd (fun _ _ => h1) c c'

/-- **C120**, `implant_stuttering` on series of one dimension: whatever the random draws are, a fruit of time warping invariant slices,
fitted on any training data, returns the same features for a dataset and for the dataset with implanted stuttering. -/
theorem C120_stuttering_partial [NpMath R] (L : Lib R) (hT : L.T.Lawful) (hexp : ExpLike L.expf) (ρ : ℕ → Rng R)
    (w w' : World R (SafePrep R) (BIss R) (List (IWord R)) (SafeSieve R)) (f : ℕ) (C Xtrain X : Data R) {m n : ℕ}
    (hs : ∀ s ∈ (w.fruit f).slices, TwiSlice w s 1 X) (hfit : fruitFit (builtin L) ρ f C Xtrain w = (.ok (), w'))
    (hX : HasShape X m 1 n) (hm : 0 < m) (hn : 0 < n) {g : Rng R} (hg : g.Valid) {l : R} (hl : 0 ≤ l) (Y : Data R)
    (hY : implantStuttering g l X = .ok Y) (c c' : ℕ) :
    (fruitTransform (builtin L) w' c' f Y Y).1 = (fruitTransform (builtin L) w' c f X X).1 := by
  obtain ⟨φ, h1, h2⟩ := stuttering_warp hg hl hX hm hn
  rw [hY] at h2
  cases h2
  exact C106_fitted L hT hexp ρ w w' f C Xtrain X hs hfit hX hm (by omega) h1 c c'

end Fruits

/-! ### Examples and the counterexample for several dimensions -/

namespace Fruits.StutterExample
open Fruits

def X1 : Data ℚ := [[[1, 3, 2, 5]], [[4, 4, 7, 0]]]
/-- Draws the lower bound in every second call and the upper bound in the others. -/
def g : Rng ℚ := ⟨fun c lo hi => if c % 2 = 0 then lo else if c % 4 = 1 then lo else hi - 1, fun _ n k => List.range k, fun _ _ _ => 0, fun _ _ _ => 0, fun _ _ => 0, id⟩

theorem g_valid : g.Valid where
  randint_range := by intro c lo hi h; simp only [g]; split <;> [skip; split] <;> constructor <;> omega
  choice_length := by intro c n k h; simp [g]
  choice_nodup := by intro c n k h; simp [g, List.nodup_range]
  choice_lt := by intro c n k h x hx; simp [g] at hx; omega
  uniform_range := by intro c i j; simp [g]

example : implantStuttering g (1 / 2) X1 = .ok [[[1, 3, 3, 2, 5, 5]], [[4, 4, 4, 7, 0, 0]]] := by decide +kernel
example : lengthen (1 / 2) X1 = .ok [[[1, 3, 2, 5, 5, 5]], [[4, 4, 7, 0, 0, 0]]] := by decide +kernel
example : implantStuttering g (-1 / 2) X1 = .error .valueError := by decide +kernel
example : HasShape X1 2 1 4 := by simp [X1, HasShape]

/-- One series of two equal dimensions. -/
def X2 : Data ℚ := [[[1, 2, 3], [1, 2, 3]]]
def X2' : Data ℚ := [[[1, 2, 2, 3], [1, 2, 3, 3]]]
def words2 : List (IWord ℚ) := [.simple ⟨[[1, 1]], 2, "[12]".toList, none⟩]

/-- The pipeline `INC -> ISS(["[12]"]) -> END`. -/
def pipeline (Z : Data ℚ) : Except Err (List (List (List ℚ))) :=
  INC.transform ⟨.int 1, 1, true⟩ Z >>= fun Y => issSieve ratText (fun _ => (1 : ℚ)) words2 .single .reals none (.seg .end_ { q := [-1, 1] }) Z Y

/-- **C120 fails for series of several dimensions**: the dimensions of a series stutter independently, so that
`INC -> ISS(["[12]"]) -> END`, which is invariant under time warping (`C12_time_warping`), gives other features. -/
theorem C120_counterexample : implantStuttering g (1 / 3) X2 = .ok X2' ∧ pipeline X2 = .ok [[[2]]] ∧ pipeline X2' = .ok [[[1]]] := by
  decide +kernel

example : pipeline (warp (fun _ t => [0, 1, 1, 2].getD t 2) 4 X2) = .ok [[[2]]] := by decide +kernel

/-- The hypotheses of `C12_time_warping` hold for this pipeline. -/
example : (∀ s, IWord.simple s ∈ words2 → ∀ el ∈ s.els, PositiveLetter 2 el) ∧ SimpleISS (⟨words2, .single, .reals, none⟩ : ISSConf ℚ) := by
  refine ⟨?_, ?_⟩
  · intro s hs el hel
    simp only [words2, List.mem_singleton, IWord.simple.injEq] at hs
    subst hs
    simp only [List.mem_singleton] at hel
    subst hel
    simp [PositiveLetter]
  · refine ⟨by decide, by simp [words2], ?_, ?_, ?_⟩
    · intro w hw; simp only [words2, List.mem_singleton] at hw; exact ⟨_, hw⟩
    · intro w hw; simp only [words2, List.mem_singleton] at hw; subst hw; decide
    · intro _ w hw
      simp only [words2, List.mem_singleton] at hw
      subst hw
      exact ⟨["12".toList], by simp [BlocksOK, BracketFree], rfl, rfl⟩

end Fruits.StutterExample
