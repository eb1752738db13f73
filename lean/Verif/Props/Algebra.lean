import Verif.Props.Kernels
import Verif.QuasiShuffle

/-! # C11, C13, C14: algebraic laws of the iterated sums -/

set_option linter.unusedSectionVars false

namespace Fruits
variable {R : Type} [Field R] [LinearOrder R] [IsStrictOrderedRing R] [FloorRing R]

/-! ## C11: the quasi-shuffle identity -/

theorem prod_getD_eq {p : ℕ} (els : List (List ℤ)) (hp : els.length = p) (Z : List (List R))
    (i : Fin p → ℕ) :
    ∏ j : Fin p, monomial Z (els[j]'(by omega)) (i j)
      = ∏ j : Fin p, monomial Z (els.getD j []) (i j) := by
  apply Finset.prod_congr rfl
  intro j _
  have : (j : ℕ) < els.length := by omega
  simp [List.getD_eq_getElem?_getD, this]

theorem getD_mergeLetter (a b : List ℤ) (d : ℕ) :
    (mergeLetter a b).getD d 0 = a.getD d 0 + b.getD d 0 := by
  unfold mergeLetter
  rcases Nat.lt_or_ge d (max a.length b.length) with h | h
  · rw [tab_getD _ _ _ _ h]
  · have h1 : a.length ≤ d := le_trans (le_max_left _ _) h
    have h2 : b.length ≤ d := le_trans (le_max_right _ _) h
    simp only [List.getD_eq_getElem?_getD, List.getElem?_eq_none h1, List.getElem?_eq_none h2]
    rw [tab_getElem?, if_neg (by omega)]
    rfl

theorem monomial_merge {Z : List (List R)} {a b : List ℤ} {t : ℕ}
    (ha : ∀ d < a.length, a.getD d 0 < 0 → entry Z d t ≠ 0)
    (hb : ∀ d < b.length, b.getD d 0 < 0 → entry Z d t ≠ 0) :
    monomial Z (mergeLetter a b) t = monomial Z a t * monomial Z b t := by
  have key : ∀ (c : List ℤ) m, c.length ≤ m →
      monomial Z c t = ∏ d ∈ Finset.range m, entry Z d t ^ (c.getD d 0) := by
    intro c m hm
    unfold monomial
    apply Finset.prod_subset
    · intro d hd; simp only [Finset.mem_range] at hd ⊢; omega
    · intro d _ hd
      simp only [Finset.mem_range, not_lt] at hd
      simp [List.getD_eq_getElem?_getD, hd]
  rw [key a (max a.length b.length) (le_max_left _ _), key b (max a.length b.length) (le_max_right _ _),
    key (mergeLetter a b) (max a.length b.length) (by simp [mergeLetter]), ← Finset.prod_mul_distrib]
  apply Finset.prod_congr rfl
  intro d _
  rw [getD_mergeLetter]
  have lt_len : ∀ c : List ℤ, c.getD d 0 < 0 → d < c.length := by
    intro c h
    by_contra hn
    rw [List.getD_eq_getElem?_getD, List.getElem?_eq_none (by omega)] at h
    simp at h
  by_cases h0 : entry Z d t = 0
  · have h1 : 0 ≤ a.getD d 0 := by
      by_contra h; exact ha d (lt_len a (by omega)) (by omega) h0
    have h2 : 0 ≤ b.getD d 0 := by
      by_contra h; exact hb d (lt_len b (by omega)) (by omega) h0
    obtain ⟨m, hm⟩ := Int.eq_ofNat_of_zero_le h1
    obtain ⟨l, hl⟩ := Int.eq_ofNat_of_zero_le h2
    rw [hm, hl, h0]
    have : ((m : ℤ) + (l : ℤ)) = ((m + l : ℕ) : ℤ) := by push_cast; ring
    rw [this, zpow_natCast, zpow_natCast, zpow_natCast, pow_add]
  · exact zpow_add₀ h0 _ _

/-- A simple word given by its exponent vectors (the string plays no role here). -/
def bareWord {R : Type} (els : List (List ℤ)) : SWord R := ⟨els, 0, [], none⟩

/-- **C11**: at every time step and for every series the product of the iterated sums of two words `u`, `v`
is the sum of the iterated sums of the words in the quasi-shuffle of `u` and `v`. -/
theorem C11_quasi_shuffle {expf : R → R} (hexp : ExpLike expf) {X : Data R} {D n : ℕ}
    {u v : SWord R} (hadm : Admissible X D n [u, v]) (hdiv : NoZeroDivision X n [u, v]) :
    ∃ (A B : List (List R)) (C : Data R),
      (⟨[.simple u, .simple v], .single, .reals, none⟩ : ISSConf R).transform expf X = .ok [A, B] ∧
      (⟨(quasiShuffle u.els v.els).map (fun w => .simple (bareWord w)), .single, .reals, none⟩ :
        ISSConf R).transform expf X = .ok C ∧
      ∀ j < X.length, ∀ t < n,
        entry A j t * entry B j t = (C.map fun c => entry c j t).sum := by
  have hlen : ∀ (D : ℕ) (us vs : List (List ℤ)), (∀ el ∈ us, el.length ≤ D) → (∀ el ∈ vs, el.length ≤ D) →
      ∀ w ∈ quasiShuffle us vs, (∀ el ∈ w, el.length ≤ D) ∧ (us ≠ [] → w ≠ []) := by
    intro D us vs
    induction us, vs using quasiShuffle.induct with
    | case1 v => intro _ hv w hw; rw [quasiShuffle, List.mem_singleton] at hw; subst hw; exact ⟨hv, by simp⟩
    | case2 a u => intro hu _ w hw; rw [quasiShuffle, List.mem_singleton] at hw; subst hw; exact ⟨hu, by simp⟩
    | case3 a u b v ih1 ih2 ih3 =>
      intro hu hv w hw
      rw [quasiShuffle, List.mem_append, List.mem_append, List.mem_map, List.mem_map, List.mem_map] at hw
      have hu' : ∀ el ∈ u, el.length ≤ D := fun el h => hu el (by simp [h])
      have hv' : ∀ el ∈ v, el.length ≤ D := fun el h => hv el (by simp [h])
      rcases hw with (⟨w', hw', rfl⟩ | ⟨w', hw', rfl⟩) | ⟨w', hw', rfl⟩
      · refine ⟨?_, by simp⟩
        intro el hel
        rcases List.mem_cons.1 hel with rfl | hel
        · exact hu _ (by simp)
        · exact (ih1 hu' hv w' hw').1 el hel
      · refine ⟨?_, by simp⟩
        intro el hel
        rcases List.mem_cons.1 hel with rfl | hel
        · exact hv _ (by simp)
        · exact (ih2 hu hv' w' hw').1 el hel
      · refine ⟨?_, by simp⟩
        intro el hel
        rcases List.mem_cons.1 hel with rfl | hel
        · simp only [mergeLetter, tab_length]
          exact max_le (hu _ (by simp)) (hv _ (by simp))
        · exact (ih3 hu' hv' w' hw').1 el hel
  have hq := hlen D u.els v.els (hadm.fits u (by simp)) (hadm.fits v (by simp))
  have hqne : quasiShuffle u.els v.els ≠ [] := by
    cases hu : u.els with
    | nil => simp [quasiShuffle]
    | cons a us =>
      cases hv : v.els with
      | nil => simp [quasiShuffle]
      | cons b vs =>
        rw [quasiShuffle]
        intro h
        simp only [List.append_eq_nil_iff, List.map_eq_nil_iff] at h
        have : ∀ us vs, quasiShuffle us vs ≠ [] := by
          intro us vs
          induction us, vs using quasiShuffle.induct with
          | case1 v => simp [quasiShuffle]
          | case2 a u => simp [quasiShuffle]
          | case3 a u b v ih1 ih2 ih3 => rw [quasiShuffle]; simp [ih1]
        exact this _ _ h.2
  have h1 := C01_reals_iss hexp hadm hdiv
  have hadm2 : Admissible X D n ((quasiShuffle u.els v.els).map (bareWord (R := R))) := by
    refine ⟨hadm.data, hadm.dims, by simpa using hqne, ?_, ?_⟩
    · intro w hw
      obtain ⟨w', hw', rfl⟩ := List.mem_map.1 hw
      exact (hq w' hw').2 (hadm.letters u (by simp))
    · intro w hw
      obtain ⟨w', hw', rfl⟩ := List.mem_map.1 hw
      exact (hq w' hw').1
  -- exponents of the quasi-shuffle do not introduce new divisions by zero
  have hdivq : ∀ us vs : List (List ℤ), ∀ w ∈ quasiShuffle us vs, ∀ el ∈ w, ∀ d, el.getD d 0 < 0 →
      (∃ a ∈ us, a.getD d 0 < 0) ∨ ∃ b ∈ vs, b.getD d 0 < 0 := by
    intro us vs
    induction us, vs using quasiShuffle.induct with
    | case1 v =>
      intro w hw el hel d hd
      rw [quasiShuffle, List.mem_singleton] at hw; subst hw; exact Or.inr ⟨el, hel, hd⟩
    | case2 a u =>
      intro w hw el hel d hd
      rw [quasiShuffle, List.mem_singleton] at hw; subst hw; exact Or.inl ⟨el, hel, hd⟩
    | case3 a u b v ih1 ih2 ih3 =>
      intro w hw el hel d hd
      rw [quasiShuffle, List.mem_append, List.mem_append, List.mem_map, List.mem_map, List.mem_map] at hw
      rcases hw with (⟨w', hw', rfl⟩ | ⟨w', hw', rfl⟩) | ⟨w', hw', rfl⟩
      · rcases List.mem_cons.1 hel with rfl | hel
        · exact Or.inl ⟨el, by simp, hd⟩
        · rcases ih1 w' hw' el hel d hd with ⟨x, hx, h⟩ | h
          · exact Or.inl ⟨x, by simp [hx], h⟩
          · exact Or.inr h
      · rcases List.mem_cons.1 hel with rfl | hel
        · exact Or.inr ⟨el, by simp, hd⟩
        · rcases ih2 w' hw' el hel d hd with h | ⟨x, hx, h⟩
          · exact Or.inl h
          · exact Or.inr ⟨x, by simp [hx], h⟩
      · rcases List.mem_cons.1 hel with rfl | hel
        · rw [getD_mergeLetter] at hd
          rcases lt_or_ge (a.getD d 0) 0 with h | h
          · exact Or.inl ⟨a, by simp, h⟩
          · exact Or.inr ⟨b, by simp, by omega⟩
        · rcases ih3 w' hw' el hel d hd with ⟨x, hx, h⟩ | ⟨x, hx, h⟩
          · exact Or.inl ⟨x, by simp [hx], h⟩
          · exact Or.inr ⟨x, by simp [hx], h⟩
  have lt_len : ∀ (c : List ℤ) (d : ℕ), c.getD d 0 < 0 → d < c.length := by
    intro c d h
    by_contra hn
    rw [List.getD_eq_getElem?_getD, List.getElem?_eq_none (by omega)] at h
    simp at h
  have hdiv2 : NoZeroDivision X n ((quasiShuffle u.els v.els).map (bareWord (R := R))) := by
    intro w hw el hel d _ hneg Z hZ t ht
    obtain ⟨w', hw', rfl⟩ := List.mem_map.1 hw
    rcases hdivq _ _ w' hw' el hel d hneg with ⟨a, ha, h⟩ | ⟨a, ha, h⟩
    · exact hdiv u (by simp) a ha d (lt_len a d h) h Z hZ t ht
    · exact hdiv v (by simp) a ha d (lt_len a d h) h Z hZ t ht
  have h2 := C01_reals_iss hexp hadm2 hdiv2
  rw [List.map_map] at h2
  refine ⟨_, _, _, h1, h2, ?_⟩
  intro j hj t ht
  have hent : ∀ f : List (List R) → ℕ → R,
      entry (X.map fun Z => tab n (f Z)) j t = f X[j] t := by
    intro f
    unfold entry
    have : (X.map fun Z => tab n (f Z)).getD j [] = tab n (f X[j]) := by
      simp [List.getD_eq_getElem?_getD, hj]
    rw [this, tab_getD _ _ _ _ ht]
  have hts : ∀ els : List (List ℤ),
      (∑ i ∈ incTuples els.length (t + 1), ∏ k : Fin els.length, monomial X[j] els[k] (i k))
        = tailSum (fun el s => monomial X[j] el s) (t + 1) 0 els := by
    intro els
    rw [← incSum_eq_tailSum]
    unfold incSum
    apply Finset.sum_congr rfl
    intro i _
    exact prod_getD_eq els rfl X[j] i
  rw [hent, hent, hts, hts, tailSum_quasiShuffle]
  · rw [List.map_map, List.map_map]
    congr 1
    apply List.map_congr_left
    intro w _
    simp only [Function.comp]
    rw [hent]
    exact (hts w).symm
  · intro a ha b hb s _ hs
    apply monomial_merge
    · intro d hd hneg
      exact hdiv u (by simp) a ha d hd hneg _ (List.getElem_mem hj) s (by omega)
    · intro d hd hneg
      exact hdiv v (by simp) b hb d hd hneg _ (List.getElem_mem hj) s (by omega)

/-- The quasi-shuffle of `[1]` and `[2]` is `[1][2] + [2][1] + [12]`. -/
example : quasiShuffle [[1, 0]] [[0, 1]] = [[[1, 0], [0, 1]], [[0, 1], [1, 0]], [[1, 1]]] := by
  decide +kernel

example : Admissible exX 2 3 [exWords[0], exWords[0]] ∧ NoZeroDivision exX 3 [exWords[0], exWords[0]] := by
  refine ⟨⟨by simp [exX, IsData, Rect], by decide, by simp, by simp [exWords], by simp [exWords]⟩, ?_⟩
  intro w hw el hel d hd hneg
  simp only [exWords, List.mem_cons, List.not_mem_nil, or_false, List.getElem_cons_zero, or_self] at hw
  subst hw
  simp only [List.mem_cons, List.not_mem_nil, or_false] at hel
  rcases hel with rfl | rfl <;>
    (have : d = 0 ∨ d = 1 := by simp at hd; omega
     rcases this with rfl | rfl <;> simp at hneg)

/-! ## C13: homogeneity -/

/-- The dataset multiplied by `c`. -/
def scaleData {R : Type} [Mul R] (c : R) (X : Data R) : Data R :=
  X.map fun Z => Z.map fun x => x.map (c * ·)

/-- The weight of a word: the sum of all exponents. -/
def weight {R : Type} (w : SWord R) : ℤ := (w.els.map List.sum).sum

theorem entry_scale (c : R) (Z : List (List R)) (d t : ℕ) :
    entry (Z.map fun x => x.map (c * ·)) d t = c * entry Z d t := by
  unfold entry
  simp only [List.getD_eq_getElem?_getD, List.getElem?_map]
  cases Z[d]? with
  | none => simp
  | some x =>
    simp only [Option.map_some, Option.getD_some, List.getElem?_map]
    cases x[t]? <;> simp

theorem sum_getD_range (e : List ℤ) : ∑ d ∈ Finset.range e.length, e.getD d 0 = e.sum := by
  conv_rhs => rw [tab_of_list e 0]
  rw [sum_tab]

theorem monomial_scale {c : R} {Z : List (List R)} {e : List ℤ} {t : ℕ}
    (h : c ≠ 0 ∨ ∀ x ∈ e, 0 ≤ x) :
    monomial (Z.map fun x => x.map (c * ·)) e t = c ^ e.sum * monomial Z e t := by
  unfold monomial
  simp only [entry_scale, mul_zpow, Finset.prod_mul_distrib]
  congr 1
  have hgen : ∀ m ≤ e.length, ∏ d ∈ Finset.range m, c ^ (e.getD d 0)
      = c ^ (∑ d ∈ Finset.range m, e.getD d 0) := by
    intro m hm
    induction m with
    | zero => simp
    | succ m ih =>
      rw [Finset.prod_range_succ, ih (by omega), Finset.sum_range_succ]
      rcases h with h | h
      · rw [zpow_add₀ h]
      · have hn : ∀ d, 0 ≤ e.getD d 0 := by
          intro d
          rw [List.getD_eq_getElem?_getD]
          rcases he : e[d]? with _ | x
          · simp
          · simpa using h x (List.mem_of_getElem? he)
        obtain ⟨a, ha⟩ := Int.eq_ofNat_of_zero_le (Finset.sum_nonneg fun d (_ : d ∈ Finset.range m) => hn d)
        obtain ⟨b, hb⟩ := Int.eq_ofNat_of_zero_le (hn m)
        rw [ha, hb, zpow_natCast, zpow_natCast, ← pow_add, ← zpow_natCast]
        push_cast; rfl
  rw [hgen _ le_rfl, sum_getD_range]

theorem linform_scale (c : R) (Z : List (List R)) (e : List ℤ) (t : ℕ) :
    linform (Z.map fun x => x.map (c * ·)) e t = c * linform Z e t := by
  unfold linform
  rw [Finset.mul_sum]
  apply Finset.sum_congr rfl
  intro d _
  rw [entry_scale]; ring

theorem isData_scale {c : R} {X : Data R} {D n : ℕ} (h : IsData X D n) : IsData (scaleData c X) D n := by
  intro Z hZ
  obtain ⟨Z', hZ', rfl⟩ := List.mem_map.1 hZ
  obtain ⟨h1, h2⟩ := h Z' hZ'
  refine ⟨by simpa using h1, ?_⟩
  intro x hx
  obtain ⟨x', hx', rfl⟩ := List.mem_map.1 hx
  simpa using h2 x' hx'

theorem admissible_scale {c : R} {X : Data R} {D n : ℕ} {words : List (SWord R)}
    (h : Admissible X D n words) : Admissible (scaleData c X) D n words :=
  ⟨isData_scale h.data, h.dims, h.nonempty, h.letters, h.fits⟩

/-- **C13**, Reals: scaling the series by `c` scales the iterated sum of a word of weight `w` by `c ^ w`.
(`c ≠ 0` is needed only if some exponent is negative.) -/
theorem C13_homogeneous_reals {expf : R → R} (hexp : ExpLike expf) {X : Data R} {D n : ℕ}
    {words : List (SWord R)} (hadm : Admissible X D n words) (hdiv : NoZeroDivision X n words) (c : R)
    (hc : c ≠ 0 ∨ ∀ w ∈ words, ∀ el ∈ w.els, ∀ e ∈ el, 0 ≤ e) :
    ∃ A : Data R, (⟨words.map .simple, .single, .reals, none⟩ : ISSConf R).transform expf X = .ok A ∧
      (⟨words.map .simple, .single, .reals, none⟩ : ISSConf R).transform expf (scaleData c X)
        = .ok (List.zipWith (fun w a => a.map fun x => x.map (c ^ weight w * ·)) words A) := by
  have hdiv2 : NoZeroDivision (scaleData c X) n words := by
    intro w hw el hel d hd hneg Z hZ t ht
    obtain ⟨Z', hZ', rfl⟩ := List.mem_map.1 hZ
    rw [entry_scale]
    refine mul_ne_zero ?_ (hdiv w hw el hel d hd hneg Z' hZ' t ht)
    rcases hc with hc | hc
    · exact hc
    · exfalso
      have := hc w hw el hel (el.getD d 0) (by simp [List.getD_eq_getElem?_getD, hd])
      omega
  refine ⟨_, C01_reals_iss hexp hadm hdiv, ?_⟩
  rw [C01_reals_iss hexp (admissible_scale hadm) hdiv2]
  congr 1
  rw [List.zipWith_map_right, List.zipWith_self]
  apply List.map_congr_left
  intro w hw
  unfold scaleData
  rw [List.map_map, List.map_map]
  apply List.map_congr_left
  intro Z _
  simp only [Function.comp, map_tab]
  apply tab_congr; intro t _
  rw [Finset.mul_sum]
  apply Finset.sum_congr rfl
  intro i _
  have hm : ∀ k : Fin w.els.length, monomial (Z.map fun x => x.map (c * ·)) w.els[k] (i k)
      = c ^ (w.els[k]).sum * monomial Z w.els[k] (i k) := by
    intro k
    apply monomial_scale
    rcases hc with hc | hc
    · exact Or.inl hc
    · exact Or.inr (hc w hw _ (List.getElem_mem _))
  simp only [hm, Finset.prod_mul_distrib]
  congr 1
  have hgen : ∀ L : List (List ℤ), (c ≠ 0 ∨ ∀ el ∈ L, ∀ e ∈ el, 0 ≤ e) →
      (L.map fun el => c ^ el.sum).prod = c ^ (L.map List.sum).sum := by
    intro L hL
    induction L with
    | nil => simp
    | cons el L ih =>
      rw [List.map_cons, List.prod_cons, List.map_cons, List.sum_cons]
      rw [ih (hL.imp id fun h el hel => h el (by simp [hel]))]
      rcases hL with h | h
      · rw [zpow_add₀ h]
      · have h1 : 0 ≤ el.sum := List.sum_nonneg (h el (by simp))
        have h2 : 0 ≤ (L.map List.sum).sum := List.sum_nonneg (by
          intro x hx
          obtain ⟨e, he, rfl⟩ := List.mem_map.1 hx
          exact List.sum_nonneg (h e (by simp [he])))
        obtain ⟨a, ha⟩ := Int.eq_ofNat_of_zero_le h1
        obtain ⟨b, hb⟩ := Int.eq_ofNat_of_zero_le h2
        rw [ha, hb, zpow_natCast, zpow_natCast, ← pow_add, ← zpow_natCast]
        push_cast; rfl
  rw [weight, ← hgen _ (hc.imp id fun h => h w hw)]
  rw [← List.prod_ofFn]
  congr 1
  apply List.ext_getElem <;> simp

/-- **C13**, Arctic: scaling the series by `c ≥ 0` scales every iterated sum by `c`. -/
theorem C13_homogeneous_arctic {expf : R → R} {X : Data R} {D n : ℕ}
    {words : List (SWord R)} (hadm : Admissible X D n words) {c : R} (hc : 0 ≤ c) :
    ∃ A : Data R, (⟨words.map .simple, .single, .arctic, none⟩ : ISSConf R).transform expf X = .ok A ∧
      (⟨words.map .simple, .single, .arctic, none⟩ : ISSConf R).transform expf (scaleData c X)
        = .ok (A.map fun a => a.map fun x => x.map (c * ·)) := by
  obtain ⟨F, hF, hg⟩ := C02_arctic_iss (expf := expf) hadm
  obtain ⟨G, hG, hg'⟩ := C02_arctic_iss (expf := expf) (admissible_scale (c := c) hadm)
  refine ⟨_, hF, ?_⟩
  rw [hG]
  congr 1
  rw [List.map_map]
  apply List.map_congr_left
  intro w hw
  simp only [Function.comp]
  apply List.ext_getElem
  · simp [scaleData]
  intro j h1 h2
  have hj : j < X.length := by simpa [scaleData] using h1
  simp only [List.getElem_mapIdx, List.getElem_map, map_tab]
  apply tab_congr; intro t ht
  have hj' : j < (scaleData c X).length := by simpa [scaleData] using hj
  have g1 := hg w hw j hj t ht
  have g2 := hg' w hw j hj' t ht
  have hmono : Monotone (fun x : R => c * x) := fun a b h => mul_le_mul_of_nonneg_left h hc
  have g3 := hmono.map_isGreatest g1
  refine g2.unique ?_
  convert g3 using 1
  ext v
  simp only [Set.mem_ofPred_eq, Set.mem_image]
  have hX' : (scaleData c X)[j] = (X[j]).map fun x => x.map (c * ·) := by simp [scaleData]
  constructor
  · rintro ⟨i, hi, ht, rfl⟩
    refine ⟨_, ⟨i, hi, ht, rfl⟩, ?_⟩
    rw [Finset.mul_sum, hX']
    simp only [linform_scale]
  · rintro ⟨_, ⟨i, hi, ht, rfl⟩, rfl⟩
    refine ⟨i, hi, ht, ?_⟩
    rw [Finset.mul_sum, hX']
    simp only [linform_scale]

/-! ## C14: monotonicity in time -/

/-- A result array whose rows never decrease over time. -/
def NonDecreasing {R : Type} [LE R] (A : Data R) : Prop :=
  ∀ a ∈ A, ∀ x ∈ a, List.Pairwise (· ≤ ·) x

theorem pairwise_tab {R : Type} [Preorder R] {n : ℕ} {f : ℕ → R}
    (h : ∀ s t, s ≤ t → t < n → f s ≤ f t) : List.Pairwise (· ≤ ·) (tab n f) := by
  rw [List.pairwise_iff_getElem]
  intro i j hi hj hij
  simp only [tab_length] at hi hj
  simp only [tab_getElem]
  exact h i j hij.le hj

/-- **C14**, Arctic. -/
theorem C14_monotone_arctic {expf : R → R} {X : Data R} {D n : ℕ}
    {words : List (SWord R)} (hadm : Admissible X D n words) :
    ∃ A : Data R, (⟨words.map .simple, .single, .arctic, none⟩ : ISSConf R).transform expf X = .ok A ∧
      NonDecreasing A := by
  obtain ⟨F, hF, hg⟩ := C02_arctic_iss (expf := expf) hadm
  refine ⟨_, hF, ?_⟩
  intro a ha x hx
  obtain ⟨w, hw, rfl⟩ := List.mem_map.1 ha
  obtain ⟨j, hj, rfl⟩ := List.getElem_of_mem hx
  have hj' : j < X.length := by simpa using hj
  simp only [List.getElem_mapIdx]
  apply pairwise_tab
  intro s t hst ht
  obtain ⟨⟨i, hi, his, hv⟩, _⟩ := hg w hw j hj' s (by omega)
  exact (hg w hw j hj' t ht).2 ⟨i, hi, fun k => (his k).trans hst, hv⟩

/-- **C14**, Bayesian on non-negative data. -/
theorem C14_monotone_bayesian {expf : R → R} (hexp : ExpLike expf) {X : Data R} {D n : ℕ}
    {words : List (SWord R)} (hadm : Admissible X D n words) (hdiv : NoZeroDivision X n words)
    (hpos : Nonnegative X) :
    ∃ A : Data R, (⟨words.map .simple, .single, .bayesian, none⟩ : ISSConf R).transform expf X = .ok A ∧
      NonDecreasing A := by
  obtain ⟨F, hF, hg⟩ := C03_bayesian_iss hexp hadm hdiv hpos
  refine ⟨_, hF, ?_⟩
  intro a ha x hx
  obtain ⟨w, hw, rfl⟩ := List.mem_map.1 ha
  obtain ⟨j, hj, rfl⟩ := List.getElem_of_mem hx
  have hj' : j < X.length := by simpa using hj
  simp only [List.getElem_mapIdx]
  apply pairwise_tab
  intro s t hst ht
  obtain ⟨⟨i, hi, his, hv⟩, _⟩ := hg w hw j hj' s (by omega)
  exact (hg w hw j hj' t ht).2 ⟨i, hi, fun k => (his k).trans hst, hv⟩

/-- **C14**, Reals with even exponents. -/
theorem C14_monotone_reals {expf : R → R} (hexp : ExpLike expf) {X : Data R} {D n : ℕ}
    {words : List (SWord R)} (hadm : Admissible X D n words) (hdiv : NoZeroDivision X n words)
    (heven : ∀ w ∈ words, ∀ el ∈ w.els, ∀ e ∈ el, Even e) :
    ∃ A : Data R, (⟨words.map .simple, .single, .reals, none⟩ : ISSConf R).transform expf X = .ok A ∧
      NonDecreasing A := by
  refine ⟨_, C01_reals_iss hexp hadm hdiv, ?_⟩
  intro a ha x hx
  obtain ⟨w, hw, rfl⟩ := List.mem_map.1 ha
  obtain ⟨Z, hZ, rfl⟩ := List.mem_map.1 hx
  apply pairwise_tab
  intro s t hst ht
  apply Finset.sum_le_sum_of_subset_of_nonneg
  · intro i hi
    rw [mem_incTuples] at hi ⊢
    exact ⟨fun k => lt_of_lt_of_le (hi.1 k) (by omega), hi.2⟩
  · intro i _ _
    apply Finset.prod_nonneg
    intro k _
    apply Finset.prod_nonneg
    intro d hd
    apply Even.zpow_nonneg
    simp only [Finset.mem_range] at hd
    refine heven w hw w.els[k] (List.getElem_mem _) _ ?_
    rw [List.getD_eq_getElem?_getD, List.getElem?_eq_getElem hd]
    exact List.getElem_mem hd

/-- The word `[11][-2-2]` has even exponents. -/
example : ∀ el ∈ ([[2, 0], [0, -2]] : List (List ℤ)), ∀ e ∈ el, Even e := by decide

end Fruits
