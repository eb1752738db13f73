import Verif.Props.IteratedSums
import Verif.Props.Words3
import Verif.WordEq

/-! # C141, C142: which words can be told apart by their iterated sums and by `==` -/

namespace Fruits
set_option linter.unusedSectionVars false

variable {R : Type} [Field R] [LinearOrder R] [IsStrictOrderedRing R] [FloorRing R]

/-- The words have the same number of extended letters and in each of them every dimension occurs equally often. -/
def SameLetters (u v : SWord R) : Prop :=
  u.els.length = v.els.length ∧ ∀ k d, (u.els.getD k []).getD d 0 = (v.els.getD k []).getD d 0

private theorem getD_of_lt {α : Type} {l : List α} (d : α) {k : ℕ} (h : k < l.length) : l.getD k d = l[k] := by simp [List.getD, h]

private theorem getD_of_le {α : Type} {l : List α} (d : α) {k : ℕ} (h : l.length ≤ k) : l.getD k d = d := by simp [List.getD, h]

/-- There is one strictly increasing tuple of length `p` with entries below `p`. -/
theorem incTuples_self (p : ℕ) : incTuples p p = ({fun k : Fin p => (k : ℕ)} : Finset (Fin p → ℕ)) := by
  ext i
  rw [mem_incTuples, Finset.mem_singleton]
  constructor
  · rintro ⟨h1, h2⟩
    refine (StrictMono.range_inj h2 (fun a b h => h)).1 ?_
    ext x
    constructor
    · rintro ⟨k, rfl⟩
      exact ⟨⟨i k, h1 k⟩, rfl⟩
    · rintro ⟨k, rfl⟩
      have hinj : Function.Injective fun k : Fin p => (⟨i k, h1 k⟩ : Fin p) := by
        intro a b h
        exact h2.injective (by simpa using h)
      obtain ⟨j, hj⟩ := (Finite.injective_iff_surjective.1 hinj) k
      exact ⟨j, by simpa using congrArg Fin.val hj⟩
  · rintro rfl
    exact ⟨fun j => j.2, fun a b h => h⟩

/-- There is no strictly increasing tuple of length `q` with entries below `p < q`. -/
theorem incTuples_empty {q p : ℕ} (h : p < q) : incTuples q p = ∅ := by
  ext i
  rw [mem_incTuples]
  simp only [Finset.notMem_empty, iff_false, not_and]
  intro h1 h2
  have : Fintype.card (Fin q) ≤ Fintype.card (Fin p) :=
    Fintype.card_le_of_injective (fun k => (⟨i k, h1 k⟩ : Fin p)) fun a b h => h2.injective (by simpa using h)
  simp at this
  omega

/-- One series with the given entries. -/
def wordSeries (D n : ℕ) (f : ℕ → ℕ → R) : Data R := [tab D fun d => tab n fun t => f d t]

theorem entry_wordSeries {D n d t : ℕ} (hd : d < D) (ht : t < n) (f : ℕ → ℕ → R) : entry (tab D fun d => tab n fun t => f d t) d t = f d t := by
  rw [entry, tab_getD _ _ _ _ hd, tab_getD _ _ _ _ ht]

/-- The strict iterated sum of one series at the last time step. -/
theorem last_value {expf : R → R} (hexp : ExpLike expf) {D n : ℕ} (hn : 0 < n) {f : ℕ → ℕ → R} (hf : ∀ d t, f d t ≠ 0) {w : SWord R} (hw : w.els ≠ [])
    (hD : 0 < D) (hfit : ∀ el ∈ w.els, el.length ≤ D) :
    (⟨[.simple w], .single, .reals, none⟩ : ISSConf R).transform expf (wordSeries D n f) =
      .ok [[tab n fun t => ∑ i ∈ incTuples w.els.length (t + 1), ∏ k : Fin w.els.length, monomial (tab D fun d => tab n fun t => f d t) w.els[k] (i k)]] := by
  have hadm : Admissible (wordSeries D n f) D n [w] :=
    ⟨by
      intro Z hZ
      rw [List.mem_singleton.1 hZ]
      refine ⟨by simp, ?_⟩
      intro x hx
      obtain ⟨d, _, rfl⟩ := mem_tab.1 hx
      simp, hD, by simp, by simpa using hw, by simpa using hfit⟩
  have hdiv : NoZeroDivision (wordSeries D n f) n [w] := by
    intro v hv el hel d hd _ Z hZ t ht
    rw [List.mem_singleton.1 hv] at hel
    rw [List.mem_singleton.1 hZ, entry_wordSeries (hd.trans_le (hfit el hel)) ht]
    exact hf d t
  have := C01_reals_iss hexp hadm hdiv
  simpa [wordSeries] using this


theorem monomial_sameExp (Z : List (List R)) (t : ℕ) {e e' : List ℤ} (h : ∀ d, e.getD d 0 = e'.getD d 0) : monomial Z e t = monomial Z e' t := by
  have key : ∀ (e : List ℤ) (N : ℕ), e.length ≤ N → monomial Z e t = ∏ d ∈ Finset.range N, entry Z d t ^ (e.getD d 0) := by
    intro e N hN
    rw [monomial]
    refine Finset.prod_subset (by simpa using hN) fun d _ hd => ?_
    rw [getD_of_le _ (by simpa using hd), zpow_zero]
  rw [key e (max e.length e'.length) (le_max_left _ _), key e' (max e.length e'.length) (le_max_right _ _)]
  exact Finset.prod_congr rfl fun d _ => by rw [h d]

/-- The strict iterated sum of a word, as a function of its letters read with default `[]`. -/
theorem sum_getD (Z : List (List R)) (els : List (List ℤ)) (t : ℕ) :
    (∑ i ∈ incTuples els.length (t + 1), ∏ k : Fin els.length, monomial Z els[k] (i k)) =
      ∑ i ∈ incTuples els.length (t + 1), ∏ k : Fin els.length, monomial Z (els.getD k []) (i k) := by
  refine Finset.sum_congr rfl fun i _ => Finset.prod_congr rfl fun k _ => ?_
  rw [getD_of_lt _ k.2]
  rfl

theorem sum_same (Z : List (List R)) (t : ℕ) {a b : List (List ℤ)} (hl : a.length = b.length) (h : ∀ k d, (a.getD k []).getD d 0 = (b.getD k []).getD d 0) :
    (∑ i ∈ incTuples a.length (t + 1), ∏ k : Fin a.length, monomial Z a[k] (i k)) =
      ∑ i ∈ incTuples b.length (t + 1), ∏ k : Fin b.length, monomial Z b[k] (i k) := by
  rw [sum_getD, sum_getD]
  have : ∀ {p q : ℕ} (_ : p = q), (∑ i ∈ incTuples p (t + 1), ∏ k : Fin p, monomial Z (a.getD k []) (i k)) = ∑ i ∈ incTuples q (t + 1), ∏ k : Fin q, monomial Z (b.getD k []) (i k) := by
    rintro p q rfl
    exact Finset.sum_congr rfl fun i _ => Finset.prod_congr rfl fun k _ => monomial_sameExp Z _ (h k)
  exact this hl

/-- The two words have the same iterated sums on all data on which both can be used. -/
def SameSums (expf : R → R) (k : SemiringKind) (u v : SWord R) : Prop :=
  ∀ (X : Data R) (D n : ℕ), Admissible X D n [u, v] → NoZeroDivision X n [u, v] →
    (⟨[.simple u], .single, k, none⟩ : ISSConf R).transform expf X = (⟨[.simple v], .single, k, none⟩ : ISSConf R).transform expf X

theorem monomial_one {D n t : ℕ} {f : ℕ → ℕ → R} {el : List ℤ} (hl : el.length ≤ D) (ht : t < n) (hf : ∀ d, f d t = 1) :
    monomial (tab D fun d => tab n fun t => f d t) el t = 1 := by
  rw [monomial]
  refine Finset.prod_eq_one fun d hd => ?_
  rw [entry_wordSeries ((Finset.mem_range.1 hd).trans_le hl) ht, hf, one_zpow]

theorem monomial_two {D n t d₀ : ℕ} {f : ℕ → ℕ → R} {el : List ℤ} (hl : el.length ≤ D) (ht : t < n) (hf : ∀ d, f d t = if d = d₀ then 2 else 1) :
    monomial (tab D fun d => tab n fun t => f d t) el t = 2 ^ (el.getD d₀ 0) := by
  have h1 : monomial (tab D fun d => tab n fun t => f d t) el t = ∏ d ∈ Finset.range el.length, (if d = d₀ then (2 : R) ^ (el.getD d₀ 0) else 1) := by
    rw [monomial]
    refine Finset.prod_congr rfl fun d hd => ?_
    rw [entry_wordSeries ((Finset.mem_range.1 hd).trans_le hl) ht, hf]
    split
    · subst d; rfl
    · rw [one_zpow]
  rw [h1, Finset.prod_ite_eq']
  split
  · rfl
  · rename_i h
    rw [getD_of_le _ (by simpa using h), zpow_zero]

/-- The sum over all positions of a series as long as the word. -/
theorem last_sum {p : ℕ} (g : Fin p → ℕ → R) : (∑ i ∈ incTuples p p, ∏ k : Fin p, g k (i k)) = ∏ k : Fin p, g k k := by
  rw [incTuples_self, Finset.sum_singleton]

/-- **C141**: over the real semiring two non-empty words have the same iterated sums on all admissible data exactly when
they have the same number of extended letters and each dimension occurs equally often in each of them. -/
theorem C141_reals_partial {expf : R → R} (hexp : ExpLike expf) {u v : SWord R} (hu : u.els ≠ []) (hv : v.els ≠ []) :
    SameSums expf .reals u v ↔ SameLetters u v := by
  constructor
  · intro h
    -- compare on one series without zeros
    have cmp : ∀ (D n : ℕ) (f : ℕ → ℕ → R), 0 < D → 0 < n → (∀ d t, f d t ≠ 0) → (∀ el ∈ u.els, el.length ≤ D) → (∀ el ∈ v.els, el.length ≤ D) →
        (∑ i ∈ incTuples u.els.length n, ∏ k : Fin u.els.length, monomial (tab D fun d => tab n fun t => f d t) u.els[k] (i k)) =
          ∑ i ∈ incTuples v.els.length n, ∏ k : Fin v.els.length, monomial (tab D fun d => tab n fun t => f d t) v.els[k] (i k) := by
      intro D n f hD hn hf h1 h2
      have hX : IsData (wordSeries D n f) D n := by
        intro Z hZ
        rw [List.mem_singleton.1 hZ]
        refine ⟨by simp, ?_⟩
        intro x hx
        obtain ⟨d, _, rfl⟩ := mem_tab.1 hx
        simp
      have hall := h (wordSeries D n f) D n ⟨hX, hD, by simp, by simp [hu, hv], by
          intro w hw
          rcases List.mem_pair.1 hw with rfl | rfl
          exacts [h1, h2]⟩ (by
          intro w hw el hel d hd _ Z hZ t ht
          rw [List.mem_singleton.1 hZ]
          rw [entry_wordSeries (hd.trans_le ?_) ht]
          · exact hf d t
          · rcases List.mem_pair.1 hw with rfl | rfl
            exacts [h1 el hel, h2 el hel])
      rw [last_value hexp hn hf hu hD h1, last_value hexp hn hf hv hD h2] at hall
      have h3 := Except.ok.inj hall
      simp only [List.cons.injEq, and_true] at h3
      have h4 := congrArg (fun l => l.getD (n - 1) 0) h3
      rw [tab_getD _ _ _ _ (by omega), tab_getD _ _ _ _ (by omega)] at h4
      rw [Nat.sub_add_cancel hn] at h4
      exact h4
    obtain ⟨D₀, hD₀⟩ : ∃ D, 0 < D ∧ (∀ el ∈ u.els, el.length ≤ D) ∧ (∀ el ∈ v.els, el.length ≤ D) := by
      refine ⟨((u.els ++ v.els).map List.length).sum + 1, by omega, ?_, ?_⟩ <;> intro el hel <;>
        exact (List.le_sum_of_mem (List.mem_map.2 ⟨el, by simp [hel], rfl⟩)).trans (Nat.le_succ _)
    obtain ⟨hD, hDu, hDv⟩ := hD₀
    have ones : ∀ {w : SWord R}, (∀ el ∈ w.els, el.length ≤ D₀) →
        (∑ i ∈ incTuples w.els.length w.els.length, ∏ k : Fin w.els.length, monomial (tab D₀ fun _ => tab w.els.length fun _ => (1 : R)) w.els[k] (i k)) = 1 := by
      intro w hw
      rw [last_sum fun k t => monomial (tab D₀ fun _ => tab w.els.length fun _ => (1 : R)) w.els[k] t]
      exact Finset.prod_eq_one fun k _ => monomial_one (f := fun _ _ => 1) (hw _ (List.getElem_mem _)) k.2 fun _ => rfl
    have hlen : u.els.length = v.els.length := by
      rcases lt_trichotomy u.els.length v.els.length with hlt | heq | hgt
      · have := cmp D₀ u.els.length (fun _ _ => 1) hD (List.length_pos_of_ne_nil hu) (fun _ _ => one_ne_zero) hDu hDv
        rw [ones hDu, incTuples_empty hlt, Finset.sum_empty] at this
        exact absurd this one_ne_zero
      · exact heq
      · have := cmp D₀ v.els.length (fun _ _ => 1) hD (List.length_pos_of_ne_nil hv) (fun _ _ => one_ne_zero) hDu hDv
        rw [ones hDv, incTuples_empty hgt, Finset.sum_empty] at this
        exact absurd this.symm one_ne_zero
    refine ⟨hlen, fun k₀ d₀ => ?_⟩
    by_cases hk : k₀ < u.els.length
    · have two : ∀ {w : SWord R}, (∀ el ∈ w.els, el.length ≤ D₀) → ∀ {n : ℕ}, n = w.els.length → (hk : k₀ < w.els.length) →
          (∑ i ∈ incTuples w.els.length n, ∏ k : Fin w.els.length,
            monomial (tab D₀ fun d => tab n fun t => if d = d₀ ∧ t = k₀ then (2 : R) else 1) w.els[k] (i k)) = 2 ^ ((w.els.getD k₀ []).getD d₀ 0) := by
        rintro w hw _ rfl hk
        rw [last_sum fun k t => monomial (tab D₀ fun d => tab w.els.length fun t => if d = d₀ ∧ t = k₀ then (2 : R) else 1) w.els[k] t]
        rw [Finset.prod_eq_single (⟨k₀, hk⟩ : Fin w.els.length)]
        · rw [getD_of_lt _ hk]
          exact monomial_two (f := fun d t => if d = d₀ ∧ t = k₀ then (2 : R) else 1) (hw _ (List.getElem_mem _)) hk fun d => by simp
        · intro k _ hne
          exact monomial_one (f := fun d t => if d = d₀ ∧ t = k₀ then (2 : R) else 1) (hw _ (List.getElem_mem _)) k.2 fun d => by
            rw [if_neg]
            rintro ⟨_, h⟩
            exact hne (Fin.ext h)
        · simp
      have := cmp D₀ u.els.length (fun d t => if d = d₀ ∧ t = k₀ then (2 : R) else 1) hD (List.length_pos_of_ne_nil hu)
        (fun d t => by split <;> norm_num) hDu hDv
      rw [two hDu rfl hk, two hDv hlen (hlen ▸ hk)] at this
      exact zpow_right_injective₀ (by norm_num) (by norm_num) this
    · rw [getD_of_le (l := u.els) _ (by omega), getD_of_le (l := v.els) _ (by omega)]
  · rintro ⟨hl, hd⟩ X D n hadm hdiv
    have hau : Admissible X D n [u] := ⟨hadm.data, hadm.dims, by simp, by simpa using hu, fun w hw => hadm.fits w (by simp_all)⟩
    have hav : Admissible X D n [v] := ⟨hadm.data, hadm.dims, by simp, by simpa using hv, fun w hw => hadm.fits w (by simp_all)⟩
    have h1 := C01_reals_iss hexp hau fun w hw => hdiv w (by simp_all)
    have h2 := C01_reals_iss hexp hav fun w hw => hdiv w (by simp_all)
    simp only [List.map_cons, List.map_nil] at h1 h2
    rw [h1, h2]
    congr 2
    refine List.map_congr_left fun Z _ => ?_
    exact tab_congr fun t _ => sum_same Z t hl hd


/-- **C141**: two equal (`==`) simple words have the same iterated sums over every semiring and on all data; with a
weighting if their alphas agree. -/
theorem C141_equal (expf : R → R) {k : SemiringKind} (hk : k ≠ .arcticArgmax) {u v : SWord R} (h : u.eqv v = true)
    (wt : Option (Weighting R)) (ha : wt = none ∨ u.getAlpha = v.getAlpha) (X : Data R) :
    (⟨[.simple u], .single, k, wt⟩ : ISSConf R).transform expf X = (⟨[.simple v], .single, k, wt⟩ : ISSConf R).transform expf X := by
  have h1 := single_transform expf hk [u] (by simp) wt X
  have h2 := single_transform expf hk [v] (by simp) wt X
  simp only [List.map_cons, List.map_nil] at h1 h2
  rw [h1, h2]
  have he : u.els = v.els := by simpa [SWord.eqv] using h
  unfold iteratedSums
  rcases ha with rfl | ha
  · simp only [he]
  · cases wt <;> simp only [he, ha]

/-- **C141**: for simple words with the same highest dimension, `==` is exactly "the same iterated sums over the real
semiring": unequal words are told apart by some dataset. -/
theorem C141_eq_partial {expf : R → R} (hexp : ExpLike expf) {order : List ℤ → List ℤ} (ho : SetOrder order) {u v : SWord R}
    (hu : SReachable order u) (hv : SReachable order v) (hdim : u.maxDim = v.maxDim) :
    SameSums expf .reals u v ↔ wordEq (.simple u) (.simple v) = .ok true := by
  have hnu := reachable_named ho hu
  have hnv := reachable_named ho hv
  have hne : ∀ {w : SWord R}, Named w → w.els ≠ [] := by
    rintro w ⟨⟨ws, hwf, _, _, hl⟩, _, _⟩ h
    rw [h] at hl
    exact hwf.1 (List.length_eq_zero_iff.1 hl.symm)
  rw [C141_reals_partial hexp (hne hnu) (hne hnv)]
  simp only [wordEq, Except.ok.injEq, SWord.eqv, beq_iff_eq]
  constructor
  · rintro ⟨hl, hd⟩
    refine List.ext_getElem hl fun k h1 h2 => ?_
    refine List.ext_getElem ?_ fun d h3 h4 => ?_
    · rw [hnu.rows _ (List.getElem_mem _), hnv.rows _ (List.getElem_mem _), hdim]
    · have := hd k d
      rwa [getD_of_lt _ h1, getD_of_lt _ h2, getD_of_lt _ h3, getD_of_lt _ h4] at this
  · intro h
    exact ⟨by rw [h], fun k d => by rw [h]⟩

private theorem mean_le {x y z : R} (a : 2 * x ≤ z) (b : 2 * y ≤ z) : x + y ≤ z := by linarith

/-- Over the arctic semiring `[1][1]` and `[11]` have the same iterated sums on all data. -/
theorem C141_arctic_false {expf : R → R} (nm nm' : PStr) :
    SameSums expf .arctic (⟨[[1], [1]], 1, nm, none⟩ : SWord R) ⟨[[2]], 1, nm', none⟩ := by
  intro X D n hadm _
  generalize hu : (⟨[[1], [1]], 1, nm, none⟩ : SWord R) = u at *
  generalize hv : (⟨[[2]], 1, nm', none⟩ : SWord R) = v at *
  have hau : Admissible X D n [u] := ⟨hadm.data, hadm.dims, by simp, fun w hw => hadm.letters w (by simp_all), fun w hw => hadm.fits w (by simp_all)⟩
  have hav : Admissible X D n [v] := ⟨hadm.data, hadm.dims, by simp, fun w hw => hadm.letters w (by simp_all), fun w hw => hadm.fits w (by simp_all)⟩
  obtain ⟨F, hF, hFg⟩ := C02_arctic_iss (expf := expf) hau
  obtain ⟨G, hG, hGg⟩ := C02_arctic_iss (expf := expf) hav
  simp only [List.map_cons, List.map_nil] at hF hG
  rw [hF, hG]
  congr 2
  apply List.ext_getElem (by simp)
  intro j h1 h2
  rw [List.getElem_mapIdx, List.getElem_mapIdx]
  refine tab_congr fun t ht => ?_
  have hj : j < X.length := by simpa using h1
  have gF := hFg u (by simp) j hj t ht
  have gG := hGg v (by simp) j hj t ht
  subst hu hv
  have l1 : ∀ s, linform X[j] [1] s = entry X[j] 0 s := fun s => by simp [linform]
  have l2 : ∀ s, linform X[j] [2] s = 2 * entry X[j] 0 s := fun s => by simp [linform]
  refine gF.unique ⟨?_, ?_⟩
  · obtain ⟨i, _, hi, he⟩ := gG.1
    refine ⟨fun _ => i ⟨0, by simp⟩, fun _ _ _ => le_rfl, fun _ => hi _, ?_⟩
    rw [he]
    erw [Fin.sum_univ_one, Fin.sum_univ_two]
    show linform X[j] [2] _ = linform X[j] [1] _ + linform X[j] [1] _
    rw [l1, l2]
    exact two_mul _
  · rintro x ⟨i, _, hi, rfl⟩
    erw [Fin.sum_univ_two]
    show linform X[j] [1] _ + linform X[j] [1] _ ≤ _
    rw [l1, l1]
    have key : ∀ s ≤ t, 2 * entry X[j] 0 s ≤ G ⟨[[2]], 1, nm', none⟩ j t := by
      intro s hs
      refine gG.2 ⟨fun _ => s, fun _ _ _ => le_rfl, fun _ => hs, ?_⟩
      erw [Fin.sum_univ_one]
      exact (l2 s).symm
    have a := key _ (hi (0 : Fin 2))
    have b := key _ (hi (1 : Fin 2))
    exact mean_le a b

/-- They are unequal words. -/
theorem C141_arctic_unequal :
    (do let u ← SWord.mk' ℚ List.dedup "[1][1]".toList
        let v ← SWord.mk' ℚ List.dedup "[11]".toList
        let b ← wordEq (.simple u) (.simple v)
        pure (u.els, v.els, b)) = .ok ([[1], [1]], [[2]], false) := by decide +kernel

/-- `[1]` and `[12-2]` are unequal, but have the same iterated sums over the real semiring. -/
theorem C141_cancel_false {expf : ℚ → ℚ} (hexp : ExpLike expf) :
    ∃ u v : SWord ℚ, SWord.mk' ℚ List.dedup "[1]".toList = .ok u ∧ SWord.mk' ℚ List.dedup "[12-2]".toList = .ok v ∧
      wordEq (.simple u) (.simple v) = .ok false ∧ SameSums expf .reals u v := by
  refine ⟨⟨[[1]], 1, "[1]".toList, none⟩, ⟨[[1, 0]], 2, "[12-2]".toList, none⟩, by decide +kernel, by decide +kernel, by decide +kernel, ?_⟩
  refine (C141_reals_partial hexp (by simp) (by simp)).2 ⟨rfl, fun k d => ?_⟩
  rcases k with _ | k
  · rcases d with _ | _ | d <;> simp
  · simp

/-- Non-vacuity of `C141_reals_partial` and `C141_eq_partial`: `[12][2]` and `[21][2]` are told to be the same, `[12][2]` and
`[12][1]` are not. -/
example : SameLetters (⟨[[1, 1], [0, 1]], 2, [], none⟩ : SWord ℚ) ⟨[[1, 1], [0, 1]], 2, [], none⟩ ∧
    ¬ SameLetters (⟨[[1, 1], [0, 1]], 2, [], none⟩ : SWord ℚ) ⟨[[1, 1], [1, 0]], 2, [], none⟩ :=
  ⟨⟨rfl, fun _ _ => rfl⟩, fun h => by simpa using h.2 1 0⟩

/-! ### C142 -/

/-- **C142**: on simple words `==` never raises and is reflexive, symmetric and transitive. -/
theorem C142_simple_partial (u v w : SWord R) :
    wordEq (.simple u) (.simple u) = .ok true ∧ wordEq (.simple u) (.simple v) = wordEq (.simple v) (.simple u) ∧
      (wordEq (.simple u) (.simple v) = .ok true → wordEq (.simple v) (.simple w) = .ok true → wordEq (.simple u) (.simple w) = .ok true) := by
  simp only [wordEq, SWord.eqv, Except.ok.injEq, beq_iff_eq]
  refine ⟨trivial, ?_, fun a b => a.trans b⟩
  rw [Bool.eq_iff_iff, beq_iff_eq, beq_iff_eq]
  exact eq_comm

/-- **C142 is false for words with functions as letters**: such a word is not even equal to itself. -/
theorem C142_general_false (u v : GWord R) : wordEq (.general u) (.general v) = .ok false := rfl

/-- **C142**: comparing a simple word with another word, in either order, raises. -/
theorem C142_mixed_false (u : SWord R) (v : GWord R) :
    wordEq (.simple u) (.general v) = .error .notImplementedError ∧ wordEq (.general v) (.simple u) = .error .notImplementedError :=
  ⟨rfl, rfl⟩

/-- **C142**: equal simple words stay equal when both are multiplied with the same string, and the multiplication
succeeds for both or for none. -/
theorem C142_multiply {order : List ℤ → List ℤ} (ho : SetOrder order) {u v : SWord R} (hu : SReachable order u) (hv : SReachable order v)
    (h : wordEq (.simple u) (.simple v) = .ok true) (s : PStr) :
    (∀ e, u.multiply order s = .error e ↔ v.multiply order s = .error e) ∧
      ∀ u' v', u.multiply order s = .ok u' → v.multiply order s = .ok v' → wordEq (.simple u') (.simple v') = .ok true := by
  have hnu := reachable_named ho hu
  have hnv := reachable_named ho hv
  have he : u.els = v.els := by simpa [wordEq, SWord.eqv] using h
  have hdim : u.maxDim = v.maxDim := by
    obtain ⟨⟨ws, hwf, _, _, hl⟩, _, hr⟩ := hnu
    have hpos : 0 < u.els.length := by rw [hl]; exact List.length_pos_of_ne_nil hwf.1
    have hm : u.els[0] ∈ v.els := by rw [← he]; exact List.getElem_mem hpos
    rw [← hr _ (List.getElem_mem hpos), ← hnv.rows _ hm]
  unfold SWord.multiply
  split
  · rw [he, hdim]
    dsimp only
    generalize (List.mapM (scanEl ScanState.top) (List.map (List.drop 1) (psplit ']' s)).dropLast) = A
    cases A with
    | error e => exact ⟨fun _ => Iff.rfl, by rintro _ _ ⟨⟩⟩
    | ok elsInt =>
      simp only [ok_bind]
      generalize (List.mapM (countLetters (if maxLetter elsInt > v.maxDim then maxLetter elsInt else v.maxDim) order) elsInt) = B
      cases B with
      | error e => exact ⟨fun _ => Iff.rfl, by rintro _ _ ⟨⟩⟩
      | ok new =>
        simp only [ok_bind, reduceCtorEq, Except.ok.injEq, implies_true, true_and]
        rintro _ _ rfl rfl
        simp [wordEq, SWord.eqv]
  · simp

/-- Non-vacuity of C142: `[12] == [21]`, and the words stay equal when multiplied with `[3]`. -/
example : (do let u ← SWord.mk' ℚ List.dedup "[12]".toList
              let v ← SWord.mk' ℚ List.dedup "[21]".toList
              let b ← wordEq (.simple u) (.simple v)
              let u' ← u.multiply List.dedup "[3]".toList
              let v' ← v.multiply List.dedup "[3]".toList
              let b' ← wordEq (.simple u') (.simple v')
              pure (b, b', u'.els)) = .ok (true, true, [[1, 1, 0], [0, 0, 1]]) := by decide +kernel

end Fruits
