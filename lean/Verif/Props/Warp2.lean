import Verif.Props.Warp
import Verif.Props.Sieve3
import Verif.Builtin

/-! # C12, C95, C96: features of warped series -/

set_option linter.unusedSectionVars false

namespace Fruits
variable {R : Type} [Field R] [LinearOrder R] [IsStrictOrderedRing R] [FloorRing R]

/-- The number of samples of the warped series that stand for the first `b` samples. -/
def warpCut (φ : ℕ → ℕ) (n' b : ℕ) : ℕ := ((Finset.range n').filter fun t => φ t < b).card

theorem warpCut_le (φ : ℕ → ℕ) (n' b : ℕ) : warpCut φ n' b ≤ n' := by
  unfold warpCut
  calc _ ≤ (Finset.range n').card := Finset.card_le_card (Finset.filter_subset _ _)
    _ = n' := Finset.card_range n'

theorem warpCut_mono (φ : ℕ → ℕ) (n' : ℕ) {a b : ℕ} (h : a ≤ b) : warpCut φ n' a ≤ warpCut φ n' b := by
  unfold warpCut
  apply Finset.card_le_card
  intro t ht
  rw [Finset.mem_filter] at ht ⊢
  exact ⟨ht.1, by omega⟩

/-- An initial segment is the range of its size. -/
theorem filter_initial {n : ℕ} {P : ℕ → Prop} [DecidablePred P] (hP : ∀ s t, s ≤ t → t < n → P t → P s) {t : ℕ} (ht : t < n) :
    t < ((Finset.range n).filter P).card ↔ P t := by
  constructor
  · intro h
    by_contra hc
    have : (Finset.range n).filter P ⊆ Finset.range t := by
      intro s hs
      rw [Finset.mem_filter, Finset.mem_range] at hs
      rw [Finset.mem_range]
      by_contra hge
      exact hc (hP t s (by omega) hs.1 hs.2)
    have := Finset.card_le_card this
    rw [Finset.card_range] at this
    omega
  · intro h
    have : Finset.range (t + 1) ⊆ (Finset.range n).filter P := by
      intro s hs
      rw [Finset.mem_range] at hs
      rw [Finset.mem_filter, Finset.mem_range]
      exact ⟨by omega, hP s t (by omega) ht h⟩
    have := Finset.card_le_card this
    rw [Finset.card_range] at this
    omega

namespace IsWarp
variable {n n' : ℕ} {φ : ℕ → ℕ}

theorem lt_cut (h : IsWarp n n' φ) {t : ℕ} (ht : t < n') (b : ℕ) : t < warpCut φ n' b ↔ φ t < b :=
  filter_initial (P := fun t => φ t < b) (fun s t hst ht hb => lt_of_le_of_lt (h.mono hst ht) hb) ht

theorem cut_zero (_h : IsWarp n n' φ) : warpCut φ n' 0 = 0 := by simp [warpCut]

theorem cut_all (h : IsWarp n n' φ) : warpCut φ n' n = n' := by
  have h1 := warpCut_le φ n' n
  have h2 := (h.lt_cut (show n' - 1 < n' by have := h.pos'; omega) n).2 (h.lt (by have := h.pos'; omega))
  omega

theorem cut_last (h : IsWarp n n' φ) {b : ℕ} (h1 : 1 ≤ b) (hb : b ≤ n) : 1 ≤ warpCut φ n' b ∧ φ (warpCut φ n' b - 1) = b - 1 := by
  have hle := warpCut_le φ n' b
  have h0 : 1 ≤ warpCut φ n' b := (h.lt_cut h.pos' b).2 (by rw [h.start]; omega)
  refine ⟨h0, ?_⟩
  have hlt := (h.lt_cut (show warpCut φ n' b - 1 < n' by omega) b).1 (by omega)
  rcases Nat.lt_or_ge (warpCut φ n' b) n' with hn | hn
  · have hge : ¬ φ (warpCut φ n' b) < b := fun e => lt_irrefl _ ((h.lt_cut hn b).2 e)
    have hs := h.step (warpCut φ n' b - 1) (by omega)
    rw [show warpCut φ n' b - 1 + 1 = warpCut φ n' b by omega] at hs
    omega
  · have e : warpCut φ n' b = n' := by omega
    rw [e] at hlt ⊢
    rw [h.stop] at hlt ⊢
    omega

end IsWarp

/-- Cuts whose position moves with the series: the beginning, the end and coquantiles. -/
def Cut.Elastic : Cut R → Prop
  | .int k => k = 0 ∨ k = -1
  | .float _ => True

theorem Cut.Elastic.inRange {c : Cut R} (h : c.Elastic) (n : ℕ) : c.InRange n := by
  cases c with
  | int k => simp only [Cut.Elastic, Cut.InRange] at *; omega
  | float f => trivial

theorem cutPos_warp {X : Data R} {m d n n' : ℕ} (hX : HasShape X m d n) (hd : 0 < d) {φ : ℕ → ℕ → ℕ} {i : ℕ} (hi : i < m)
    (h : IsWarp n n' (φ i)) (nm : Norm) {c : Cut R} (hc : c.Elastic) :
    cutPos (warp φ n' X) nm n' i c = warpCut (φ i) n' (cutPos X nm n i c) := by
  cases c with
  | int k =>
    rcases hc with rfl | rfl
    · simp [cutPos, h.cut_zero]
    · simp [cutPos, h.cut_all]
  | float f =>
    simp only [cutPos]
    unfold warpCut
    show coqSpec nm _ n' f = _
    unfold coqSpec
    congr 1
    apply Finset.filter_congr
    intro t ht
    rw [Finset.mem_range] at ht
    have hv : ∀ t < n', variation nm (at3 (warp φ n' X) i 0) t = variation nm (at3 X i 0) (φ i t) := fun t ht =>
      variation_warp nm h _ _ (fun s hs => at3_warp hX φ hi hd hs) ht
    rw [hv t ht, hv (n' - 1) (by omega), h.stop]
    exact (coqSpec_lt nm _ n f (φ i t) (h.lt ht)).symm

theorem insertionSort_map_mono {f : ℕ → ℕ} (hf : ∀ a b, a ≤ b → f a ≤ f b) (l : List ℕ) :
    (l.map f).insertionSort (· ≤ ·) = (l.insertionSort (· ≤ ·)).map f := by
  apply List.Perm.eq_of_pairwise (le := (· ≤ ·))
  · intro a b _ _ h1 h2; omega
  · exact List.pairwise_insertionSort _ _
  · rw [List.pairwise_map]
    exact (List.pairwise_insertionSort (· ≤ ·) l).imp fun h => hf _ _ h
  · exact (List.perm_insertionSort _ _).trans ((List.perm_insertionSort _ l).map f).symm

theorem bounds_warp {X : Data R} {m d n n' : ℕ} (hX : HasShape X m d n) (hd : 0 < d) {φ : ℕ → ℕ → ℕ} {i : ℕ} (hi : i < m)
    (h : IsWarp n n' (φ i)) (p : Seg R) (hp : ∀ c ∈ p.cut, c.Elastic) :
    bounds (warp φ n' X) p n' i = (bounds X p n i).map (warpCut (φ i) n') := by
  unfold bounds
  rw [← insertionSort_map_mono fun a b hab => warpCut_mono (φ i) n' hab, List.map_cons, h.cut_zero, List.map_map]
  congr 2
  apply List.map_congr_left
  intro c hc
  exact cutPos_warp hX hd hi h p.norm (hp c hc)

theorem at2_warp2 {A : List (List R)} {m n : ℕ} (hA : HasShape2 A m n) (φ : ℕ → ℕ → ℕ) {n' i t : ℕ} (hi : i < m) (ht : t < n') :
    at2 (warp2 φ n' A) i t = at2 A i (φ i t) := by
  have hi' : i < A.length := by rw [hA.1]; exact hi
  unfold at2 warp2
  have e : (A.mapIdx fun i x => warpRow (φ i) n' x).getD i [] = warpRow (φ i) n' (A.getD i []) := by
    simp [List.getD_eq_getElem?_getD, hi']
  rw [e, getD_warpRow _ _ ht]

theorem HasShape2.warp2 {A : List (List R)} {m n : ℕ} (hA : HasShape2 A m n) (φ : ℕ → ℕ → ℕ) (n' : ℕ) : HasShape2 (warp2 φ n' A) m n' := by
  refine ⟨by simp [Fruits.warp2, hA.1], ?_⟩
  intro r hr
  obtain ⟨i, hi, rfl⟩ := List.mem_iff_getElem.1 hr
  simp [Fruits.warp2, warpRow]

theorem HasShape2.ext {A B : List (List R)} {m n : ℕ} (hA : HasShape2 A m n) (hB : HasShape2 B m n) (h : ∀ i < m, ∀ t < n, at2 A i t = at2 B i t) :
    A = B := by
  rw [hA.eq_tab, hB.eq_tab]
  exact tab2_congr h

/-- **C12**, END: the last values of the segments (cuts at the end or at coquantiles) do not change. -/
theorem C12_end (T : FloatText R) (hT : T.Lawful) {X : Data R} {m d n n' : ℕ} (hX : HasShape X m d n) (hm : 0 < m) (hd : 0 < d) {φ : ℕ → ℕ → ℕ}
    (hφ : ∀ i < m, IsWarp n n' (φ i)) (p : Seg R) (hp : ∀ c ∈ p.cut, c.Elastic) {A : List (List R)} (hA : HasShape2 A m n) :
    (Sieve.seg .end_ p).transformC T (warp φ n' X) (warp2 φ n' A) = (Sieve.seg .end_ p).transformC T X A := by
  have hn := (hφ 0 hm).pos
  have hn' := (hφ 0 hm).pos'
  obtain ⟨Y, h1, h2, h3⟩ := C62 T hT X p A hA hX hm hd hn (fun c hc => (hp c hc).inRange n)
  obtain ⟨Y', h1', h2', h3'⟩ := C62 T hT (warp φ n' X) p (warp2 φ n' A) (hA.warp2 φ n') (hX.warp φ n') hm hd hn' (fun c hc => (hp c hc).inRange n')
  rw [h1, h1']
  congr 1
  apply h2'.ext h2
  intro i hi j hj
  have hw := hφ i hi
  have hc := h3 i hi j hj _ rfl
  have hc' := h3' i hi j hj _ rfl
  have e : ((p.cut.map (cutPos (warp φ n' X) p.norm n' i)).insertionSort (· ≤ ·)).getD j 0 =
      warpCut (φ i) n' (((p.cut.map (cutPos X p.norm n i)).insertionSort (· ≤ ·)).getD j 0) := by
    have : p.cut.map (cutPos (warp φ n' X) p.norm n' i) = (p.cut.map (cutPos X p.norm n i)).map (warpCut (φ i) n') := by
      rw [List.map_map]
      apply List.map_congr_left
      intro c hc
      exact cutPos_warp hX hd hi hw p.norm (hp c hc)
    rw [this, insertionSort_map_mono fun a b hab => warpCut_mono (φ i) n' hab]
    have hl : j < ((p.cut.map (cutPos X p.norm n i)).insertionSort (· ≤ ·)).length := by simpa using hj
    simp only [List.getD_eq_getElem?_getD, List.getElem?_map, List.getElem?_eq_getElem hl]
    rfl
  rw [e] at hc'
  generalize ((p.cut.map (cutPos X p.norm n i)).insertionSort (· ≤ ·)).getD j 0 = b at hc hc'
  rcases Nat.eq_zero_or_pos b with rfl | hb
  · rw [hc.2 rfl, hc'.2 hw.cut_zero, at2_warp2 hA φ hi (by omega), hw.stop]
  · have hb' := (hc.1 hb).1
    obtain ⟨c1, c2⟩ := hw.cut_last hb hb'
    have := warpCut_le (φ i) n' b
    rw [(hc.1 hb).2, (hc'.1 c1).2, at2_warp2 hA φ hi (by omega), c2]

theorem HasShape2.ext_grid {A B : List (List R)} {m J K : ℕ} (hA : HasShape2 A m (J * K)) (hB : HasShape2 B m (J * K))
    (h : ∀ i < m, ∀ j < J, ∀ k < K, at2 A i (j * K + k) = at2 B i (j * K + k)) : A = B := by
  apply hA.ext hB
  intro i hi t ht
  have hK : 0 < K := by rcases Nat.eq_zero_or_pos K with rfl | h; · simp at ht
                        · exact h
  have e : t = t / K * K + t % K := by rw [Nat.mul_comm]; exact (Nat.div_add_mod t K).symm
  rw [e]
  exact h i hi _ (Nat.div_lt_of_lt_mul (by rwa [Nat.mul_comm])) _ (Nat.mod_lt _ hK)

theorem bounds_warp_getD {X : Data R} {m d n n' : ℕ} (hX : HasShape X m d n) (hd : 0 < d) {φ : ℕ → ℕ → ℕ} {i : ℕ} (hi : i < m)
    (h : IsWarp n n' (φ i)) (p : Seg R) (hp : ∀ c ∈ p.cut, c.Elastic) (j : ℕ) :
    (bounds (warp φ n' X) p n' i).getD j 0 = warpCut (φ i) n' ((bounds X p n i).getD j 0) := by
  rw [bounds_warp hX hd hi h p hp]
  simp only [List.getD_eq_getElem?_getD, List.getElem?_map]
  cases (bounds X p n i)[j]? with
  | none => simp [h.cut_zero]
  | some b => rfl

/-- The time points of a segment in a band, for the increments: the moving ones are the same. -/
theorem hits_warp {n n' : ℕ} {φ : ℕ → ℕ} (h : IsWarp n n' φ) (b : List ℕ) (b' : List ℕ) (hb' : ∀ j, b'.getD j 0 = warpCut φ n' (b.getD j 0))
    (hb : ∀ j, b.getD j 0 ≤ n) (j : ℕ) (lo hi : QVal R) (h0 : ¬ InBand lo hi (0 : R)) (x x' : ℕ → R)
    (hx : ∀ t < n', x' t = if Moves φ t then x (φ t) else 0) :
    (hits b' j lo hi x').image φ = hits b j lo hi x ∧ Set.InjOn φ (hits b' j lo hi x') ∧ ∀ t ∈ hits b' j lo hi x', x' t = x (φ t) := by
  have hin : ∀ t, t ∈ hits b' j lo hi x' → t < n' ∧ Moves φ t ∧ b.getD j 0 ≤ φ t ∧ φ t < b.getD (j + 1) 0 ∧ InBand lo hi (x (φ t)) := by
    intro t ht
    unfold hits at ht
    rw [Finset.mem_filter, Finset.mem_Ico, hb', hb'] at ht
    have htn : t < n' := lt_of_lt_of_le ht.1.2 (warpCut_le _ _ _)
    have hm : Moves φ t := by
      by_contra hm
      rw [hx t htn, if_neg hm] at ht
      exact h0 ht.2
    refine ⟨htn, hm, ?_, (h.lt_cut htn _).1 ht.1.2, ?_⟩
    · by_contra hlt
      have := (h.lt_cut htn (b.getD j 0)).2 (by omega)
      omega
    · have := ht.2
      rwa [hx t htn, if_pos hm] at this
  refine ⟨?_, ?_, ?_⟩
  · ext u
    rw [Finset.mem_image]
    constructor
    · rintro ⟨t, ht, rfl⟩
      obtain ⟨h1, h2, h3, h4, h5⟩ := hin t ht
      unfold hits
      rw [Finset.mem_filter, Finset.mem_Ico]
      exact ⟨⟨h3, h4⟩, h5⟩
    · intro hu
      unfold hits at hu
      rw [Finset.mem_filter, Finset.mem_Ico] at hu
      have hun : u < n := lt_of_lt_of_le hu.1.2 (hb _)
      obtain ⟨t, ht1, ht2, ht3⟩ := h.first (t := n' - 1) (k := u) (by have := h.pos'; omega) (by rw [h.stop]; omega)
      have htn : t < n' := by have := h.pos'; omega
      refine ⟨t, ?_, ht2⟩
      unfold hits
      rw [Finset.mem_filter, Finset.mem_Ico, hb', hb', hx t htn, if_pos ht3, ht2]
      refine ⟨⟨?_, ?_⟩, hu.2⟩
      · by_contra hlt
        have := (h.lt_cut htn (b.getD j 0)).1 (by omega)
        omega
      · exact (h.lt_cut htn _).2 (by omega)
  · intro s hs t ht e
    exact h.moves_unique (hin s hs).1 (hin t ht).1 (hin s hs).2.1 (hin t ht).2.1 e
  · intro t ht
    rw [hx t (hin t ht).1, if_pos (hin t ht).2.1]

theorem incOf_warp {n n' : ℕ} {φ : ℕ → ℕ} (h : IsWarp n n' φ) (x x' : ℕ → R) (hx : ∀ t < n', x' t = x (φ t)) (t : ℕ) (ht : t < n') :
    incOf x' t = if Moves φ t then incOf x (φ t) else 0 := by
  unfold incOf
  by_cases h0 : t = 0
  · subst h0
    rw [if_pos rfl, if_pos (show Moves φ 0 from Or.inl rfl), h.start, if_pos rfl]
  · rw [if_neg h0, hx t ht, hx (t - 1) (by omega)]
    by_cases hm : Moves φ t
    · have hlt := h.moves_lt (show t - 1 < t by omega) ht hm
      have hst := h.step (t - 1) (by omega)
      rw [show t - 1 + 1 = t by omega] at hst
      rw [if_pos hm, if_neg (by omega), show φ (t - 1) = φ t - 1 by omega]
    · rw [if_neg hm, ← (h.not_moves ht hm).2, sub_self]

/-- **C96**, NPI and MPI: the number and the mean of the increments in bands that do not contain zero (as the positive ones of the
default) do not change, in segments that end at the end or at coquantiles. -/
theorem C96_npi_mpi (T : FloatText R) (hT : T.Lawful) {X : Data R} {m d n n' : ℕ} (hX : HasShape X m d n) (hm : 0 < m) (hd : 0 < d)
    {φ : ℕ → ℕ → ℕ} (hφ : ∀ i < m, IsWarp n n' (φ i)) (p : Seg R) (hp : ∀ c ∈ p.cut, c.Elastic) (qs : List (QVal R))
    (hqs : p.useQuantiles = .ok qs) (hq : qs ≠ []) (h0 : ∀ k < qs.length - 1, ¬ InBand (qs.getD k ⊥) (qs.getD (k + 1) ⊥) (0 : R))
    {A : List (List R)} (hA : HasShape2 A m n) (kind : IncKind) (hk : kind = .npi ∨ kind = .mpi) :
    (Sieve.inc kind 1 p).transformC T (warp φ n' X) (warp2 φ n' A) = (Sieve.inc kind 1 p).transformC T X A := by
  have hn := (hφ 0 hm).pos
  have hn' := (hφ 0 hm).pos'
  have hr : ∀ l, ∀ c ∈ p.cut, c.InRange l := fun l c hc => (hp c hc).inRange l
  have hhits : ∀ i < m, ∀ j < p.cut.length, ∀ k < qs.length - 1, _ := fun i hi j hj k hk =>
    hits_warp (hφ i hi) (bounds X p n i) (bounds (warp φ n' X) p n' i) (fun j => bounds_warp_getD hX hd hi (hφ i hi) p hp j)
      (bounds_le X p n i (hr n)) j (qs.getD k ⊥) (qs.getD (k + 1) ⊥) (h0 k hk) (viewOf 1 (at2 A i)) (viewOf 1 (at2 (warp2 φ n' A) i))
      (incOf_warp (hφ i hi) (at2 A i) (at2 (warp2 φ n' A) i) fun t ht => at2_warp2 hA φ hi ht)
  rcases hk with rfl | rfl
  · obtain ⟨Y, h1, h2, h3⟩ := C64_counts T hT X p 1 A qs hA hX hm hd hn (hr n) hqs hq
    obtain ⟨Y', h1', h2', h3'⟩ := C64_counts T hT (warp φ n' X) p 1 (warp2 φ n' A) qs (hA.warp2 φ n') (hX.warp φ n') hm hd hn' (hr n') hqs hq
    rw [h1, h1']
    congr 1
    apply h2'.ext_grid h2
    intro i hi j hj k hk
    obtain ⟨e1, e2, _⟩ := hhits i hi j hj k hk
    rw [h3 i hi j hj k hk, h3' i hi j hj k hk, ← e1, Finset.card_image_of_injOn e2]
  · obtain ⟨Y, h1, h2, h3⟩ := C66_mpi T hT X p 1 A qs hA hX hm hd hn (hr n) hqs hq
    obtain ⟨Y', h1', h2', h3'⟩ := C66_mpi T hT (warp φ n' X) p 1 (warp2 φ n' A) qs (hA.warp2 φ n') (hX.warp φ n') hm hd hn' (hr n') hqs hq
    rw [h1, h1']
    congr 1
    apply h2'.ext_grid h2
    intro i hi j hj k hk
    obtain ⟨e1, e2, e3⟩ := hhits i hi j hj k hk
    have c := h3 i hi j hj k hk _ rfl
    have c' := h3' i hi j hj k hk _ rfl
    rw [← e1] at c
    generalize hH : hits (bounds (warp φ n' X) p n' i) j (qs.getD k ⊥) (qs.getD (k + 1) ⊥) (viewOf 1 (at2 (warp2 φ n' A) i)) = H at *
    by_cases hemp : H = ∅
    · rw [c'.1 hemp, c.1 (by rw [hemp]; rfl)]
    · rw [c'.2 hemp, c.2 (by simpa using hemp), Finset.card_image_of_injOn e2, Finset.sum_image e2]
      congr 1
      exact Finset.sum_congr rfl e3

/-- **C96**, MAX and MIN: with the default quantiles the maxima and minima of the segments do not change. -/
theorem C96_max_min (T : FloatText R) (hT : T.Lawful) {X : Data R} {m d n n' : ℕ} (hX : HasShape X m d n) (hm : 0 < m) (hd : 0 < d)
    {φ : ℕ → ℕ → ℕ} (hφ : ∀ i < m, IsWarp n n' (φ i)) (p : Seg R) (hp : ∀ c ∈ p.cut, c.Elastic) (hq : p.q = [-1, 1])
    {A : List (List R)} (hA : HasShape2 A m n) (kind : SegKind) (hk : kind = .max ∨ kind = .min) :
    (Sieve.seg kind p).transformC T (warp φ n' X) (warp2 φ n' A) = (Sieve.seg kind p).transformC T X A := by
  have hn := (hφ 0 hm).pos
  have hn' := (hφ 0 hm).pos'
  have hr : ∀ l, ∀ c ∈ p.cut, c.InRange l := fun l c hc => (hp c hc).inRange l
  obtain ⟨Y, Z, h1, h2, h3, h4, h5⟩ := C61 T hT X p hq A hA hX hm hd hn (hr n)
  obtain ⟨Y', Z', h1', h2', h3', h4', h5'⟩ := C61 T hT (warp φ n' X) p hq (warp2 φ n' A) (hA.warp2 φ n') (hX.warp φ n') hm hd hn' (hr n')
  have key : ∀ i < m, ∀ j < p.cut.length, at2 Y' i j = at2 Y i j ∧ at2 Z' i j = at2 Z i j := by
    intro i hi j hj
    have hw := hφ i hi
    obtain ⟨z1, z2⟩ := h5 i hi j hj _ _ rfl rfl
    obtain ⟨z1', z2'⟩ := h5' i hi j hj _ _ rfl rfl
    rw [bounds_warp_getD hX hd hi hw p hp, bounds_warp_getD hX hd hi hw p hp] at z1' z2'
    have hb := bounds_le X p n i (hr n) (j + 1)
    generalize (bounds X p n i).getD j 0 = a at *
    generalize (bounds X p n i).getD (j + 1) 0 = b at *
    by_cases hab : a = b
    · rw [(z1 hab).1, (z1 hab).2, (z1' (by rw [hab])).1, (z1' (by rw [hab])).2]
      exact ⟨rfl, rfl⟩
    · obtain ⟨hlt, g1, g2⟩ := z2 hab
      have hlt' : warpCut (φ i) n' a < warpCut (φ i) n' b := by
        obtain ⟨c1, c2⟩ := hw.cut_last (show 1 ≤ b by omega) hb
        have hle := warpCut_le (φ i) n' b
        by_contra hge
        have := (hw.lt_cut (show warpCut (φ i) n' b - 1 < n' by omega) a).1 (by omega)
        omega
      obtain ⟨_, g1', g2'⟩ := z2' hlt'.ne
      have hset : at2 (warp2 φ n' A) i '' Set.Ico (warpCut (φ i) n' a) (warpCut (φ i) n' b) = at2 A i '' Set.Ico a b := by
        ext v
        constructor
        · rintro ⟨t, ⟨t1, t2⟩, rfl⟩
          have htn : t < n' := lt_of_lt_of_le t2 (warpCut_le _ _ _)
          refine ⟨φ i t, ⟨?_, (hw.lt_cut htn b).1 t2⟩, (at2_warp2 hA φ hi htn).symm⟩
          by_contra hc
          have := (hw.lt_cut htn a).2 (by omega)
          omega
        · rintro ⟨u, ⟨u1, u2⟩, rfl⟩
          obtain ⟨t, t1, t2, _⟩ := hw.first (t := n' - 1) (k := u) (by omega) (by rw [hw.stop]; omega)
          have htn : t < n' := by omega
          refine ⟨t, ⟨?_, (hw.lt_cut htn b).2 (by omega)⟩, by rw [at2_warp2 hA φ hi htn, t2]⟩
          by_contra hc
          have := (hw.lt_cut htn a).1 (by omega)
          omega
      rw [hset] at g1' g2'
      exact ⟨g1'.unique g1, g2'.unique g2⟩
  rcases hk with rfl | rfl
  · rw [h1, h1']
    congr 1
    exact h2'.ext h2 fun i hi j hj => (key i hi j hj).1
  · rw [h3, h3']
    congr 1
    exact h4'.ext h4 fun i hi j hj => (key i hi j hj).2

/-! ### The pipelines -/

/-- The identity is a warping. -/
theorem isWarp_id {n : ℕ} (hn : 0 < n) : IsWarp n n fun t => t := ⟨hn, hn, rfl, rfl, fun _ _ => Or.inr rfl⟩

theorem warp_id {X : Data R} {m d n : ℕ} (hX : HasShape X m d n) : warp (fun _ t => t) n X = X := by
  have h := hX.warp (fun _ t => t) n
  rw [h.eq_tab3]
  conv_rhs => rw [hX.eq_tab3]
  unfold tab3
  exact tab_congr fun i hi => tab2_congr fun j hj t ht => at3_warp hX (fun _ t => t) hi hj ht

theorem warp2_id_shape {A : Data R} {n m : ℕ} (h : A = A.map (warp2 (fun _ t => t) n)) (hm : ∀ a ∈ A, a.length = m) : ∀ a ∈ A, HasShape2 a m n := by
  intro a ha
  refine ⟨hm a ha, ?_⟩
  rw [h] at ha
  obtain ⟨b, _, rfl⟩ := List.mem_map.1 ha
  intro r hr
  obtain ⟨i, hi, rfl⟩ := List.mem_iff_getElem.1 hr
  simp [warp2, warpRow]

/-- The lookup of the (optional) weighting of an ISS that gets `Y`, in a fruit with the input `X`. -/
def weightingOf (T : FloatText R) (X Y : Data R) : Option (Bool × WeightingKind R) → Except Err (Option (Weighting R))
  | none => .ok none
  | some k => do
    let w ← lookupFor T X Y k
    pure (some w)

/-- `ISS(words, mode, semiring, weighting).transform(Y)` followed by a sieve on every iterated sum, in a fruit with the input `X`. -/
def issSieve (T : FloatText R) (expf : R → R) (words : List (IWord R)) (mode : ISSMode) (k : SemiringKind) (wt : Option (Bool × WeightingKind R))
    (s : Sieve R) (X Y : Data R) : Except Err (List (List (List R))) := do
  let w ← weightingOf T X Y wt
  let A ← (⟨words, mode, k, w⟩ : ISSConf R).transform expf Y
  A.mapM (s.transformC T X)

/-- No weighting, or `L1`/`L2` of the raw data without a user transform. -/
def WarpFree : Option (Bool × WeightingKind R) → Prop
  | none => True
  | some (_, .norm _ onPrepared _ f _) => onPrepared = false ∧ f = none
  | _ => False

theorem weightingOf_warp (T : FloatText R) {X Y Y' : Data R} {m d n n' : ℕ} (hX : HasShape X m d n) (hm : 0 < m) (hd : 0 < d) {φ : ℕ → ℕ → ℕ}
    (hφ : ∀ i < m, IsWarp n n' (φ i)) (hY : HasShape Y m d n) (hY' : HasShape Y' m d n') (wt : Option (Bool × WeightingKind R)) (hwt : WarpFree wt) :
    ∃ w w', weightingOf T X Y wt = .ok w ∧ weightingOf T (warp φ n' X) Y' wt = .ok w' ∧ WarpedWeighting φ n n' Y Y' w w' := by
  cases wt with
  | none => exact ⟨none, none, rfl, rfl, .none⟩
  | some k =>
    obtain ⟨total, k⟩ := k
    cases k with
    | custom f => exact hwt.elim
    | indices a b c => exact hwt.elim
    | plateaus a b c => exact hwt.elim
    | norm nm onP rel f scale =>
      obtain ⟨rfl, rfl⟩ := hwt
      obtain ⟨L, h1, h2, h3, h4⟩ := C12_weighting T hX hm hd hφ nm rel scale Y Y'
      have hl' : ∀ r ∈ warp2 φ n' L, r.length = n' := by
        intro r hr
        obtain ⟨i, hi, rfl⟩ := List.mem_iff_getElem.1 hr
        simp [warp2, warpRow]
      refine ⟨_, _, ?_, ?_, .some ⟨total, fun _ => L, nm.str⟩ ⟨total, fun _ => warp2 φ n' L, nm.str⟩ rfl ⟨by rw [hY.1]; exact h2, h3⟩ rfl⟩
      · simp only [weightingOf, lookupFor, h1, ok_bind]
        rw [if_pos ⟨by rw [hY.1, h2], by rw [hY.shape2_eq hm hd]; exact h3⟩]
        rfl
      · simp only [weightingOf, lookupFor, h4, ok_bind]
        rw [if_pos ⟨by rw [hY'.1]; simp [warp2, h2], by rw [hY'.shape2_eq hm hd]; exact hl'⟩]
        rfl

/-- A sieve that does not see repeated samples. -/
def SieveWarps (T : FloatText R) (s : Sieve R) (X : Data R) (m n n' : ℕ) (φ : ℕ → ℕ → ℕ) : Prop :=
  ∀ A, HasShape2 A m n → s.transformC T (warp φ n' X) (warp2 φ n' A) = s.transformC T X A

theorem mapM_congr_warp {s : Sieve R} {T : FloatText R} {X : Data R} {m n n' : ℕ} {φ : ℕ → ℕ → ℕ} (hs : SieveWarps T s X m n n' φ)
    (A : Data R) (hA : ∀ a ∈ A, HasShape2 a m n) :
    (A.map (warp2 φ n')).mapM (s.transformC T (warp φ n' X)) = A.mapM (s.transformC T X) := by
  induction A with
  | nil => rfl
  | cons a A ih =>
    rw [List.map_cons, List.mapM_cons, List.mapM_cons, hs a (hA a (by simp)), ih fun b hb => hA b (by simp [hb])]

/-- **C12.** The features that `INC` followed by a Reals `ISS` (in SINGLE or EXTENDED mode, without or with the weighting `L1` or `L2`) and
a warp-invariant sieve computes do not change when samples are repeated, in every series on its own. -/
theorem C12_pipeline (T : FloatText R) [NpMath R] {expf : R → R} (hexp : ExpLike expf) {X : Data R} {m d n n' : ℕ} (hX : HasShape X m d n)
    (hm : 0 < m) (hd : 0 < d) {φ : ℕ → ℕ → ℕ} (hφ : ∀ i < m, IsWarp n n' (φ i)) (zp : Bool) (words : List (IWord R)) (mode : ISSMode)
    (hs : SimpleISS (⟨words, mode, .reals, none⟩ : ISSConf R)) (hw : ∀ s, IWord.simple s ∈ words → ∀ el ∈ s.els, PositiveLetter d el)
    (wt : Option (Bool × WeightingKind R)) (hwt : WarpFree wt) (s : Sieve R) (hsv : SieveWarps T s X m n n' φ) :
    ((Prep.inc ⟨.int 1, 1, zp⟩).transform T (warp φ n' X) >>= fun Y' => issSieve T expf words mode .reals wt s (warp φ n' X) Y') =
      ((Prep.inc ⟨.int 1, 1, zp⟩).transform T X >>= fun Y => issSieve T expf words mode .reals wt s X Y) := by
  have hn := (hφ 0 hm).pos
  obtain ⟨Y, Y', h1, h1', h2, h2', _⟩ := inc_warp T hX hφ zp
  rw [h1, h1', ok_bind, ok_bind]
  obtain ⟨w, w', e1, e2, e3⟩ := weightingOf_warp T hX hm hd hφ h2 h2' wt hwt
  have hs' : SimpleISS (⟨words, mode, .reals, w⟩ : ISSConf R) := ⟨hs.1, hs.2, hs.3, hs.4, hs.5⟩
  obtain ⟨Y1, Y1', g1, g1', g2⟩ := C12_iterated_sums T hexp hX hd hφ zp ⟨words, mode, .reals, w⟩ hs' rfl hw
  rw [h1] at g1; rw [h1'] at g1'
  obtain rfl := Except.ok.inj g1
  obtain rfl := Except.ok.inj g1'
  have hsum := g2 w' e3
  -- the shape of the iterated sums
  obtain ⟨Y2, Y2', k1, k1', k2⟩ := C12_iterated_sums T hexp hX hd (φ := fun _ t => t) (fun i hi => isWarp_id hn) zp ⟨words, mode, .reals, w⟩ hs' rfl hw
  rw [warp_id hX, h1] at k1'; rw [h1] at k1
  obtain rfl := Except.ok.inj k1
  obtain rfl := Except.ok.inj k1'
  unfold issSieve
  simp only [e1, e2, ok_bind]
  have hus : (⟨words, mode, .reals, w⟩ : ISSConf R).Usable := fun h => absurd h hs'.semiring
  have hok := transform_eq expf hus hs'.nonempty Y
  generalize (⟨words, mode, .reals, w⟩ : ISSConf R).blockRows expf Y 0 words = A at hok
  have hlen := (C17_count expf _ hus Y A hok).2
  have hshape : ∀ a ∈ A, HasShape2 a m n := by
    apply warp2_id_shape _ (fun a ha => by rw [hlen a ha, h2.1])
    have hW : WarpedWeighting (fun _ t => t) n n Y Y w w := by
      cases e3 with
      | none => exact .none
      | some g g' total look warped =>
        refine .some g g rfl look ?_
        have hg : HasShape2 (g.lookup Y) m n := ⟨by rw [look.1, h2.1], look.2⟩
        exact hg.ext (hg.warp2 _ n) fun i hi t ht => (at2_warp2 hg (fun _ t => t) hi ht).symm
    have := k2 w hW
    rw [hok] at this
    exact Except.ok.inj this
  rw [hok] at hsum ⊢
  have hsum' : (⟨words, mode, .reals, w'⟩ : ISSConf R).transform expf Y' = .ok (A.map (warp2 φ n')) := hsum
  rw [hsum', ok_bind, ok_bind]
  exact mapM_congr_warp hsv A hshape

/-- **C95.** So do the features of an Arctic `ISS`, or of a Bayesian one on non-negative data, without `INC`. -/
theorem C95_pipeline (T : FloatText R) {expf : R → R} (hexp : ExpLike expf) {X : Data R} {m d n n' : ℕ} (hX : HasShape X m d n)
    (hm : 0 < m) (hd : 0 < d) {φ : ℕ → ℕ → ℕ} (hφ : ∀ i < m, IsWarp n n' (φ i)) (words : List (IWord R)) (mode : ISSMode) (k : SemiringKind)
    (hk : k = .arctic ∨ k = .bayesian ∧ Nonnegative X) (hs : SimpleISS (⟨words, mode, k, none⟩ : ISSConf R))
    (hw : ∀ s, IWord.simple s ∈ words → ∀ el ∈ s.els, el.length ≤ d)
    (wt : Option (Bool × WeightingKind R)) (hwt : WarpFree wt) (s : Sieve R) (hsv : SieveWarps T s X m n n' φ) :
    issSieve T expf words mode k wt s (warp φ n' X) (warp φ n' X) = issSieve T expf words mode k wt s X X := by
  have hn := (hφ 0 hm).pos
  obtain ⟨w, w', e1, e2, e3⟩ := weightingOf_warp T hX hm hd hφ hX (hX.warp φ n') wt hwt
  have hs' : SimpleISS (⟨words, mode, k, w⟩ : ISSConf R) := ⟨hs.1, hs.2, hs.3, hs.4, hs.5⟩
  have hsum := C95_iterated_sums hexp hX hd hφ ⟨words, mode, k, w⟩ hs' hk hw w' e3
  unfold issSieve
  simp only [e1, e2, ok_bind]
  have hus : (⟨words, mode, k, w⟩ : ISSConf R).Usable := fun h => absurd h hs'.semiring
  have hok := transform_eq expf hus hs'.nonempty X
  generalize (⟨words, mode, k, w⟩ : ISSConf R).blockRows expf X 0 words = A at hok
  have hlen := (C17_count expf _ hus X A hok).2
  have hshape : ∀ a ∈ A, HasShape2 a m n := by
    apply warp2_id_shape _ (fun a ha => by rw [hlen a ha, hX.1])
    have hW : WarpedWeighting (fun _ t => t) n n X (warp (fun _ t => t) n X) w w := by
      rw [warp_id hX]
      cases e3 with
      | none => exact .none
      | some g g' total look warped =>
        refine .some g g rfl look ?_
        have hg : HasShape2 (g.lookup X) m n := ⟨by rw [look.1, hX.1], look.2⟩
        exact hg.ext (hg.warp2 _ n) fun i hi t ht => (at2_warp2 hg (fun _ t => t) hi ht).symm
    have := C95_iterated_sums hexp hX hd (φ := fun _ t => t) (fun i hi => isWarp_id hn) ⟨words, mode, k, w⟩ hs' hk hw w hW
    rw [warp_id hX, hok] at this
    exact Except.ok.inj this
  rw [hok] at hsum ⊢
  have hsum' : (⟨words, mode, k, w'⟩ : ISSConf R).transform expf (warp φ n' X) = .ok (A.map (warp2 φ n')) := hsum
  rw [hsum', ok_bind, ok_bind]
  exact mapM_congr_warp hsv A hshape

/-- The default `END()` needs nothing of the cache. -/
theorem end_warps (T : FloatText R) {X : Data R} {m n n' : ℕ} (hm : 0 < m) {φ : ℕ → ℕ → ℕ} (hφ : ∀ i < m, IsWarp n n' (φ i)) :
    SieveWarps T (Sieve.seg .end_ ({ q := [-1, 1] } : Seg R)) X m n n' φ := by
  have key : ∀ (C : Data R) (l : ℕ) (A : List (List R)), 0 < l → HasShape2 A m l →
      (Sieve.seg .end_ ({ q := [-1, 1] } : Seg R)).transformC T C A = .ok (tab m fun i => [at2 A i (l - 1)]) := by
    intro C l A hl hA
    simp only [Sieve.transformC, Seg.transform, Seg.cuts, List.mapM_cons, List.mapM_nil, Seg.cutColumn, hA.1, hA.rowLen_eq hm]
    simp only [ok_bind, pure, Except.pure]
    refine mapM_ok_map fun i hi => ?_
    replace hi := List.mem_range.1 hi
    have hrow : (List.map (fun i => List.insertionSort (· ≤ ·) (0 :: List.map (fun c : List ℤ => c.getD i 0)
        [List.replicate m (if (-1 : ℤ) ≥ 0 then -1 else (l : ℤ) + -1 + 1)])) (List.range m)).getD i [] = [0, (l : ℤ)] := by
      have e : (List.replicate m (if (-1 : ℤ) ≥ 0 then (-1 : ℤ) else (l : ℤ) + -1 + 1)).getD i 0 = l := by
        simp [List.getD_eq_getElem?_getD, hi]
      rw [List.getD_eq_getElem?_getD, List.getElem?_map, List.getElem?_range hi]
      simp only [Option.map_some, Option.getD_some, List.map_cons, List.map_nil, e]
      simp [List.insertionSort, List.orderedInsert]
    rw [hrow, hA.row hi]
    simp only [endRow, List.length_cons, List.length_nil]
    show (List.range 1).mapM _ = _
    have : takeIdx (tab l (at2 A i)) ((([0, (l : ℤ)] : List ℤ).getD (0 + 1) 0) - 1) = .ok (at2 A i (l - 1)) := by
      unfold takeIdx
      simp only [List.getD_cons_succ, List.getD_cons_zero]
      rw [tab_length, normIdx_eq ⟨by omega, by omega⟩, ok_bind]
      show Except.ok _ = _
      unfold dimOf
      rw [if_neg (by omega), getD_tab (by omega)]
      congr 2; omega
    simp only [List.range_one, List.mapM_cons, List.mapM_nil, this, ok_bind, pure, Except.pure]
  intro A hA
  rw [key X n A (hφ 0 hm).pos hA, key (warp φ n' X) n' _ (hφ 0 hm).pos' (hA.warp2 φ n')]
  congr 1
  apply tab_congr
  intro i hi
  rw [at2_warp2 hA φ hi (by have := (hφ i hi).pos'; omega), (hφ i hi).stop]

/-- **C12.** `INC -> ISS (Reals) -> END` gives the same features for the series with repeated samples. -/
theorem C12_time_warping (T : FloatText R) [NpMath R] {expf : R → R} (hexp : ExpLike expf) {X : Data R} {m d n n' : ℕ} (hX : HasShape X m d n)
    (hm : 0 < m) (hd : 0 < d) {φ : ℕ → ℕ → ℕ} (hφ : ∀ i < m, IsWarp n n' (φ i)) (zp : Bool) (words : List (IWord R)) (mode : ISSMode)
    (hs : SimpleISS (⟨words, mode, .reals, none⟩ : ISSConf R)) (hw : ∀ s, IWord.simple s ∈ words → ∀ el ∈ s.els, PositiveLetter d el) :
    ((Prep.inc ⟨.int 1, 1, zp⟩).transform T (warp φ n' X) >>= fun Y' =>
      issSieve T expf words mode .reals none (.seg .end_ { q := [-1, 1] }) (warp φ n' X) Y') =
    ((Prep.inc ⟨.int 1, 1, zp⟩).transform T X >>= fun Y => issSieve T expf words mode .reals none (.seg .end_ { q := [-1, 1] }) X Y) :=
  C12_pipeline T hexp hX hm hd hφ zp words mode hs hw none trivial _ (end_warps T hm hφ)

end Fruits

/-! ### Non-vacuity -/

namespace Fruits.WarpExample
open Fruits

/-- A series of length three. -/
def X : Data ℚ := [[[1, 3, 2]], [[4, 4, 7]]]
/-- The first sample twice and the last one three times; in the second series the second sample four times. -/
def φ : ℕ → ℕ → ℕ := fun i t => if i = 0 then [0, 0, 1, 2, 2, 2].getD t 2 else [0, 1, 1, 1, 1, 2].getD t 2
def word : SWord ℚ := ⟨[[1], [2]], 1, "[1][11]".toList, none⟩
def words : List (IWord ℚ) := [.simple word]

example : warp φ 6 X = [[[1, 1, 3, 2, 2, 2]], [[4, 4, 4, 4, 4, 7]]] := by decide +kernel

theorem shape : HasShape X 2 1 3 := by simp [X, HasShape]

theorem warps : ∀ i < 2, IsWarp 3 6 (φ i) := by
  intro i hi
  have : i = 0 ∨ i = 1 := by omega
  have key : ∀ t < 5, (φ 0 (t + 1) = φ 0 t ∨ φ 0 (t + 1) = φ 0 t + 1) ∧ (φ 1 (t + 1) = φ 1 t ∨ φ 1 (t + 1) = φ 1 t + 1) := by decide
  rcases this with rfl | rfl
  · exact ⟨by omega, by omega, rfl, rfl, fun t ht => (key t (by omega)).1⟩
  · exact ⟨by omega, by omega, rfl, rfl, fun t ht => (key t (by omega)).2⟩

theorem simpleIss (mode : ISSMode) (k : SemiringKind) (hk : k ≠ .arcticArgmax) : SimpleISS (⟨words, mode, k, none⟩ : ISSConf ℚ) where
  semiring := hk
  nonempty := by simp [words]
  simple := by intro w hw; simp only [words, List.mem_singleton] at hw; exact ⟨_, hw⟩
  letters := by intro w hw; simp only [words, List.mem_singleton] at hw; subst hw; decide
  blocks := by
    intro _ w hw
    simp only [words, List.mem_singleton] at hw
    subst hw
    exact ⟨["1".toList, "11".toList], by simp [BlocksOK, BracketFree], rfl, rfl⟩

theorem positive : ∀ s, IWord.simple s ∈ words → ∀ el ∈ s.els, PositiveLetter 1 el := by
  intro s hs el hel
  simp only [words, List.mem_singleton, IWord.simple.injEq] at hs
  subst hs
  simp only [word, List.mem_cons, List.not_mem_nil, or_false] at hel
  rcases hel with rfl | rfl <;> simp [PositiveLetter]

/-- The features of the data and of the warped data, computed. -/
example [NpMath ℚ] : ∀ Z ∈ [X, warp φ 6 X], ((Prep.inc ⟨.int 1, 1, true⟩).transform ratText Z >>= fun Y =>
    issSieve ratText (fun _ => (1 : ℚ)) words .extended .reals none (.seg .end_ { q := [-1, 1] }) Z Y) = .ok [[[1], [3]], [[2], [0]]] := by
  intro Z hZ
  simp only [List.mem_cons, List.not_mem_nil, or_false] at hZ
  have e : ∀ Z : Data ℚ, (Prep.inc ⟨.int 1, 1, true⟩).transform ratText Z = INC.transform ⟨.int 1, 1, true⟩ Z := fun _ => rfl
  rcases hZ with rfl | rfl <;> rw [e] <;> decide +kernel

/-- Without increments the Reals iterated sums do change. -/
example : issSieve ratText (fun _ => (1 : ℚ)) words .single .reals none (.seg .end_ { q := [-1, 1] }) X X ≠
    issSieve ratText (fun _ => (1 : ℚ)) words .single .reals none (.seg .end_ { q := [-1, 1] }) (warp φ 6 X) (warp φ 6 X) := by decide +kernel

theorem expOne : ExpLike (fun _ : ℚ => (1 : ℚ)) := by constructor <;> simp

/-- The hypotheses of C12 hold here, with the weighting `L1`, END at a coquantile and `NPI`. -/
example [NpMath ℚ] (s : Sieve ℚ) (hs : s = .seg .end_ { cut := [.float (1 / 2), .int (-1)], q := [-1, 1] } ∨ s = .inc .npi 1 { q := [0, 1] }) :
    ((Prep.inc ⟨.int 1, 1, false⟩).transform ratText (warp φ 6 X) >>= fun Y' =>
      issSieve ratText (fun _ => (1 : ℚ)) words .extended .reals (some (true, .norm .L1 false true none 1)) s (warp φ 6 X) Y') =
    ((Prep.inc ⟨.int 1, 1, false⟩).transform ratText X >>= fun Y =>
      issSieve ratText (fun _ => (1 : ℚ)) words .extended .reals (some (true, .norm .L1 false true none 1)) s X Y) := by
  refine C12_pipeline ratText expOne shape (by omega) (by omega) warps false words .extended (simpleIss _ _ (by decide)) positive
    (some (true, .norm .L1 false true none 1)) ⟨rfl, rfl⟩ s ?_
  intro A hA
  rcases hs with rfl | rfl
  · exact C12_end ratText ratText_lawful shape (by omega) (by omega) warps _ (by simp [Cut.Elastic]) hA
  · refine C96_npi_mpi ratText ratText_lawful shape (by omega) (by omega) warps _ (by simp [Cut.Elastic]) _ (useQuantiles_01 _ rfl) (by simp) ?_ hA _
      (Or.inl rfl)
    intro k hk
    have : k = 0 := by simp at hk; omega
    subst this
    simp [InBand]

/-- The hypotheses of C95 hold here, for Arctic and Bayesian iterated sums and `MAX`. -/
example (k : SemiringKind) (hk : k = .arctic ∨ k = .bayesian) (mode : ISSMode) :
    issSieve ratText (fun _ => (1 : ℚ)) words mode k none (.seg .max { q := [-1, 1] }) (warp φ 6 X) (warp φ 6 X) =
    issSieve ratText (fun _ => (1 : ℚ)) words mode k none (.seg .max { q := [-1, 1] }) X X := by
  refine C95_pipeline ratText expOne shape (by omega) (by omega) warps words mode k ?_ (simpleIss _ _ (by rcases hk with rfl | rfl <;> decide)) ?_
    none trivial _ ?_
  · rcases hk with rfl | rfl
    · exact Or.inl rfl
    · refine Or.inr ⟨rfl, ?_⟩
      intro Z hZ d t
      have hall : ∀ Z ∈ X, ∀ r ∈ Z, ∀ v ∈ r, (0 : ℚ) ≤ v := by decide +kernel
      have hz : ∀ (r : List ℚ), (∀ v ∈ r, 0 ≤ v) → 0 ≤ r.getD t 0 := by
        intro r hr
        rw [List.getD_eq_getElem?_getD]
        cases h : r[t]? with
        | none => exact le_rfl
        | some v => exact hr v (List.mem_of_getElem? h)
      unfold entry
      rw [List.getD_eq_getElem?_getD (l := Z)]
      cases h : Z[d]? with
      | none => simp
      | some r => exact hz r (hall Z hZ r (List.mem_of_getElem? h))
  · intro s hs el hel
    exact (positive s hs el hel).1
  · intro A hA
    exact C96_max_min ratText ratText_lawful shape (by omega) (by omega) warps _ (by simp [Cut.Elastic]) rfl hA _ (Or.inl rfl)

end Fruits.WarpExample
