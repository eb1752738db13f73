import Verif.Spec
import Mathlib.Algebra.BigOperators.Intervals

/-! # Quasi-shuffle of words and the product of iterated sums (pure algebra) -/

namespace Fruits
variable {R : Type*}

/-- The product of two extended letters: exponents are added (padded with zeros). -/
def mergeLetter (a b : List ℤ) : List ℤ :=
  tab (max a.length b.length) (fun d => a.getD d 0 + b.getD d 0)

/-- The quasi-shuffle of two words, as the list of its terms:
`au ⧢ bv = a(u ⧢ bv) + b(au ⧢ v) + (ab)(u ⧢ v)`. -/
def quasiShuffle : List (List ℤ) → List (List ℤ) → List (List (List ℤ))
  | [], v => [v]
  | a :: u, [] => [a :: u]
  | a :: u, b :: v =>
    (quasiShuffle u (b :: v)).map (a :: ·) ++ (quasiShuffle (a :: u) v).map (b :: ·)
      ++ (quasiShuffle u v).map (mergeLetter a b :: ·)
termination_by u v => u.length + v.length

/-- `∑_{m ≤ i_1 < … < i_p < m + k} ∏ f_j(i_j)` by recursion on the window length. -/
def tailSum [CommRing R] (val : List ℤ → ℕ → R) : ℕ → ℕ → List (List ℤ) → R
  | _, _, [] => 1
  | 0, _, _ :: _ => 0
  | k + 1, m, a :: w => val a m * tailSum val k (m + 1) w + tailSum val k (m + 1) (a :: w)

theorem tailSum_nil [CommRing R] (val : List ℤ → ℕ → R) (k m : ℕ) : tailSum val k m [] = 1 := by
  cases k <;> rfl

theorem tailSum_quasiShuffle [CommRing R] (val : List ℤ → ℕ → R) (k m : ℕ)
    (u v : List (List ℤ))
    (hval : ∀ a ∈ u, ∀ b ∈ v, ∀ t, m ≤ t → t < m + k → val (mergeLetter a b) t = val a t * val b t) :
    tailSum val k m u * tailSum val k m v
      = ((quasiShuffle u v).map (tailSum val k m)).sum := by
  induction k generalizing m u v with
  | zero =>
    match u, v with
    | [], v => simp [quasiShuffle, tailSum_nil]
    | a :: u, [] => simp [quasiShuffle, tailSum_nil]
    | a :: u, b :: v =>
      have hz : ∀ (c : List ℤ) (L : List (List (List ℤ))),
          ((L.map (c :: ·)).map (tailSum val 0 m)).sum = 0 := by
        intro c L
        rw [List.sum_eq_zero]
        intro x hx
        simp only [List.map_map, List.mem_map, Function.comp] at hx
        obtain ⟨w, _, rfl⟩ := hx
        rfl
      rw [quasiShuffle]
      simp only [List.map_append, List.sum_append, hz]
      simp [tailSum]
  | succ k ih =>
    match u, v with
    | [], v => simp [quasiShuffle, tailSum_nil]
    | a :: u, [] => simp [quasiShuffle, tailSum_nil]
    | a :: u, b :: v =>
      have hstep : ∀ (c : List ℤ) (L : List (List (List ℤ))),
          ((L.map (c :: ·)).map (tailSum val (k + 1) m)).sum
            = val c m * (L.map (tailSum val k (m + 1))).sum
              + ((L.map (c :: ·)).map (tailSum val k (m + 1))).sum := by
        intro c L
        induction L with
        | nil => simp
        | cons w L ihL =>
          simp only [List.map_cons, List.sum_cons, ihL]
          rw [tailSum]; ring

      have h1 := ih (m + 1) u (b :: v) (fun a' ha' b' hb' t h1 h2 =>
        hval a' (by simp [ha']) b' hb' t (by omega) (by omega))
      have h2 := ih (m + 1) (a :: u) v (fun a' ha' b' hb' t h1 h2 =>
        hval a' ha' b' (by simp [hb']) t (by omega) (by omega))
      have h3 := ih (m + 1) u v (fun a' ha' b' hb' t h1 h2 =>
        hval a' (by simp [ha']) b' (by simp [hb']) t (by omega) (by omega))
      have h4 := ih (m + 1) (a :: u) (b :: v) (fun a' ha' b' hb' t h1 h2 =>
        hval a' ha' b' hb' t (by omega) (by omega))
      have hm := hval a (by simp) b (by simp) m le_rfl (by omega)
      rw [quasiShuffle] at h4 ⊢
      simp only [List.map_append, List.sum_append] at h4 ⊢
      rw [hstep, hstep, hstep, ← h1, ← h2, ← h3, hm]
      have e : tailSum val (k + 1) m (a :: u) * tailSum val (k + 1) m (b :: v)
          = val a m * (tailSum val k (m + 1) u * tailSum val k (m + 1) (b :: v))
            + val b m * (tailSum val k (m + 1) (a :: u) * tailSum val k (m + 1) v)
            + val a m * val b m * (tailSum val k (m + 1) u * tailSum val k (m + 1) v)
            + tailSum val k (m + 1) (a :: u) * tailSum val k (m + 1) (b :: v) := by
        rw [tailSum, tailSum]; ring
      rw [e, h4]
      ring

/-- Splitting off the last letter. -/
theorem tailSum_snoc [CommRing R] (val : List ℤ → ℕ → R) (k m : ℕ) (w : List (List ℤ)) (a : List ℤ) :
    tailSum val k m (w ++ [a]) = ∑ s ∈ Finset.range k, tailSum val s m w * val a (m + s) := by
  induction k generalizing m w with
  | zero => cases w <;> simp [tailSum]
  | succ k ih =>
    rw [Finset.sum_range_succ']
    cases w with
    | nil =>
      simp only [List.nil_append, tailSum, tailSum_nil, mul_one, one_mul, add_zero]
      have := ih (m + 1) []
      simp only [List.nil_append, tailSum_nil, one_mul] at this
      rw [this, add_comm]
      congr 1
      apply Finset.sum_congr rfl
      intro s _
      congr 1; omega
    | cons b w =>
      simp only [List.cons_append, tailSum, zero_mul, add_zero]
      have h1 := ih (m + 1) w
      have h2 := ih (m + 1) (b :: w)
      rw [List.cons_append] at h2
      rw [h1, h2, Finset.mul_sum, ← Finset.sum_add_distrib]
      apply Finset.sum_congr rfl
      intro s _
      rw [show m + 1 + s = m + (s + 1) by omega]
      ring

theorem incSum_eq_tailSum [CommRing R] (val : List ℤ → ℕ → R) (w : List (List ℤ)) (n : ℕ) :
    incSum (fun j t => val (w.getD j []) t) w.length n = tailSum val n 0 w := by
  induction w using List.reverseRecOn generalizing n with
  | nil => simp [tailSum_nil]
  | append_singleton w a ih =>
    rw [tailSum_snoc, List.length_append, List.length_singleton, incSum_succ]
    apply Finset.sum_congr rfl
    intro s _
    rw [← ih]
    congr 1
    · apply incSum_congr
      intro j hj t _
      simp [List.getD_eq_getElem?_getD, List.getElem?_append_left hj]
    · simp [List.getD_eq_getElem?_getD]

end Fruits
