import Verif.Props.Missing3
import Verif.GenericLemmas

/-! # C169: missing values and words with arbitrary letters -/

namespace Fruits
set_option linter.unusedSectionVars false

variable {R : Type} [Field R] [LinearOrder R] [IsStrictOrderedRing R]

/-! ## Specification -/

/-- A letter as a function on series with missing values, and the function it is on series without. -/
abbrev LetterPair (R : Type) := BoundLetter (Mv R) × BoundLetter R

/-- The letters return `n` values for `Z` and for its completion `Y`, the same ones where the value for `Z` is not missing. -/
def PairFits (n : ℕ) (Z : List (List (Mv R))) (Y : List (List R)) (word : List (List (LetterPair R))) : Prop :=
  ∀ el ∈ word, ∀ p ∈ el, (p.1 Z).length = n ∧ (p.2 Y).length = n ∧ ∀ t x, (p.1 Z).getD t 0 = Mv.num x → (p.2 Y).getD t 0 = x

/-- A letter of the extended letter returns `nan` at time `t`. -/
def PairMissing (Z : List (List (Mv R))) (el : List (LetterPair R)) (t : ℕ) : Prop := ∃ p ∈ el, (p.1 Z).getD t 0 = Mv.nan

/-! ## Proof -/

open Mv

section sim

theorem Sim.zip {n : ℕ} {b c : ℕ → Prop} {x x' : List (Mv R)} {y y' : List R} (h : Sim n b x y) (h' : Sim n c x' y') (op : R → R → R) :
    Sim n (fun t => b t ∨ c t) (List.zipWith (lift₂ op) x x') (List.zipWith op y y') := by
  obtain ⟨v, hx, hy⟩ := h
  obtain ⟨v', hx', hy'⟩ := h'
  refine ⟨fun t => op (v t) (v' t), ?_, by rw [hy, hy', zipWith_tab]⟩
  rw [hx, hx', zipWith_tab]
  exact tab_congr fun t _ => lift₂_mk _ _ _ _ _

theorem Sim.drop {n : ℕ} {b : ℕ → Prop} {x : List (Mv R)} {y : List R} (h : Sim n b x y) (k : ℕ) :
    Sim (n - k) (fun t => b (k + t)) (x.drop k) (y.drop k) := by
  obtain ⟨v, hx, hy⟩ := h
  exact ⟨fun t => v (k + t), by rw [hx, drop_tab], by rw [hy, drop_tab]⟩

theorem setFrom_tab' {S : Type} (n k : ℕ) (f g : ℕ → S) :
    setFrom (tab n f) k (tab (n - k) g) = tab n (fun t => if t < k then f t else g (t - k)) := by
  unfold setFrom
  rw [take_tab, append_tab]
  rcases Nat.lt_or_ge k n with h | h
  · rw [min_eq_left h.le, show k + (n - k) = n by omega]
  · rw [min_eq_right h, show n + (n - k) = n by omega]
    apply tab_congr; intro t ht
    rw [if_pos ht, if_pos (by omega)]

theorem Sim.setFrom {n k : ℕ} {b c : ℕ → Prop} {x x' : List (Mv R)} {y y' : List R} (h : Sim n b x y) (h' : Sim (n - k) c x' y') :
    Sim n (fun t => if t < k then b t else c (t - k)) (setFrom x k x') (setFrom y k y') := by
  obtain ⟨v, hx, hy⟩ := h
  obtain ⟨v', hx', hy'⟩ := h'
  refine ⟨fun t => if t < k then v t else v' (t - k), ?_, by rw [hy, hy', setFrom_tab']⟩
  rw [hx, hx', setFrom_tab']
  refine tab_congr fun t _ => ?_
  by_cases ht : t < k
  · simp only [if_pos ht]
  · simp only [if_neg ht]

theorem runMax_npMax (b : ℕ → Prop) (v : ℕ → R) (t : ℕ) :
    @runMax (Mv R) ⟨npMax⟩ (fun t => orNan (b t) (v t)) t = orNan (∃ u ≤ t, b u) (runMax v t) := by
  induction t with
  | zero => exact mk_congr (by simp) rfl
  | succ t ih =>
    have e : @runMax (Mv R) ⟨npMax⟩ (fun t => orNan (b t) (v t)) (t + 1)
        = lift₂ max (@runMax (Mv R) ⟨npMax⟩ (fun t => orNan (b t) (v t)) t) (orNan (b (t + 1)) (v (t + 1))) := rfl
    rw [e, ih, lift₂_mk]
    refine mk_congr ?_ rfl
    constructor
    · rintro (⟨u, hu, h⟩ | h)
      · exact ⟨u, by omega, h⟩
      · exact ⟨t + 1, le_rfl, h⟩
    · rintro ⟨u, hu, h⟩
      by_cases e : u = t + 1
      · subst e; exact Or.inr h
      · exact Or.inl ⟨u, by omega, h⟩

theorem Sim.maxAcc {n : ℕ} {b : ℕ → Prop} {x : List (Mv R)} {y : List R} (h : Sim n b x y) :
    Sim n (fun t => ∃ u ≤ t, b u) (@Fruits.maxAcc (Mv R) ⟨npMax⟩ x) (Fruits.maxAcc y) := by
  obtain ⟨v, hx, hy⟩ := h
  refine ⟨runMax v, ?_, by rw [hy, maxAcc_tab]⟩
  rw [hx, @maxAcc_tab (Mv R) ⟨npMax⟩]
  exact tab_congr fun t _ => runMax_npMax b v t

theorem Sim.lettersOp {n : ℕ} {Z : List (List (Mv R))} {Y : List (List R)} (hZ : Rect Z n) (hY : Rect Y n) (hne : Z ≠ []) (hneY : Y ≠ [])
    (op : R → R → R) (z : R) (el : List (LetterPair R)) (hp : ∀ p ∈ el, (p.1 Z).length = n ∧ (p.2 Y).length = n ∧
      ∀ t x, (p.1 Z).getD t 0 = Mv.num x → (p.2 Y).getD t 0 = x) :
    Sim n (PairMissing Z el) (lettersOp (num z) (lift₂ op) Z (el.map Prod.fst)) (lettersOp z op Y (el.map Prod.snd)) := by
  unfold Fruits.lettersOp
  rw [ncols_eq hZ hne, ncols_eq hY hneY]
  suffices h : ∀ b x y, Sim n b x y → Sim n (fun t => b t ∨ PairMissing Z el t)
      ((el.map Prod.fst).foldl (fun C letter => List.zipWith (lift₂ op) C (letter Z)) x)
      ((el.map Prod.snd).foldl (fun C letter => List.zipWith op C (letter Y)) y) by
    refine (h (fun _ => False) _ _ ⟨fun _ => z, ?_, replicate_eq_tab _ _⟩).congr fun t => by simp
    rw [replicate_eq_tab]
    exact tab_congr fun t _ => num_eq z
  induction el with
  | nil => intro b x y h; exact h.congr fun t => by simp [PairMissing]
  | cons p el ih =>
    intro b x y h
    obtain ⟨h1, h2, h3⟩ := hp p (by simp)
    have hs : Sim n (fun t => (p.1 Z).getD t 0 = nan) (p.1 Z) (p.2 Y) := by
      refine ⟨fun t => (p.2 Y).getD t 0, ?_, by rw [← h2]; exact tab_of_list _ _⟩
      rw [← h1]
      conv_lhs => rw [tab_of_list (p.1 Z) 0]
      exact tab_congr fun t _ => eq_mk _ _ fun x hx => h3 t x hx
    refine (ih (fun q hq => hp q (by simp [hq])) _ _ _ (h.zip hs op)).congr fun t => ?_
    simp only [PairMissing, List.mem_cons, exists_eq_or_imp]
    tauto

end sim

theorem enumFold_map {α β σ : Type*} (f : ℕ → β → σ → σ) (g : α → β) (xs : List α) :
    ∀ (k : ℕ) (s : σ), enumFold f k (xs.map g) s = enumFold (fun k x s => f k (g x) s) k xs s := by
  induction xs with
  | nil => intro k s; rfl
  | cons x xs ih => intro k s; exact ih (k + 1) _

/-- Letter `j` misses a value at a time that an increasing tuple can use. -/
def SpoilsTuple (Z : List (List (Mv R))) (word : List (List (LetterPair R))) (k t : ℕ) : Prop :=
  ∃ j < k, ∃ u, j ≤ u ∧ u + (k - 1 - j) ≤ t ∧ PairMissing Z (word.getD j []) u

theorem genericSingle_sim {n : ℕ} {Z : List (List (Mv R))} {Y : List (List R)} (hZ : Rect Z n) (hY : Rect Y n) (hne : Z ≠ []) (hneY : Y ≠ [])
    {word : List (List (LetterPair R))} (hp : PairFits n Z Y word) (op : R → R → R) (z : R) (cumM : List (Mv R) → List (Mv R))
    (cumE : List R → List R) (hcum : ∀ n b x y, Sim n b x y → Sim n (fun t => ∃ u ≤ t, b u) (cumM x) (cumE y)) {ext : ℕ} (he : ext ≤ word.length) :
    SavedSim n word.length ext word.length (fun q t => SpoilsTuple Z word (q + 1) t)
      (genericSingle (num z) (lift₂ op) cumM Z (word.map (List.map Prod.fst)) ext) (genericSingle z op cumE Y (word.map (List.map Prod.snd)) ext) := by
  unfold genericSingle
  rw [enumFold_map, enumFold_map, ncols_eq hZ hne, ncols_eq hY hneY]
  simp only [List.length_map]
  have key := enumFold_two
    (fun k el (s : List (Mv R) × List (List (Mv R))) =>
      let tmp := s.1
      let result := s.2
      let C := lettersOp (num z) (lift₂ op) Z (el.map Prod.fst)
      let tmp := if k > 0 then roll1z tmp else tmp
      let tmp := setFrom tmp k (List.zipWith (lift₂ op) (tmp.drop k) (C.drop k))
      let tmp := setFrom tmp k (cumM (tmp.drop k))
      let result := if word.length - k ≤ ext then result.set (ext - (word.length - k)) tmp else result
      (tmp, result))
    (fun k el (s : List R × List (List R)) =>
      let tmp := s.1
      let result := s.2
      let C := lettersOp z op Y (el.map Prod.snd)
      let tmp := if k > 0 then roll1z tmp else tmp
      let tmp := setFrom tmp k (List.zipWith op (tmp.drop k) (C.drop k))
      let tmp := setFrom tmp k (cumE (tmp.drop k))
      let result := if word.length - k ≤ ext then result.set (ext - (word.length - k)) tmp else result
      (tmp, result))
    (fun k s u => Sim n (fun t => SpoilsTuple Z word k t) s.1 u.1 ∧ SavedSim n word.length ext k (fun q t => SpoilsTuple Z word (q + 1) t) s.2 u.2)
    word 0 (List.replicate n (num z), List.replicate ext (zeros n)) (List.replicate n z, List.replicate ext (zeros n))
    ⟨⟨fun _ => z, by
        rw [replicate_eq_tab]
        exact tab_congr fun t _ => by rw [num_eq]; exact mk_congr ⟨False.elim, fun ⟨j, hj, _⟩ => by omega⟩ rfl,
      replicate_eq_tab _ _⟩, by simp, by simp, fun r _ h => by omega⟩
    (by
      rintro k hk ⟨x, rx⟩ ⟨y, ry⟩ ⟨h1, h2⟩
      simp only [zero_add] at h1 h2 hk ⊢
      have hel : word.getD k [] = word[k] := by simp [List.getD, hk]
      have hC := Sim.lettersOp hZ hY hne hneY op z word[k] (hp _ (List.getElem_mem hk))
      have hroll : Sim n (fun t => t ≠ 0 ∧ SpoilsTuple Z word k (t - 1)) (if k > 0 then roll1z x else x) (if k > 0 then roll1z y else y) := by
        by_cases h0 : k > 0
        · rw [if_pos h0, if_pos h0]; exact h1.roll
        · rw [if_neg h0, if_neg h0]
          have hno : ∀ t, ¬ SpoilsTuple Z word k t := fun t ⟨j, hj, _⟩ => by omega
          exact h1.congr fun t => by simp [hno]
      have hop := hroll.setFrom (k := k) ((hroll.drop k).zip (hC.drop k) op)
      have hfin := (hop.setFrom (k := k) (hcum _ _ _ _ (hop.drop k))).congr (c := fun t => SpoilsTuple Z word (k + 1) t) fun t => by
        by_cases ht : t < k
        · simp only [if_pos ht]
          constructor
          · rintro ⟨_, j, hj, u, hu, hut, _⟩; omega
          · rintro ⟨j, hj, u, hu, hut, _⟩; omega
        · simp only [if_neg ht, show ∀ u, ¬ (k + u < k) from fun u => by omega, if_false]
          constructor
          · rintro ⟨u, hu, ⟨_, j, hj, w, hw, hwt, hm⟩ | hm⟩
            · exact ⟨j, by omega, w, hw, by omega, hm⟩
            · exact ⟨k, by omega, k + (k + u - k), by omega, by omega, by rw [hel]; exact hm⟩
          · rintro ⟨j, hj, w, hw, hwt, hm⟩
            by_cases e : j = k
            · subst e
              refine ⟨w - j, by omega, Or.inr ?_⟩
              rw [hel] at hm
              rwa [show j + (j + (w - j) - j) = w by omega]
            · exact ⟨t - k, le_rfl, Or.inl ⟨by omega, j, by omega, w, hw, by omega, hm⟩⟩
      exact ⟨hfin, h2.step hk he hfin⟩)
  rw [zero_add] at key
  exact key.2

theorem arcticGeneric_sim {n : ℕ} {Z : List (List (Mv R))} {Y : List (List R)} (hZ : Rect Z n) (hY : Rect Y n) (hne : Z ≠ []) (hneY : Y ≠ [])
    {word : List (List (LetterPair R))} (hp : PairFits n Z Y word) {ext : ℕ} (he : ext ≤ word.length) :
    SavedSim n word.length ext word.length (fun q t => ∃ j < q + 1, ∃ u ≤ t, PairMissing Z (word.getD j []) u)
      (@arcticGenericSingle (Mv R) _ _ ⟨npMax⟩ Z (word.map (List.map Prod.fst)) ext) (arcticGenericSingle Y (word.map (List.map Prod.snd)) ext) := by
  unfold arcticGenericSingle
  rw [enumFold_map, enumFold_map, ncols_eq hZ hne, ncols_eq hY hneY]
  simp only [List.length_map]
  have key := enumFold_two
    (fun k el (s : List (Mv R) × List (List (Mv R))) =>
      let tmp := s.1
      let result := s.2
      let C := lettersOp 0 (· + ·) Z (el.map Prod.fst)
      let tmp := vadd tmp C
      let tmp := @maxAcc (Mv R) ⟨npMax⟩ tmp
      let result := if word.length - k ≤ ext then result.set (ext - (word.length - k)) tmp else result
      (tmp, result))
    (fun k el (s : List R × List (List R)) =>
      let tmp := s.1
      let result := s.2
      let C := lettersOp 0 (· + ·) Y (el.map Prod.snd)
      let tmp := vadd tmp C
      let tmp := maxAcc tmp
      let result := if word.length - k ≤ ext then result.set (ext - (word.length - k)) tmp else result
      (tmp, result))
    (fun k s u => Sim n (fun t => ∃ j < k, ∃ u ≤ t, PairMissing Z (word.getD j []) u) s.1 u.1 ∧
      SavedSim n word.length ext k (fun q t => ∃ j < q + 1, ∃ u ≤ t, PairMissing Z (word.getD j []) u) s.2 u.2)
    word 0 (zeros n, List.replicate ext (zeros n)) (zeros n, List.replicate ext (zeros n))
    ⟨⟨fun _ => 0, by
        rw [zeros_eq]
        exact tab_congr fun t _ => by rw [zero_mk]; exact mk_congr ⟨False.elim, fun ⟨j, hj, _⟩ => by omega⟩ rfl,
      zeros_eq _⟩, by simp, by simp, fun r _ h => by omega⟩
    (by
      rintro k hk ⟨x, rx⟩ ⟨y, ry⟩ ⟨h1, h2⟩
      simp only [zero_add] at h1 h2 hk ⊢
      have hel : word.getD k [] = word[k] := by simp [List.getD, hk]
      have hC := Sim.lettersOp hZ hY hne hneY (· + ·) 0 word[k] (hp _ (List.getElem_mem hk))
      have hfin := ((h1.zip hC (· + ·)).maxAcc).congr (c := fun t => ∃ j < k + 1, ∃ u ≤ t, PairMissing Z (word.getD j []) u) fun t => by
        constructor
        · rintro ⟨u, hu, ⟨j, hj, w, hw, hm⟩ | hm⟩
          · exact ⟨j, by omega, w, by omega, hm⟩
          · exact ⟨k, by omega, u, hu, by rw [hel]; exact hm⟩
        · rintro ⟨j, hj, w, hw, hm⟩
          by_cases e : j = k
          · subst e; rw [hel] at hm; exact ⟨w, hw, Or.inr hm⟩
          · exact ⟨w, hw, Or.inl ⟨j, by omega, w, le_rfl, hm⟩⟩
      exact ⟨hfin, h2.step hk he hfin⟩)
  rw [zero_add] at key
  exact key.2

/-- The arithmetic of increasing tuples. -/
theorem exists_tuple_iff (q t : ℕ) (miss : ℕ → ℕ → Prop) :
    (∃ j < q + 1, ∃ u, j ≤ u ∧ u + (q + 1 - 1 - j) ≤ t ∧ miss j u) ↔
      ∃ i : Fin (q + 1) → ℕ, StrictMono i ∧ (∀ j, i j ≤ t) ∧ ∃ j : Fin (q + 1), miss j (i j) := by
  constructor
  · rintro ⟨j, hj, u, hu, hut, hm⟩
    refine ⟨fun m => u + m - j, fun a b hab => ?_, fun m => ?_, ⟨j, hj⟩, ?_⟩
    · have : (a : ℕ) < b := hab
      show u + a - j < u + b - j
      omega
    · have := m.2
      show u + m - j ≤ t
      omega
    · simpa using hm
  · rintro ⟨i, hi, hit, j, hm⟩
    have h1 : ∀ m (hm : m < q + 1), m ≤ i ⟨m, hm⟩ := by
      intro m
      induction m with
      | zero => intro _; omega
      | succ m ih =>
        intro hm
        have := ih (by omega)
        have h2 : i ⟨m, by omega⟩ < i ⟨m + 1, hm⟩ := hi (by simp [Fin.lt_def])
        omega
    have h2 : ∀ d (hd : (j : ℕ) + d < q + 1), i j + d ≤ i ⟨j + d, hd⟩ := by
      intro d
      induction d with
      | zero => intro hd; exact le_rfl
      | succ d ih =>
        intro hd
        have := ih (by omega)
        have h3 : i ⟨j + d, by omega⟩ < i ⟨j + (d + 1), hd⟩ := hi (by simp [Fin.lt_def])
        omega
    refine ⟨j, j.2, i j, h1 j j.2, ?_, hm⟩
    have hj := j.2
    have := h2 (q - j) (by omega)
    have h4 := hit ⟨j + (q - j), by omega⟩
    omega

/-! ## C169 -/

/-- **C169** (words with arbitrary letters, `Reals` and `Bayesian`): the sum of the first `q + 1` extended letters is `nan` at time `t` exactly if an
index tuple `i_0 < … < i_q ≤ t` uses a missing letter value; otherwise it is the number that any completion has there. -/
theorem C169_generic {k : SemiringKind} (hk : k = .reals ∨ k = .bayesian) {n : ℕ} {Z : List (List (Mv R))} {Y : List (List R)} (hZ : Completes n Z Y)
    (hne : Z ≠ []) {word : List (List (LetterPair R))} (hp : PairFits n Z Y word) {ext : ℕ} (he : ext ≤ word.length) {r t : ℕ} (hr : r < ext)
    (ht : t < n) :
    let out := ((Mv.slowSum k Z (word.map (List.map Prod.fst)) ext).getD r []).getD t 0
    let exact := ((slowSingle k Y (word.map (List.map Prod.snd)) ext).getD r []).getD t 0
    let q := word.length - ext + r
    (out = Mv.nan ↔ ∃ i : Fin (q + 1) → ℕ, StrictMono i ∧ (∀ j, i j ≤ t) ∧ ∃ j : Fin (q + 1), PairMissing Z (word.getD j []) (i j)) ∧
      (out ≠ Mv.nan → out = Mv.num exact) := by
  have main : ∀ (x : List (List (Mv R))) (y : List (List R)), SavedSim n word.length ext word.length (fun q t => SpoilsTuple Z word (q + 1) t) x y →
      ((x.getD r []).getD t 0 = Mv.nan ↔ ∃ i : Fin (word.length - ext + r + 1) → ℕ, StrictMono i ∧ (∀ j, i j ≤ t) ∧
        ∃ j : Fin (word.length - ext + r + 1), PairMissing Z (word.getD j []) (i j)) ∧
      ((x.getD r []).getD t 0 ≠ Mv.nan → (x.getD r []).getD t 0 = Mv.num ((y.getD r []).getD t 0)) := by
    intro x y h
    obtain ⟨v, hx, hy⟩ := h.2.2 r hr (by omega)
    rw [hx, hy, tab_getD _ _ _ _ ht, tab_getD _ _ _ _ ht]
    rw [← exists_tuple_iff (word.length - ext + r) t fun j u => PairMissing Z (word.getD j []) u]
    by_cases hb : SpoilsTuple Z word (word.length - ext + r + 1) t
    · rw [mk_true hb]
      exact ⟨⟨fun _ => hb, fun _ => rfl⟩, fun h => absurd rfl h⟩
    · rw [mk_false hb]
      exact ⟨⟨fun h => (by cases h), fun h => absurd h hb⟩, fun _ => rfl⟩
  rcases hk with rfl | rfl
  · exact main _ _ (genericSingle_sim hZ.rect hZ.rectY hne (hZ.ne hne) hp (· * ·) 1 cumsum cumsum (fun _ _ _ _ h => h.cumsum) he)
  · exact main _ _ (genericSingle_sim hZ.rect hZ.rectY hne (hZ.ne hne) hp (· * ·) 1 _ maxAcc (fun _ _ _ _ h => h.maxAcc) he)

/-- **C169** (words with arbitrary letters, `Arctic`): the sum is `nan` at time `t` exactly if a letter value at a time up to `t` is missing (an index
tuple `i_0 ≤ … ≤ i_q ≤ t` uses it); otherwise it is the number that any completion has there.  Missing values are not skipped here. -/
theorem C169_generic_arctic {n : ℕ} {Z : List (List (Mv R))} {Y : List (List R)} (hZ : Completes n Z Y) (hne : Z ≠ [])
    {word : List (List (LetterPair R))} (hp : PairFits n Z Y word) {ext : ℕ} (he : ext ≤ word.length) {r t : ℕ} (hr : r < ext) (ht : t < n) :
    let out := ((Mv.slowSum .arctic Z (word.map (List.map Prod.fst)) ext).getD r []).getD t 0
    let exact := ((slowSingle .arctic Y (word.map (List.map Prod.snd)) ext).getD r []).getD t 0
    let q := word.length - ext + r
    (out = Mv.nan ↔ ∃ i : Fin (q + 1) → ℕ, WeakTuple t i ∧ ∃ j : Fin (q + 1), PairMissing Z (word.getD j []) (i j)) ∧
      (out ≠ Mv.nan → out = Mv.num exact) := by
  intro out exact q
  have h := arcticGeneric_sim hZ.rect hZ.rectY hne (hZ.ne hne) hp he
  obtain ⟨v, hx, hy⟩ := h.2.2 r hr (by omega)
  have ho : out = orNan (∃ j < q + 1, ∃ u ≤ t, PairMissing Z (word.getD j []) u) (v t) := by
    simp only [out, Mv.slowSum]
    rw [hx, tab_getD _ _ _ _ ht]
  have hex : exact = v t := by
    simp only [exact, slowSingle]
    rw [hy, tab_getD _ _ _ _ ht]
  have hiff : (∃ j < q + 1, ∃ u ≤ t, PairMissing Z (word.getD j []) u) ↔
      ∃ i : Fin (q + 1) → ℕ, WeakTuple t i ∧ ∃ j : Fin (q + 1), PairMissing Z (word.getD j []) (i j) := by
    constructor
    · rintro ⟨j, hj, u, hu, hm⟩
      exact ⟨fun _ => u, ⟨fun _ _ _ => le_rfl, fun _ => hu⟩, ⟨j, hj⟩, hm⟩
    · rintro ⟨i, hi, j, hm⟩
      exact ⟨j, j.2, i j, hi.2 j, hm⟩
  rw [ho, hex, ← hiff]
  by_cases hb : ∃ j < q + 1, ∃ u ≤ t, PairMissing Z (word.getD j []) u
  · rw [mk_true hb]
    exact ⟨⟨fun _ => hb, fun _ => rfl⟩, fun h => absurd rfl h⟩
  · rw [mk_false hb]
    exact ⟨⟨fun h => (by cases h), fun h => absurd h hb⟩, fun _ => rfl⟩

/-- The letters `[1]` and `[2]` as functions. -/
def dimPair (d : ℕ) : LetterPair ℚ := (fun Z => row Z d, fun Z => row Z d)

/-- The word `[2]`, the middle value of dimension 2 missing: the compiled `Arctic` and `Bayesian` kernels skip it, the generic ones return `nan` from
there on. -/
theorem C169_paths_counterexample :
    Mv.fastSum id .arctic missingLater [[0, 1]] [1] [0, 0, 0] 1 false = [[.num 4, .num 4, .num 6]] ∧
      Mv.slowSum .arctic missingLater [[(dimPair 1).1]] 1 = [[.num 4, .nan, .nan]] ∧
      Mv.fastSum id .bayesian missingLater [[0, 1]] [1] [0, 0, 0] 1 false = [[.num 4, .num 4, .num 6]] ∧
      Mv.slowSum .bayesian missingLater [[(dimPair 1).1]] 1 = [[.num 4, .nan, .nan]] := by
  decide +kernel

/-- The hypotheses hold for these letters and any completion. -/
example {Y : List (List ℚ)} (hY : Completes 3 missingLater Y) : PairFits 3 missingLater Y [[dimPair 0], [dimPair 1]] := by
  intro el hel p hp
  have h2 := hY.dims
  have hlen : ∀ d < 2, (row Y d).length = 3 := fun d hd => hY.rectY _ (by
    have : d < Y.length := by rw [h2]; exact hd
    simp [row, List.getD, this])
  simp only [List.mem_cons, List.not_mem_nil, or_false] at hel
  rcases hel with rfl | rfl <;> (rw [List.mem_singleton] at hp; subst hp)
  · exact ⟨rfl, hlen 0 (by omega), fun t x hx => hY.same 0 t x hx⟩
  · exact ⟨rfl, hlen 1 (by omega), fun t x hx => hY.same 1 t x hx⟩

end Fruits
