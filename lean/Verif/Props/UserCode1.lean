import Verif.UserCode
import Verif.Props.General
import Verif.Props.Words2
import Mathlib.Algebra.Tropical.BigOperators

/-! # C101, C102: user-defined letters and semirings -/

namespace Fruits
set_option linter.unusedSectionVars false

/-! ### C102: user-defined semirings -/

section semirings
variable {R : Type} [Field R] [LinearOrder R] [IsStrictOrderedRing R]

/-- The user's operations mean the operations of the commutative semiring `S` through `v`: `_identity` is the one,
`_operation` the product and `_cumulative_operation` the running sums of `S`. -/
structure UserSemiring.Means (s : UserSemiring R) {S : Type} [CommSemiring S] (v : R → S) : Prop where
  one : v s.ident = 1
  mul : ∀ a b, v (s.op a b) = v a * v b
  cum_length : ∀ x, (s.cum x).length = x.length
  cum : ∀ (x : List R) (t : ℕ), t < x.length → v ((s.cum x).getD t 0) = ∑ j ∈ Finset.range (t + 1), v (x.getD j 0)

/-- The values of the letters of one extended letter at time `t`, combined with `_operation`. -/
def UserSemiring.letters (s : UserSemiring R) (Z : List (List R)) (el : List (BoundLetter R)) (t : ℕ) : R :=
  el.foldl (fun c l => s.op c ((l Z).getD t 0)) s.ident

theorem lettersOp_user (s : UserSemiring R) {Z : List (List R)} {n : ℕ} (hZ : Rect Z n) (hne : Z ≠ [])
    (el : List (BoundLetter R)) (hl : ∀ l ∈ el, (l Z).length = n) :
    lettersOp s.ident s.op Z el = tab n (s.letters Z el) := by
  unfold lettersOp UserSemiring.letters
  rw [ncols_eq hZ hne, replicate_eq_tab]
  suffices h : ∀ f : ℕ → R, el.foldl (fun C letter => List.zipWith s.op C (letter Z)) (tab n f)
      = tab n (fun t => el.foldl (fun c l => s.op c ((l Z).getD t 0)) (f t)) from h _
  induction el with
  | nil => intro f; simp
  | cons l el ih =>
    intro f
    have hl1 : (l Z) = tab n (fun t => (l Z).getD t 0) := by
      have := tab_of_list (l Z) 0
      rwa [hl l (by simp)] at this
    rw [List.foldl_cons]
    have e : List.zipWith s.op (tab n f) (l Z) = tab n (fun t => s.op (f t) ((l Z).getD t 0)) := by
      conv_lhs => rw [hl1]
      rw [zipWith_tab]
    rw [e, ih fun l hl' => hl l (by simp [hl'])]
    rfl

theorem letters_means {s : UserSemiring R} {S : Type} [CommSemiring S] {v : R → S} (h : s.Means v) (Z : List (List R))
    (el : List (BoundLetter R)) (t : ℕ) : v (s.letters Z el t) = (el.map fun l => v ((l Z).getD t 0)).prod := by
  unfold UserSemiring.letters
  suffices hh : ∀ c, v (el.foldl (fun c l => s.op c ((l Z).getD t 0)) c) = v c * (el.map fun l => v ((l Z).getD t 0)).prod by
    rw [hh, h.one, one_mul]
  induction el with
  | nil => intro c; simp
  | cons l el ih => intro c; rw [List.foldl_cons, ih, h.mul]; simp [mul_assoc]

/-- One round of the loop, as in the code. -/
def UserSemiring.round (s : UserSemiring R) (Z : List (List R)) (k : ℕ) (el : List (BoundLetter R)) (tmp : List R) : List R :=
  let C := lettersOp s.ident s.op Z el
  let tmp := if k > 0 then roll1z tmp else tmp
  let tmp := setFrom tmp k (List.zipWith s.op (tmp.drop k) (C.drop k))
  setFrom tmp k (s.cum (tmp.drop k))

/-- `tmp` before round `k`. -/
def UserSemiring.tmp (s : UserSemiring R) (Z : List (List R)) (word : List (List (BoundLetter R))) : ℕ → List R
  | 0 => List.replicate (ncols Z) s.ident
  | k + 1 => s.round Z k (word.getD k []) (s.tmp Z word k)

theorem generic_eq_tmp (s : UserSemiring R) (Z : List (List R)) (word : List (List (BoundLetter R))) {ext : ℕ}
    (he : ext ≤ word.length) :
    genericSingle s.ident s.op s.cum Z word ext = tab ext fun r => s.tmp Z word (word.length - ext + r + 1) := by
  unfold genericSingle
  refine kernel_loop word ext he (s.tmp Z word) (fun k => s.tmp Z word (k + 1)) (zeros (ncols Z)) _ _ (fun _ => rfl) ?_
  intro k hk res _
  refine ⟨_, _, rfl, fun _ => ?_, fun _ => ?_⟩ <;>
  · simp [UserSemiring.tmp, UserSemiring.round, List.getD_eq_getElem?_getD, hk]

theorem incTuples_empty {k m : ℕ} (h : m < k) : incTuples k m = ∅ := by
  rw [Finset.eq_empty_iff_forall_notMem]
  intro i hi
  rw [mem_incTuples] at hi
  have := Fintype.card_le_of_injective (fun j : Fin k => (⟨i j, hi.1 j⟩ : Fin m)) (by
    intro a b hab
    exact hi.2.injective (by simpa using hab))
  simp at this
  omega

/-- The sums after `k` rounds: over the tuples below `m`. -/
def userSum {S : Type} [CommSemiring S] (c : ℕ → ℕ → S) (k m : ℕ) : S :=
  ∑ i ∈ incTuples k m, ∏ j : Fin k, c j (i j)

theorem userSum_succ {S : Type} [CommSemiring S] (c : ℕ → ℕ → S) (k m : ℕ) :
    userSum c (k + 1) m = ∑ s ∈ Finset.range m, userSum c k s * c k s := by
  unfold userSum
  rw [sum_incTuples_succ]
  apply Finset.sum_congr rfl
  intro s _
  rw [Finset.sum_mul]
  apply Finset.sum_congr rfl
  intro i _
  rw [Fin.prod_univ_castSucc]
  simp

theorem round_tab {s : UserSemiring R} {S : Type} [CommSemiring S] {v : R → S} (h : s.Means v) {Z : List (List R)} {n : ℕ}
    (hZ : Rect Z n) (hne : Z ≠ []) (k : ℕ) (el : List (BoundLetter R)) (hl : ∀ l ∈ el, (l Z).length = n) (tmp : List R)
    (f : ℕ → R) (hf : (if k > 0 then roll1z tmp else tmp) = tab n f) :
    ∃ g : ℕ → R, s.round Z k el tmp = tab n g ∧ (∀ t < k, g t = f t) ∧
      ∀ t, k ≤ t → t < n → v (g t) = ∑ u ∈ Finset.range (t - k + 1), v (f (k + u)) * v (s.letters Z el (k + u)) := by
  have hc : ∀ x : List R, s.cum x = tab x.length fun t => (s.cum x).getD t 0 := by
    intro x
    have := tab_of_list (s.cum x) 0
    rwa [h.cum_length] at this
  unfold UserSemiring.round
  simp only
  rw [hf, lettersOp_user s hZ hne el hl, drop_tab, drop_tab, zipWith_tab, setFrom_tab, drop_tab, hc, tab_length, setFrom_tab]
  refine ⟨_, rfl, fun t ht => by simp [ht], fun t ht htn => ?_⟩
  simp only [if_neg (show ¬ t < k by omega)]
  rw [h.cum _ _ (by rw [tab_length]; omega)]
  apply Finset.sum_congr rfl
  intro u hu
  rw [Finset.mem_range] at hu
  rw [getD_tab (by omega), if_neg (by omega), h.mul, show k + u - k = u by omega]

theorem tmp_spec {s : UserSemiring R} {S : Type} [CommSemiring S] {v : R → S} (h : s.Means v) {Z : List (List R)} {n : ℕ}
    (hZ : Rect Z n) (hne : Z ≠ []) (word : List (List (BoundLetter R))) (hfit : LettersFit Z n word) (k : ℕ)
    (hk : k < word.length) :
    ∃ f : ℕ → R, s.tmp Z word (k + 1) = tab n f ∧ (∀ t < k, f t = 0) ∧
      ∀ t, k ≤ t → t < n → v (f t) = userSum (fun j t => v (s.letters Z (word.getD j []) t)) (k + 1) (t + 1) := by
  have step : ∀ k, k < word.length → ∀ f : ℕ → R, (if k > 0 then roll1z (s.tmp Z word k) else s.tmp Z word k) = tab n f →
      (∀ t < k, f t = 0) → (∀ t, k ≤ t → t < n → v (f t) = userSum (fun j t => v (s.letters Z (word.getD j []) t)) k t) →
      ∃ f : ℕ → R, s.tmp Z word (k + 1) = tab n f ∧ (∀ t < k, f t = 0) ∧
        ∀ t, k ≤ t → t < n → v (f t) = userSum (fun j t => v (s.letters Z (word.getD j []) t)) (k + 1) (t + 1) := by
    intro k hk f hf h0 hs
    have hl : ∀ l ∈ word.getD k [], (l Z).length = n := by
      rw [show word.getD k [] = word[k] by simp [List.getD_eq_getElem?_getD, hk]]
      exact hfit _ (List.getElem_mem hk)
    obtain ⟨g, hg, hg0, hgs⟩ := round_tab h hZ hne k (word.getD k []) hl _ f hf
    refine ⟨g, hg, fun t ht => by rw [hg0 t ht, h0 t ht], fun t hkt htn => ?_⟩
    rw [hgs t hkt htn, userSum_succ]
    have hsplit : Finset.range (t + 1) = Finset.range (k + (t - k + 1)) := by congr 1; omega
    conv_rhs => rw [hsplit, Finset.sum_range_add]
    conv_rhs => rw [Finset.sum_eq_zero (s := Finset.range k) (by
      intro u hu
      rw [userSum, incTuples_empty (by simpa using hu), Finset.sum_empty, zero_mul])]
    rw [zero_add]
    apply Finset.sum_congr rfl
    intro u hu
    rw [Finset.mem_range] at hu
    rw [hs (k + u) (by omega) (by omega)]
  induction k with
  | zero =>
    refine step 0 hk (fun _ => s.ident) ?_ (by simp) ?_
    · simp [UserSemiring.tmp, ncols_eq hZ hne, replicate_eq_tab]
    · intro t _ _
      rw [h.one, userSum]
      have : incTuples 0 t = {Fin.elim0} := by
        ext i; simp [mem_incTuples, Subsingleton.elim i Fin.elim0, StrictMono]
      rw [this]; simp
  | succ k ih =>
    obtain ⟨f, hf, hf0, hfs⟩ := ih (by omega)
    refine step (k + 1) hk (fun t => if t = 0 then 0 else f (t - 1)) ?_ ?_ ?_
    · rw [if_pos (by omega), hf, roll1z_tab]
    · intro t ht
      by_cases h0 : t = 0
      · simp [h0]
      · simp only [h0, if_false]; exact hf0 _ (by omega)
    · intro t hkt htn
      simp only [if_neg (show ¬ t = 0 by omega)]
      rw [hfs (t - 1) (by omega) (by omega), show t - 1 + 1 = t by omega]

/-- The value the theorem is about: series `i`, saved row `r`, time `t`. -/
def valueAt (Y : Data R) (i r t : ℕ) : R := ((Y.getD i []).getD r []).getD t 0

/-- **C102**, words with arbitrary letters: if the three methods of a user-defined semiring mean the operations of a commutative
semiring `S`, the last `ext` iterated sums are returned for every series, and the one for the first `q` extended letters is, from
time `q - 1` on, the sum in `S` over all `i_1 < ... < i_q <= t` of the products of the values of the letters.  Before (no such
tuple exists) it is the number 0. -/
theorem C102_user_semiring (reg : Registry R) {s : UserSemiring R} {S : Type} [CommSemiring S] {v : R → S} (h : s.Means v)
    {X : Data R} {D n : ℕ} (hX : IsData X D n) (hD : 0 < D) (w : GWord R) (hl : LettersOK X n [w]) {ext : ℕ}
    (he : ext ≤ w.els.length) :
    ∃ Y, s.iteratedSums reg X (.general w) ext = .ok Y ∧ Y.length = X.length ∧ (∀ y ∈ Y, y.length = ext ∧ Rect y n) ∧
      ∀ i (hi : i < X.length), ∀ r < ext, ∀ t < n, ∀ q, q = w.els.length - ext + r + 1 →
        (t + 1 < q → valueAt Y i r t = 0) ∧
        (q ≤ t + 1 → v (valueAt Y i r t) = ∑ τ ∈ incTuples q (t + 1),
          ∏ j : Fin q, (((w.els.map ELetter.bound).getD j []).map fun l => v ((l X[i]).getD (τ j) 0)).prod) := by
  have fits : ∀ Z ∈ X, LettersFit Z n (w.els.map ELetter.bound) := by
    intro Z hZ el hel l hl'
    obtain ⟨e, he, rfl⟩ := List.mem_map.1 hel
    exact hl w (by simp) e he l hl' Z hZ
  have hne : ∀ Z ∈ X, Z ≠ [] := by
    intro Z hZ h0; have := (hX Z hZ).1; rw [h0] at this; simp at this; omega
  refine ⟨_, rfl, by simp, ?_, ?_⟩
  · intro y hy
    obtain ⟨Z, hZ, rfl⟩ := List.mem_map.1 hy
    rw [generic_eq_tmp s Z _ (by simpa using he)]
    refine ⟨by simp, ?_⟩
    intro x hx
    obtain ⟨r, hr, rfl⟩ := mem_tab.1 hx
    obtain ⟨f, hf, _⟩ := tmp_spec h (hX Z hZ).2 (hne Z hZ) _ (fits Z hZ) ((w.els.map ELetter.bound).length - ext + r)
      (by simp at he ⊢; omega)
    rw [hf]; simp
  · rintro i hi r hr t ht q rfl
    have hZ := List.getElem_mem hi
    obtain ⟨f, hf, h0, hs⟩ := tmp_spec h (hX _ hZ).2 (hne _ hZ) _ (fits _ hZ) (w.els.length - ext + r)
      (by simp; omega)
    have hv : valueAt (X.map fun Z => genericSingle s.ident s.op s.cum Z (w.els.map ELetter.bound) ext) i r t = f t := by
      unfold valueAt
      rw [show (X.map fun Z => genericSingle s.ident s.op s.cum Z (w.els.map ELetter.bound) ext).getD i []
        = genericSingle s.ident s.op s.cum X[i] (w.els.map ELetter.bound) ext by
          simp [List.getD_eq_getElem?_getD, hi]]
      rw [generic_eq_tmp s _ _ (by simpa using he), getD_tab hr, List.length_map, hf, getD_tab ht]
    rw [hv]
    refine ⟨fun hq => h0 t (by omega), fun hq => ?_⟩
    rw [hs t (by omega) ht, userSum]
    apply Finset.sum_congr rfl
    intro τ _
    apply Finset.prod_congr rfl
    intro j _
    rw [letters_means h]

theorem buildEl_dim (reg : Registry R) (hreg : reg.get "DIM".toList = .ok dimLetter) (ls : List (PStr × ℤ))
    (hls : ∀ p ∈ ls, p.1 = "DIM".toList) :
    ∃ el, buildEl reg ls = .ok el ∧ el.bound = ls.map fun p => dimLetter p.2 := by
  suffices h : ∀ e : ELetter R, e.letters.length = e.dims.length →
      ∃ el, ls.foldlM (fun el (p : PStr × ℤ) => el.append reg p.1 p.2) e = .ok el ∧ el.bound = e.bound ++ ls.map fun p => dimLetter p.2 by
    obtain ⟨el, h1, h2⟩ := h ELetter.empty rfl
    exact ⟨el, h1, by rw [h2]; simp [ELetter.bound, ELetter.empty]⟩
  induction ls with
  | nil => intro e _; exact ⟨e, rfl, by simp⟩
  | cons p ls ih =>
    intro e he
    rw [List.foldlM_cons]
    have : e.append reg p.1 p.2 = .ok ⟨e.letters ++ [dimLetter], e.dims ++ [p.2], e.repr ++ p.1 ++ '(' :: (showInt (p.2 + 1) ++ [')'])⟩ := by
      unfold ELetter.append
      rw [hls p (by simp), hreg]; rfl
    rw [this, ok_bind]
    obtain ⟨el, h1, h2⟩ := ih (fun q hq => hls q (by simp [hq])) ⟨e.letters ++ [dimLetter], e.dims ++ [p.2], e.repr ++ p.1 ++ '(' :: (showInt (p.2 + 1) ++ [')'])⟩ (by simp [he])
    refine ⟨el, h1, ?_⟩
    rw [h2]
    simp [ELetter.bound, List.zipWith_append he]

theorem genNames_dim {g : Gen} (hg : ∀ x ∈ g, x = "DIM".toList) (k : ℕ) : ∀ x ∈ genNames g k, x = "DIM".toList := by
  intro x hx
  unfold genNames at hx
  rcases List.mem_append.1 hx with h | h
  · exact hg x (List.mem_of_mem_take h)
  · exact (List.mem_replicate.1 h).2

theorem replace_dim (reg : Registry R) (hreg : reg.get "DIM".toList = .ok dimLetter) (els : List (List ℤ)) :
    ∀ g : Gen, (∀ x ∈ g, x = "DIM".toList) → ∃ new, (replDesc els g).mapM (buildEl reg) = .ok new ∧
      new.map ELetter.bound = els.map fun el => (elDims el).map fun d : ℕ => dimLetter (d : ℤ) := by
  induction els with
  | nil => intro g _; exact ⟨[], rfl, rfl⟩
  | cons e els ih =>
    intro g hg
    obtain ⟨new, h1, h2⟩ := ih (g.drop (elDims e).length) fun x hx => hg x (List.mem_of_mem_drop hx)
    obtain ⟨el, h3, h4⟩ := buildEl_dim reg hreg
      (List.zip (genNames g (elDims e).length) ((elDims e).map fun d : ℕ => (d : ℤ))) (by
        intro p hp
        exact genNames_dim hg _ _ (List.of_mem_zip (show (p.1, p.2) ∈ _ from hp)).1)
    refine ⟨el :: new, ?_, ?_⟩
    · rw [replDesc, List.mapM_cons, h3, ok_bind, h1, ok_bind]; rfl
    · rw [List.map_cons, h4, h2, List.map_cons]
      congr 1
      rw [show (fun p : PStr × ℤ => (dimLetter p.2 : BoundLetter R)) = dimLetter ∘ Prod.snd from rfl, ← List.map_map,
        List.map_snd_zip (by simp [genNames]; omega), List.map_map]
      rfl

theorem prod_replicate_dims {S : Type} [CommSemiring S] (F : ℕ → S) (el : List ℤ) :
    ((elDims el).map F).prod = ∏ d ∈ Finset.range el.length, F d ^ (el.getD d 0).toNat := by
  unfold elDims
  rw [List.map_flatMap, List.flatMap_def, List.prod_flatten, List.map_map]
  rw [← List.prod_toFinset _ List.nodup_range]
  have : (List.range el.length).toFinset = Finset.range el.length := by ext; simp
  rw [this]
  simp

/-- **C102**, simple words: a user-defined semiring gives for `SimpleWord` the sums in `S` of the products of powers of the
values of the dimensions (the letters of the word are replaced by `DIM` letters).  Negative exponents are dropped. -/
theorem C102_simple_word (reg : Registry R) (hreg : reg.get "DIM".toList = .ok dimLetter) {s : UserSemiring R} {S : Type}
    [CommSemiring S] {v : R → S} (h : s.Means v) {X : Data R} {D n : ℕ} (hX : IsData X D n) (hD : 0 < D) (w : SWord R)
    (hw : ∀ el ∈ w.els, el.length ≤ D) {ext : ℕ} (he : ext ≤ w.els.length) :
    ∃ Y, s.iteratedSums reg X (.simple w) ext = .ok Y ∧ Y.length = X.length ∧ (∀ y ∈ Y, y.length = ext ∧ Rect y n) ∧
      ∀ i (hi : i < X.length), ∀ r < ext, ∀ t < n, ∀ q, q = w.els.length - ext + r + 1 →
        (t + 1 < q → valueAt Y i r t = 0) ∧
        (q ≤ t + 1 → v (valueAt Y i r t) = ∑ τ ∈ incTuples q (t + 1),
          ∏ j : Fin q, ∏ d ∈ Finset.range (w.els.getD j []).length, v (entry X[i] d (τ j)) ^ ((w.els.getD j []).getD d 0).toNat) := by
  obtain ⟨new, h1, h2⟩ := replace_dim reg hreg w.els ["DIM".toList] (by simp)
  have hlen : new.length = w.els.length := by simpa using congrArg List.length h2
  have hrep : ∃ g, replaceLetters reg w ["DIM".toList] = .ok (({ els := new } : GWord R), g) := by
    unfold replaceLetters
    rw [replWord_eq, h1]
    exact ⟨_, rfl⟩
  obtain ⟨g, hg⟩ := hrep
  have hlit : ∀ Z ∈ X, ∀ d : ℕ, d < D → (dimLetter (d : ℤ) Z : List R) = Z.getD d [] := by
    intro Z hZ d hd
    simp [dimLetter, row]
  have hdims : ∀ el : List ℤ, ∀ d ∈ elDims el, d < el.length := by
    intro el d hd
    simp only [elDims, List.mem_flatMap, List.mem_range, List.mem_replicate] at hd
    obtain ⟨e, h1, _, rfl⟩ := hd
    exact h1
  have hok : LettersOK X n [({ els := new } : GWord R)] := by
    intro u hu el hel l hl Z hZ
    simp only [List.mem_singleton] at hu
    subst hu
    have hb : el.bound ∈ new.map ELetter.bound := List.mem_map.2 ⟨el, hel, rfl⟩
    rw [h2] at hb
    obtain ⟨e, hew, heq⟩ := List.mem_map.1 hb
    rw [← heq] at hl
    obtain ⟨d, hd, rfl⟩ := List.mem_map.1 hl
    have hdD : d < D := lt_of_lt_of_le (hdims e d hd) (hw e hew)
    rw [hlit Z hZ d hdD]
    have hdZ : d < Z.length := by rw [(hX Z hZ).1]; exact hdD
    rw [List.getD_eq_getElem?_getD, List.getElem?_eq_getElem hdZ, Option.getD_some]
    exact (hX Z hZ).2 _ (List.getElem_mem hdZ)
  obtain ⟨Y, hY, hl, hr, hv⟩ := C102_user_semiring reg h hX hD { els := new } hok (ext := ext) (by simpa [hlen] using he)
  refine ⟨Y, ?_, hl, hr, ?_⟩
  · rw [← hY]
    unfold UserSemiring.iteratedSums
    simp only [hg]; rfl
  · intro i hi r hr' t ht q hq
    obtain ⟨ha, hb⟩ := hv i hi r hr' t ht q (by simpa [hlen] using hq)
    refine ⟨ha, fun hqt => ?_⟩
    rw [hb hqt]
    apply Finset.sum_congr rfl
    intro τ _
    apply Finset.prod_congr rfl
    intro j _
    rw [h2]
    have hj : (j : ℕ) < w.els.length := by have := j.2; omega
    have hgj : (w.els.map fun el => (elDims el).map fun d : ℕ => (dimLetter (d : ℤ) : BoundLetter R)).getD j []
        = (elDims (w.els.getD j [])).map fun d : ℕ => dimLetter (d : ℤ) := by
      simp [List.getD_eq_getElem?_getD, hj]
    rw [hgj, List.map_map, ← prod_replicate_dims]
    rfl

/-! Instances: the Reals themselves, and the min-plus semiring. -/

/-- The Reals semiring as a user would write it. -/
def userReals : UserSemiring R := ⟨1, (· * ·), cumsum⟩

theorem userReals_means : (userReals : UserSemiring R).Means (id : R → R) where
  one := rfl
  mul _ _ := rfl
  cum_length x := by
    have := tab_of_list x (0 : R)
    show (cumsum x).length = x.length
    conv_lhs => rw [this]
    rw [cumsum_tab, tab_length]
  cum x t ht := by
    have := tab_of_list x (0 : R)
    show (cumsum x).getD t 0 = _
    conv_lhs => rw [this]
    rw [cumsum_tab, getD_tab ht]
    simp

/-- `np.minimum.accumulate`. -/
def minAcc (x : List R) : List R := (maxAcc (x.map (- ·))).map (- ·)

/-- The min-plus semiring as a user would write it. -/
def userMinPlus : UserSemiring R := ⟨0, (· + ·), minAcc⟩

theorem minAcc_tab (n : ℕ) (f : ℕ → R) : minAcc (tab n f) = tab n fun t => - runMax (fun u => - f u) t := by
  unfold minAcc
  rw [map_tab, maxAcc_tab, map_tab]

theorem userMinPlus_means : (userMinPlus : UserSemiring R).Means (fun a : R => Tropical.trop (a : WithTop R)) where
  one := by simp [userMinPlus]
  mul a b := by simp [userMinPlus, Tropical.trop_add]
  cum_length x := by
    have := tab_of_list x (0 : R)
    show (minAcc x).length = x.length
    conv_lhs => rw [this]
    rw [minAcc_tab, tab_length]
  cum x t ht := by
    have hx := tab_of_list x (0 : R)
    show Tropical.trop (((minAcc x).getD t 0 : R) : WithTop R) = _
    have : (minAcc x).getD t 0 = - runMax (fun u => - x.getD u 0) t := by
      conv_lhs => rw [hx]
      rw [minAcc_tab, getD_tab ht]
    rw [this]
    clear this ht
    induction t with
    | zero => simp [runMax]
    | succ t ih =>
      rw [Finset.sum_range_succ, ← ih, runMax, ← Tropical.trop_min, ← WithTop.coe_min, neg_sup, neg_neg]

/-- The hypotheses of C102 can be met, and a check of the result: the min-plus iterated sums of `[1][1]` on `[3, 1, 2]` are
`0` (no tuple yet; the semiring's zero would be infinite), `3 + 1` and `min(3 + 1, 3 + 2, 1 + 2)`. -/
example : (userMinPlus.iteratedSums [("DIM".toList, dimLetter)] [[[3, 1, 2]]]
    (.simple { els := [[1], [1]], maxDim := 1, name := "[1][1]".toList }) 1 : Except Err (Data ℚ)).toOption
      = some [[[0, 4, 3]]] := by decide +kernel
example : IsData [[[(3 : ℚ), 1, 2]]] 1 3 := by simp [IsData, Rect]
example : Registry.get [("DIM".toList, (dimLetter : ℤ → BoundLetter ℚ))] "DIM".toList = .ok dimLetter := rfl

end semirings

/-! ### C101: user-defined letters -/

section letters
variable {R : Type}

/-- **C101.** `@letter` registers the function under its own name and `@letter(name=n)` under `n`; both only if the name is
free (otherwise they raise and, as `Except` shows, leave the registry as it was).  Afterwards the name stands for the function
with the dimension as second argument, no other name changes its meaning, and exactly one name is new. -/
theorem C101_letter (reg : Registry R) (f : UserLetter R) (n : PStr) :
    (letterCall reg [.fn f] none = match letterDecorate reg f.name f with
      | .ok (reg', g) => .ok (reg', .wrapper g)
      | .error e => .error e)
    ∧ letterCall reg [] (some n) = .ok (reg, .decorator n)
    ∧ (n ∈ reg.available → letterDecorate reg n f = .error .runtimeError)
    ∧ (n ∉ reg.available → ∃ reg', letterDecorate reg n f = .ok (reg', f.wrap)
        ∧ reg'.available = reg.available ++ [n]
        ∧ reg'.get n = .ok (fun i X => f.fn X i)
        ∧ ∀ m, m ≠ n → reg'.get m = reg.get m) := by
  refine ⟨?_, rfl, ?_, ?_⟩
  · simp only [letterCall, letterDecorate, List.length_singleton, lt_self_iff_false, if_false]
    cases reg.log f.name f.wrap <;> rfl
  · intro hn
    unfold letterDecorate
    rw [(C30_registry reg).2.1 n f.wrap hn]; rfl
  · intro hn
    obtain ⟨reg', h1, h2, h3, h4⟩ := (C30_registry reg).1 n f.wrap hn
    refine ⟨reg', ?_, h2, h3, h4⟩
    unfold letterDecorate
    rw [h1]; rfl

/-- **C101**, use in words: after registration the string `[n(d)]` denotes the word with the single letter `X ↦ f(X, d-1)`,
if the name contains no brackets. -/
theorem C101_letter_in_word (reg reg' : Registry R) (f : UserLetter R) (n : PStr) (hn : GoodName n)
    (h : letterDecorate reg n f = .ok (reg', f.wrap)) (d : ℤ) :
    ∃ w, GWord.parse reg' ('[' :: (letterStr (n, d) ++ [']'])) = .ok w
      ∧ w.els.map ELetter.bound = [[fun X => f.fn X d]] := by
  have hfree : n ∉ reg.available := by
    intro hn'
    rw [(C101_letter reg f n).2.2.1 hn'] at h
    cases h
  obtain ⟨r, h1, _, h3, _⟩ := (C101_letter reg f n).2.2.2 hfree
  rw [h] at h1
  cases h1
  have hb : buildWord reg' [[(n, d)]] = .ok { els := [⟨[f.wrap], [d], letterStr (n, d)⟩] } := by
    simp only [buildWord, List.mapM_cons, List.mapM_nil, buildEl, List.foldlM_cons, List.foldlM_nil, ELetter.append, h3]
    rfl
  have hp := (C29_roundtrip reg' reg' (fun _ _ h => h) [[(n, d)]] (by simpa using hn) _ hb).1
  refine ⟨{ els := [⟨[f.wrap], [d], letterStr (n, d)⟩] }, ?_, rfl⟩
  rw [← hp]
  simp [GWord.str, ELetter.str]

/-- **C101**, misuse: `letter(f, name=n)` registers nothing (it returns a decorator and drops `f`), two arguments raise a
`RuntimeError`, and neither a function nor a name a `ValueError`. -/
theorem C101_misuse (reg : Registry R) (a b : LetterArg R) (n : PStr) (name : Option PStr) :
    letterCall reg [a] (some n) = .ok (reg, .decorator n)
    ∧ letterCall reg [a, b] name = .error .runtimeError
    ∧ letterCall reg [] none = .error .valueError ∧ letterCall reg [.other] none = .error .valueError :=
  ⟨rfl, rfl, rfl, rfl⟩

/-- A name with brackets can be registered but not written in a word. -/
example : ∃ reg' : Registry ℚ, letterDecorate [] "a(b".toList ⟨"f".toList, fun X _ => X.getD 0 []⟩
      = .ok (reg', fun _ X => X.getD 0 [])
    ∧ GWord.parse reg' "[a(b(1)]".toList = .error .valueError := ⟨_, rfl, rfl⟩

/-- A concrete registration and word. -/
example : ∃ reg' : Registry ℚ, letterDecorate [("DIM".toList, dimLetter)] "ReLU".toList ⟨"myletter".toList, fun X i => (dimLetter i X).map (max 0)⟩
      = .ok (reg', fun i X => (dimLetter i X).map (max 0))
    ∧ ((GWord.parse reg' "[ReLU(2)DIM(1)]".toList).map fun w => (w.els.map ELetter.bound).map (·.map fun l => l [[1, 2], [-3, 4]])).toOption
      = some [[[0, 4], [1, 2]]] := ⟨_, rfl, by decide +kernel⟩
example : GoodName "ReLU".toList := by unfold GoodName; decide

/-- `len(el)` and `el[i]` agree with iterating over an extended letter. -/
theorem eletter_items (el : ELetter R) (h : el.letters.length = el.dims.length) :
    el.len = el.bound.length ∧ ∀ i (hi : i < el.bound.length), el.getItem i = .ok el.bound[i] := by
  have hb : el.bound.length = el.letters.length := by simp [ELetter.bound, h]
  refine ⟨hb.symm, fun i hi => ?_⟩
  have h1 : i < el.letters.length := by omega
  have h2 : i < el.dims.length := by omega
  simp [ELetter.getItem, h1, h2, ELetter.bound]

end letters
end Fruits
