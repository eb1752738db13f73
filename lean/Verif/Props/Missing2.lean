import Verif.Props.Missing1

/-! # C169: missing values in iterated sums (semirings `Arctic` and `Bayesian`) -/

namespace Fruits
set_option linter.unusedSectionVars false

variable {R : Type} [Field R] [LinearOrder R] [IsStrictOrderedRing R]

/-! ## Specification -/

/-- A value of *any* dimension up to the last one that the extended letter `el` can name is missing at time `t`; `el` has one exponent for every
dimension up to the highest one of the word. -/
def WidthMissing (Z : List (List (Mv R))) (el : List ℤ) (t : ℕ) : Prop := ∃ d < el.length, IsMissing Z d t

/-- The candidates of the max-plus sum that avoid the missing values `miss j s` of letter `j` at time `s`. -/
def arcticKnown (miss : ℕ → ℕ → Prop) (total : Bool) (al g : ℕ → R) (c : ℕ → ℕ → R) (p t : ℕ) : Set R :=
  {v | ∃ i : Fin p → ℕ, WeakTuple t i ∧ (∀ j : Fin p, ¬ miss j (i j)) ∧ v = (∑ j : Fin p, c j (i j)) + penalty total al g i t}

/-- The candidates of the max-times sum that avoid the missing values. -/
def bayesianKnown (miss : ℕ → ℕ → Prop) (expf : R → R) (total : Bool) (al g : ℕ → R) (c : ℕ → ℕ → R) (p t : ℕ) : Set R :=
  {v | ∃ i : Fin p → ℕ, WeakTuple t i ∧ (∀ j : Fin p, ¬ miss j (i j)) ∧ v = (∏ j : Fin p, c j (i j)) * expf (penalty total al g i t)}

/-! ## Proof -/

open Mv

theorem Mv.max_nan (b : Mv R) : max (nan : Mv R) b = nan := rfl
theorem Mv.max_num_nan (x : R) : max (num x) nan = num x := rfl
theorem Mv.max_num (x y : R) : max (num x) (num y) = num (max x y) := rfl

theorem runMax_mv_nan (f : ℕ → Mv R) (h : f 0 = nan) (t : ℕ) : runMax f t = nan := by
  induction t with
  | zero => exact h
  | succ t ih => rw [runMax, ih]; rfl

theorem runMax_mv_num (f : ℕ → Mv R) (h : f 0 ≠ nan) (t : ℕ) : ∃ y, runMax f t = num y ∧ IsGreatest {v | ∃ s ≤ t, f s = num v} y := by
  induction t with
  | zero =>
    cases h0 : f 0 with
    | nan => exact absurd h0 h
    | num y =>
      refine ⟨y, h0, ⟨0, le_rfl, h0⟩, ?_⟩
      rintro v ⟨s, hs, hv⟩
      have : s = 0 := by omega
      subst this
      rw [h0] at hv
      cases hv; exact le_rfl
  | succ t ih =>
    obtain ⟨y, hy, ⟨s, hs, hsy⟩, hub⟩ := ih
    rw [runMax, hy]
    cases h1 : f (t + 1) with
    | nan =>
      refine ⟨y, rfl, ⟨s, by omega, hsy⟩, ?_⟩
      rintro v ⟨u, hu, hv⟩
      by_cases e : u = t + 1
      · subst e; rw [h1] at hv; cases hv
      · exact hub ⟨u, by omega, hv⟩
    | num z =>
      refine ⟨max y z, rfl, ?_, ?_⟩
      · rcases le_total y z with h | h
        · rw [max_eq_right h]; exact ⟨t + 1, le_rfl, h1⟩
        · rw [max_eq_left h]; exact ⟨s, by omega, hsy⟩
      · rintro v ⟨u, hu, hv⟩
        by_cases e : u = t + 1
        · subst e; rw [h1] at hv; cases hv; exact le_max_right _ _
        · exact le_trans (hub ⟨u, by omega, hv⟩) (le_max_left _ _)

section chain
variable (op : R → R → R) (z : R) (bad : ℕ → ℕ → Prop) (v : ℕ → ℕ → R)

theorem chainMax_mv_nan (q : ℕ) (h : ∃ j < q, bad j 0) (t : ℕ) :
    chainMax (lift₂ op) (num z) (fun j s => orNan (bad j s) (v j s)) q t = nan := by
  induction q generalizing t with
  | zero => obtain ⟨j, hj, _⟩ := h; omega
  | succ q ih =>
    rw [chainMax]
    refine runMax_mv_nan _ ?_ t
    obtain ⟨j, hj, hb⟩ := h
    by_cases e : j = q
    · subst e
      rw [mk_true hb]
      cases chainMax (lift₂ op) (num z) (fun j s => orNan (bad j s) (v j s)) j 0 <;> rfl
    · rw [ih ⟨j, by omega, hb⟩ 0]; rfl

theorem chainMax_mv_num (q : ℕ) (h : ∀ j < q, ¬ bad j 0) (t : ℕ) :
    ∃ y, chainMax (lift₂ op) (num z) (fun j s => orNan (bad j s) (v j s)) q t = num y := by
  induction q generalizing t with
  | zero => exact ⟨z, rfl⟩
  | succ q ih =>
    rw [chainMax]
    obtain ⟨x, hx⟩ := ih (fun j hj => h j (by omega)) 0
    obtain ⟨y, hy, _⟩ := runMax_mv_num (fun s => lift₂ op (chainMax (lift₂ op) (num z) (fun j s => orNan (bad j s) (v j s)) q s)
      (orNan (bad q s) (v q s))) (by
        show lift₂ op (chainMax (lift₂ op) (num z) (fun j s => orNan (bad j s) (v j s)) q 0) (orNan (bad q 0) (v q 0)) ≠ nan
        rw [hx, mk_false (h q (by omega))]; simp [lift₂]) t
    exact ⟨y, hy⟩

theorem chainMax_mv_greatest (q n : ℕ) (h : ∀ j < q, ¬ bad j 0) (hmono : ∀ j < q, ∀ s < n, ¬ bad j s → Monotone fun x => op x (v j s)) (t : ℕ)
    (ht : t < n) {y : R} (hy : chainMax (lift₂ op) (num z) (fun j s => orNan (bad j s) (v j s)) q t = num y) :
    IsGreatest {w | ∃ i : Fin q → ℕ, WeakTuple t i ∧ (∀ j : Fin q, ¬ bad j (i j)) ∧ w = chainVal op z v q i} y := by
  induction q generalizing t y with
  | zero =>
    cases hy
    refine ⟨⟨Fin.elim0, ⟨fun a => a.elim0, fun j => j.elim0⟩, fun j => j.elim0, rfl⟩, ?_⟩
    rintro v ⟨i, _, _, rfl⟩
    exact le_rfl
  | succ q ih =>
    have h' : ∀ j < q, ¬ bad j 0 := fun j hj => h j (by omega)
    have ih' := ih h' (fun j hj => hmono j (by omega))
    have hall := chainMax_mv_num op z bad v q h'
    rw [chainMax] at hy
    set f : ℕ → Mv R := fun s => lift₂ op (chainMax (lift₂ op) (num z) (fun j s => orNan (bad j s) (v j s)) q s) (orNan (bad q s) (v q s)) with hf
    have hf0 : f 0 ≠ nan := by
      obtain ⟨x, hx⟩ := hall 0
      rw [hf]
      simp only
      rw [hx, mk_false (h q (by omega))]; simp [lift₂]
    obtain ⟨y', hy', ⟨s, hs, hsy⟩, hub⟩ := runMax_mv_num f hf0 t
    rw [hy'] at hy
    cases hy
    constructor
    · obtain ⟨x, hx⟩ := hall s
      by_cases hb : bad q s
      · rw [hf] at hsy
        simp only at hsy
        rw [mk_true hb, hx] at hsy
        cases hsy
      · obtain ⟨⟨i, hi, hib, hiv⟩, _⟩ := ih' s (by omega) hx
        rw [hf] at hsy
        simp only at hsy
        rw [mk_false hb, hx] at hsy
        simp only [lift₂] at hsy
        refine ⟨Fin.snoc (α := fun _ => ℕ) i s, hi.snoc hs, ?_, ?_⟩
        · intro j
          induction j using Fin.lastCases with
          | last => simpa using hb
          | cast j => simpa using hib j
        · rw [chainVal]
          simp only [Fin.init_snoc, Fin.snoc_last, ← hiv]
          exact (Mv.num.inj hsy).symm
    · rintro w ⟨i, hi, hib, rfl⟩
      have hl : i (Fin.last q) < n := lt_of_le_of_lt (hi.2 _) ht
      have hb : ¬ bad q (i (Fin.last q)) := by simpa using hib (Fin.last q)
      obtain ⟨x, hx⟩ := hall (i (Fin.last q))
      refine le_trans ?_ (hub ⟨i (Fin.last q), hi.2 _, by rw [hf]; simp only; rw [hx, mk_false hb]; rfl⟩)
      rw [chainVal]
      exact hmono q (by omega) _ hl hb ((ih' _ hl hx).2 ⟨Fin.init i, hi.init, fun j => hib j.castSucc, rfl⟩)

end chain

/-! ### the letters -/

theorem Mv.orNan_add (b : Prop) (x y : R) : orNan b x + num y = orNan b (x + y) := by rw [num_eq, add_mk]; exact mk_congr (by simp) rfl
theorem Mv.num_add (b : Prop) (x y : R) : num y + orNan b x = orNan b (y + x) := by rw [num_eq, add_mk]; exact mk_congr (by simp) rfl
theorem Mv.orNan_mul (b : Prop) (x y : R) : orNan b x * num y = orNan b (x * y) := by rw [num_eq, mul_mk]; exact mk_congr (by simp) rfl
theorem Mv.num_mul (b : Prop) (x y : R) : num y * orNan b x = orNan b (y * x) := by rw [num_eq, mul_mk]; exact mk_congr (by simp) rfl

theorem Mv.add_zero' (a : Mv R) : a + orNan False 0 = a := by
  rw [mk_false id]; cases a with
  | nan => rfl
  | num x => exact congrArg num (add_zero x)

theorem Mv.mul_one' (a : Mv R) : a * orNan False 1 = a := by
  rw [mk_false id]; cases a with
  | nan => rfl
  | num x => exact congrArg num (mul_one x)

theorem Mv.lift₂_assoc {op : R → R → R} (h : ∀ x y z, op (op x y) z = op x (op y z)) (a b c : Mv R) :
    lift₂ op (lift₂ op a b) c = lift₂ op a (lift₂ op b c) := by
  cases a <;> cases b <;> cases c <;> simp [lift₂, h]

theorem Mv.add_assoc' (a b c : Mv R) : a + b + c = a + (b + c) := Mv.lift₂_assoc add_assoc a b c
theorem Mv.mul_assoc' (a b c : Mv R) : a * b * c = a * (b * c) := Mv.lift₂_assoc mul_assoc a b c
theorem Mv.sub_num (a : Mv R) (x : R) : a - num x = a + num (-x) := by
  cases a with
  | nan => rfl
  | num y => exact congrArg num (sub_eq_add_neg y x)

theorem lettersAdd_mv {n : ℕ} {Z : List (List (Mv R))} {Y : List (List R)} (hZ : Completes n Z Y) {el : List ℤ} (hel : Fits Z el)
    (f : ℕ → Mv R) : lettersAdd Z el (tab n f) = tab n fun t => f t + orNan (WidthMissing Z el t) (linform Y el t) := by
  have := enumFold_inv (fun dim (e : ℤ) tmp => vadd tmp ((row Z dim).map (fun x => (e : Mv R) * x)))
    (fun k tmp => tmp = tab n (fun t => f t + orNan (∃ d < k, IsMissing Z d t) (∑ d ∈ Finset.range k, (el.getD d 0 : R) * entry Y d t)))
    0 el (tab n f) (tab_congr fun t _ => by
      rw [mk_congr (c := False) (by simp) (show _ = (0 : R) by simp), Mv.add_zero']) (by
      intro j hj s hs
      rw [hs, hZ.row_eq (by unfold Fits at hel; omega), map_tab, vadd_tab, zero_add]
      refine tab_congr fun t _ => ?_
      have hc : ((el[j] : ℤ) : Mv R) = orNan False ((el[j] : ℤ) : R) := num_eq _
      rw [Mv.add_assoc', hc, mul_mk, add_mk]
      congr 1
      refine mk_congr ?_ ?_
      · constructor
        · rintro (⟨d, hd, h⟩ | h | h)
          · exact ⟨d, by omega, h⟩
          · exact h.elim
          · exact ⟨j, by omega, h⟩
        · rintro ⟨d, hd, h⟩
          by_cases e : d = j
          · subst e; exact Or.inr (Or.inr h)
          · exact Or.inl ⟨d, by omega, h⟩
      · rw [Finset.sum_range_succ]
        simp [List.getD, hj])
  unfold lettersAdd
  rw [this, zero_add]
  rfl

theorem lettersMul_mv {n : ℕ} {Z : List (List (Mv R))} {Y : List (List R)} (hZ : Completes n Z Y) {el : List ℤ} (hel : Fits Z el)
    (f : ℕ → Mv R) : lettersMul Z el (tab n f) = tab n fun t => f t * orNan (LetterMissing Z el t) (monomial Y el t) := by
  obtain ⟨F, hF⟩ : ∃ F : ℕ → R, ∀ t, f t = orNan (f t = nan) (F t) := by
    refine ⟨fun t => match f t with | num x => x | nan => 0, fun t => eq_mk _ _ fun y hy => by simp [hy]⟩
  obtain ⟨v, hx, hy⟩ := Sim.lettersMul (x := tab n f) (y := tab n F) (b := fun t => f t = nan) ⟨F, tab_congr fun t _ => hF t, rfl⟩ hZ hel
  rw [lettersMul_tab hZ.rectY (by unfold Fits at hel ⊢; rw [hZ.dims]; exact hel)] at hy
  rw [hx]
  refine tab_congr fun t ht => ?_
  have hv := tab_injective hy t ht
  calc orNan (f t = nan ∨ LetterMissing Z el t) (v t) = orNan (f t = nan) (F t) * orNan (LetterMissing Z el t) (monomial Y el t) := by
        rw [mul_mk, hv]
    _ = f t * orNan (LetterMissing Z el t) (monomial Y el t) := by rw [← hF t]

private theorem nums_getD2 (l : List R) (k : ℕ) : (nums l).getD k 0 = num (l.getD k 0) := by
  by_cases h : k < l.length
  · simp [nums, List.getD, h]
  · simp [nums, List.getD, List.getElem?_eq_none (by omega : l.length ≤ k)]; rfl

private theorem wscale_mv {weights : List R} {n : ℕ} (hw : weights.length = n) (a : R) :
    vscale (nums weights) (num a) = tab n (fun t => num (weights.getD t 0 * a)) := by
  rw [show nums weights = tab n fun t => num (weights.getD t 0) by rw [← hw, nums, ← map_tab, ← tab_of_list], vscale_tab]
  rfl

private theorem expW_mv (expf : R → R) {weights : List R} {n : ℕ} (hw : weights.length = n) (a : R) :
    expW (lift expf) (nums weights) (num a) = tab n (fun t => num (expf (weights.getD t 0 * a))) := by
  rw [show nums weights = tab n fun t => num (weights.getD t 0) by rw [← hw, nums, ← map_tab, ← tab_of_list], expW, map_tab]
  rfl

private theorem expNegW_mv (expf : R → R) {weights : List R} {n : ℕ} (hw : weights.length = n) (a : R) :
    expNegW (lift expf) (nums weights) (num a) = tab n (fun t => num (expf (-weights.getD t 0 * a))) := by
  rw [show nums weights = tab n fun t => num (weights.getD t 0) by rw [← hw, nums, ← map_tab, ← tab_of_list], expNegW, map_tab]
  rfl

private theorem getD_at' {word : List (List ℤ)} {k : ℕ} (hk : k < word.length) : word.getD k [] = word[k] := by simp [List.getD, hk]

/-- The values of the letters, the last one without its closing weight. -/
def lastP (c : ℕ → ℕ → R) (al g : ℕ → R) (q j s : ℕ) : R :=
  if j = q then c j s - (if j = 0 then 0 else g s * al (j - 1)) else aP c al g j s

/-- The values of the letters, the last one without its closing weight. -/
def lastW (expf : R → R) (c : ℕ → ℕ → R) (al g : ℕ → R) (q j s : ℕ) : R :=
  if j = q then c j s * (if j = 0 then 1 else expf (-g s * al (j - 1))) else aW expf c al g j s

private theorem chain_last {S : Type} [Max S] (op : S → S → S) (z : S) (a a' : ℕ → ℕ → S) (q : ℕ) (h : ∀ j < q, ∀ s, a' j s = a j s) (t : ℕ) :
    runMax (fun s => op (chainMax op z a q s) (a' q s)) t = chainMax op z a' (q + 1) t := by
  rw [chainMax]
  refine runMax_congr fun s _ => ?_
  congr 1
  exact chainMax_congr op z fun j hj u _ => (h j hj u).symm

section arctic
variable {n : ℕ} {Z : List (List (Mv R))} {Y : List (List R)} (hZ : Completes n Z Y) (hne : Z ≠ []) {word : List (List ℤ)}
  (hfit : ∀ el ∈ word, Fits Z el) (alpha : List R) {weights : List R} (hw : weights.length = n) {ext : ℕ} (he : ext ≤ word.length)
include hZ hne hfit hw he

theorem arcticSingle_mv : arcticSingle Z word (nums alpha) (nums weights) ext = tab ext fun r => tab n fun t =>
    chainMax (lift₂ (· + ·)) (num 0) (fun j s => orNan (WidthMissing Z (word.getD j []) s)
      (lastP (lins Y word) (alpha.getD · 0) (weights.getD · 0) (word.length - ext + r) j s)) (word.length - ext + r + 1) t := by
  set a : ℕ → ℕ → Mv R := fun j s => orNan (WidthMissing Z (word.getD j []) s) (aP (lins Y word) (alpha.getD · 0) (weights.getD · 0) j s) with ha
  have hlast : ∀ q t, chainMax (lift₂ (· + ·)) (num 0) (fun j s => orNan (WidthMissing Z (word.getD j []) s)
      (lastP (lins Y word) (alpha.getD · 0) (weights.getD · 0) q j s)) (q + 1) t
      = runMax (fun s => chainMax (lift₂ (· + ·)) (num 0) a q s + orNan (WidthMissing Z (word.getD q []) s)
          (lins Y word q s - (if q = 0 then 0 else weights.getD s 0 * alpha.getD (q - 1) 0))) t := by
    intro q t
    rw [← chain_last (lift₂ (· + ·)) (num 0) a _ q (fun j hj s => by simp [ha, lastP, hj.ne]) t]
    refine runMax_congr fun s _ => ?_
    simp only [lastP, if_true]
    rfl
  simp only [hlast]
  unfold arcticSingle
  rw [ncols_eq hZ.rect hne]
  refine kernel_loop word ext he (fun k => tab n (fun t => chainMax (lift₂ (· + ·)) (num 0) a k t))
    (fun k => tab n (runMax fun s => chainMax (lift₂ (· + ·)) (num 0) a k s + orNan (WidthMissing Z (word.getD k []) s) (lins Y word k s -
          (if k = 0 then 0 else weights.getD s 0 * alpha.getD (k - 1) 0))))
    (zeros n) _ _ (by intro _; rw [zeros_eq]; rfl) ?_
  intro k hk res hres
  have hfk := hfit _ (List.getElem_mem hk)
  have key : (let tmp := lettersAdd Z word[k] (tab n (fun t => chainMax (lift₂ (· + ·)) (num 0) a k t))
      if k > 0 then vsub tmp (vscale (nums weights) ((nums alpha).getD (k - 1) 0)) else tmp)
      = tab n (fun s => chainMax (lift₂ (· + ·)) (num 0) a k s + orNan (WidthMissing Z (word.getD k []) s) (lins Y word k s -
          (if k = 0 then 0 else weights.getD s 0 * alpha.getD (k - 1) 0))) := by
    rcases Nat.eq_zero_or_pos k with rfl | h0
    · simp only [gt_iff_lt, lt_irrefl, if_false, if_true]
      rw [lettersAdd_mv hZ hfk]
      refine tab_congr fun t _ => ?_
      rw [sub_zero, lins, getD_at' hk]
    · simp only [gt_iff_lt, h0, if_true, h0.ne', if_false]
      rw [lettersAdd_mv hZ hfk, nums_getD2, wscale_mv hw, vsub_tab]
      refine tab_congr fun t _ => ?_
      rw [Mv.sub_num, Mv.add_assoc', Mv.orNan_add, lins, getD_at' hk]
      congr 1
      exact mk_congr (by simp) (by ring)
  refine ⟨_, _, rfl, ?_, ?_⟩
  · intro h
    simp only at key ⊢
    rw [key, hres, savedRows_getD hk he _ _ h, zeros_eq, maxRowLoop_tab]
  · intro hk'
    simp only at key ⊢
    rw [key, if_pos (by omega), nums_getD2, wscale_mv hw, vadd_tab, maxLoop_tab]
    refine tab_congr fun t _ => ?_
    rw [chainMax]
    congr 1
    funext s
    show _ = chainMax (lift₂ (· + ·)) (num 0) a k s + a k s
    rw [Mv.add_assoc', Mv.orNan_add]
    congr 1

theorem totalArctic_mv : totalArctic Z word (nums alpha) (nums weights) ext = tab ext fun r => tab n fun t =>
    chainMax (lift₂ (· + ·)) (num 0) (fun j s => orNan (WidthMissing Z (word.getD j []) s)
      (aP (lins Y word) (alpha.getD · 0) (weights.getD · 0) j s)) (word.length - ext + r + 1) t
    + num (-(weights.getD t 0 * alpha.getD (word.length - ext + r) 0)) := by
  set a : ℕ → ℕ → Mv R := fun j s => orNan (WidthMissing Z (word.getD j []) s) (aP (lins Y word) (alpha.getD · 0) (weights.getD · 0) j s) with ha
  unfold totalArctic
  rw [ncols_eq hZ.rect hne]
  refine kernel_loop word ext he
    (fun k => tab n (fun t => chainMax (lift₂ (· + ·)) (num 0) a k t + num (-(if k = 0 then 0 else weights.getD t 0 * alpha.getD (k - 1) 0))))
    (fun k => tab n (fun t => chainMax (lift₂ (· + ·)) (num 0) a (k + 1) t + num (-(weights.getD t 0 * alpha.getD k 0))))
    (zeros n) _ _ (by
      intro _; rw [zeros_eq]
      refine tab_congr fun t _ => ?_
      show num (0 : R) = num (0 + -(if 0 = 0 then 0 else _))
      simp) ?_
  intro k hk res hres
  have hfk := hfit _ (List.getElem_mem hk)
  have key : maxLoop (vadd (lettersAdd Z word[k] (tab n (fun t => chainMax (lift₂ (· + ·)) (num 0) a k t +
      num (-(if k = 0 then 0 else weights.getD t 0 * alpha.getD (k - 1) 0))))) (vscale (nums weights) ((nums alpha).getD k 0)))
      = tab n (fun t => chainMax (lift₂ (· + ·)) (num 0) a (k + 1) t) := by
    rw [lettersAdd_mv hZ hfk, nums_getD2, wscale_mv hw, vadd_tab, maxLoop_tab]
    refine tab_congr fun t _ => ?_
    rw [chainMax]
    congr 1
    funext s
    show _ = chainMax (lift₂ (· + ·)) (num 0) a k s + a k s
    rw [Mv.add_assoc', Mv.add_assoc', Mv.orNan_add, Mv.num_add]
    congr 1
    refine mk_congr (by rw [getD_at' hk]) ?_
    simp only [aP, lins, getD_at' hk]
    ring
  refine ⟨_, _, rfl, ?_, ?_⟩
  · intro _
    simp only
    rw [key, nums_getD2, wscale_mv hw, vsub_tab]
    exact tab_congr fun t _ => Mv.sub_num _ _
  · intro hk'
    simp only
    rw [key, if_pos (by omega), nums_getD2, wscale_mv hw, vsub_tab]
    refine tab_congr fun t _ => ?_
    rw [if_neg (by omega : k + 1 ≠ 0)]
    exact Mv.sub_num _ _

theorem bayesianSingle_mv (expf : R → R) : bayesianSingle (lift expf) Z word (nums alpha) (nums weights) ext = tab ext fun r => tab n fun t =>
    chainMax (lift₂ (· * ·)) (num 1) (fun j s => orNan (LetterMissing Z (word.getD j []) s)
      (lastW expf (monos Y word) (alpha.getD · 0) (weights.getD · 0) (word.length - ext + r) j s)) (word.length - ext + r + 1) t := by
  set a : ℕ → ℕ → Mv R := fun j s => orNan (LetterMissing Z (word.getD j []) s) (aW expf (monos Y word) (alpha.getD · 0) (weights.getD · 0) j s) with ha
  have hlast : ∀ q t, chainMax (lift₂ (· * ·)) (num 1) (fun j s => orNan (LetterMissing Z (word.getD j []) s)
      (lastW expf (monos Y word) (alpha.getD · 0) (weights.getD · 0) q j s)) (q + 1) t
      = runMax (fun s => chainMax (lift₂ (· * ·)) (num 1) a q s * orNan (LetterMissing Z (word.getD q []) s)
          (monos Y word q s * (if q = 0 then 1 else expf (-weights.getD s 0 * alpha.getD (q - 1) 0)))) t := by
    intro q t
    rw [← chain_last (lift₂ (· * ·)) (num 1) a _ q (fun j hj s => by simp [ha, lastW, hj.ne]) t]
    refine runMax_congr fun s _ => ?_
    simp only [lastW, if_true]
    rfl
  simp only [hlast]
  unfold bayesianSingle
  rw [ncols_eq hZ.rect hne]
  refine kernel_loop word ext he (fun k => tab n (fun t => chainMax (lift₂ (· * ·)) (num 1) a k t))
    (fun k => tab n (runMax fun s => chainMax (lift₂ (· * ·)) (num 1) a k s * orNan (LetterMissing Z (word.getD k []) s) (monos Y word k s *
          (if k = 0 then 1 else expf (-weights.getD s 0 * alpha.getD (k - 1) 0)))))
    (ones n) _ _ (by intro _; rw [ones_eq]; rfl) ?_
  intro k hk res hres
  have hfk := hfit _ (List.getElem_mem hk)
  have key : (let tmp := lettersMul Z word[k] (tab n (fun t => chainMax (lift₂ (· * ·)) (num 1) a k t))
      if k > 0 then vmul tmp (expNegW (lift expf) (nums weights) ((nums alpha).getD (k - 1) 0)) else tmp)
      = tab n (fun s => chainMax (lift₂ (· * ·)) (num 1) a k s * orNan (LetterMissing Z (word.getD k []) s) (monos Y word k s *
          (if k = 0 then 1 else expf (-weights.getD s 0 * alpha.getD (k - 1) 0)))) := by
    rcases Nat.eq_zero_or_pos k with rfl | h0
    · simp only [gt_iff_lt, lt_irrefl, if_false, if_true]
      rw [lettersMul_mv hZ hfk]
      refine tab_congr fun t _ => ?_
      rw [mul_one, monos, getD_at' hk]
    · simp only [gt_iff_lt, h0, if_true, h0.ne', if_false]
      rw [lettersMul_mv hZ hfk, nums_getD2, expNegW_mv _ hw, vmul_tab]
      refine tab_congr fun t _ => ?_
      rw [Mv.mul_assoc', Mv.orNan_mul, monos, getD_at' hk]
  refine ⟨_, _, rfl, ?_, ?_⟩
  · intro h
    simp only at key ⊢
    rw [key, hres, savedRows_getD hk he _ _ h, ones_eq, maxRowLoop_tab]
  · intro hk'
    simp only at key ⊢
    rw [key, if_pos (by omega), nums_getD2, expW_mv _ hw, vmul_tab, maxLoop_tab]
    refine tab_congr fun t _ => ?_
    rw [chainMax]
    congr 1
    funext s
    show _ = chainMax (lift₂ (· * ·)) (num 1) a k s * a k s
    rw [Mv.mul_assoc', Mv.orNan_mul]
    congr 1

theorem totalBayesian_mv (expf : R → R) : totalBayesian (lift expf) Z word (nums alpha) (nums weights) ext = tab ext fun r => tab n fun t =>
    chainMax (lift₂ (· * ·)) (num 1) (fun j s => orNan (LetterMissing Z (word.getD j []) s)
      (aW expf (monos Y word) (alpha.getD · 0) (weights.getD · 0) j s)) (word.length - ext + r + 1) t
    * num (expf (-weights.getD t 0 * alpha.getD (word.length - ext + r) 0)) := by
  set a : ℕ → ℕ → Mv R := fun j s => orNan (LetterMissing Z (word.getD j []) s) (aW expf (monos Y word) (alpha.getD · 0) (weights.getD · 0) j s) with ha
  unfold totalBayesian
  rw [ncols_eq hZ.rect hne]
  refine kernel_loop word ext he
    (fun k => tab n (fun t => chainMax (lift₂ (· * ·)) (num 1) a k t * num (if k = 0 then 1 else expf (-weights.getD t 0 * alpha.getD (k - 1) 0))))
    (fun k => tab n (fun t => chainMax (lift₂ (· * ·)) (num 1) a (k + 1) t * num (expf (-weights.getD t 0 * alpha.getD k 0))))
    (zeros n) _ _ (by
      intro _; rw [ones_eq]
      refine tab_congr fun t _ => ?_
      show num (1 : R) = num (1 * (if 0 = 0 then 1 else _))
      simp) ?_
  intro k hk res hres
  have hfk := hfit _ (List.getElem_mem hk)
  have key : maxLoop (vmul (lettersMul Z word[k] (tab n (fun t => chainMax (lift₂ (· * ·)) (num 1) a k t *
      num (if k = 0 then 1 else expf (-weights.getD t 0 * alpha.getD (k - 1) 0))))) (expW (lift expf) (nums weights) ((nums alpha).getD k 0)))
      = tab n (fun t => chainMax (lift₂ (· * ·)) (num 1) a (k + 1) t) := by
    rw [lettersMul_mv hZ hfk, nums_getD2, expW_mv _ hw, vmul_tab, maxLoop_tab]
    refine tab_congr fun t _ => ?_
    rw [chainMax]
    congr 1
    funext s
    show _ = chainMax (lift₂ (· * ·)) (num 1) a k s * a k s
    rw [Mv.mul_assoc', Mv.mul_assoc', Mv.orNan_mul, Mv.num_mul]
    congr 1
    refine mk_congr (by rw [getD_at' hk]) ?_
    simp only [aW, monos, getD_at' hk]
    ring
  refine ⟨_, _, rfl, ?_, ?_⟩
  · intro _
    simp only
    rw [key, nums_getD2, expNegW_mv _ hw, vmul_tab]
  · intro hk'
    simp only
    rw [key, if_pos (by omega), nums_getD2, expNegW_mv _ hw, vmul_tab]
    refine tab_congr fun t _ => ?_
    rw [if_neg (by omega : k + 1 ≠ 0)]
    rfl

end arctic

/-! ### the value of a tuple -/

theorem chainVal_lastP (c : ℕ → ℕ → R) (al g : ℕ → R) (q : ℕ) (i : Fin (q + 1) → ℕ) (t : ℕ) :
    chainVal (· + ·) 0 (lastP c al g q) (q + 1) i = (∑ j : Fin (q + 1), c j (i j)) + penalty false al g i t := by
  rw [chainVal_add, penalty_succ, zero_add]
  have h := sum_gap c al g q i
  rw [Fin.sum_univ_castSucc] at h ⊢
  have h1 : ∀ j : Fin q, lastP c al g q (j.castSucc : Fin (q + 1)) (i j.castSucc)
      = c (j.castSucc : Fin (q + 1)) (i j.castSucc) - (if ((j.castSucc : Fin (q + 1)) : ℕ) = 0 then 0 else g (i j.castSucc) * al ((j.castSucc : Fin (q + 1)) - 1))
        + g (i j.castSucc) * al (j.castSucc : Fin (q + 1)) := by
    intro j; simp [lastP, j.2.ne, aP]
  simp only [h1]
  simp only [lastP, Fin.val_last, if_true, Bool.false_eq_true, if_false, add_zero] at h ⊢
  linarith

theorem chainVal_totalP (c : ℕ → ℕ → R) (al g : ℕ → R) (q : ℕ) (i : Fin (q + 1) → ℕ) (t : ℕ) :
    chainVal (· + ·) 0 (aP c al g) (q + 1) i + -(g t * al q) = (∑ j : Fin (q + 1), c j (i j)) + penalty true al g i t := by
  rw [chainVal_add, penalty_succ, zero_add]
  have h := sum_gap c al g q i
  simp only [aP]
  rw [h]
  simp only [if_true]
  ring

theorem chainVal_lastW {expf : R → R} (hexp : ExpLike expf) (c : ℕ → ℕ → R) (al g : ℕ → R) (q : ℕ) (i : Fin (q + 1) → ℕ) (t : ℕ) :
    chainVal (· * ·) 1 (lastW expf c al g q) (q + 1) i = (∏ j : Fin (q + 1), c j (i j)) * expf (penalty false al g i t) := by
  rw [chainVal_mul, one_mul, ← prod_aW_close hexp c al g q i t false, Fin.prod_univ_castSucc,
    Fin.prod_univ_castSucc (fun j : Fin (q + 1) => aW expf c al g j (i j))]
  have : ∀ j : Fin q, lastW expf c al g q (j.castSucc : Fin (q + 1)) (i j.castSucc) = aW expf c al g (j.castSucc : Fin (q + 1)) (i j.castSucc) := by
    intro j; simp [lastW, j.2.ne]
  simp only [this]
  rw [mul_assoc]
  congr 1
  simp only [lastW, Fin.val_last, if_true, aW, Bool.false_eq_true, if_false]
  rw [mul_assoc, ← hexp.add]
  rw [show g (i (Fin.last q)) * al q + -g (i (Fin.last q)) * al q = 0 by ring, hexp.zero, mul_one]

theorem chainVal_totalW {expf : R → R} (hexp : ExpLike expf) (c : ℕ → ℕ → R) (al g : ℕ → R) (q : ℕ) (i : Fin (q + 1) → ℕ) (t : ℕ) :
    chainVal (· * ·) 1 (aW expf c al g) (q + 1) i * expf (-g t * al q) = (∏ j : Fin (q + 1), c j (i j)) * expf (penalty true al g i t) := by
  rw [chainVal_mul, one_mul]
  exact prod_aW_close hexp c al g q i t true

/-! ## C169 -/

/-- **C169** (semiring `Arctic`, any weighting, `total` or not).  The row of the first `q + 1` extended letters is `nan` everywhere if one of
these letters has a missing value at the first time step, in *any* dimension up to the highest one of the word.  Otherwise it consists of numbers:
missing values at later times are skipped, that is, every entry is the maximum over the index tuples that avoid missing values. -/
theorem C169_arctic {n : ℕ} {Z : List (List (Mv R))} {Y : List (List R)} (hZ : Completes n Z Y) (hne : Z ≠ []) {word : List (List ℤ)}
    (hfit : ∀ el ∈ word, Fits Z el) (alpha : List R) {weights : List R} (hw : weights.length = n) {ext : ℕ} (he : ext ≤ word.length) (total : Bool)
    (expf : R → R) {r t : ℕ} (hr : r < ext) (ht : t < n) :
    let out := ((Mv.fastSum expf .arctic Z word alpha weights ext total).getD r []).getD t 0
    let q := word.length - ext + r
    (out = Mv.nan ↔ ∃ j ≤ q, WidthMissing Z (word.getD j []) 0) ∧
      ∀ y, out = Mv.num y → IsGreatest (arcticKnown (fun j s => WidthMissing Z (word.getD j []) s) total (alpha.getD · 0) (weights.getD · 0)
        (fun j s => linform Y (word.getD j []) s) (q + 1) t) y := by
  intro out q
  have hq : q + 1 ≤ word.length := by simp only [q]; omega
  set bad : ℕ → ℕ → Prop := fun j s => WidthMissing Z (word.getD j []) s with hbad
  have hex : (∃ j ≤ q, bad j 0) ↔ ∃ j < q + 1, bad j 0 := by simp only [Nat.lt_succ_iff]
  cases total with
  | false =>
    have ho : out = chainMax (lift₂ (· + ·)) (num 0) (fun j s => orNan (bad j s)
        (lastP (lins Y word) (alpha.getD · 0) (weights.getD · 0) q j s)) (q + 1) t := by
      simp only [out, Mv.fastSum]
      rw [arcticSingle_mv hZ hne hfit alpha hw he, tab_getD _ _ _ _ hr, tab_getD _ _ _ _ ht]
    by_cases hb : ∃ j < q + 1, bad j 0
    · have hn := chainMax_mv_nan (· + ·) 0 bad (lastP (lins Y word) (alpha.getD · 0) (weights.getD · 0) q) (q + 1) hb t
      rw [ho, hn]
      exact ⟨⟨fun _ => hex.2 hb, fun _ => rfl⟩, fun y hy => by cases hy⟩
    · have hb' : ∀ j < q + 1, ¬ bad j 0 := fun j hj h => hb ⟨j, hj, h⟩
      obtain ⟨y, hy⟩ := chainMax_mv_num (· + ·) 0 bad (lastP (lins Y word) (alpha.getD · 0) (weights.getD · 0) q) (q + 1) hb' t
      rw [ho, hy]
      refine ⟨⟨fun h => (by cases h), fun h => absurd (hex.1 h) hb⟩, fun y' hy' => ?_⟩
      cases hy'
      have := chainMax_mv_greatest (· + ·) 0 bad _ (q + 1) n hb' (fun _ _ _ _ _ x y h => by simpa using h) t ht hy
      simp only [chainVal_lastP _ _ _ _ _ t] at this
      exact this
  | true =>
    have ho : out = chainMax (lift₂ (· + ·)) (num 0) (fun j s => orNan (bad j s)
        (aP (lins Y word) (alpha.getD · 0) (weights.getD · 0) j s)) (q + 1) t + num (-(weights.getD t 0 * alpha.getD q 0)) := by
      simp only [out, Mv.fastSum]
      rw [totalArctic_mv hZ hne hfit alpha hw he, tab_getD _ _ _ _ hr, tab_getD _ _ _ _ ht]
    by_cases hb : ∃ j < q + 1, bad j 0
    · have hn := chainMax_mv_nan (· + ·) 0 bad (aP (lins Y word) (alpha.getD · 0) (weights.getD · 0)) (q + 1) hb t
      rw [ho, hn]
      exact ⟨⟨fun _ => hex.2 hb, fun _ => rfl⟩, fun y hy => by cases hy⟩
    · have hb' : ∀ j < q + 1, ¬ bad j 0 := fun j hj h => hb ⟨j, hj, h⟩
      obtain ⟨y, hy⟩ := chainMax_mv_num (· + ·) 0 bad (aP (lins Y word) (alpha.getD · 0) (weights.getD · 0)) (q + 1) hb' t
      rw [ho, hy]
      refine ⟨⟨fun h => (by cases h), fun h => absurd (hex.1 h) hb⟩, fun y' hy' => ?_⟩
      cases hy'
      obtain ⟨⟨i, hi, hib, hv⟩, hub⟩ := chainMax_mv_greatest (· + ·) 0 bad _ (q + 1) n hb' (fun _ _ _ _ _ x y h => by simpa using h) t ht hy
      refine ⟨⟨i, hi, hib, ?_⟩, ?_⟩
      · rw [hv]; exact chainVal_totalP (lins Y word) (alpha.getD · 0) (weights.getD · 0) q i t
      · rintro w ⟨i, hi, hib, rfl⟩
        have := hub ⟨i, hi, hib, rfl⟩
        refine le_trans (le_of_eq (chainVal_totalP (lins Y word) (alpha.getD · 0) (weights.getD · 0) q i t).symm) ?_
        exact add_le_add_left this _

/-- **C169** (semiring `Bayesian`, any weighting, `total` or not).  The row of the first `q + 1` extended letters is `nan` everywhere if a
dimension that one of these letters names is missing at the first time step.  Otherwise it consists of numbers; missing values at later times are
skipped, that is (if the known letter values are not negative), every entry is the maximum over the index tuples that avoid missing values. -/
theorem C169_bayesian {n : ℕ} {Z : List (List (Mv R))} {Y : List (List R)} (hZ : Completes n Z Y) (hne : Z ≠ []) {word : List (List ℤ)}
    (hfit : ∀ el ∈ word, Fits Z el) (alpha : List R) {weights : List R} (hw : weights.length = n) {ext : ℕ} (he : ext ≤ word.length) (total : Bool)
    {expf : R → R} (hexp : ExpLike expf) {r t : ℕ} (hr : r < ext) (ht : t < n) :
    let out := ((Mv.fastSum expf .bayesian Z word alpha weights ext total).getD r []).getD t 0
    let q := word.length - ext + r
    (out = Mv.nan ↔ ∃ j ≤ q, LetterMissing Z (word.getD j []) 0) ∧
      ((∀ j < word.length, ∀ s < n, ¬ LetterMissing Z (word.getD j []) s → 0 ≤ monomial Y (word.getD j []) s) →
        ∀ y, out = Mv.num y → IsGreatest (bayesianKnown (fun j s => LetterMissing Z (word.getD j []) s) expf total (alpha.getD · 0) (weights.getD · 0)
          (fun j s => monomial Y (word.getD j []) s) (q + 1) t) y) := by
  intro out q
  have hq : q + 1 ≤ word.length := by simp only [q]; omega
  set bad : ℕ → ℕ → Prop := fun j s => LetterMissing Z (word.getD j []) s with hbad
  have hex : (∃ j ≤ q, bad j 0) ↔ ∃ j < q + 1, bad j 0 := by simp only [Nat.lt_succ_iff]
  have hnn : (∀ j < word.length, ∀ s < n, ¬ bad j s → 0 ≤ monomial Y (word.getD j []) s) →
      ∀ j < word.length, ∀ s < n, ¬ bad j s → 0 ≤ aW expf (monos Y word) (alpha.getD · 0) (weights.getD · 0) j s := by
    intro h j hj s hs hb
    unfold aW
    refine mul_nonneg (mul_nonneg (h j hj s hs hb) ?_) (hexp.pos _).le
    split
    · exact zero_le_one
    · exact (hexp.pos _).le
  cases total with
  | false =>
    have ho : out = chainMax (lift₂ (· * ·)) (num 1) (fun j s => orNan (bad j s)
        (lastW expf (monos Y word) (alpha.getD · 0) (weights.getD · 0) q j s)) (q + 1) t := by
      simp only [out, Mv.fastSum]
      rw [bayesianSingle_mv hZ hne hfit alpha hw he, tab_getD _ _ _ _ hr, tab_getD _ _ _ _ ht]
    by_cases hb : ∃ j < q + 1, bad j 0
    · have hn := chainMax_mv_nan (· * ·) 1 bad (lastW expf (monos Y word) (alpha.getD · 0) (weights.getD · 0) q) (q + 1) hb t
      rw [ho, hn]
      exact ⟨⟨fun _ => hex.2 hb, fun _ => rfl⟩, fun _ y hy => by cases hy⟩
    · have hb' : ∀ j < q + 1, ¬ bad j 0 := fun j hj h => hb ⟨j, hj, h⟩
      obtain ⟨y, hy⟩ := chainMax_mv_num (· * ·) 1 bad (lastW expf (monos Y word) (alpha.getD · 0) (weights.getD · 0) q) (q + 1) hb' t
      rw [ho, hy]
      refine ⟨⟨fun h => (by cases h), fun h => absurd (hex.1 h) hb⟩, fun hpos y' hy' => ?_⟩
      cases hy'
      have := chainMax_mv_greatest (· * ·) 1 bad _ (q + 1) n hb' (fun j hj s hs hbs x y h => mul_le_mul_of_nonneg_right h (by
        unfold lastW
        split
        · refine mul_nonneg (hpos j (by omega) s hs hbs) ?_
          split
          · exact zero_le_one
          · exact (hexp.pos _).le
        · exact hnn hpos j (by omega) s hs hbs)) t ht hy
      simp only [chainVal_lastW hexp _ _ _ _ _ t] at this
      exact this
  | true =>
    have ho : out = chainMax (lift₂ (· * ·)) (num 1) (fun j s => orNan (bad j s)
        (aW expf (monos Y word) (alpha.getD · 0) (weights.getD · 0) j s)) (q + 1) t * num (expf (-weights.getD t 0 * alpha.getD q 0)) := by
      simp only [out, Mv.fastSum]
      rw [totalBayesian_mv hZ hne hfit alpha hw he, tab_getD _ _ _ _ hr, tab_getD _ _ _ _ ht]
    by_cases hb : ∃ j < q + 1, bad j 0
    · have hn := chainMax_mv_nan (· * ·) 1 bad (aW expf (monos Y word) (alpha.getD · 0) (weights.getD · 0)) (q + 1) hb t
      rw [ho, hn]
      exact ⟨⟨fun _ => hex.2 hb, fun _ => rfl⟩, fun _ y hy => by cases hy⟩
    · have hb' : ∀ j < q + 1, ¬ bad j 0 := fun j hj h => hb ⟨j, hj, h⟩
      obtain ⟨y, hy⟩ := chainMax_mv_num (· * ·) 1 bad (aW expf (monos Y word) (alpha.getD · 0) (weights.getD · 0)) (q + 1) hb' t
      rw [ho, hy]
      refine ⟨⟨fun h => (by cases h), fun h => absurd (hex.1 h) hb⟩, fun hpos y' hy' => ?_⟩
      cases hy'
      obtain ⟨⟨i, hi, hib, hv⟩, hub⟩ := chainMax_mv_greatest (· * ·) 1 bad _ (q + 1) n hb'
        (fun j hj s hs hbs x y h => mul_le_mul_of_nonneg_right h (hnn hpos j (by omega) s hs hbs)) t ht hy
      refine ⟨⟨i, hi, hib, ?_⟩, ?_⟩
      · rw [hv]; exact chainVal_totalW hexp (monos Y word) (alpha.getD · 0) (weights.getD · 0) q i t
      · rintro w ⟨i, hi, hib, rfl⟩
        have := hub ⟨i, hi, hib, rfl⟩
        refine le_trans (le_of_eq (chainVal_totalW hexp (monos Y word) (alpha.getD · 0) (weights.getD · 0) q i t).symm) ?_
        exact mul_le_mul_of_nonneg_right this (hexp.pos _).le

end Fruits
