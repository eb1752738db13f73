import Verif.Props.Prep9

/-! # C58: preparateurs treat series independently -/

namespace Fruits
set_option linter.unusedSectionVars false

variable {R : Type} [Field R] [LinearOrder R] [IsStrictOrderedRing R] [FloorRing R]

/-- The array is rectangular. -/
def Uni (X : Data R) : Prop := HasShape X X.length (shape1 X) (shape2 X)

theorem HasShape.uni {X : Data R} {m d n : ℕ} (h : HasShape X m d n) : Uni X := by
  refine ⟨rfl, fun s hs => ?_⟩
  have hm : 0 < m := by rw [← h.1]; exact List.length_pos_of_mem hs
  obtain ⟨h1, h2⟩ := h.2 s hs
  refine ⟨by rw [h.shape1_eq hm, h1], fun r hr => ?_⟩
  have hd : 0 < d := by rw [← h1]; exact List.length_pos_of_mem hr
  rw [h.shape2_eq hm hd, h2 r hr]

theorem getD_mem_lt {α : Type*} {X : List α} {i : ℕ} {e : α} (hi : i < X.length) : X.getD i e ∈ X := by
  rw [List.getD_eq_getElem?_getD, List.getElem?_eq_getElem hi]
  exact List.getElem_mem hi

theorem getD_getElem {α : Type*} {X : List α} {i : ℕ} {e : α} (hi : i < X.length) : X.getD i e = X[i] := by
  rw [List.getD_eq_getElem?_getD, List.getElem?_eq_getElem hi]; rfl

theorem Uni.single {X : Data R} (h : Uni X) {i : ℕ} (hi : i < X.length) :
    Uni [X.getD i []] ∧ shape1 [X.getD i []] = shape1 X ∧ shape2 [X.getD i []] = shape2 X := by
  have h1 := HasShape.singleton h hi
  have e1 : shape1 [X.getD i []] = shape1 X := h1.shape1_eq one_pos
  refine ⟨h1.uni, e1, ?_⟩
  rcases Nat.eq_zero_or_pos (shape1 X) with h0 | h0
  · have a : X.getD i [] = [] := by
      have := (h.2 _ (getD_mem_lt (e := []) hi)).1
      rw [h0] at this
      exact List.length_eq_zero_iff.1 this
    have b : X.getD 0 [] = [] := by
      have := (h.2 _ (getD_mem_lt (e := []) (i := 0) (by omega))).1
      rw [h0] at this
      exact List.length_eq_zero_iff.1 this
    unfold shape2
    rw [a, b]; rfl
  · exact h1.shape2_eq one_pos h0

/-- The function treats the series (with their cache inputs) one by one, and keeps arrays rectangular. -/
def PerS (F : Data R → Data R → Except Err (Data R)) : Prop :=
  ∀ C X Z : Data R, Uni C → Uni X → C.length = X.length → F C X = .ok Z →
    Uni Z ∧ Z.length = X.length ∧ ∀ i < X.length, F [C.getD i []] [X.getD i []] = .ok [Z.getD i []]

theorem mapM_single {α β : Type} (f : α → Except Err β) (x : α) (y : β) (h : f x = .ok y) : [x].mapM f = .ok [y] := by
  rw [mapM_ok_iff]
  exact List.Forall₂.cons h List.Forall₂.nil

theorem mapM_getD {α β : Type} {f : α → Except Err β} {xs : List α} {ys : List β} (h : xs.mapM f = .ok ys) (a : α) (b : β) :
    ys.length = xs.length ∧ ∀ i < xs.length, f (xs.getD i a) = .ok (ys.getD i b) := by
  rw [mapM_ok_iff, List.forall₂_iff_get] at h
  refine ⟨h.1.symm, fun i hi => ?_⟩
  rw [getD_getElem hi, getD_getElem (h.1 ▸ hi)]
  exact h.2 i hi (h.1 ▸ hi)

/-- A function that maps over the series, knowing the shape only. -/
theorem perS_mapM {F : Data R → Data R → Except Err (Data R)} (g : ℕ → ℕ → Series R → Except Err (Series R)) (D N : ℕ → ℕ → ℕ)
    (hF : ∀ C X, Uni X → F C X = X.mapM (g (shape1 X) (shape2 X)))
    (hg : ∀ d n s s', s.length = d → (∀ r ∈ s, r.length = n) → g d n s = .ok s' →
      s'.length = D d n ∧ ∀ r ∈ s', r.length = N d n) : PerS F := by
  intro C X Z _ hX _ h
  rw [hF C X hX] at h
  obtain ⟨h1, h2⟩ := mapM_getD h [] []
  refine ⟨HasShape.uni (m := X.length) (d := D (shape1 X) (shape2 X)) (n := N (shape1 X) (shape2 X)) ⟨h1, ?_⟩, h1, ?_⟩
  · intro s hs
    obtain ⟨i, hi, rfl⟩ := List.getElem_of_mem hs
    have hi' : i < X.length := h1 ▸ hi
    have := h2 i hi'
    rw [getD_getElem hi] at this
    obtain ⟨a, b⟩ := hX.2 _ (getD_mem_lt (e := []) hi')
    exact hg _ _ _ _ a b this
  · intro i hi
    obtain ⟨u, a, b⟩ := hX.single hi
    rw [hF _ _ u, a, b]
    exact mapM_single _ _ _ (h2 i hi)

theorem perS_map {F : Data R → Data R → Except Err (Data R)} (g : ℕ → ℕ → Series R → Series R) (D N : ℕ → ℕ → ℕ)
    (hF : ∀ C X, Uni X → F C X = .ok (X.map (g (shape1 X) (shape2 X))))
    (hg : ∀ d n s, s.length = d → (∀ r ∈ s, r.length = n) → (g d n s).length = D d n ∧ ∀ r ∈ g d n s, r.length = N d n) :
    PerS F := by
  refine perS_mapM (fun d n s => .ok (g d n s)) D N (fun C X hX => ?_) (fun d n s s' h1 h2 h => ?_)
  · rw [hF C X hX]
    exact (mapM_ok_map fun _ _ => rfl).symm
  · cases h
    exact hg d n s h1 h2

theorem perS_rows {F : Data R → Data R → Except Err (Data R)} (g : ℕ → ℕ → List R → List R)
    (hF : ∀ C X, Uni X → F C X = .ok (mapRows (g (shape1 X) (shape2 X)) X))
    (hg : ∀ d n r, r.length = n → (g d n r).length = n) : PerS F := by
  refine perS_map (fun d n s => s.map (g d n)) (fun d _ => d) (fun _ n => n) hF fun d n s h1 h2 => ?_
  refine ⟨by simpa using h1, fun r hr => ?_⟩
  obtain ⟨x, hx, rfl⟩ := List.mem_map.1 hr
  exact hg d n x (h2 x hx)

theorem perS_rowsM {F : Data R → Data R → Except Err (Data R)} (g : ℕ → ℕ → List R → Except Err (List R))
    (hF : ∀ C X, Uni X → F C X = mapRowsM (g (shape1 X) (shape2 X)) X)
    (hg : ∀ d n r r', r.length = n → g d n r = .ok r' → r'.length = n) : PerS F := by
  refine perS_mapM (fun d n s => s.mapM (g d n)) (fun d _ => d) (fun _ n => n) hF fun d n s s' h1 h2 h => ?_
  obtain ⟨a, b⟩ := mapM_getD h [] []
  refine ⟨by rw [a, h1], fun r hr => ?_⟩
  obtain ⟨i, hi, rfl⟩ := List.getElem_of_mem hr
  have hi' : i < s.length := a ▸ hi
  have := b i hi'
  rw [getD_getElem hi] at this
  exact hg d n _ _ (h2 _ (getD_mem_lt hi')) this

theorem perS_error {F : Data R → Data R → Except Err (Data R)} (e : Err) (hF : ∀ C X, F C X = .error e) : PerS F := by
  intro C X Z _ _ _ h
  rw [hF] at h; cases h

/-! Lengths of the row operations. -/

theorem setSlc_length {α : Type} {x v y : List α} {a b : ℕ} (hb : b ≤ x.length) (ha : a ≤ x.length)
    (h : setSlc x a b v = .ok y) : y.length = x.length := by
  unfold setSlc at h
  split at h
  · cases h; simp; omega
  · split at h
    · cases h; simp; omega
    · cases h

theorem fillSlc_length {α : Type} {x : List α} {a b : ℕ} (hb : b ≤ x.length) (ha : a ≤ x.length) (c : α) :
    (fillSlc x a b c).length = x.length := by
  unfold fillSlc
  simp; omega

theorem increments1_length {k : ℤ} {x y : List R} (h : increments1 k x = .ok y) : y.length = x.length := by
  unfold increments1 at h
  simp only at h
  split at h
  · have := setSlc_length (by simp [zeros]) (by simpa [zeros] using pyClip_le _ _) h
    simpa [zeros] using this
  · cases h

theorem inc_loop_length (p : INC R) (n : ℕ) (x : List R) (k : ℕ) (out y : List R) (h : p.loop n x k out = .ok y) :
    y.length = out.length := by
  induction k generalizing out with
  | zero => cases h; rfl
  | succ k ih =>
    rw [INC.loop] at h
    rcases h1 : increments1 (p.shift.eval n) out with e | o1
    · rw [h1] at h; cases h
    rw [h1, ok_bind] at h
    simp only [pure_bind] at h
    rw [← increments1_length h1]
    split at h
    · exact ih _ h
    · rcases h2 : p.shift.restore x o1 with e | o2
      · rw [h2] at h; cases h
      rw [h2, ok_bind] at h
      rw [ih _ h]
      unfold Shift.restore at h2
      split at h2
      · exact setSlc_length (pyClip_le _ _) (Nat.zero_le _) h2
      · cases h2
      · cases h2

theorem mav_row_length (w : ℕ) (x : List R) : (MAV.row w x).length = x.length := by
  unfold MAV.row
  have : ∀ (l : List ℕ) (r : List R), (l.foldl (fun res (k : ℕ) =>
      res.set (k - 1) ((slc x ((k : ℤ) - w) k).sum / (w : R))) r).length = r.length := by
    intro l
    induction l with
    | nil => intro r; rfl
    | cons a l ih => intro r; rw [List.foldl_cons, ih]; simp
  rw [this]; simp [zeros]

theorem fillSlc_fold_length {ι : Type} (l : List ι) (f : List R → ι → ℕ × ℕ)
    (hf : ∀ y e, (f y e).1 ≤ y.length ∧ (f y e).2 ≤ y.length) (x : List R) :
    (l.foldl (fun y e => fillSlc y (f y e).1 (f y e).2 0) x).length = x.length := by
  induction l generalizing x with
  | nil => rfl
  | cons a l ih => rw [List.foldl_cons, ih, fillSlc_length (hf x a).2 (hf x a).1]

theorem setStride_length {α : Type} {x y v : List α} {a k : ℕ} (h : setStride x a k v = .ok y) : y.length = x.length := by
  unfold setStride at h
  split at h
  · cases h; simp
  · cases h

theorem lag_rows_shape {x : List R} {rs : List (List R)} (h : LAG.rows x = .ok rs) :
    rs.length = 2 ∧ ∀ r ∈ rs, r.length = 2 * x.length - 1 := by
  unfold LAG.rows at h
  split at h
  · cases h
  simp only at h
  rcases h1 : setStride (zeros (2 * x.length - 1)) 0 2 x with e | l1
  · rw [h1] at h; cases h
  rw [h1, ok_bind] at h
  rcases h2 : setStride l1 1 2 (slcFrom x 1) with e | l2
  · rw [h2] at h; cases h
  rw [h2, ok_bind, ok_bind] at h
  rcases h3 : setStride l1 1 2 (slcTo x (-1)) with e | l3
  · rw [h3] at h; cases h
  rw [h3, ok_bind] at h
  cases h
  have e1 := setStride_length h1
  have e2 := setStride_length h2
  have e3 := setStride_length h3
  refine ⟨rfl, fun r hr => ?_⟩
  simp only [List.mem_cons, List.not_mem_nil, or_false] at hr
  simp only [zeros, List.length_replicate] at e1
  rcases hr with rfl | rfl <;> omega


/-! The cases. -/

theorem perS_inc (p : INC R) : PerS fun _ X => p.transform X :=
  perS_rowsM (fun _ n x => p.loop n x p.depth x) (fun _ _ _ => rfl) fun _ n r r' hr h => by
    rw [inc_loop_length _ _ _ _ _ _ h, hr]

theorem perS_std [NpMath R] (p : STD R) : PerS fun _ X => p.transform X := by
  by_cases hs : p.separately = true
  · refine perS_rows (fun _ _ x => x.map fun v => (v - mean x) / ((if p.var then npStd x else 1) + p.eps)) (fun C X hX => ?_)
      (fun _ _ _ hr => by simpa using hr)
    have hX' : HasShape X _ _ _ := hX
    rw [std_separately p hs X hX']
    congr 1
    conv_rhs => rw [hX'.eq_tab3, mapRows_tab3]
  · cases hf : p.fitted with
    | none =>
      refine perS_error .runtimeError fun C X => ?_
      simp only [STD.transform, hs, hf]; rfl
    | some c =>
      refine perS_rows (fun _ _ x => x.map fun v => (v - c.1) / (c.2 + p.eps)) (fun C X hX => ?_)
        (fun _ _ _ hr => by simpa using hr)
      simp only [STD.transform, hs, hf]; rfl

theorem perS_mav (p : MAV R) : PerS fun _ X => p.transform X := by
  cases hf : p.w with
  | none => exact perS_error .runtimeError fun C X => by simp only [MAV.transform, hf]
  | some w =>
    exact perS_rows (fun _ _ x => MAV.row w x) (fun C X _ => by simp only [MAV.transform, hf])
      (fun _ _ _ hr => by rw [mav_row_length, hr])

theorem flatten_shape {α β : Type} {f : α → Except Err (List (List β))} {xs : List α} {rs : List (List (List β))} {k n : ℕ}
    (h : xs.mapM f = .ok rs) (hf : ∀ x ∈ xs, ∀ r, f x = .ok r → r.length = k ∧ ∀ y ∈ r, y.length = n) :
    rs.flatten.length = xs.length * k ∧ ∀ y ∈ rs.flatten, y.length = n := by
  rw [mapM_ok_iff] at h
  induction h with
  | nil => simp
  | @cons x r xs rs h1 h2 ih =>
    obtain ⟨a, b⟩ := ih fun x hx => hf x (List.mem_cons_of_mem _ hx)
    obtain ⟨c, e⟩ := hf x (by simp) r h1
    refine ⟨by rw [List.flatten_cons, List.length_append, a, c, List.length_cons]; ring, fun y hy => ?_⟩
    rw [List.flatten_cons, List.mem_append] at hy
    rcases hy with hy | hy
    · exact e y hy
    · exact b y hy

theorem perS_lag : PerS fun (_ : Data R) X => LAG.transform X := by
  refine perS_mapM (fun _ _ s => do
    let rs ← s.mapM LAG.rows
    pure rs.flatten) (fun d _ => d * 2) (fun _ n => 2 * n - 1) (fun C X _ => rfl) fun d n s s' h1 h2 h => ?_
  rcases hr : s.mapM LAG.rows with e | rs
  · rw [hr] at h; cases h
  rw [hr, ok_bind] at h
  cases h
  rw [← h1]
  refine flatten_shape hr fun x hx r hr => ?_
  rw [← h2 x hx]
  exact lag_rows_shape hr

theorem perS_ffn (p : FFN R) : PerS fun _ X => p.transform X := by
  rcases hf : p.fitted with _ | ⟨w1, b, w2⟩
  · exact perS_error .runtimeError fun C X => by simp only [FFN.transform, hf]
  · refine perS_mapM (fun _ n s => p.series w1 b w2 n s) (fun _ _ => w2.length) (fun _ n => n)
      (fun C X _ => by simp only [FFN.transform, hf]) fun d n s s' h1 h2 h => ?_
    unfold FFN.series at h
    split at h
    · cases h
    injection h with h
    subst h
    split
    · refine ⟨by simp, fun r hr => ?_⟩
      simp only [List.mem_map] at hr
      obtain ⟨_, ⟨_, _, rfl⟩, rfl⟩ := hr
      simp
    · refine ⟨by simp, fun r hr => ?_⟩
      simp only [List.mem_map] at hr
      obtain ⟨_, _, rfl⟩ := hr
      simp

theorem tab_tab_shape {k n : ℕ} {f : ℕ → ℕ → R} : (tab k fun a => tab n (f a)).length = k ∧
    ∀ r ∈ (tab k fun a => tab n (f a)), r.length = n := by
  refine ⟨by simp, fun r hr => ?_⟩
  obtain ⟨i, _, rfl⟩ := mem_tab.1 hr
  simp

theorem perS_rin (p : RIN R) : PerS fun _ X => p.transform X := by
  rcases hf : p.fitted with _ | st
  · exact perS_error .runtimeError fun C X => by simp only [RIN.transform, hf]
  · refine perS_map (fun _ n s => RIN.series p.adaptive st n s) (fun _ _ => st.ndim.length) (fun _ n => n)
      (fun C X _ => by simp only [RIN.transform, hf]) fun d n s h1 h2 => ?_
    unfold RIN.series
    simp only
    split
    · rw [rin_outDims]
      obtain ⟨a, b⟩ := tab_tab_shape (k := st.ndim.length) (n := n + (st.kernel.getD 0 []).length) (f := fun a t =>
        if t < (st.kernel.getD 0 []).length then 0 else ∑ j ∈ Finset.range (st.ndim.getD a 0),
        ((∑ l ∈ Finset.range (st.kernel.getD 0 []).length, - at2 (s.map fun x => zeros (st.kernel.getD 0 []).length ++ x)
          (st.dims.getD (0 + (st.ndim.take a).sum + j) 0) (t - (st.kernel.getD 0 []).length + l)
          * at2 st.kernel (0 + (st.ndim.take a).sum + j) l)
          + at2 (s.map fun x => zeros (st.kernel.getD 0 []).length ++ x) (0 + (st.ndim.take a).sum + j) t))
      refine ⟨by rw [List.length_map]; exact a, fun r hr => ?_⟩
      obtain ⟨x, hx, rfl⟩ := List.mem_map.1 hr
      have := b x hx
      rw [List.length_drop, this]; omega
    · rw [rin_outDims]
      exact tab_tab_shape

theorem perS_rdw [NpMath R] (p : RDW R) : PerS fun _ X => p.transform X := by
  rcases hf : p.weights with _ | w
  · exact perS_error .attributeError fun C X => by simp only [RDW.transform, hf]
  · refine perS_mapM (fun _ _ s => if s.length = w.length then
        .ok (List.zipWith (fun x e => x.map fun v => NpMath.pow v e) s w) else .error .valueError) (fun d _ => d) (fun _ n => n)
      (fun C X _ => by simp only [RDW.transform, hf]) fun d n s s' h1 h2 h => ?_
    split at h
    · next hl =>
      injection h with h
      subst h
      refine ⟨by simp [← hl, h1], fun r hr => ?_⟩
      obtain ⟨i, hi, rfl⟩ := List.getElem_of_mem hr
      rw [List.getElem_zipWith, List.length_map]
      exact h2 _ (List.getElem_mem _)
    · cases h

theorem perS_jld (p : JLD R) : PerS fun _ X => p.transform X := by
  rcases hf : p.fitted with _ | st
  · exact perS_error .attributeError fun C X => by simp only [JLD.transform, hf]
  · refine perS_map (fun _ n s => JLD.outDims s st n 0 0 st.ndim) (fun _ _ => st.ndim.length) (fun _ n => n)
      (fun C X _ => by simp only [JLD.transform, hf]) fun d n s h1 h2 => ?_
    rw [jld_outDims]
    exact tab_tab_shape

theorem perS_rpe [NpMath R] (p : RPE R) : PerS fun _ X => p.transform X := by
  have key : PerS fun (_ X : Data R) => .ok (X.map (RPE.series (p.maxLength.getD (shape2 X)) p.freq (shape2 X))) :=
    perS_map (fun _ n s => RPE.series (p.maxLength.getD n) p.freq n s) (fun _ _ => 2) (fun _ n => n) (fun _ _ _ => rfl)
      fun d n s h1 h2 => by
        refine ⟨rfl, fun r hr => ?_⟩
        simp only [RPE.series, List.mem_cons, List.not_mem_nil, or_false] at hr
        rcases hr with rfl | rfl <;> simp
  intro C X Z hC hX hl h
  simp only [RPE.transform] at h
  split at h
  · cases h
  next h2 =>
  obtain ⟨a, b, c⟩ := key C X Z hC hX hl h
  refine ⟨a, b, fun i hi => ?_⟩
  simp only [RPE.transform, (hX.single hi).2.1]
  rw [if_neg h2]
  exact c i hi

theorem perS_cts (p : CTS R) : PerS fun _ X => p.transform X := by
  refine perS_rowsM (fun _ n x => CTS.row p.pseudo (p.shift n) x) (fun _ _ _ => rfl) fun _ n r r' hr h => ?_
  rw [← hr]
  unfold CTS.row at h
  split at h
  · cases h
    exact fillSlc_length (pyClip_le _ _) (Nat.zero_le _) _
  · rcases h1 : setSlc r 0 (pyClip r.length (-p.shift n)) (slcFrom r (p.shift n)) with e | y
    · rw [h1] at h; cases h
    rw [h1, ok_bind] at h
    rw [← setSlc_length (pyClip_le _ _) (Nat.zero_le _) h1]
    exact setSlc_length le_rfl (pyClip_le _ _) h

theorem perS_qtc (p : QTC R) : PerS fun _ X => p.transform X := by
  rcases hf : p.quantile with _ | c
  · exact perS_error .attributeError fun C X => by simp only [QTC.transform, hf]
  · by_cases hl : p.lower = true
    · exact perS_rows (fun _ _ x => x.map fun v => if v < c then p.bound.getD c else v)
        (fun C X _ => by simp only [QTC.transform, hf, hl, if_true]; rfl) (fun _ _ _ hr => by simpa using hr)
    · exact perS_rows (fun _ _ x => x.map fun v => if v > c then p.bound.getD c else v)
        (fun C X _ => by simp only [QTC.transform, hf, hl]; rfl) (fun _ _ _ hr => by simpa using hr)

theorem perS_dil (p : DIL R) : PerS fun _ X => p.transform X := by
  rcases hf : p.fitted with _ | ⟨ix, ls⟩
  · exact perS_error .runtimeError fun C X => by simp only [DIL.transform, hf]
  · refine perS_rows (fun _ _ x => DIL.row ix ls x) (fun C X _ => by simp only [DIL.transform, hf]) (fun _ _ r hr => ?_)
    rw [← hr]
    exact fillSlc_fold_length _ (fun (y : List R) (e : ℕ × ℕ) => (pyClip y.length (e.1 : ℤ),
      pyClip y.length ((e.1 + ls.getD e.2 0 : ℕ) : ℤ)))
      (fun y e => ⟨pyClip_le y.length (e.1 : ℤ), pyClip_le y.length ((e.1 + ls.getD e.2 0 : ℕ) : ℤ)⟩) r

theorem perS_pdd (p : PDD R) : PerS fun _ X => p.transform X := by
  rcases hf : p.fitted with _ | ⟨ix, w⟩
  · exact perS_error .runtimeError fun C X => by simp only [PDD.transform, hf]
  · refine perS_rows (fun _ _ x => PDD.row ix w x) (fun C X _ => by simp only [PDD.transform, hf]) (fun _ _ r hr => ?_)
    rw [← hr]
    exact fillSlc_fold_length _ (fun (y : List R) (i : ℤ) => (pyClip y.length i, pyClip y.length (i + w)))
      (fun y e => ⟨pyClip_le y.length _, pyClip_le y.length _⟩) r

theorem perS_dot (p : DOT R) : PerS fun _ X => p.transform X := by
  rcases hf : p.fitted with _ | ⟨k, a⟩
  · exact perS_error .runtimeError fun C X => by simp only [DOT.transform, hf]
  · refine perS_rowsM (fun _ _ x => DOT.row k a x) (fun C X _ => by simp only [DOT.transform, hf]) (fun _ _ r r' hr h => ?_)
    rw [← hr]
    unfold DOT.row at h
    split at h
    · cases h
    · cases h; simp

theorem nrm_ok {sd : Bool} {X Z : Data R} (hX : Uni X) (h : NRM.transform sd X = .ok Z) :
    X.length = 0 ∨ (sd = false ∧ shape1 X = 0) ∨ (0 < shape1 X ∧ 0 < shape2 X) := by
  rcases Nat.eq_zero_or_pos X.length with h0 | h0
  · exact Or.inl h0
  right
  have hmem : X.getD 0 [] ∈ X := getD_mem_lt h0
  have hs : (X.getD 0 []).length = shape1 X := (hX.2 _ hmem).1
  unfold NRM.transform at h
  cases sd with
  | false =>
    rcases Nat.eq_zero_or_pos (shape1 X) with h1 | h1
    · exact Or.inl ⟨rfl, h1⟩
    refine Or.inr ⟨h1, ?_⟩
    by_contra hn
    have hn : shape2 X = 0 := by omega
    simp only [Bool.false_eq_true, if_false] at h
    unfold NRM.perDim at h
    simp only at h
    rcases h2 : X.flatten.mapM minE with e | mins
    · rw [h2] at h; cases h
    obtain ⟨-, h3⟩ := mapM_getD h2 [] 0
    have hrow : (X.getD 0 []).getD 0 [] ∈ X.getD 0 [] := getD_mem_lt (by omega)
    have hfl : (X.getD 0 []).getD 0 [] ∈ X.flatten := List.mem_flatten.2 ⟨_, hmem, hrow⟩
    obtain ⟨i, hi, hi'⟩ := List.getElem_of_mem hfl
    have := h3 i hi
    have hnil : X.flatten[i] = [] := by rw [hi']; exact List.length_eq_zero_iff.1 hn
    rw [getD_getElem hi, hnil] at this
    cases this
  | true =>
    right
    simp only [if_true] at h
    unfold NRM.perSeries at h
    rcases h2 : (X.mapM fun s => do
      let r ← s.mapM minE
      minE r : Except Err (List R)) with e | mins
    · rw [h2] at h; cases h
    obtain ⟨-, h3⟩ := mapM_getD h2 [] 0
    have h4 := h3 0 h0
    rcases h5 : (X.getD 0 []).mapM minE with e | r
    · rw [h5] at h4; cases h4
    rw [h5, ok_bind] at h4
    obtain ⟨h6, h7⟩ := mapM_getD h5 [] 0
    have h8 : 0 < shape1 X := by
      rw [← hs, ← h6]
      rcases r with _ | ⟨a, r⟩
      · cases h4
      · simp
    refine ⟨h8, ?_⟩
    have h9 := h7 0 (by omega)
    unfold shape2
    rcases hh : (X.getD 0 []).getD 0 [] with _ | ⟨a, r⟩
    · rw [hh] at h9; cases h9
    · simp

theorem perS_nrm (sd : Bool) : PerS fun (_ : Data R) X => NRM.transform sd X := by
  intro C X Z _ hX _ h
  have hX' : HasShape X _ _ _ := hX
  replace h : NRM.transform sd X = .ok Z := h
  rcases nrm_ok hX h with h0 | ⟨rfl, h0⟩ | ⟨hd, hn⟩
  · have : X = [] := List.length_eq_zero_iff.1 h0
    subst this
    have : Z = [] := by
      cases sd
      · cases h; rfl
      · cases h; rfl
    subst this
    exact ⟨hX, rfl, fun i hi => by simp at hi⟩
  · have hfl : ∀ Y : Data R, Uni Y → shape1 Y = 0 → ∀ x ∈ Y.flatten, x ≠ [] := by
      intro Y hY h0 x hx
      obtain ⟨s, hs, hx⟩ := List.mem_flatten.1 hx
      have := (hY.2 s hs).1
      rw [h0] at this
      rw [List.length_eq_zero_iff.1 this] at hx
      cases hx
    simp only [NRM.transform, Bool.false_eq_true, if_false] at h ⊢
    rw [perDim_eq X (hfl X hX h0)] at h
    cases h
    refine ⟨?_, by simp [mapRows], fun i hi => ?_⟩
    · refine HasShape.uni (m := X.length) (d := 0) (n := 0) ⟨by simp [mapRows], fun s hs => ?_⟩
      obtain ⟨s', hs', rfl⟩ := List.mem_map.1 hs
      have := (hX.2 s' hs').1
      rw [h0] at this
      rw [List.length_eq_zero_iff.1 this]
      simp
    · obtain ⟨a, b, -⟩ := hX.single hi
      rw [perDim_eq _ (hfl _ a (b.trans h0))]
      simp only [mapRows, List.map_cons, List.map_nil]
      rw [getD_getElem hi, getD_getElem (by simpa using hi), List.getElem_map]
  · obtain ⟨lo, hi, hb, e⟩ := nrm_closed sd X hX' hd hn
    rw [e] at h
    cases h
    refine ⟨(hasShape_tab3 _).uni, by simp, fun i hi' => ?_⟩
    have h1 := HasShape.singleton hX' hi'
    obtain ⟨lo', hi2, hb', e'⟩ := nrm_closed sd _ h1 hd hn
    show NRM.transform sd [X.getD i []] = _
    rw [e']
    congr 1
    have e1 : ∀ j t, at3 [X.getD i []] 0 j t = at3 X i j t := fun j t => rfl
    rw [tab3, tab_succ']
    have : (tab 0 fun i_1 => tab2 (shape1 X) (shape2 X) fun j t =>
        nrmVal (lo' (i_1 + 1) j) (hi2 (i_1 + 1) j) (at3 [X.getD i []] (i_1 + 1) j t)) = [] := rfl
    rw [this]
    congr 1
    unfold tab3
    rw [getD_tab hi']
    apply tab2_congr
    intro j hj t ht
    obtain ⟨a1, a2⟩ := hb i hi' j hj
    obtain ⟨b1, b2⟩ := hb' 0 one_pos j hj
    simp only [e1] at b1 b2
    show _ = nrmVal (lo i j) (hi i j) (at3 X i j t)
    rw [e1, a1.unique b1, a2.unique b2]

theorem normSum_single {nm : Norm} {C : Data R} {S : List (List R)} (h : normSum nm C = .ok S) :
    S.length = C.length ∧ ∀ i < C.length, normSum nm [C.getD i []] = .ok [S.getD i []] := by
  obtain ⟨a, b⟩ := mapM_getD (f := fun s : Series R => do
    let y ← increments1 1 (s.getD 0 [])
    pure (cumsum (y.map nm.val))) h [] []
  exact ⟨a, fun i hi => mapM_single _ _ _ (b i hi)⟩

theorem coqs_def (T : FloatText R) (C : Data R) (q : R) (nm : PStr) :
    coqs T C q nm = (match computeKey T .coquantile (T.toText q ++ ':' :: nm) C with
      | .error e => .error e
      | .ok none => .error .keyError
      | .ok (some (.idx c)) => .ok c
      | .ok (some (.sums _)) => .error .typeError) := by
  unfold coqs
  rw [show (Cache.new (some (NdArr.d3 C))).get T .coquantile (T.toText q ++ ':' :: nm) none
    = Cache.fill T (Cache.new (some (NdArr.d3 C))) .coquantile (T.toText q ++ ':' :: nm) C from rfl]
  unfold Cache.fill
  rcases computeKey T .coquantile (T.toText q ++ ':' :: nm) C with e | (_ | (c | c)) <;> rfl

theorem issSums_def (T : FloatText R) (C : Data R) (nm : PStr) :
    issSums T C nm = (match computeKey T .iss nm C with
      | .error e => .error e
      | .ok none => .error .keyError
      | .ok (some (.idx _)) => .error .typeError
      | .ok (some (.sums s)) => .ok s) := by
  unfold issSums
  rw [show (Cache.new (some (NdArr.d3 C))).get T .iss nm none
    = Cache.fill T (Cache.new (some (NdArr.d3 C))) .iss nm C from rfl]
  unfold Cache.fill
  rcases computeKey T .iss nm C with e | (_ | (c | c)) <;> rfl

theorem coqs_single {T : FloatText R} {C : Data R} {q : R} {nm : PStr} {a : List ℕ} (h : coqs T C q nm = .ok a) :
    a.length = C.length ∧ ∀ i < C.length, coqs T [C.getD i []] q nm = .ok [a.getD i 0] := by
  rw [coqs_def] at h
  simp only [coqs_def]
  unfold computeKey at h ⊢
  simp only at h ⊢
  generalize psplit ':' (T.toText q ++ ':' :: nm) = sp at h ⊢
  rcases sp with _ | ⟨c, _ | ⟨norm, _ | ⟨x, sp⟩⟩⟩
  · cases h
  · cases h
  · simp only at h ⊢
    rcases hn : normOf norm with _ | nm'
    · rw [hn] at h; cases h
    rw [hn] at h
    simp only at h ⊢
    rcases hS : normSum nm' C with e | S
    · rw [hS] at h; cases h
    rw [hS, ok_bind] at h
    rcases ht : T.ofText c with _ | qv
    · rw [ht] at h; cases h
    rw [ht] at h
    simp only at h
    obtain ⟨s1, s2⟩ := normSum_single hS
    cases h
    refine ⟨by simpa using s1, fun i hi => ?_⟩
    rw [s2 i hi, ok_bind]
    simp only [List.map_cons, List.map_nil]
    have : (S.map (coquantile1 qv)).getD i 0 = coquantile1 qv (S.getD i []) := by
      rw [getD_getElem (by simpa [s1] using hi), getD_getElem (by simpa [s1] using hi), List.getElem_map]
    rw [this]; rfl
  · cases h

theorem issSums_single {T : FloatText R} {C : Data R} {nm : PStr} {a : List (List R)} (h : issSums T C nm = .ok a) :
    a.length = C.length ∧ ∀ i < C.length, issSums T [C.getD i []] nm = .ok [a.getD i []] := by
  rw [issSums_def] at h
  simp only [issSums_def]
  unfold computeKey at h ⊢
  simp only at h ⊢
  rcases hn : normOf nm with _ | nm'
  · rw [hn] at h; cases h
  rw [hn] at h
  simp only at h ⊢
  rcases hS : normSum nm' C with e | S
  · rw [hS] at h; cases h
  rw [hS, ok_bind] at h
  obtain ⟨s1, s2⟩ := normSum_single hS
  cases h
  exact ⟨s1, fun i hi => by rw [s2 i hi]; rfl⟩

theorem mapM_row_shape {f : List R → Except Err (List R)} {s s' : Series R} {n : ℕ} (h : s.mapM f = .ok s')
    (h2 : ∀ r ∈ s, r.length = n) (hf : ∀ r r', f r = .ok r' → r'.length = r.length) :
    s'.length = s.length ∧ ∀ r ∈ s', r.length = n := by
  obtain ⟨a, b⟩ := mapM_getD h [] []
  refine ⟨a, fun r hr => ?_⟩
  obtain ⟨i, hi, rfl⟩ := List.getElem_of_mem hr
  have hi' : i < s.length := a ▸ hi
  have := b i hi'
  rw [getD_getElem hi] at this
  rw [hf _ _ this, h2 _ (getD_mem_lt hi')]

theorem perS_win (T : FloatText R) (p : WIN R) : PerS fun C X => p.transform T C X := by
  intro C X Z hC hX hl h
  simp only [WIN.transform] at h
  rcases ha : coqs T C p.start "L2".toList with e | a
  · rw [ha] at h; cases h
  rw [ha, ok_bind] at h
  rcases hb : coqs T C p.stop "L2".toList with e | b
  · rw [hb] at h; cases h
  rw [hb, ok_bind] at h
  obtain ⟨a1, a2⟩ := coqs_single ha
  obtain ⟨b1, b2⟩ := coqs_single hb
  obtain ⟨c1, c2⟩ := mapM_getD h 0 []
  rw [List.length_range] at c1 c2
  have key : ∀ i < X.length, (X.getD i []).mapM (WIN.row (a.getD i 0) (b.getD i 0)) = .ok (Z.getD i []) := by
    intro i hi
    have := c2 i hi
    have e0 : (List.range X.length).getD i 0 = i := by rw [getD_getElem (by simpa using hi)]; simp
    rw [e0] at this
    have ea : a[i]? = some (a.getD i 0) := by
      rw [List.getD_eq_getElem?_getD, List.getElem?_eq_getElem (by omega)]; rfl
    have eb : b[i]? = some (b.getD i 0) := by
      rw [List.getD_eq_getElem?_getD, List.getElem?_eq_getElem (by omega)]; rfl
    rw [ea, eb] at this
    exact this
  refine ⟨HasShape.uni (m := X.length) (d := shape1 X) (n := shape2 X) ⟨c1, ?_⟩, c1, ?_⟩
  · intro s hs
    obtain ⟨i, hi, rfl⟩ := List.getElem_of_mem hs
    have hi' : i < X.length := c1 ▸ hi
    have := key i hi'
    rw [getD_getElem hi] at this
    obtain ⟨u, v⟩ := hX.2 _ (getD_mem_lt (e := []) hi')
    obtain ⟨x, y⟩ := mapM_row_shape this v fun r r' hr => by
      have := setSlc_length (by simpa [zeros] using pyClip_le _ _) (by simpa [zeros] using pyClip_le _ _) hr
      simpa [zeros] using this
    exact ⟨x.trans u, y⟩
  · intro i hi
    simp only [WIN.transform]
    rw [a2 i (by omega), ok_bind, b2 i (by omega), ok_bind]
    exact mapM_single _ _ _ (key i hi)

theorem perS_spe [NpMath R] (T : FloatText R) (p : SPE R) : PerS fun C X => p.transform T C X := by
  rcases hf : p.step with _ | nm
  · refine perS_rows (fun _ n x => List.zipWith (if p.additive then (· + ·) else (· * ·)) x ((List.range n).map fun t =>
      p.function.getD NpMath.sin ((t : R) / NpMath.pow ((p.maxLength.getD n : ℕ) : R) p.freq)))
      (fun C X _ => by simp only [SPE.transform, hf]) (fun _ n r hr => by simp [hr])
  · intro C X Z hC hX hl h
    simp only [SPE.transform, hf] at h
    rcases hs : issSums T C nm.str with e | sums
    · rw [hs] at h; cases h
    rw [hs, ok_bind] at h
    obtain ⟨a1, a2⟩ := issSums_single hs
    set wv : List R → List R := p.wave with hwv
    set op : R → R → R := if p.additive then (· + ·) else (· * ·) with hop
    by_cases hc2 : ∀ w ∈ sums.map wv, w.length = shape2 X
    case neg => rw [if_neg hc2] at h; cases h
    have hc1 : (sums.map wv).length = X.length := by rw [List.length_map, a1, hl]
    rw [if_pos hc2, if_pos hc1] at h
    cases h
    have hlen : (List.zipWith (fun (s : Series R) (wave : List R) => s.map fun x => List.zipWith op x wave) X
        (sums.map wv)).length = X.length := by
      rw [List.length_zipWith, hc1, min_self]
    refine ⟨HasShape.uni (m := X.length) (d := shape1 X) (n := shape2 X) ⟨hlen, ?_⟩, hlen, ?_⟩
    · intro s hs
      obtain ⟨i, hi, rfl⟩ := List.getElem_of_mem hs
      rw [List.getElem_zipWith]
      obtain ⟨u, v⟩ := hX.2 _ (List.getElem_mem (hlen ▸ hi))
      refine ⟨by rw [List.length_map]; exact u, fun r hr => ?_⟩
      obtain ⟨x, hx, rfl⟩ := List.mem_map.1 hr
      have hw := hc2 ((sums.map wv)[i]'(by rw [hlen] at hi; rw [hc1]; exact hi)) (List.getElem_mem _)
      rw [List.length_zipWith, v x hx, hw, min_self]
    · intro i hi
      simp only [SPE.transform, hf]
      rw [a2 i (by omega), ok_bind]
      have hi2 : i < sums.length := by omega
      have hw := hc2 ((sums.map wv)[i]'(by rw [hc1]; exact hi)) (List.getElem_mem _)
      rw [List.getElem_map] at hw
      have hcond : ∀ w ∈ [sums.getD i []].map p.wave, w.length = shape2 [X.getD i []] := by
        intro w hw'
        simp only [List.map_cons, List.map_nil, List.mem_cons, List.not_mem_nil, or_false] at hw'
        rw [hw', (hX.single hi).2.2, getD_getElem hi2]
        exact hw
      rw [if_pos hcond, if_pos (by simp)]
      simp only [List.map_cons, List.map_nil, List.zipWith_cons_cons, List.zipWith_nil_right]
      rw [getD_getElem (X := List.zipWith _ _ _) (by rw [hlen]; exact hi), List.getElem_zipWith, List.getElem_map,
        getD_getElem hi, getD_getElem hi2]
      rfl

theorem selectDims_single {dims : List ℤ} {X Y : Data R} (hX : Uni X) (h : selectDims dims X = .ok Y) :
    Uni Y ∧ Y.length = X.length ∧ ∀ i < X.length, selectDims dims [X.getD i []] = .ok [Y.getD i []] := by
  refine perS_mapM (F := fun _ X => selectDims dims X) (fun _ _ s => dims.mapM fun k => do
    let j ← normIdx s.length k
    pure (s.getD j [])) (fun _ _ => dims.length) (fun _ n => n) (fun C X _ => rfl) ?_ X X Y hX hX rfl h
  intro d n s s' h1 h2 h
  obtain ⟨a, b⟩ := mapM_getD h 0 []
  refine ⟨a, fun r hr => ?_⟩
  obtain ⟨i, hi, rfl⟩ := List.getElem_of_mem hr
  have := b i (a ▸ hi)
  rw [getD_getElem hi] at this
  rcases hj : normIdx s.length (dims.getD i 0) with e | j
  · rw [hj] at this; cases this
  rw [hj, ok_bind] at this
  injection this with this
  rw [← this]
  apply h2
  apply getD_mem_lt
  unfold normIdx at hj
  split at hj
  · cases hj; omega
  · split at hj
    · cases hj; omega
    · cases hj

theorem deleteDims_single {dims : List ℤ} {X Y : Data R} (hX : Uni X) (h : deleteDims dims X = .ok Y) :
    Uni Y ∧ Y.length = X.length ∧ ∀ i < X.length, deleteDims dims [X.getD i []] = .ok [Y.getD i []] := by
  refine perS_mapM (F := fun _ X => deleteDims dims X) (fun _ _ s => do
    let js ← dims.mapM (normIdx s.length)
    pure ((s.zipIdx.filter fun e => decide (e.2 ∉ js)).map (·.1)))
    (fun d _ => match dims.mapM (normIdx d) with
      | .ok js => ((List.range d).filter fun j => decide (j ∉ js)).length
      | .error _ => 0) (fun _ n => n) (fun C X _ => rfl) ?_ X X Y hX hX rfl h
  intro d n s s' h1 h2 h
  rw [h1] at h
  rcases hj : dims.mapM (normIdx d) with e | js
  · rw [hj] at h; cases h
  rw [hj, ok_bind] at h
  simp only [hj]
  cases h
  have hs : s = tab d fun j => s.getD j [] := by rw [← h1]; exact tab_of_list s []
  constructor
  · rw [hs, filter_zipIdx_tab d _ (fun j => decide (j ∉ js)), List.length_map]
  · intro r hr
    obtain ⟨e, he, rfl⟩ := List.mem_map.1 hr
    have := (List.mem_filter.1 he).1
    apply h2
    exact List.fst_mem_of_mem_zipIdx this

theorem zipWith_append_uni {A B : Data R} {n : ℕ} (hl : A.length = B.length) (hA : HasShape A A.length (shape1 A) n)
    (hB : HasShape B B.length (shape1 B) n) : Uni (List.zipWith (· ++ ·) A B) := by
  refine HasShape.uni (m := A.length) (d := shape1 A + shape1 B) (n := n) ⟨by simp [hl], fun s hs => ?_⟩
  obtain ⟨i, hi, rfl⟩ := List.getElem_of_mem hs
  rw [List.getElem_zipWith]
  rw [List.length_zipWith] at hi
  obtain ⟨a, b⟩ := hA.2 _ (List.getElem_mem (show i < A.length by omega))
  obtain ⟨c, e⟩ := hB.2 _ (List.getElem_mem (show i < B.length by omega))
  refine ⟨by rw [List.length_append, a, c], fun r hr => ?_⟩
  rcases List.mem_append.1 hr with hr | hr
  · exact b r hr
  · exact e r hr

theorem uni_empty {A : Data R} (hA : Uni A) (h0 : shape1 A = 0) (n : ℕ) : HasShape A A.length (shape1 A) n := by
  refine ⟨rfl, fun s hs => ⟨(hA.2 s hs).1, fun r hr => ?_⟩⟩
  have := (hA.2 s hs).1
  rw [h0] at this
  rw [List.length_eq_zero_iff.1 this] at hr
  cases hr

theorem concatDims_single {A B Z : Data R} (hA : Uni A) (hB : Uni B) (h : concatDims A B = .ok Z) :
    Uni Z ∧ Z.length = A.length ∧ A.length = B.length ∧
      ∀ i < A.length, concatDims [A.getD i []] [B.getD i []] = .ok [Z.getD i []] := by
  unfold concatDims at h
  split at h
  case isFalse => cases h
  next hc =>
  obtain ⟨hl, hc⟩ := hc
  cases h
  have hu : Uni (List.zipWith (· ++ ·) A B) := by
    rcases hc with h0 | h0 | h0
    · exact zipWith_append_uni hl (uni_empty hA h0 (shape2 B)) hB
    · exact zipWith_append_uni hl hA (uni_empty hB h0 (shape2 A))
    · refine zipWith_append_uni hl hA ?_
      rw [h0]; exact hB
  refine ⟨hu, by simp [hl], hl, fun i hi => ?_⟩
  unfold concatDims
  obtain ⟨-, a1, a2⟩ := hA.single hi
  obtain ⟨-, b1, b2⟩ := hB.single (hl ▸ hi)
  rw [a1, b1, a2, b2, if_pos ⟨rfl, hc⟩]
  simp only [List.zipWith_cons_cons, List.zipWith_nil_right]
  rw [getD_getElem (X := List.zipWith _ _ _) (by simp [← hl]; exact hi), List.getElem_zipWith, getD_getElem hi,
    getD_getElem (hl ▸ hi)]

theorem appendDims_single {X Y Z : Data R} (hX : Uni X) (hY : Uni Y) (h : appendDims X Y = .ok Z) :
    Uni Z ∧ Z.length = X.length ∧ X.length = Y.length ∧
      ∀ i < X.length, appendDims [X.getD i []] [Y.getD i []] = .ok [Z.getD i []] := by
  unfold appendDims at h
  split at h
  case isFalse => cases h
  next hl =>
  split at h
  · next hs =>
    cases h
    refine ⟨zipWith_append_uni hl hX (by rw [← hs]; exact hY), by simp [hl], hl, fun i hi => ?_⟩
    unfold appendDims
    obtain ⟨-, a1, a2⟩ := hX.single hi
    obtain ⟨-, b1, b2⟩ := hY.single (hl ▸ hi)
    rw [a2, b2, if_pos (show [X.getD i []].length = [Y.getD i []].length from rfl), if_pos hs]
    simp only [List.zipWith_cons_cons, List.zipWith_nil_right]
    rw [getD_getElem (X := List.zipWith _ _ _) (by simp [← hl]; exact hi), List.getElem_zipWith, getD_getElem hi,
      getD_getElem (hl ▸ hi)]
  · next hs =>
    split at h
    case isFalse => cases h
    next h1 =>
    cases h
    refine ⟨?_, by simp [hl], hl, fun i hi => ?_⟩
    · refine HasShape.uni (m := X.length) (d := shape1 X + shape1 Y) (n := shape2 X) ⟨by simp [hl], fun s hs => ?_⟩
      obtain ⟨i, hi, rfl⟩ := List.getElem_of_mem hs
      rw [List.getElem_zipWith]
      rw [List.length_zipWith] at hi
      obtain ⟨a, b⟩ := hX.2 _ (List.getElem_mem (show i < X.length by omega))
      obtain ⟨c, e⟩ := hY.2 _ (List.getElem_mem (show i < Y.length by omega))
      refine ⟨by rw [List.length_append, List.length_map, a, c], fun r hr => ?_⟩
      rcases List.mem_append.1 hr with hr | hr
      · exact b r hr
      · obtain ⟨y, _, rfl⟩ := List.mem_map.1 hr
        simp
    · unfold appendDims
      obtain ⟨-, a1, a2⟩ := hX.single hi
      obtain ⟨-, b1, b2⟩ := hY.single (hl ▸ hi)
      rw [a2, b2, if_pos (show [X.getD i []].length = [Y.getD i []].length from rfl), if_neg hs, if_pos h1]
      simp only [List.zipWith_cons_cons, List.zipWith_nil_right]
      rw [getD_getElem (X := List.zipWith _ _ _) (by simp [← hl]; exact hi), List.getElem_zipWith, getD_getElem hi,
        getD_getElem (hl ▸ hi)]

/-- Every user function inside of the preparateur (`FUN`) treats the series independently and returns a rectangular
array. -/
def Prep.FunsIndependent : Prep R → Prop
  | .func f => PerS fun _ X => f X
  | .dim p _ => p.FunsIndependent
  | .new (some p) => p.FunsIndependent
  | _ => True

theorem perS_prep [NpMath R] (T : FloatText R) (p : Prep R) (hp : p.FunsIndependent) : PerS fun C X => p.transformC T C X := by
  suffices H : ∀ k, ∀ p : Prep R, sizeOf p < k → p.FunsIndependent → PerS fun C X => p.transformC T C X from
    H (sizeOf p + 1) p (Nat.lt_succ_self _) hp
  intro k
  induction k with
  | zero => intro p h; omega
  | succ k ih =>
    intro p hk hp
    cases p with
    | inc p => simpa only [Prep.transformC] using perS_inc p
    | std p => simpa only [Prep.transformC] using perS_std p
    | nrm b => simpa only [Prep.transformC] using perS_nrm b
    | mav p => simpa only [Prep.transformC] using perS_mav p
    | lag => simpa only [Prep.transformC] using perS_lag
    | ffn p => simpa only [Prep.transformC] using perS_ffn p
    | rin p => simpa only [Prep.transformC] using perS_rin p
    | rdw p => simpa only [Prep.transformC] using perS_rdw p
    | jld p => simpa only [Prep.transformC] using perS_jld p
    | spe p => simpa only [Prep.transformC] using perS_spe T p
    | rpe p => simpa only [Prep.transformC] using perS_rpe p
    | cts p => simpa only [Prep.transformC] using perS_cts p
    | qtc p => simpa only [Prep.transformC] using perS_qtc p
    | func f => simpa only [Prep.transformC, Prep.FunsIndependent] using hp
    | dil p => simpa only [Prep.transformC] using perS_dil p
    | win p => simpa only [Prep.transformC] using perS_win T p
    | dot p => simpa only [Prep.transformC] using perS_dot p
    | pdd p => simpa only [Prep.transformC] using perS_pdd p
    | dim p dims =>
      have hp' : PerS fun C X => p.transformC T C X := ih p (by simp at hk; omega) hp
      intro C X Z hC hX hl h
      simp only [Prep.transformC] at h
      rcases h1 : selectDims dims X with e | sub
      · rw [h1] at h; cases h
      rw [h1, ok_bind] at h
      rcases h2 : Prep.transformC T sub p sub with e | Y
      · rw [h2] at h; cases h
      rw [h2, ok_bind] at h
      rcases h3 : deleteDims dims X with e | rest
      · rw [h3] at h; cases h
      rw [h3, ok_bind] at h
      obtain ⟨a1, a2, a3⟩ := selectDims_single hX h1
      obtain ⟨b1, b2, b3⟩ := hp' sub sub Y a1 a1 rfl h2
      simp only at b3
      obtain ⟨c1, c2, c3⟩ := deleteDims_single hX h3
      obtain ⟨d1, d2, d3, d4⟩ := concatDims_single c1 b1 h
      refine ⟨d1, d2.trans c2, fun i hi => ?_⟩
      simp only [Prep.transformC]
      rw [a3 i hi, ok_bind, b3 i (by omega), ok_bind, c3 i hi, ok_bind, d4 i (by omega)]
    | new p =>
      cases p with
      | none =>
        refine perS_map (fun _ _ s => s ++ s) (fun d _ => d + d) (fun _ n => n)
          (fun C X _ => by simp only [Prep.transformC]) fun d n s h1 h2 => ⟨by simp [h1], fun r hr => ?_⟩
        rcases List.mem_append.1 hr with hr | hr <;> exact h2 r hr
      | some p =>
        have hp' : PerS fun C X => p.transformC T C X := ih p (by simp at hk; omega) hp
        intro C X Z hC hX hl h
        simp only [Prep.transformC] at h
        rcases h2 : Prep.transformC T X p X with e | Y
        · rw [h2] at h; cases h
        rw [h2, ok_bind] at h
        obtain ⟨b1, b2, b3⟩ := hp' X X Y hX hX rfl h2
        simp only at b3
        obtain ⟨d1, d2, d3, d4⟩ := appendDims_single hX b1 h
        refine ⟨d1, d2, fun i hi => ?_⟩
        simp only [Prep.transformC]
        rw [b3 i hi, ok_bind, d4 i hi]

/-- **C58.** For every (fitted) preparateur without a user function that mixes series: if `transform` succeeds on a dataset,
then it succeeds on each series alone (with the cache of that series alone) and gives the corresponding part of the result.
`C` is the input of the shared cache. -/
theorem C58_independent [NpMath R] (T : FloatText R) (p : Prep R) (hp : p.FunsIndependent) (C X Z : Data R)
    {m d n d' n' : ℕ} (hX : HasShape X m d n) (hC : HasShape C m d' n') (h : p.transformC T C X = .ok Z) :
    Z.length = m ∧ ∀ i < m, p.transformC T [C.getD i []] [X.getD i []] = .ok [Z.getD i []] := by
  obtain ⟨-, a, b⟩ := perS_prep T p hp C X Z hC.uni hX.uni (by rw [hX.1, hC.1]) h
  rw [hX.1] at a b
  exact ⟨a, b⟩

/-- **C58**, for the public `transform` of a preparateur used on its own. -/
theorem C58_independent_alone [NpMath R] (T : FloatText R) (p : Prep R) (hp : p.FunsIndependent) (X Z : Data R)
    {m d n : ℕ} (hX : HasShape X m d n) (h : p.transform T X = .ok Z) :
    Z.length = m ∧ ∀ i < m, p.transform T [X.getD i []] = .ok [Z.getD i []] :=
  C58_independent T p hp X X Z hX hX h

/-- Two series of a changed dataset that agree at series `i` have the same result at `i`. -/
theorem C58_other_series_irrelevant [NpMath R] (T : FloatText R) (p : Prep R) (hp : p.FunsIndependent) (X Z X' Z' : Data R)
    {m d n m' d' n' i i' : ℕ} (hX : HasShape X m d n) (hX' : HasShape X' m' d' n') (h : p.transform T X = .ok Z)
    (h' : p.transform T X' = .ok Z') (hi : i < m) (hi' : i' < m') (he : X.getD i [] = X'.getD i' []) :
    Z.getD i [] = Z'.getD i' [] := by
  have a := (C58_independent_alone T p hp X Z hX h).2 i hi
  have b := (C58_independent_alone T p hp X' Z' hX' h').2 i' hi'
  rw [he, b] at a
  injection a with a
  exact (List.cons.inj a).1.symm

/-- Non-vacuity: normalising in a wrapper, two series. -/
example : (@Prep.transformC ℚ _ _ _ ⟨id, id, fun a _ => a, id, id⟩ ⟨fun _ => [], fun _ => none⟩ []
    (Prep.dim (.nrm false) [-1]) [[[1, 2], [3, 5]], [[0, 1], [4, 4]]]).toOption = some [[[1, 2], [0, 1]], [[0, 1], [0, 0]]] := by decide +kernel

end Fruits
