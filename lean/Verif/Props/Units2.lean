import Verif.Props.Units1
import Verif.PrepFit
import Verif.Props.Prep2

/-! # C166: changing the unit of measurement, part 2: preparateurs -/

namespace Fruits
set_option linter.unusedSectionVars false
variable {R : Type} [Field R] [LinearOrder R] [IsStrictOrderedRing R] [FloorRing R]

theorem at2_sc (c : R) (s : Series R) (j t : ℕ) : at2 (scArr c s) j t = c * at2 s j t := by
  unfold at2; rw [scArr_getD, scRow_getD]

theorem Except.map_id' {α : Type} (r : Except Err α) : r.map (fun a => a) = r := by cases r <;> rfl

theorem restore_sc (c : R) (s : Shift R) (x o : List R) : s.restore (scRow c x) (scRow c o) = (s.restore x o).map (scRow c) := by
  cases s with
  | int k =>
    unfold Shift.restore
    dsimp only
    unfold scRow
    rw [slcTo_map, List.length_map]
    exact setSlc_map (c * ·) o _ _ _
  | float f => rfl
  | call f => rfl

theorem incLoop_sc (c : R) (p : INC R) (n : ℕ) (x : List R) : ∀ (k : ℕ) (o : List R),
    p.loop n (scRow c x) k (scRow c o) = (p.loop n x k o).map (scRow c)
  | 0, _ => rfl
  | k + 1, o => by
    simp only [INC.loop, increments1_sc]
    cases increments1 (p.shift.eval n) o with
    | error e => rfl
    | ok o1 =>
      simp only [Except.map, ok_bind]
      cases p.zeroPadding with
      | true => exact incLoop_sc c p n x k o1
      | false =>
        simp only [Bool.false_eq_true, if_false, restore_sc]
        cases p.shift.restore x o1 with
        | error e => rfl
        | ok o2 => exact incLoop_sc c p n x k o2

theorem variance_sc (c : R) (x : List R) : variance (scRow c x) = c ^ 2 * variance x := by
  unfold variance
  rw [mean_sc, ← mean_sc (c ^ 2)]
  congr 1
  simp only [scRow, List.map_map]
  refine List.map_congr_left fun v _ => ?_
  simp only [Function.comp_apply]
  ring

theorem npStd_sc [NpMath R] [SqrtLaw R] {c : R} (hc : 0 ≤ c) (x : List R) : npStd (scRow c x) = c * npStd x := by
  unfold npStd
  rw [variance_sc]
  have hv := variance_nonneg x
  have h1 := SqrtLaw.sq (c ^ 2 * variance x) (by positivity)
  have h2 := SqrtLaw.sq (variance x) hv
  have h3 := SqrtLaw.nonneg (c ^ 2 * variance x)
  have h4 : 0 ≤ c * NpMath.sqrt (variance x) := mul_nonneg hc (SqrtLaw.nonneg _)
  have h5 : NpMath.sqrt (c ^ 2 * variance x) ^ 2 = (c * NpMath.sqrt (variance x)) ^ 2 := by
    rw [sq, h1, mul_pow, sq (NpMath.sqrt _), h2]
  exact (pow_left_inj₀ h3 h4 two_ne_zero).1 h5

/-- `STD` with what it has learned multiplied by `c`. -/
def STD.rescale (c : R) (p : STD R) : STD R := { p with fitted := p.fitted.map fun e => (c * e.1, if p.var then c * e.2 else e.2) }

theorem STD.fit_sc [NpMath R] [SqrtLaw R] {c : R} (hc : 0 ≤ c) (p : STD R) (X : Data R) :
    p.fit (scaleData c X) = if p.separately then p else (p.fit X).rescale c := by
  unfold STD.fit
  cases p.separately with
  | true => simp
  | false =>
    simp only [Bool.false_eq_true, if_false, entries_sc, mean_sc, npStd_sc hc, STD.rescale, Option.map_some]
    cases p.var <;> rfl

theorem std_zip {f g : R → R → R → R} {h : R → R} {c : R} {k : R → R} (hf : ∀ v a b, g (c * v) (c * a) (k b) = h (f v a b)) :
    ∀ (X : Data R) (M S : List (List R)),
    List.zipWith (fun s (q : List R × List R) => List.zipWith (fun x (e : R × R) => x.map fun v => g v e.1 e.2) s (List.zip q.1 q.2))
      (scaleData c X) (List.zip (scArr c M) (S.map (List.map k))) =
    (List.zipWith (fun s (q : List R × List R) => List.zipWith (fun x (e : R × R) => x.map fun v => f v e.1 e.2) s (List.zip q.1 q.2))
      X (List.zip M S)).map (List.map (List.map h)) := by
  have h1 : ∀ (s : Series R) (a b : List R),
      List.zipWith (fun x (e : R × R) => x.map fun v => g v e.1 e.2) (scArr c s) (List.zip (scRow c a) (b.map k)) =
      (List.zipWith (fun x (e : R × R) => x.map fun v => f v e.1 e.2) s (List.zip a b)).map (List.map h) := by
    intro s
    induction s with
    | nil => intro a b; rfl
    | cons x s ih =>
      intro a b
      match a, b with
      | [], _ => simp [scRow]
      | _ :: _, [] => simp [scRow]
      | a0 :: a, b0 :: b =>
        have h2 : x.map ((fun v => g v (c * a0) (k b0)) ∘ (c * ·)) = x.map (h ∘ fun v => f v a0 b0) :=
          List.map_congr_left fun v _ => hf v a0 b0
        have := ih a b
        simp only [scArr, scRow, List.map_cons, List.zip_cons_cons, List.zipWith_cons_cons, List.cons.injEq, List.map_map] at this ⊢
        exact ⟨h2, this⟩
  intro X
  induction X with
  | nil => intro M S; rfl
  | cons s X ih =>
    intro M S
    match M, S with
    | [], _ => simp [scArr]
    | _ :: _, [] => simp [scArr]
    | a :: M, b :: S =>
      have := ih M S
      have h2 := h1 s a b
      simp only [scaleData, scArr, List.map_cons, List.zip_cons_cons, List.zipWith_cons_cons, List.cons.injEq] at this h2 ⊢
      exact ⟨h2, this⟩

theorem map_means_sc (c : R) (X : Data R) : (scaleData c X).map (fun s => s.map mean) = scArr c (X.map fun s => s.map mean) := by
  simp only [scaleData, scArr, List.map_map]
  refine List.map_congr_left fun s _ => ?_
  simp only [Function.comp_apply, scRow, List.map_map]
  exact List.map_congr_left fun x _ => mean_sc c x

/-- Without `var` (`STD(var=False)`) the data are centred only. -/
theorem STD.transform_center [NpMath R] (c : R) (p : STD R) (hv : p.var = false) (X : Data R) :
    (p.rescale c).transform (scaleData c X) = (p.transform X).map (scaleData c) := by
  unfold STD.transform
  have e1 : (p.rescale c).separately = p.separately := rfl
  have e2 : (p.rescale c).var = false := hv
  have e3 : (p.rescale c).eps = p.eps := rfl
  rw [e1, e2, e3, hv]
  cases p.separately with
  | true =>
    simp only [if_true, Bool.false_eq_true, if_false, map_means_sc, Except.map, Except.ok.injEq]
    have hs : ((scaleData c X).map fun s => s.map fun _ => (1 : R)) = (X.map fun s => s.map fun _ => (1 : R)).map (List.map id) := by
      simp only [scaleData, List.map_map, Function.comp_def, List.map_id]
      rfl
    rw [hs]
    exact std_zip (f := fun v a b => (v - a) / (b + p.eps)) (g := fun v a b => (v - a) / (b + p.eps)) (h := (c * ·)) (k := id)
      (fun v a b => by rw [← mul_sub, mul_div_assoc]; rfl) X _ _
  | false =>
    simp only [Bool.false_eq_true, if_false]
    unfold STD.rescale
    rw [hv]
    cases p.fitted with
    | none => rfl
    | some e =>
      simp only [Option.map_some, Bool.false_eq_true, if_false, Except.map, Except.ok.injEq]
      refine mapRows_sc (fun x => ?_) X
      simp only [scRow, List.map_map]
      refine List.map_congr_left fun v _ => ?_
      simp only [Function.comp_apply]
      rw [← mul_sub, mul_div_assoc]

/-- With `var` and `std_eps=0` the result does not depend on the unit. -/
theorem STD.transform_inv [NpMath R] [SqrtLaw R] {c : R} (hc : 0 < c) (p : STD R) (hv : p.var = true) (he : p.eps = 0) (X : Data R) :
    (p.rescale c).transform (scaleData c X) = p.transform X := by
  have hd : ∀ v a b : R, (c * v - c * a) / (c * b + p.eps) = (v - a) / (b + p.eps) := by
    intro v a b
    rw [he, add_zero, add_zero, ← mul_sub, mul_div_mul_left _ _ hc.ne']
  unfold STD.transform
  have e1 : (p.rescale c).separately = p.separately := rfl
  have e2 : (p.rescale c).var = true := hv
  have e3 : (p.rescale c).eps = p.eps := rfl
  rw [e1, e2, e3, hv]
  cases p.separately with
  | true =>
    simp only [if_true, map_means_sc, Except.ok.injEq]
    have hs : ((scaleData c X).map fun s => s.map npStd) = (X.map fun s => s.map npStd).map (List.map (c * ·)) := by
      simp only [scaleData, List.map_map]
      refine List.map_congr_left fun s _ => ?_
      simp only [Function.comp_apply, List.map_map]
      exact List.map_congr_left fun x _ => npStd_sc hc.le x
    rw [hs]
    have := std_zip (f := fun v a b => (v - a) / (b + p.eps)) (g := fun v a b => (v - a) / (b + p.eps)) (h := id) (k := (c * ·))
      (fun v a b => hd v a b) X (X.map fun s => s.map mean) (X.map fun s => s.map npStd)
    simp only [List.map_id_fun] at this
    simpa using this
  | false =>
    simp only [Bool.false_eq_true, if_false]
    unfold STD.rescale
    rw [hv]
    cases p.fitted with
    | none => rfl
    | some e =>
      simp only [Option.map_some, if_true, Except.ok.injEq]
      have := mapRows_sc (c := c) (c' := 1) (f := List.map fun v => (v - e.1) / (e.2 + p.eps))
        (g := List.map fun v => (v - c * e.1) / (c * e.2 + p.eps)) (fun x => by
          simp only [scRow, List.map_map]
          refine List.map_congr_left fun v _ => ?_
          simp only [Function.comp_apply, one_mul]
          exact hd v e.1 e.2) X
      rw [scaleData_one] at this
      exact this

theorem compress_map {α β : Type} (f : α → β) : ∀ (mask : List Bool) (xs : List α), compress mask (xs.map f) = (compress mask xs).map f := by
  intro mask xs
  unfold compress
  have : (xs.map f).zip mask = (xs.zip mask).map (fun e => (f e.1, e.2)) := by
    rw [← List.map_id mask]
    rw [List.zip_map]
    simp [Prod.map]
  rw [this, filter_map_iff (f := fun e : α × Bool => (f e.1, e.2)) (p := fun e : α × Bool => e.2) (q := fun e : β × Bool => e.2) (fun _ => rfl), List.map_map, List.map_map]
  rfl

theorem mask_sc {c : R} (hc : c ≠ 0) (a b : List R) : List.zipWith (fun a b : R => decide (a ≠ b)) (scRow c a) (scRow c b) =
    List.zipWith (fun a b : R => decide (a ≠ b)) a b := by
  have := zipWith_map_map (f := (c * ·)) (g := (c * ·)) (h := id) (op := fun a b : R => decide (a ≠ b)) (op' := fun a b : R => decide (a ≠ b))
    (fun a b => by simp only [id]; rw [decide_eq_decide, ne_eq, mul_right_inj' hc]) a b
  rwa [List.map_id] at this

theorem zip_sc (c : R) (a b : List R) : List.zip (scRow c a) (scRow c b) = (List.zip a b).map fun e => (c * e.1, c * e.2) := by
  unfold scRow
  rw [List.zip_map]; rfl

theorem NRM.transform_sc {c : R} (hc : 0 < c) (b : Bool) (X : Data R) : NRM.transform b (scaleData c X) = NRM.transform b X := by
  have hq : ∀ v lo hi : R, (c * v - c * lo) / (c * hi - c * lo) = (v - lo) / (hi - lo) := by
    intro v lo hi
    rw [← mul_sub, ← mul_sub, mul_div_mul_left _ _ hc.ne']
  unfold NRM.transform
  cases b with
  | true =>
    simp only [if_true]
    unfold NRM.perSeries
    have h1 : (scaleData c X).mapM (fun s => do let r ← s.mapM minE; minE r) =
        (X.mapM (fun s => do let r ← s.mapM minE; minE r) : Except Err _).map (scRow c) := by
      refine mapM_map_out X fun s _ => ?_
      have : (s.map fun x => x.map (c * ·)).mapM minE = (s.mapM minE).map (scRow c) := mapM_map_out s fun x _ => minE_sc hc.le x
      rw [this]
      cases s.mapM minE with
      | error e => rfl
      | ok r => exact minE_sc hc.le r
    have h2 : (scaleData c X).mapM (fun s => do let r ← s.mapM maxE; maxE r) =
        (X.mapM (fun s => do let r ← s.mapM maxE; maxE r) : Except Err _).map (scRow c) := by
      refine mapM_map_out X fun s _ => ?_
      have : (s.map fun x => x.map (c * ·)).mapM maxE = (s.mapM maxE).map (scRow c) := mapM_map_out s fun x _ => maxE_sc hc.le x
      rw [this]
      cases s.mapM maxE with
      | error e => rfl
      | ok r => exact maxE_sc hc.le r
    rw [h1, h2]
    cases X.mapM (fun s => do let r ← s.mapM minE; minE r) with
    | error e => rfl
    | ok mins =>
      cases X.mapM (fun s => do let r ← s.mapM maxE; maxE r) with
      | error e => rfl
      | ok maxs =>
        simp only [Except.map, ok_bind, mask_sc hc.ne']
        generalize List.zipWith (fun a b : R => decide (a ≠ b)) mins maxs = mask
        have e1 : compress mask (scRow c mins) = scRow c (compress mask mins) := compress_map _ _ _
        have e2 : compress mask (scRow c maxs) = scRow c (compress mask maxs) := compress_map _ _ _
        have e3 : compress mask (scaleData c X) = (compress mask X).map (scArr c) := compress_map _ _ _
        rw [e1, e2, e3, zip_sc]
        have e4 := zipWith_map_map (f := scArr c) (g := fun e : R × R => (c * e.1, c * e.2)) (h := id)
          (op := fun (s : Series R) (q : R × R) => s.map fun x => x.map fun v => (v - q.1) / (q.2 - q.1))
          (op' := fun (s : Series R) (q : R × R) => s.map fun x => x.map fun v => (v - q.1) / (q.2 - q.1)) (fun s q => by
            simp only [scArr, List.map_map, id]
            refine List.map_congr_left fun x _ => ?_
            simp only [Function.comp_apply, scRow, List.map_map]
            exact List.map_congr_left fun v _ => hq v q.1 q.2) (compress mask X) ((compress mask mins).zip (compress mask maxs))
        rw [e4, List.map_id]
        simp only [scaleData, scRow, List.map_map, Function.comp_def]
  | false =>
    simp only [Bool.false_eq_true, if_false]
    unfold NRM.perDim
    have hfl : (scaleData c X).flatten = scArr c X.flatten := by
      unfold scaleData scArr
      rw [List.map_flatten]; rfl
    have h1 : (scArr c X.flatten).mapM minE = (X.flatten.mapM minE).map (scRow c) := mapM_map_out _ fun x _ => minE_sc hc.le x
    have h2 : (scArr c X.flatten).mapM maxE = (X.flatten.mapM maxE).map (scRow c) := mapM_map_out _ fun x _ => maxE_sc hc.le x
    have h3 : (scaleData c X).map List.length = X.map List.length := by
      simp only [scaleData, List.map_map, Function.comp_def, List.length_map]
    simp only [hfl, h1, h2, h3]
    cases X.flatten.mapM minE with
    | error e => rfl
    | ok mins =>
      cases X.flatten.mapM maxE with
      | error e => rfl
      | ok maxs =>
        simp only [Except.map, ok_bind, mask_sc hc.ne']
        generalize List.zipWith (fun a b : R => decide (a ≠ b)) mins maxs = mask
        have e1 : compress mask (scRow c mins) = scRow c (compress mask mins) := compress_map _ _ _
        have e2 : compress mask (scRow c maxs) = scRow c (compress mask maxs) := compress_map _ _ _
        have e3 : compress mask (scArr c X.flatten) = scArr c (compress mask X.flatten) := compress_map _ _ _
        rw [e1, e2, e3, zip_sc]
        have e4 := zipWith_map_map (f := scRow c) (g := fun e : R × R => (c * e.1, c * e.2)) (h := id)
          (op := fun (x : List R) (q : R × R) => x.map fun v => (v - q.1) / (q.2 - q.1))
          (op' := fun (x : List R) (q : R × R) => x.map fun v => (v - q.1) / (q.2 - q.1)) (fun x q => by
            simp only [scRow, List.map_map, id]
            exact List.map_congr_left fun v _ => hq v q.1 q.2) (compress mask X.flatten) ((compress mask mins).zip (compress mask maxs))
        unfold scArr
        rw [e4, List.map_id]
        simp only [scRow, List.map_map, Function.comp_def]

theorem MAV.row_sc (c : R) (w : ℕ) (x : List R) : MAV.row w (scRow c x) = scRow c (MAV.row w x) := by
  unfold MAV.row
  rw [scRow_length]
  generalize List.range' w (x.length + 1 - w) = l
  suffices H : ∀ (l : List ℕ) (r : List R), l.foldl (fun res (k : ℕ) => res.set (k - 1) ((slc (scRow c x) ((k : ℤ) - w) k).sum / (w : R))) (scRow c r) =
      scRow c (l.foldl (fun res (k : ℕ) => res.set (k - 1) ((slc x ((k : ℤ) - w) k).sum / (w : R))) r) by
    have := H l (zeros x.length)
    rwa [scRow_zeros] at this
  intro l
  induction l with
  | nil => intro r; rfl
  | cons k l ih =>
    intro r
    simp only [List.foldl_cons]
    have : (scRow c r).set (k - 1) ((slc (scRow c x) ((k : ℤ) - w) k).sum / (w : R)) =
        scRow c (r.set (k - 1) ((slc x ((k : ℤ) - w) k).sum / (w : R))) := by
      rw [slc_sc, sum_scRow, mul_div_assoc]
      unfold scRow
      rw [List.map_set]
    rw [this]
    exact ih _

theorem mapIdx_conj {α : Type} {f : α → α} {g h : ℕ → α → α} (H : ∀ t v, g t (f v) = f (h t v)) (x : List α) :
    (x.map f).mapIdx g = (x.mapIdx h).map f := by
  refine List.ext_getElem (by simp) fun i h1 h2 => ?_
  simp only [List.getElem_mapIdx, List.getElem_map, H]

theorem setStride_sc (c : R) (x v : List R) (a k : ℕ) : setStride (scRow c x) a k (scRow c v) = (setStride x a k v).map (scRow c) := by
  unfold setStride
  rw [scRow_length, scRow_length]
  by_cases h : v.length = (x.length - a + (k - 1)) / k
  · rw [if_pos h, if_pos h]
    simp only [Except.map, Except.ok.injEq, scRow]
    refine mapIdx_conj (fun t y => ?_) x
    by_cases h1 : a ≤ t ∧ (t - a) % k = 0
    · simp only [if_pos h1]
      exact getD_map' (c * ·) v _ y
    · simp only [if_neg h1]
  · rw [if_neg h, if_neg h]; rfl

theorem LAG.rows_sc (c : R) (x : List R) : LAG.rows (scRow c x) = (LAG.rows x).map (scArr c) := by
  unfold LAG.rows
  rw [scRow_length]
  by_cases h : x.length = 0
  · rw [if_pos h, if_pos h]; rfl
  rw [if_neg h, if_neg h]
  have hz := scRow_zeros c (2 * x.length - 1)
  have h1 : slcFrom (scRow c x) 1 = scRow c (slcFrom x 1) := slcFrom_map ..
  have h2 : slcTo (scRow c x) (-1) = scRow c (slcTo x (-1)) := slcTo_map ..
  dsimp only
  have hs : setStride (zeros (2 * x.length - 1)) 0 2 (scRow c x) = (setStride (zeros (2 * x.length - 1)) 0 2 x).map (scRow c) := by
    have := setStride_sc c (zeros (2 * x.length - 1)) x 0 2
    rwa [hz] at this
  rw [h1, h2, hs]
  cases setStride (zeros (2 * x.length - 1)) 0 2 x with
  | error e => rfl
  | ok l1 =>
    simp only [Except.map, ok_bind, setStride_sc]
    cases setStride l1 1 2 (slcFrom x 1) with
    | error e => rfl
    | ok l2 =>
      simp only [Except.map, ok_bind]
      cases setStride l1 1 2 (slcTo x (-1)) with
      | error e => rfl
      | ok l3 => rfl

theorem RIN.outDims_sc (c : R) (s : Series R) (kernel : List (List R)) (dims : List ℕ) (w n : ℕ) : ∀ (ns : List ℕ) (start : ℕ),
    RIN.outDims (scArr c s) kernel dims w n start ns = scArr c (RIN.outDims s kernel dims w n start ns)
  | [], _ => rfl
  | k :: ns, start => by
    simp only [RIN.outDims]
    rw [RIN.outDims_sc c s kernel dims w n ns]
    have h : ((List.range n).map fun t => if t < w then (0 : R) else ((List.range' start k).map fun j =>
        ((List.range' (t - w) w).map fun l => - at2 (scArr c s) (dims.getD j 0) l * at2 kernel j (l + w - t)).sum
          + at2 (scArr c s) j t).sum) = scRow c ((List.range n).map fun t => if t < w then (0 : R) else ((List.range' start k).map fun j =>
        ((List.range' (t - w) w).map fun l => - at2 s (dims.getD j 0) l * at2 kernel j (l + w - t)).sum + at2 s j t).sum) := by
      unfold scRow
      rw [List.map_map]
      refine List.map_congr_left fun t _ => ?_
      simp only [Function.comp_apply]
      by_cases ht : t < w
      · rw [if_pos ht, if_pos ht, mul_zero]
      · rw [if_neg ht, if_neg ht, ← sum_scRow]
        congr 1
        unfold scRow
        rw [List.map_map]
        refine List.map_congr_left fun j _ => ?_
        simp only [Function.comp_apply]
        rw [mul_add, at2_sc, ← sum_scRow]
        congr 2
        unfold scRow
        rw [List.map_map]
        refine List.map_congr_left fun l _ => ?_
        simp only [Function.comp_apply]
        rw [at2_sc]; ring
    rw [h]; rfl

theorem RIN.series_sc (c : R) (ad : Bool) (st : RINState R) (n : ℕ) (s : Series R) : RIN.series ad st n (scArr c s) = scArr c (RIN.series ad st n s) := by
  unfold RIN.series
  cases ad with
  | false => simp only [Bool.false_eq_true, if_false]; exact RIN.outDims_sc ..
  | true =>
    simp only [if_true]
    have h : ((scArr c s).map fun x => zeros (st.kernel.getD 0 []).length ++ x) = scArr c (s.map fun x => zeros (st.kernel.getD 0 []).length ++ x) := by
      unfold scArr
      rw [List.map_map, List.map_map]
      refine List.map_congr_left fun x _ => ?_
      simp only [Function.comp_apply]
      conv_lhs => rw [← scRow_zeros c]
      unfold scRow
      rw [List.map_append]
    rw [h, RIN.outDims_sc]
    unfold scArr
    rw [List.map_map, List.map_map]
    refine List.map_congr_left fun x _ => ?_
    simp only [Function.comp_apply, scRow, List.map_drop]

theorem JLD.outDims_sc (c : R) (s : Series R) (st : JLDState R) (hb : ∀ k, st.bias.getD k 0 = 0) (n : ℕ) : ∀ (ns : List ℕ) (start k : ℕ),
    JLD.outDims (scArr c s) st n start k ns = scArr c (JLD.outDims s st n start k ns)
  | [], _, _ => rfl
  | g :: ns, start, k => by
    simp only [JLD.outDims]
    rw [JLD.outDims_sc c s st hb n ns]
    have h : ((List.range n).map fun t => ((List.range' start g).map fun j =>
        at2 (scArr c s) (st.dims.getD j 0) t * st.kernel.getD j 0 + st.bias.getD k 0).sum) =
        scRow c ((List.range n).map fun t => ((List.range' start g).map fun j =>
        at2 s (st.dims.getD j 0) t * st.kernel.getD j 0 + st.bias.getD k 0).sum) := by
      unfold scRow
      rw [List.map_map]
      refine List.map_congr_left fun t _ => ?_
      simp only [Function.comp_apply]
      rw [← sum_scRow]
      congr 1
      unfold scRow
      rw [List.map_map]
      refine List.map_congr_left fun j _ => ?_
      simp only [Function.comp_apply]
      rw [at2_sc, hb, add_zero, add_zero, mul_assoc]
    rw [h]; rfl

theorem CTS.row_sc (c : R) (b : Bool) (sh : ℤ) (x : List R) : CTS.row b sh (scRow c x) = (CTS.row b sh x).map (scRow c) := by
  unfold CTS.row
  cases b with
  | true =>
    simp only [if_true, Except.map, Except.ok.injEq, scRow_length]
    have := fillSlc_map (c * ·) x 0 (pyClip x.length sh) 0
    rw [mul_zero] at this
    exact this
  | false =>
    simp only [Bool.false_eq_true, if_false, scRow_length]
    have h1 : slcFrom (scRow c x) sh = scRow c (slcFrom x sh) := slcFrom_map ..
    have h2 : setSlc (scRow c x) 0 (pyClip x.length (-sh)) (scRow c (slcFrom x sh)) = (setSlc x 0 (pyClip x.length (-sh)) (slcFrom x sh)).map (scRow c) :=
      setSlc_map ..
    rw [h1, h2]
    cases setSlc x 0 (pyClip x.length (-sh)) (slcFrom x sh) with
    | error e => rfl
    | ok y =>
      simp only [Except.map, ok_bind, scRow_length]
      have h3 : slcFrom (scRow c y) (-1) = scRow c (slcFrom y (-1)) := slcFrom_map ..
      rw [h3]
      exact setSlc_map ..

/-- `QTC` with what it has learned multiplied by `c`. -/
def QTC.rescale (c : R) (p : QTC R) : QTC R := { p with quantile := p.quantile.map (c * ·) }

theorem QTC.fit_sc {c : R} (hc : 0 < c) (p : QTC R) (X : Data R) : p.fit (scaleData c X) = (p.fit X).map (QTC.rescale c) := by
  unfold QTC.fit
  rw [entries_sc, quantile_sc hc]
  cases Fruits.quantile (entries X) p.q <;> rfl

theorem QTC.transform_sc {c : R} (hc : 0 < c) (p : QTC R) (hb : ∀ b, p.bound = some b → b = 0) (X : Data R) :
    (p.rescale c).transform (scaleData c X) = (p.transform X).map (scaleData c) := by
  unfold QTC.transform
  have e1 : (p.rescale c).lower = p.lower := rfl
  have e2 : (p.rescale c).bound = p.bound := rfl
  have e3 : (p.rescale c).quantile = p.quantile.map (c * ·) := rfl
  rw [e1, e2, e3]
  cases p.quantile with
  | none => rfl
  | some q =>
    simp only [Option.map_some]
    have hbd : p.bound.getD (c * q) = c * p.bound.getD q := by
      cases e : p.bound with
      | none => rfl
      | some b => simp [hb b e]
    rw [hbd]
    cases p.lower with
    | true =>
      simp only [if_true, Except.map, Except.ok.injEq]
      refine mapRows_sc (fun x => ?_) X
      simp only [scRow, List.map_map]
      refine List.map_congr_left fun v _ => ?_
      simp only [Function.comp_apply, mul_lt_mul_iff_right₀ hc]
      by_cases h : v < q
      · rw [if_pos h, if_pos h]
      · rw [if_neg h, if_neg h]
    | false =>
      simp only [Bool.false_eq_true, if_false, Except.map, Except.ok.injEq]
      refine mapRows_sc (fun x => ?_) X
      simp only [scRow, List.map_map]
      refine List.map_congr_left fun v _ => ?_
      simp only [Function.comp_apply, gt_iff_lt, mul_lt_mul_iff_right₀ hc]
      by_cases h : q < v
      · rw [if_pos h, if_pos h]
      · rw [if_neg h, if_neg h]

theorem fill_foldl_sc {β : Type} (c : R) (a b : ℕ → β → ℕ) : ∀ (l : List β) (x : List R),
    l.foldl (fun y e => fillSlc y (a y.length e) (b y.length e) 0) (scRow c x) =
      scRow c (l.foldl (fun y e => fillSlc y (a y.length e) (b y.length e) 0) x)
  | [], _ => rfl
  | e :: l, x => by
    simp only [List.foldl_cons, scRow_length]
    have : fillSlc (scRow c x) (a x.length e) (b x.length e) 0 = scRow c (fillSlc x (a x.length e) (b x.length e) 0) := by
      have := fillSlc_map (c * ·) x (a x.length e) (b x.length e) 0
      rw [mul_zero] at this
      exact this
    rw [this]
    exact fill_foldl_sc c a b l _

theorem WIN.row_sc (c : R) (a b : ℕ) (x : List R) : WIN.row a b (scRow c x) = (WIN.row a b x).map (scRow c) := by
  unfold WIN.row
  rw [scRow_length, slc_sc]
  conv_lhs => rw [← scRow_zeros c]
  exact setSlc_map ..

theorem WIN.transform_sc (T : FloatText R) {μ : R} (hμ : μ ≠ 0) (C : Data R) (c : R) (p : WIN R) (X : Data R) :
    p.transform T (scaleData μ C) (scaleData c X) = (p.transform T C X).map (scaleData c) := by
  unfold WIN.transform
  rw [coqs_sc T hμ, coqs_sc T hμ]
  cases coqs T C p.start "L2".toList with
  | error e => rfl
  | ok a =>
    cases coqs T C p.stop "L2".toList with
    | error e => rfl
    | ok b =>
      simp only [ok_bind, scaleData_length]
      refine mapM_congr_map _ fun i _ => ?_
      rw [scaleData_getD]
      cases a[i]? with
      | none => rfl
      | some u =>
        cases b[i]? with
        | none => rfl
        | some v => exact mapM_map_out _ fun x _ => WIN.row_sc c u v x

theorem DOT.row_sc (c : R) (n first : ℤ) (x : List R) : DOT.row n first (scRow c x) = (DOT.row n first x).map (scRow c) := by
  unfold DOT.row
  by_cases h : n ≤ 0
  · rw [if_pos h, if_pos h]; rfl
  rw [if_neg h, if_neg h]
  simp only [scRow_length, Except.map, Except.ok.injEq]
  refine mapIdx_conj (f := (c * ·)) (fun t v => ?_) x
  by_cases h1 : pyClip x.length first ≤ t ∧ (t - pyClip x.length first) % n.toNat = 0
  · simp only [if_pos h1]
  · simp only [if_neg h1, mul_zero]

theorem SPE.transform_sc [NpMath R] (T : FloatText R) (C C' : Data R) (c : R) (p : SPE R) (hs : p.step = none) (ha : p.additive = false)
    (X : Data R) : p.transform T C' (scaleData c X) = (p.transform T C X).map (scaleData c) := by
  unfold SPE.transform
  rw [hs, ha]
  simp only [Bool.false_eq_true, if_false, shape2_scale, Except.map, Except.ok.injEq]
  refine mapRows_sc (fun x => ?_) X
  have := zipWith_map_map (f := (c * ·)) (g := id) (h := (c * ·)) (op := fun a b : R => a * b) (op' := fun a b : R => a * b)
    (fun a b => mul_assoc c a b) x ((List.range (shape2 X)).map fun t => (p.function.getD NpMath.sin) ((t : R) / NpMath.pow ((p.maxLength.getD (shape2 X) : ℕ) : R) p.freq))
  rw [List.map_id] at this
  exact this

theorem RPE.transform_sc [NpMath R] (c : R) (p : RPE R) (X : Data R) : p.transform (scaleData c X) = (p.transform X).map (scaleData c) := by
  unfold RPE.transform
  rw [shape1_scale, shape2_scale]
  by_cases h : shape1 X ≠ 2
  · rw [if_pos h, if_pos h]; rfl
  rw [if_neg h, if_neg h]
  simp only [Except.map, Except.ok.injEq]
  rw [scaleData_eq, scaleData_eq, List.map_map, List.map_map]
  refine List.map_congr_left fun s _ => ?_
  simp only [Function.comp_apply, RPE.series, at2_sc, scArr, List.map_cons, List.map_nil, scRow, List.map_map, List.cons.injEq, and_true]
  constructor
  · refine List.map_congr_left fun k _ => ?_
    have e := fun j => at2_sc c s j k
    unfold scArr at e
    simp only [Function.comp_apply, e]; ring
  · refine List.map_congr_left fun k _ => ?_
    have e := fun j => at2_sc c s j k
    unfold scArr at e
    simp only [Function.comp_apply, e]; ring

/-! ### Wrappers -/

theorem selectDims_sc (c : R) (dims : List ℤ) (X : Data R) : selectDims dims (scaleData c X) = (selectDims dims X).map (scaleData c) := by
  unfold selectDims
  refine mapM_map_out X fun s _ => ?_
  refine mapM_congr_map dims fun k _ => ?_
  rw [List.length_map]
  cases normIdx s.length k with
  | error e => rfl
  | ok j =>
    simp only [ok_bind, pure, Except.pure, Except.map, Except.ok.injEq]
    exact scArr_getD c s j

theorem deleteDims_sc (c : R) (dims : List ℤ) (X : Data R) : deleteDims dims (scaleData c X) = (deleteDims dims X).map (scaleData c) := by
  unfold deleteDims
  refine mapM_map_out X fun s _ => ?_
  rw [List.length_map]
  cases dims.mapM (normIdx s.length) with
  | error e => rfl
  | ok js =>
    simp only [ok_bind, pure, Except.pure, Except.map, Except.ok.injEq]
    rw [List.zipIdx_map, filter_map_iff (p := fun e => decide (e.2 ∉ js)) (fun e => rfl), List.map_map, List.map_map]
    rfl

theorem zipAppend_sc (c : R) (A B : Data R) : List.zipWith (· ++ ·) (scaleData c A) (scaleData c B) = scaleData c (List.zipWith (· ++ ·) A B) :=
  zipWith_map_map (fun a b => by simp) A B

theorem concatDims_sc (c : R) (A B : Data R) : concatDims (scaleData c A) (scaleData c B) = (concatDims A B).map (scaleData c) := by
  unfold concatDims
  simp only [scaleData_length, shape1_scale, shape2_scale, zipAppend_sc]
  by_cases h : A.length = B.length ∧ (shape1 A = 0 ∨ shape1 B = 0 ∨ shape2 A = shape2 B)
  · rw [if_pos h, if_pos h]; rfl
  · rw [if_neg h, if_neg h]; rfl

theorem appendDims_sc (c : R) (A B : Data R) : appendDims (scaleData c A) (scaleData c B) = (appendDims A B).map (scaleData c) := by
  unfold appendDims
  simp only [scaleData_length, shape2_scale, zipAppend_sc]
  by_cases h : A.length = B.length
  · rw [if_pos h, if_pos h]
    by_cases h1 : shape2 B = shape2 A
    · rw [if_pos h1, if_pos h1]; rfl
    · rw [if_neg h1, if_neg h1]
      by_cases h2 : shape2 B = 1
      · rw [if_pos h2, if_pos h2]
        simp only [Except.map, Except.ok.injEq]
        refine zipWith_map_map (fun s t => ?_) A B
        simp only [List.map_append, List.map_map]
        congr 1
        refine List.map_congr_left fun y _ => ?_
        simp only [Function.comp_apply, List.map_replicate]
        have := scRow_getD c y 0
        unfold scRow at this
        rw [this]
      · rw [if_neg h2, if_neg h2]; rfl
  · rw [if_neg h, if_neg h]; rfl

/-! ### All preparateurs -/

/-- A preparateur with what it has learned multiplied by `c`. -/
def Prep.rescale (c : R) : Prep R → Prep R
  | .std p => .std (if p.separately then p else p.rescale c)
  | .qtc p => .qtc (p.rescale c)
  | .dim p dims => .dim (p.rescale c) dims
  | .new (some p) => .new (some (p.rescale c))
  | p => p

/-- The preparateurs whose results are in the unit of the data. -/
def Prep.KeepsUnit : Prep R → Prop
  | .inc _ | .mav _ | .lag | .rin _ | .rpe _ | .cts _ | .dil _ | .win _ | .dot _ | .pdd _ => True
  -- `STD(var=False)` only centres
  | .std p => p.var = false
  -- `JLD` without bias
  | .jld p => p.bias = false ∧ ∀ st, p.fitted = some st → ∀ k, st.bias.getD k 0 = 0
  -- `SPE` that multiplies with a wave given by time
  | .spe p => p.step = none ∧ p.additive = false
  -- `QTC` that replaces by the quantile or by zero
  | .qtc p => ∀ b, p.bound = some b → b = 0
  | .func f => ∀ c : R, 0 < c → ∀ X, f (scaleData c X) = (f X).map (scaleData c)
  | .dim p _ => p.KeepsUnit
  | .new none => True
  | .new (some p) => p.KeepsUnit
  | .nrm _ | .ffn _ | .rdw _ => False

/-- The preparateurs whose results have no unit. -/
def Prep.RemovesUnit : Prep R → Prop
  | .nrm _ => True
  | .std p => p.var = true ∧ p.eps = 0
  | .func f => ∀ c : R, 0 < c → ∀ X, f (scaleData c X) = f X
  | _ => False

theorem std_rescale_transform [NpMath R] (c : R) (p : STD R) (X : Data R) :
    (if p.separately then p else p.rescale c).transform X = (p.rescale c).transform X := by
  cases h : p.separately with
  | false => simp
  | true =>
    simp only [if_true]
    unfold STD.transform
    have e1 : (p.rescale c).separately = p.separately := rfl
    rw [e1, h]
    rfl

/-- **C166 (preparateurs that keep the unit).** -/
theorem C166_prep_keeps [NpMath R] (T : FloatText R) {c : R} (hc : 0 < c) : ∀ (p : Prep R), p.KeepsUnit → ∀ {μ : R}, μ ≠ 0 → ∀ C X : Data R,
    (p.rescale c).transformC T (scaleData μ C) (scaleData c X) = (p.transformC T C X).map (scaleData c)
  | .inc p, _, μ, _, C, X => by
    simp only [Prep.rescale, Prep.transformC, INC.transform, shape2_scale]
    exact mapRowsM_sc (fun x => incLoop_sc c p (shape2 X) x p.depth x) X
  | .std p, hp, μ, _, C, X => by
    simp only [Prep.rescale, Prep.transformC, std_rescale_transform]
    exact STD.transform_center c p hp X
  | .mav p, _, μ, _, C, X => by
    simp only [Prep.rescale, Prep.transformC, MAV.transform]
    cases p.w with
    | none => rfl
    | some w =>
      simp only [Except.map, Except.ok.injEq]
      exact mapRows_sc (fun x => MAV.row_sc c w x) X
  | .lag, _, μ, _, C, X => by
    simp only [Prep.rescale, Prep.transformC, LAG.transform]
    refine mapM_map_out X fun s _ => ?_
    have h : (s.map fun x => x.map (c * ·)).mapM LAG.rows = (s.mapM LAG.rows).map (List.map (scArr c)) :=
      mapM_map_out s fun x _ => LAG.rows_sc c x
    rw [h]
    cases s.mapM LAG.rows with
    | error e => rfl
    | ok rs =>
      simp only [Except.map, ok_bind, pure, Except.pure, Except.ok.injEq]
      rw [List.map_flatten]; rfl
  | .rin p, _, μ, _, C, X => by
    simp only [Prep.rescale, Prep.transformC, RIN.transform, shape2_scale]
    cases p.fitted with
    | none => rfl
    | some st =>
      simp only [Except.map, Except.ok.injEq]
      rw [scaleData_eq, scaleData_eq, List.map_map, List.map_map]
      exact List.map_congr_left fun s _ => RIN.series_sc c _ st _ s
  | .jld p, hp, μ, _, C, X => by
    simp only [Prep.rescale, Prep.transformC, JLD.transform, shape2_scale]
    cases e : p.fitted with
    | none => rfl
    | some st =>
      simp only [Except.map, Except.ok.injEq]
      rw [scaleData_eq, scaleData_eq, List.map_map, List.map_map]
      exact List.map_congr_left fun s _ => JLD.outDims_sc c s st (hp.2 st e) _ _ _ _
  | .spe p, hp, μ, _, C, X => SPE.transform_sc T C _ c p hp.1 hp.2 X
  | .rpe p, _, μ, _, C, X => RPE.transform_sc c p X
  | .cts p, _, μ, _, C, X => by
    simp only [Prep.rescale, Prep.transformC, CTS.transform, shape2_scale]
    exact mapRowsM_sc (fun x => CTS.row_sc c _ _ x) X
  | .qtc p, hp, μ, _, C, X => QTC.transform_sc hc p hp X
  | .func f, hp, μ, _, C, X => hp c hc X
  | .dil p, _, μ, _, C, X => by
    simp only [Prep.rescale, Prep.transformC, DIL.transform]
    cases p.fitted with
    | none => rfl
    | some st =>
      simp only [Except.map, Except.ok.injEq]
      exact mapRows_sc (fun x => fill_foldl_sc c (fun n (e : ℕ × ℕ) => pyClip n (e.1 : ℤ))
        (fun n e => pyClip n ((e.1 + st.2.getD e.2 0 : ℕ) : ℤ)) st.1.zipIdx x) X
  | .win p, _, μ, hμ, C, X => WIN.transform_sc T hμ C c p X
  | .dot p, _, μ, _, C, X => by
    simp only [Prep.rescale, Prep.transformC, DOT.transform]
    cases p.fitted with
    | none => rfl
    | some st => exact mapRowsM_sc (fun x => DOT.row_sc c _ _ x) X
  | .pdd p, _, μ, _, C, X => by
    simp only [Prep.rescale, Prep.transformC, PDD.transform]
    cases p.fitted with
    | none => rfl
    | some st =>
      simp only [Except.map, Except.ok.injEq]
      exact mapRows_sc (fun x => fill_foldl_sc c (fun n (i : ℤ) => pyClip n i) (fun n i => pyClip n (i + st.2)) st.1 x) X
  | .dim p dims, hp, μ, _, C, X => by
    simp only [Prep.rescale, Prep.transformC, selectDims_sc, deleteDims_sc]
    cases selectDims dims X with
    | error e => rfl
    | ok sub =>
      simp only [Except.map, ok_bind]
      rw [C166_prep_keeps T hc p hp hc.ne' sub sub]
      cases Prep.transformC T sub p sub with
      | error e => rfl
      | ok Y =>
        simp only [Except.map, ok_bind]
        cases deleteDims dims X with
        | error e => rfl
        | ok rest => exact concatDims_sc c rest Y
  | .new none, _, μ, _, C, X => by
    simp only [Prep.rescale, Prep.transformC, Except.map, Except.ok.injEq]
    rw [scaleData_eq, scaleData_eq, List.map_map, List.map_map]
    refine List.map_congr_left fun s _ => ?_
    simp only [Function.comp_apply, scArr, List.map_append]
  | .new (some p), hp, μ, _, C, X => by
    simp only [Prep.rescale, Prep.transformC]
    rw [C166_prep_keeps T hc p hp hc.ne' X X]
    cases Prep.transformC T X p X with
    | error e => rfl
    | ok Y => exact appendDims_sc c X Y

/-- **C166 (preparateurs that remove the unit).** -/
theorem C166_prep_removes [NpMath R] [SqrtLaw R] (T : FloatText R) {c : R} (hc : 0 < c) (p : Prep R) (hp : p.RemovesUnit) (C C' X : Data R) :
    (p.rescale c).transformC T C' (scaleData c X) = p.transformC T C X := by
  cases p with
  | nrm b => exact NRM.transform_sc hc b X
  | std p =>
    simp only [Prep.rescale, Prep.transformC, std_rescale_transform]
    exact STD.transform_inv hc p hp.1 hp.2 X
  | func f => exact hp c hc X
  | _ => exact hp.elim

/-- **C166 (preparateurs, fit).** Fitting on data in another unit fails with the same error, or learns the same, expressed in the new unit. -/
theorem C166_prep_fit [NpMath R] [SqrtLaw R] (g : Rng R) (fuel : ℕ) {c : R} (hc : 0 < c) : ∀ (p : Prep R), p.KeepsUnit ∨ p.RemovesUnit → ∀ X : Data R,
    p.fit g fuel (scaleData c X) = (p.fit g fuel X).map (Option.map (Prep.rescale c))
  | .inc p, _, X => rfl
  | .std p, _, X => by
    simp only [Prep.fit, Except.map, Except.ok.injEq, Option.map_some, Option.some.injEq, Prep.rescale, Prep.std.injEq, STD.fit_sc hc.le]
    have : (p.fit X).separately = p.separately := by
      unfold STD.fit; cases h : p.separately <;> simp [h]
    rw [this]
    cases h : p.separately with
    | true => simp [STD.fit, h]
    | false => rfl
  | .nrm b, _, X => rfl
  | .mav p, _, X => by
    simp only [Prep.fit, Except.map, Except.ok.injEq, Option.map_some, Option.some.injEq, Prep.rescale, Prep.mav.injEq, MAV.fit, shape2_scale]
  | .lag, _, X => rfl
  | .ffn p, hp, X => by rcases hp with h | h <;> exact h.elim
  | .rin p, _, X => by
    have : p.fit g fuel (scaleData c X) = p.fit g fuel X := by unfold RIN.fit; rw [shape1_scale, shape2_scale]
    simp only [Prep.fit, this]
    cases p.fit g fuel X with
    | error e => rfl
    | ok r => cases r <;> rfl
  | .rdw p, hp, X => by rcases hp with h | h <;> exact h.elim
  | .jld p, _, X => by
    have : p.fit g (scaleData c X) = p.fit g X := by unfold JLD.fit; rw [shape1_scale]
    simp only [Prep.fit, this]
    cases p.fit g X <;> rfl
  | .spe p, _, X => rfl
  | .rpe p, _, X => rfl
  | .cts p, _, X => rfl
  | .qtc p, _, X => by
    simp only [Prep.fit, QTC.fit_sc hc]
    cases p.fit X <;> rfl
  | .func f, _, X => rfl
  | .dil p, _, X => by
    have : p.fit g (scaleData c X) = p.fit g X := by unfold DIL.fit; rw [shape2_scale]
    simp only [Prep.fit, this]
    cases p.fit g X <;> rfl
  | .win p, _, X => rfl
  | .dot p, _, X => by
    have : p.fit (scaleData c X) = p.fit X := by unfold DOT.fit; rw [shape2_scale]
    simp only [Prep.fit, this]; rfl
  | .pdd p, _, X => by
    have : p.fit (scaleData c X) = p.fit X := by unfold PDD.fit; rw [shape2_scale]
    simp only [Prep.fit, this]
    cases p.fit X <;> rfl
  | .dim p dims, hp, X => by
    simp only [Prep.fit, selectDims_sc]
    cases selectDims dims X with
    | error e => rfl
    | ok sub =>
      simp only [Except.map, ok_bind]
      rw [C166_prep_fit g fuel hc p (Or.inl (hp.resolve_right id)) sub]
      cases p.fit g fuel sub with
      | error e => rfl
      | ok r => cases r <;> rfl
  | .new none, _, X => rfl
  | .new (some p), hp, X => by
    simp only [Prep.fit]
    rw [C166_prep_fit g fuel hc p (Or.inl (hp.resolve_right id)) X]
    cases p.fit g fuel X with
    | error e => rfl
    | ok r => cases r <;> rfl

end Fruits
