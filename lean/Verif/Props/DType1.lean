import Verif.DType
import Verif.Props.FastMath2
import Verif.Props.Prep3
import Verif.Props.Prep6
import Mathlib.Data.Rat.Floor

/-! # C164: integer arrays

The property "an array of integers gives the results of the same numbers stored as floats, or a `TypeError`" is false: `NRM` and
`NEW` silently truncate.  Proved: it holds for all other preparateurs, for `NEW` around those that keep the data type, for their
sequences and for the iterated sums; and what `NRM` and `NEW` do to integers. -/

namespace Fruits
set_option linter.unusedSectionVars false
variable {R : Type} [Field R] [LinearOrder R] [IsStrictOrderedRing R] [FloorRing R]

/-- All numbers of a dataset satisfy `P`. -/
def AllV (P : R → Prop) (X : Data R) : Prop := ∀ s ∈ X, ∀ x ∈ s, ∀ v ∈ x, P v

/-- A typed array is proper if an `int64` array consists of integers. -/
def TArr.Proper (X : TArr R) : Prop := X.dtype = .int64 → AllV IsInteger X.data

/-- The preparateurs that return an `int64` array for an `int64` array (if they return). -/
def Prep.KeepsInt : Prep R → Prop
  | .inc p => p.depth = 0
  | .cts _ | .dil _ | .win _ | .pdd _ | .nrm _ | .new _ => True
  | .dim p _ => p.KeepsInt
  | _ => False

/-- The preparateurs that never truncate: no `NRM`; `NEW` only around preparateurs that keep integers. -/
def Prep.NoTruncation : Prep R → Prop
  | .nrm _ => False
  | .new (some p) => p.NoTruncation ∧ p.KeepsInt
  | .dim p _ => p.NoTruncation
  | _ => True

/-! ### Truncation -/

theorem truncZ_integer {x : R} (h : IsInteger x) : truncZ x = x := by
  obtain ⟨z, rfl⟩ := h
  unfold truncZ
  split_ifs <;> simp

theorem truncZ_isInteger (x : R) : IsInteger (truncZ x) := by
  unfold truncZ
  split_ifs
  · exact ⟨_, rfl⟩
  · exact ⟨_, rfl⟩

theorem truncZ_zero_of_lt {x : R} (h0 : 0 ≤ x) (h1 : x < 1) : truncZ x = 0 := by
  unfold truncZ
  rw [if_pos h0]
  have : ⌊x⌋ = 0 := Int.floor_eq_iff.2 ⟨by simpa using h0, by simpa using h1⟩
  rw [this]; simp

theorem store_id {t : DType} {Y : Data R} (h : t = .int64 → AllV IsInteger Y) : (storeData t Y) = ⟨t, Y⟩ := by
  cases t with
  | float64 =>
    unfold storeData DType.store
    simp
  | int64 =>
    have hY := h rfl
    unfold storeData
    congr 1
    conv_rhs => rw [← List.map_id Y]
    apply List.map_congr_left
    intro s hs
    conv_rhs => rw [id, ← List.map_id s]
    apply List.map_congr_left
    intro x hx
    conv_rhs => rw [id, ← List.map_id x]
    apply List.map_congr_left
    intro v hv
    exact truncZ_integer (hY s hs x hx v hv)

theorem store_integer {Y : Data R} : AllV IsInteger (storeData .int64 Y).data := by
  intro s hs x hx v hv
  simp only [storeData, List.mem_map] at hs
  obtain ⟨s', _, rfl⟩ := hs
  simp only [List.mem_map] at hx
  obtain ⟨x', _, rfl⟩ := hx
  simp only [List.mem_map] at hv
  obtain ⟨v', _, rfl⟩ := hv
  exact truncZ_isInteger v'

/-! ### Numbers that are only moved -/

section moved
variable {P : R → Prop}

theorem all_fillSlc (h0 : P 0) {x : List R} (hx : ∀ v ∈ x, P v) (a b : ℕ) : ∀ v ∈ fillSlc x a b 0, P v := by
  intro v hv
  simp only [fillSlc, List.mem_append, List.mem_replicate] at hv
  rcases hv with (hv | hv) | hv
  · exact hx v (List.mem_of_mem_take hv)
  · rw [hv.2]; exact h0
  · exact hx v (List.mem_of_mem_drop hv)

theorem all_setSlc {x y v : List R} (hx : ∀ u ∈ x, P u) (hv : ∀ u ∈ v, P u) {a b : ℕ} (h : setSlc x a b v = .ok y) :
    ∀ u ∈ y, P u := by
  unfold setSlc at h
  by_cases hl : v.length = b - a
  · rw [if_pos hl] at h
    injection h with h; subst h
    intro u hu
    simp only [List.mem_append] at hu
    rcases hu with (hu | hu) | hu
    · exact hx u (List.mem_of_mem_take hu)
    · exact hv u hu
    · exact hx u (List.mem_of_mem_drop hu)
  · rw [if_neg hl] at h
    match v, hv, h with
    | [], _, h => cases h
    | [c], hv, h =>
      injection h with h; subst h
      intro u hu
      simp only [List.mem_append, List.mem_replicate] at hu
      rcases hu with (hu | hu) | hu
      · exact hx u (List.mem_of_mem_take hu)
      · rw [hu.2]; exact hv c (by simp)
      · exact hx u (List.mem_of_mem_drop hu)
    | _ :: _ :: _, _, h => cases h

theorem all_foldl_fill {β : Type} (h0 : P 0) (f : List R → β → ℕ × ℕ) : ∀ (l : List β) (x : List R), (∀ v ∈ x, P v) →
    ∀ v ∈ l.foldl (fun y e => fillSlc y (f y e).1 (f y e).2 0) x, P v
  | [], _, hx => hx
  | _ :: l, _, hx => all_foldl_fill h0 f l _ (all_fillSlc h0 hx _ _)

theorem all_mapRows {X : Data R} {f : List R → List R} (h : ∀ x, (∀ v ∈ x, P v) → ∀ v ∈ f x, P v) (hX : AllV P X) :
    AllV P (mapRows f X) := by
  intro s hs x hx
  simp only [mapRows, List.mem_map] at hs
  obtain ⟨s', hs', rfl⟩ := hs
  simp only [List.mem_map] at hx
  obtain ⟨x', hx', rfl⟩ := hx
  exact h x' (hX s' hs' x' hx')

theorem mem_of_mapM {α β : Type} {f : α → Except Err β} {xs : List α} {ys : List β} (h : xs.mapM f = .ok ys) {y : β}
    (hy : y ∈ ys) : ∃ x ∈ xs, f x = .ok y := by
  rw [mapM_ok_iff] at h
  induction h with
  | nil => cases hy
  | cons h1 _ ih =>
    rcases List.mem_cons.1 hy with rfl | hy
    · exact ⟨_, by simp, h1⟩
    · obtain ⟨x, hx, e⟩ := ih hy
      exact ⟨x, by simp [hx], e⟩

theorem all_mapRowsM {X Y : Data R} {f : List R → Except Err (List R)}
    (h : ∀ x y, (∀ v ∈ x, P v) → f x = .ok y → ∀ v ∈ y, P v) (hX : AllV P X) (e : mapRowsM f X = .ok Y) : AllV P Y := by
  intro s hs x hx
  obtain ⟨s', hs', e1⟩ := mem_of_mapM e hs
  obtain ⟨x', hx', e2⟩ := mem_of_mapM e1 hx
  exact h x' x (hX s' hs' x' hx') e2

theorem all_ctsRow (h0 : P 0) {b : Bool} {k : ℤ} {x y : List R} (hx : ∀ v ∈ x, P v) (h : CTS.row b k x = .ok y) : ∀ v ∈ y, P v := by
  cases b with
  | true =>
    simp only [CTS.row, if_true] at h
    injection h with h; subst h
    exact all_fillSlc h0 hx _ _
  | false =>
    simp only [CTS.row] at h
    rw [if_neg (by simp)] at h
    cases e : setSlc x 0 (pyClip x.length (-k)) (slcFrom x k) with
    | error _ => rw [e] at h; cases h
    | ok z =>
      rw [e] at h
      have hz := all_setSlc hx (fun u hu => hx u (List.mem_of_mem_drop hu)) e
      exact all_setSlc hz (fun u hu => hz u (List.mem_of_mem_drop hu)) h

theorem all_winRow (h0 : P 0) {a b : ℕ} {x y : List R} (hx : ∀ v ∈ x, P v) (h : WIN.row a b x = .ok y) : ∀ v ∈ y, P v :=
  all_setSlc (fun u hu => by rw [zeros, List.mem_replicate] at hu; rw [hu.2]; exact h0)
    (fun u hu => hx u (List.mem_of_mem_take (List.mem_of_mem_drop hu))) h

theorem all_win (h0 : P 0) {T : FloatText R} {C X Y : Data R} {p : WIN R} (hX : AllV P X) (h : p.transform T C X = .ok Y) :
    AllV P Y := by
  unfold WIN.transform at h
  cases ea : coqs T C p.start "L2".toList with
  | error _ => rw [ea] at h; cases h
  | ok a =>
    rw [ea] at h
    cases eb : coqs T C p.stop "L2".toList with
    | error _ => rw [eb] at h; cases h
    | ok b =>
      rw [eb] at h
      intro s hs x hx
      obtain ⟨i, hi, e⟩ := mem_of_mapM h hs
      cases e1 : a[i]? with
      | none => rw [e1] at e; cases e
      | some u =>
        cases e2 : b[i]? with
        | none => rw [e1, e2] at e; cases e
        | some v =>
          rw [e1, e2] at e
          obtain ⟨x', hx', e3⟩ := mem_of_mapM e hx
          have hi' : i < X.length := List.mem_range.1 hi
          have hg : X.getD i [] = X[i] := by simp [List.getD, hi']
          rw [hg] at hx'
          exact all_winRow h0 (hX _ (List.getElem_mem hi') x' hx') e3

theorem all_select {dims : List ℤ} {X Y : Data R} (hX : AllV P X) (h : selectDims dims X = .ok Y) : AllV P Y := by
  intro s hs x hx
  obtain ⟨s', hs', e⟩ := mem_of_mapM h hs
  obtain ⟨k, _, e2⟩ := mem_of_mapM e hx
  cases e3 : normIdx s'.length k with
  | error _ => rw [e3] at e2; cases e2
  | ok j =>
    rw [e3] at e2
    injection e2 with e2; subst e2
    by_cases hj : j < s'.length
    · have hg : s'.getD j [] = s'[j] := by simp [List.getD, hj]
      rw [hg]; exact hX s' hs' _ (List.getElem_mem hj)
    · have hg : s'.getD j [] = [] := by simp [List.getD, List.getElem?_eq_none (Nat.le_of_not_lt hj)]
      rw [hg]; simp

theorem all_delete {dims : List ℤ} {X Y : Data R} (hX : AllV P X) (h : deleteDims dims X = .ok Y) : AllV P Y := by
  intro s hs x hx
  obtain ⟨s', hs', e⟩ := mem_of_mapM h hs
  cases e3 : dims.mapM (normIdx s'.length) with
  | error _ => rw [e3] at e; cases e
  | ok js =>
    rw [e3] at e
    injection e with e; subst e
    simp only [List.mem_map, List.mem_filter] at hx
    obtain ⟨a, ⟨ha, _⟩, rfl⟩ := hx
    exact hX s' hs' a.1 (List.fst_mem_of_mem_zipIdx ha)

theorem all_zip {A B : Data R} (hA : AllV P A) (hB : AllV P B) : AllV P (List.zipWith (· ++ ·) A B) := by
  intro s hs x hx
  rw [List.mem_iff_getElem] at hs
  obtain ⟨i, hi, rfl⟩ := hs
  simp only [List.getElem_zipWith, List.mem_append] at hx
  rcases hx with hx | hx
  · exact hA _ (List.getElem_mem _) x hx
  · exact hB _ (List.getElem_mem _) x hx

theorem all_concat {A B Y : Data R} (hA : AllV P A) (hB : AllV P B) (h : concatDims A B = .ok Y) : AllV P Y := by
  unfold concatDims at h
  by_cases hc : A.length = B.length ∧ (shape1 A = 0 ∨ shape1 B = 0 ∨ shape2 A = shape2 B)
  · rw [if_pos hc] at h; injection h with h; subst h; exact all_zip hA hB
  · rw [if_neg hc] at h; cases h

theorem all_append (h0 : P 0) {A B Y : Data R} (hA : AllV P A) (hB : AllV P B) (h : appendDims A B = .ok Y) : AllV P Y := by
  unfold appendDims at h
  by_cases hc : A.length = B.length
  · rw [if_pos hc] at h
    by_cases h2 : shape2 B = shape2 A
    · rw [if_pos h2] at h; injection h with h; subst h; exact all_zip hA hB
    · rw [if_neg h2] at h
      by_cases h3 : shape2 B = 1
      · rw [if_pos h3] at h
        injection h with h; subst h
        intro s hs x hx
        rw [List.mem_iff_getElem] at hs
        obtain ⟨i, hi, rfl⟩ := hs
        simp only [List.getElem_zipWith, List.mem_append, List.mem_map] at hx
        rcases hx with hx | ⟨y, hy, rfl⟩
        · exact hA _ (List.getElem_mem _) x hx
        · intro v hv
          rw [(List.mem_replicate.1 hv).2]
          cases y with
          | nil => exact h0
          | cons a _ => exact hB _ (List.getElem_mem _) _ hy a (by simp)
      · rw [if_neg h3] at h; cases h
  · rw [if_neg hc] at h; cases h

theorem all_double {X : Data R} (hX : AllV P X) : AllV P (X.map fun s => s ++ s) := by
  intro s hs x hx
  simp only [List.mem_map] at hs
  obtain ⟨s', hs', rfl⟩ := hs
  rw [List.mem_append, or_self] at hx
  exact hX s' hs' x hx

end moved

/-! ### The two runs -/

theorem map_ok_iff {α β : Type} {r : Except Err α} {f : α → β} {y : β} : r.map f = .ok y ↔ ∃ a, r = .ok a ∧ f a = y := by
  cases r with
  | error e => simp [Except.map]
  | ok a => simp [Except.map]

theorem map_error_iff {α β : Type} {r : Except Err α} {f : α → β} {e : Err} : r.map f = .error e ↔ r = .error e := by
  cases r with
  | error e => simp [Except.map]
  | ok a => simp [Except.map]

/-- The typed run `r` gives what the float run `q` gives, or a `TypeError`. -/
def SameOrTypeError (r : Except Err (TArr R)) (q : Except Err (Data R)) : Prop :=
  match r with
  | .ok Y => q = .ok Y.data ∧ Y.Proper
  | .error e => e = .typeError ∨ q = .error e

theorem sameOr_float {q : Except Err (Data R)} : SameOrTypeError (q.map (TArr.mk .float64)) q := by
  cases q with
  | error e => exact Or.inr rfl
  | ok Y => exact ⟨rfl, fun h => by cases h⟩

theorem sameOr_keep {q : Except Err (Data R)} {t : DType} (h : t = .int64 → ∀ Y, q = .ok Y → AllV IsInteger Y) :
    SameOrTypeError (q.map (TArr.mk t)) q := by
  cases q with
  | error e => exact Or.inr rfl
  | ok Y => exact ⟨rfl, fun ht => h ht Y rfl⟩

theorem sameOr_compiled {q : Except Err (Data R)} {t : DType} {pre : Except Err Unit} (h : ∀ e, pre = .error e → q = .error e) :
    SameOrTypeError (compiled pre t q) q := by
  cases t with
  | float64 => exact sameOr_float
  | int64 =>
    cases pre with
    | error e => exact Or.inr (h e rfl)
    | ok _ => exact Or.inl rfl

/-- A preparateur that keeps integers returns an `int64` array for an `int64` array. -/
theorem keepsInt_dtype [NpMath R] (T : FloatText R) : ∀ (p : Prep R) (C X Y : TArr R), p.KeepsInt → X.dtype = .int64 →
    p.transformT T C X = .ok Y → Y.dtype = .int64
  | .inc p, C, X, Y, hp, hX, h => by
    have hp : p.depth = 0 := hp
    simp only [Prep.transformT, if_pos hp, map_ok_iff] at h
    obtain ⟨_, _, rfl⟩ := h; exact hX
  | .cts p, C, X, Y, _, hX, h => by
    simp only [Prep.transformT, map_ok_iff] at h
    obtain ⟨_, _, rfl⟩ := h; exact hX
  | .dil p, C, X, Y, _, hX, h => by
    simp only [Prep.transformT, map_ok_iff] at h
    obtain ⟨_, _, rfl⟩ := h; exact hX
  | .pdd p, C, X, Y, _, hX, h => by
    simp only [Prep.transformT, map_ok_iff] at h
    obtain ⟨_, _, rfl⟩ := h; exact hX
  | .nrm b, C, X, Y, _, hX, h => by
    simp only [Prep.transformT, map_ok_iff] at h
    obtain ⟨_, _, rfl⟩ := h; exact hX
  | .win p, C, X, Y, _, hX, h => by
    simp only [Prep.transformT] at h
    cases hC : C.dtype with
    | int64 => rw [hC] at h; cases h
    | float64 =>
      rw [hC] at h
      simp only [map_ok_iff] at h
      obtain ⟨_, _, rfl⟩ := h; exact hX
  | .new none, C, X, Y, _, hX, h => by
    simp only [Prep.transformT] at h
    injection h with h; subst h; exact hX
  | .new (some p), C, X, Y, _, hX, h => by
    simp only [Prep.transformT] at h
    cases e : Prep.transformT T X p X with
    | error _ => rw [e] at h; cases h
    | ok Z =>
      rw [e, ok_bind, map_ok_iff] at h
      obtain ⟨_, _, rfl⟩ := h; exact hX
  | .dim p dims, C, X, Y, hp, hX, h => by
    simp only [Prep.transformT] at h
    cases e : selectDims dims X.data with
    | error _ => rw [e] at h; cases h
    | ok sub =>
      rw [e, ok_bind] at h
      cases e1 : Prep.transformT T ⟨X.dtype, sub⟩ p ⟨X.dtype, sub⟩ with
      | error _ => rw [e1] at h; cases h
      | ok Z =>
        rw [e1, ok_bind] at h
        cases e2 : deleteDims dims X.data with
        | error _ => rw [e2] at h; cases h
        | ok rest =>
          rw [e2, ok_bind, map_ok_iff] at h
          obtain ⟨W, _, rfl⟩ := h
          have : Z.dtype = .int64 := keepsInt_dtype T p ⟨X.dtype, sub⟩ ⟨X.dtype, sub⟩ Z hp hX e1
          change X.dtype.join Z.dtype = _
          rw [hX, this]; rfl

/-- **C164 (partial).** Every preparateur but `NRM` and truncating `NEW`: on integers stored as `int64` (and on floats) it
returns the numbers that it returns for the same numbers stored as floats, or the same error, or a `TypeError`; an `int64`
result consists of integers.  `C` is the input of the cache, of any type. -/
theorem C164_integers_partial [NpMath R] (T : FloatText R) : ∀ (p : Prep R) (C X : TArr R), p.NoTruncation → X.Proper →
    SameOrTypeError (p.transformT T C X) (p.transformC T C.data X.data)
  | .inc p, C, X, _, hX => by
    simp only [Prep.transformT, Prep.transformC]
    by_cases hd : p.depth = 0
    · rw [if_pos hd]
      apply sameOr_keep
      intro ht Y hY
      refine all_mapRowsM (fun x y hx hy => ?_) (hX ht) hY
      rw [hd] at hy
      injection hy with hy; subst hy; exact hx
    · rw [if_neg hd]; exact sameOr_compiled (fun e h => by cases h)
  | .std p, C, X, _, hX => sameOr_float
  | .mav p, C, X, _, hX => sameOr_compiled (fun e h => by
      cases hw : p.w with
      | none => rw [if_pos hw] at h; injection h with h; subst h; simp only [MAV.transform, hw]
      | some w => rw [if_neg (by simp [hw])] at h; cases h)
  | .lag, C, X, _, hX => sameOr_float
  | .ffn p, C, X, _, hX => sameOr_float
  | .rin p, C, X, _, hX => sameOr_compiled (fun e h => by
      cases hw : p.fitted with
      | none => rw [if_pos (by simp [hw])] at h; injection h with h; subst h; simp only [RIN.transform, hw]
      | some w => rw [if_neg (by simp [hw])] at h; cases h)
  | .rdw p, C, X, _, hX => sameOr_float
  | .jld p, C, X, _, hX => sameOr_compiled (fun e h => by
      cases hw : p.fitted with
      | none => rw [if_pos (by simp [hw])] at h; injection h with h; subst h; simp only [JLD.transform, hw]
      | some w => rw [if_neg (by simp [hw])] at h; cases h)
  | .spe p, C, X, _, hX => by
    simp only [Prep.transformT, Prep.transformC]
    by_cases hs : p.step.isNone = true
    · rw [if_pos hs]; exact sameOr_float
    · rw [if_neg hs]; exact sameOr_compiled (fun e h => by cases h)
  | .rpe p, C, X, _, hX => sameOr_compiled (fun e h => by
      by_cases hs : shape1 X.data ≠ 2
      · rw [if_pos hs] at h; injection h with h; subst h; simp only [RPE.transform, if_pos hs]
      · rw [if_neg hs] at h; cases h)
  | .cts p, C, X, _, hX => sameOr_keep (fun ht Y hY =>
      all_mapRowsM (fun x y hx hy => all_ctsRow IsInteger.zero hx hy) (hX ht) hY)
  | .qtc p, C, X, _, hX => sameOr_float
  | .func f, C, X, _, hX => sameOr_float
  | .dil p, C, X, _, hX => sameOr_keep (fun ht Y hY => by
      cases hf : p.fitted with
      | none => simp only [DIL.transform, hf] at hY; cases hY
      | some st =>
        simp only [DIL.transform, hf] at hY
        injection hY with hY; subst hY
        exact all_mapRows (fun x hx => all_foldl_fill IsInteger.zero (fun (y : List R) (e : ℕ × ℕ) => (pyClip y.length (e.1 : ℤ),
          pyClip y.length ((e.1 + st.2.getD e.2 0 : ℕ) : ℤ))) st.1.zipIdx x hx) (hX ht))
  | .win p, C, X, _, hX => by
    simp only [Prep.transformT, Prep.transformC]
    cases hC : C.dtype with
    | int64 => exact Or.inl rfl
    | float64 => exact sameOr_keep (fun ht Y hY => all_win IsInteger.zero (hX ht) hY)
  | .dot p, C, X, _, hX => sameOr_float
  | .pdd p, C, X, _, hX => sameOr_keep (fun ht Y hY => by
      cases hf : p.fitted with
      | none => simp only [PDD.transform, hf] at hY; cases hY
      | some st =>
        simp only [PDD.transform, hf] at hY
        injection hY with hY; subst hY
        exact all_mapRows (fun x hx => all_foldl_fill IsInteger.zero (fun (y : List R) (i : ℤ) => (pyClip y.length i,
          pyClip y.length (i + st.2))) st.1 x hx) (hX ht))
  | .dim p dims, C, X, hp, hX => by
    simp only [Prep.transformT, Prep.transformC]
    cases e : selectDims dims X.data with
    | error _ => exact Or.inr rfl
    | ok sub =>
      rw [ok_bind, ok_bind]
      have hsub : TArr.Proper ⟨X.dtype, sub⟩ := fun ht => all_select (hX ht) e
      have ih := C164_integers_partial T p ⟨X.dtype, sub⟩ ⟨X.dtype, sub⟩ hp hsub
      cases e1 : Prep.transformT T ⟨X.dtype, sub⟩ p ⟨X.dtype, sub⟩ with
      | error er =>
        rw [e1] at ih
        rcases ih with ih | ih
        · exact Or.inl ih
        · right
          change (Prep.transformC T sub p sub >>= _) = _
          have ih : Prep.transformC T sub p sub = .error er := ih
          rw [ih]; rfl
      | ok Z =>
        rw [e1] at ih
        have ih1 : Prep.transformC T sub p sub = .ok Z.data := ih.1
        rw [ih1, ok_bind, ok_bind]
        cases e2 : deleteDims dims X.data with
        | error _ => exact Or.inr rfl
        | ok rest =>
          rw [ok_bind, ok_bind]
          apply sameOr_keep
          intro ht Y hY
          have hj : X.dtype = .int64 ∧ Z.dtype = .int64 := by
            cases h1 : X.dtype <;> cases h2 : Z.dtype <;> rw [h1, h2] at ht <;> first | exact ⟨rfl, rfl⟩ | cases ht
          exact all_concat (all_delete (hX hj.1) e2) (ih.2 hj.2) hY
  | .new none, C, X, _, hX => ⟨rfl, fun ht => all_double (hX ht)⟩
  | .new (some p), C, X, hp, hX => by
    simp only [Prep.transformT, Prep.transformC]
    have ih := C164_integers_partial T p X X hp.1 hX
    cases e1 : Prep.transformT T X p X with
    | error er =>
      rw [e1] at ih
      rcases ih with ih | ih
      · exact Or.inl ih
      · right
        have ih : Prep.transformC T X.data p X.data = .error er := ih
        rw [ih]; rfl
    | ok Z =>
      rw [e1] at ih
      have ih1 : Prep.transformC T X.data p X.data = .ok Z.data := ih.1
      rw [ih1, ok_bind, ok_bind]
      cases e2 : appendDims X.data Z.data with
      | error _ => exact Or.inr rfl
      | ok W =>
        have hW : X.dtype = .int64 → AllV IsInteger W := fun ht =>
          all_append IsInteger.zero (hX ht) (ih.2 (keepsInt_dtype T p X X Z hp.2 ht e1)) e2
        change SameOrTypeError (.ok (storeData X.dtype W)) _
        rw [store_id hW]
        exact ⟨rfl, hW⟩

/-- The preparateurs of a slice one after the other, on float arrays. -/
def prepsC [NpMath R] (T : FloatText R) (C : Data R) (ps : List (Prep R)) (X : Data R) : Except Err (Data R) :=
  ps.foldlM (fun Y p => p.transformC T C Y) X

/-- **C164 (partial).** The same for a sequence of preparateurs. -/
theorem C164_sequences_partial [NpMath R] (T : FloatText R) (C : TArr R) : ∀ (ps : List (Prep R)) (X : TArr R),
    (∀ p ∈ ps, p.NoTruncation) → X.Proper → SameOrTypeError (prepsT T C ps X) (prepsC T C.data ps X.data)
  | [], X, _, hX => ⟨rfl, hX⟩
  | p :: ps, X, hp, hX => by
    have h1 := C164_integers_partial T p C X (hp p (by simp)) hX
    simp only [prepsT, prepsC, List.foldlM_cons]
    cases e : p.transformT T C X with
    | error er =>
      rw [e] at h1
      rcases h1 with h1 | h1
      · exact Or.inl h1
      · right
        have h1 : p.transformC T C.data X.data = .error er := h1
        rw [h1]; rfl
    | ok Y =>
      rw [e] at h1
      have h2 : p.transformC T C.data X.data = .ok Y.data := h1.1
      rw [h2, ok_bind, ok_bind]
      exact C164_sequences_partial T C ps Y (fun q hq => hp q (by simp [hq])) h1.2

/-- **C164.** On float arrays (data and cache) the typed model is the model of all other properties: nothing is truncated and
no `TypeError` is added. -/
theorem C164_floats [NpMath R] (T : FloatText R) : ∀ (p : Prep R) (C X : Data R),
    p.transformT T ⟨.float64, C⟩ ⟨.float64, X⟩ = (p.transformC T C X).map (TArr.mk .float64)
  | .inc p, C, X => by
    simp only [Prep.transformT, Prep.transformC]
    split_ifs <;> rfl
  | .std p, C, X => rfl
  | .nrm b, C, X => by
    simp only [Prep.transformT, Prep.transformC]
    congr 1
    funext Y
    exact store_id (fun h => by cases h)
  | .mav p, C, X => rfl
  | .lag, C, X => rfl
  | .ffn p, C, X => rfl
  | .rin p, C, X => rfl
  | .rdw p, C, X => rfl
  | .jld p, C, X => rfl
  | .spe p, C, X => by
    simp only [Prep.transformT, Prep.transformC]
    split_ifs <;> rfl
  | .rpe p, C, X => rfl
  | .cts p, C, X => rfl
  | .qtc p, C, X => rfl
  | .func f, C, X => rfl
  | .dil p, C, X => rfl
  | .win p, C, X => rfl
  | .dot p, C, X => rfl
  | .pdd p, C, X => rfl
  | .dim p dims, C, X => by
    simp only [Prep.transformT, Prep.transformC]
    cases e : selectDims dims X with
    | error _ => rfl
    | ok sub =>
      rw [ok_bind, ok_bind, C164_floats T p sub sub]
      cases e1 : Prep.transformC T sub p sub with
      | error _ => rfl
      | ok Y =>
        rw [ok_bind]
        change (deleteDims dims X >>= _) = _
        cases e2 : deleteDims dims X <;> rfl
  | .new none, C, X => rfl
  | .new (some p), C, X => by
    simp only [Prep.transformT, Prep.transformC]
    rw [C164_floats T p X X]
    cases e1 : Prep.transformC T X p X with
    | error _ => rfl
    | ok Y =>
      change (appendDims X Y).map _ = (appendDims X Y).map _
      congr 1
      funext W
      exact store_id (fun h => by cases h)

/-! ### Iterated sums -/

theorem batchLoopT_float (expf : R → R) (c : ISSConf R) (X : Data R) : ∀ (ws : List (IWord R)) (i k : ℕ) (D : Data R),
    c.batchLoopT expf .float64 X ws i k D = c.batchLoop expf X ws i k D
  | [], _, _, _ => rfl
  | .simple w :: ws, i, k, D => by
    simp only [ISSConf.batchLoopT, ISSConf.batchLoop]
    congr 1; funext D'
    exact batchLoopT_float expf c X ws _ _ _
  | .general w :: ws, i, k, D => by
    simp only [ISSConf.batchLoopT, ISSConf.batchLoop]
    congr 1; funext D'
    exact batchLoopT_float expf c X ws _ _ _

theorem batchLoopT_general (expf : R → R) (c : ISSConf R) (t : DType) (X : Data R) : ∀ (ws : List (IWord R)) (i k : ℕ)
    (D : Data R), (∀ w ∈ ws, ∃ g, w = .general g) → c.batchLoopT expf t X ws i k D = c.batchLoop expf X ws i k D
  | [], _, _, _, _ => rfl
  | .simple w :: ws, i, k, D, h => by
    obtain ⟨g, hg⟩ := h _ (List.mem_cons_self ..)
    cases hg
  | .general w :: ws, i, k, D, h => by
    simp only [ISSConf.batchLoopT, ISSConf.batchLoop]
    congr 1; funext D'
    exact batchLoopT_general expf c t X ws _ _ _ (fun w hw => h w (by simp [hw]))

theorem batchLoopT_simple (expf : R → R) (c : ISSConf R) (X : Data R) : ∀ (ws : List (IWord R)) (i k : ℕ) (D : Data R),
    (∃ w ∈ ws, ∃ s, w = .simple s) → (c.batchLoopT expf .int64 X ws i k D = .error .typeError ∨
      ∃ e, c.batchLoopT expf .int64 X ws i k D = .error e ∧ c.batchLoop expf X ws i k D = .error e)
  | [], _, _, _, h => by obtain ⟨_, hw, _⟩ := h; cases hw
  | .simple w :: ws, i, k, D, _ => Or.inl rfl
  | .general w :: ws, i, k, D, h => by
    simp only [ISSConf.batchLoopT, ISSConf.batchLoop]
    generalize setRows D k _ _ = r
    cases r with
    | error e => exact Or.inr ⟨e, rfl, rfl⟩
    | ok D' =>
      rw [ok_bind, ok_bind]
      apply batchLoopT_simple expf c X ws
      obtain ⟨v, hv, s, hs⟩ := h
      rcases List.mem_cons.1 hv with rfl | hv
      · cases hs
      · exact ⟨v, hv, s, hs⟩

/-- **C164.** An ISS object on an `int64` array: with general words only the iterated sums are those of the numbers stored as
floats; with at least one `SimpleWord` nothing is returned: a `TypeError` is raised, or an error that floats raise as well. -/
theorem C164_iss (expf : R → R) (c : ISSConf R) (t : DType) (X : Data R) :
    c.transformT expf ⟨.float64, X⟩ = c.transform expf X ∧
    ((∀ w ∈ c.words, ∃ g, w = .general g) → c.transformT expf ⟨t, X⟩ = c.transform expf X) ∧
    ((∃ w ∈ c.words, ∃ s, w = .simple s) → c.transformT expf ⟨.int64, X⟩ = .error .typeError ∨
      ∃ e, c.transformT expf ⟨.int64, X⟩ = .error e ∧ c.transform expf X = .error e) := by
  have htake : (c.words.drop 0).take c.words.length = c.words := by simp
  refine ⟨?_, fun h => ?_, fun h => ?_⟩
  · unfold ISSConf.transformT ISSConf.transform ISSConf.batch
    rw [htake]
    simp only [batchLoopT_float]
  · unfold ISSConf.transformT ISSConf.transform ISSConf.batch
    rw [htake]
    simp only [batchLoopT_general expf c t X c.words 0 0 _ h]
  · unfold ISSConf.transformT ISSConf.transform ISSConf.batch
    rw [htake]
    by_cases h0 : c.words.length = 0
    · obtain ⟨w, hw, _⟩ := h
      rw [List.length_eq_zero_iff.1 h0] at hw; cases hw
    · rw [if_neg h0, if_neg h0]
      cases e : c.nBatch 0 c.words.length with
      | error er => exact Or.inr ⟨er, rfl, rfl⟩
      | ok m => exact batchLoopT_simple expf c X c.words 0 0 _ h

/-! ### What `NRM` and `NEW` do -/

theorem truncZ_nrm {lo hi v : R} (h1 : lo ≤ v) (h2 : v ≤ hi) : truncZ (nrmVal lo hi v) = if lo < hi ∧ v = hi then 1 else 0 := by
  by_cases he : lo = hi
  · subst he
    rw [if_neg (fun h => lt_irrefl _ h.1), nrmVal, if_pos rfl]
    exact truncZ_zero_of_lt le_rfl one_pos
  · have hlt : lo < hi := lt_of_le_of_ne (h1.trans h2) he
    have hpos : 0 < hi - lo := sub_pos.2 hlt
    rw [nrmVal, if_neg he]
    by_cases hv : v = hi
    · subst hv
      rw [if_pos ⟨hlt, rfl⟩, div_self (ne_of_gt hpos)]
      exact truncZ_integer IsInteger.one
    · rw [if_neg (fun h => hv h.2)]
      apply truncZ_zero_of_lt
      · exact div_nonneg (sub_nonneg.2 h1) hpos.le
      · rw [div_lt_one hpos]
        exact sub_lt_sub_right (lt_of_le_of_ne h2 hv) lo

/-- **C164, the finding.** `NRM` on an `int64` array never raises and returns only zeros and ones: 1 where the value is the maximum
of its (non-constant) block, 0 everywhere else. -/
theorem C164_nrm_truncates [NpMath R] (T : FloatText R) (sd : Bool) (C : TArr R) (X : Data R) {m d n : ℕ} (hX : HasShape X m d n)
    (hd : 0 < d) (hn : 0 < n) : ∃ Y, (Prep.nrm sd).transformT T C ⟨.int64, X⟩ = .ok ⟨.int64, Y⟩ ∧ HasShape Y m d n ∧
      ∀ i < m, ∀ j < d, ∀ t < n,
        ((∃ p ∈ block sd d n j, at3 X i p.1 p.2 < at3 X i j t) ∧ (∀ p ∈ block sd d n j, at3 X i p.1 p.2 ≤ at3 X i j t) →
          at3 Y i j t = 1) ∧
        (¬ ((∃ p ∈ block sd d n j, at3 X i p.1 p.2 < at3 X i j t) ∧ ∀ p ∈ block sd d n j, at3 X i p.1 p.2 ≤ at3 X i j t) →
          at3 Y i j t = 0) := by
  obtain ⟨lo, hi, hlh, e⟩ := nrm_closed sd X hX hd hn
  refine ⟨(tab3 m d n fun i j t => truncZ (nrmVal (lo i j) (hi i j) (at3 X i j t))), ?_, hasShape_tab3 _, ?_⟩
  · simp only [Prep.transformT, e]
    change Except.ok _ = Except.ok _
    congr 1
    unfold storeData
    congr 1
    simp only [tab3, tab2, map_tab, DType.store]
  · intro i hi' j hj t ht
    rw [at3_tab3 hi' hj ht]
    obtain ⟨⟨⟨pl, hpl, hpl'⟩, hmin⟩, ⟨⟨pu, hpu, hpu'⟩, hmax⟩⟩ := hlh i hi' j hj
    have hself : (j, t) ∈ block sd d n j := ⟨hj, ht, Or.inr rfl⟩
    have h1 : lo i j ≤ at3 X i j t := hmin ⟨(j, t), hself, rfl⟩
    have h2 : at3 X i j t ≤ hi i j := hmax ⟨(j, t), hself, rfl⟩
    rw [truncZ_nrm h1 h2]
    have hpl' : at3 X i pl.1 pl.2 = lo i j := hpl'
    have hpu' : at3 X i pu.1 pu.2 = hi i j := hpu'
    have key : ((∃ p ∈ block sd d n j, at3 X i p.1 p.2 < at3 X i j t) ∧ ∀ p ∈ block sd d n j, at3 X i p.1 p.2 ≤ at3 X i j t) ↔
        lo i j < hi i j ∧ at3 X i j t = hi i j := by
      constructor
      · rintro ⟨⟨p, hp, hlt⟩, hall⟩
        have : at3 X i j t = hi i j := le_antisymm h2 (hpu' ▸ hall pu hpu)
        refine ⟨?_, this⟩
        rw [← this]
        exact lt_of_le_of_lt (hmin ⟨p, hp, rfl⟩) hlt
      · rintro ⟨hlt, hv⟩
        refine ⟨⟨pl, hpl, by rw [hpl', hv]; exact hlt⟩, fun p hp => ?_⟩
        rw [hv]
        exact hmax ⟨p, hp, rfl⟩
    constructor
    · intro h; rw [if_pos (key.1 h)]
    · intro h; rw [if_neg (fun h' => h (key.2 h'))]

/-- **C164, the finding.** `NEW(p)` on an `int64` array: the appended dimensions are those of the wrapped preparateur, every number
truncated towards zero. -/
theorem C164_new_truncates [NpMath R] (T : FloatText R) (p : Prep R) (C : TArr R) (X Y : Data R) (t : DType)
    (hX : AllV IsInteger X) (h : p.transformT T ⟨.int64, X⟩ ⟨.int64, X⟩ = .ok ⟨t, Y⟩) (hl : X.length = Y.length)
    (hs : shape2 Y = shape2 X) : (Prep.new (some p)).transformT T C ⟨.int64, X⟩ =
      .ok ⟨.int64, List.zipWith (fun s y => s ++ y.map fun x => x.map truncZ) X Y⟩ := by
  simp only [Prep.transformT, h, ok_bind, appendDims, if_pos hl, if_pos hs]
  change Except.ok _ = Except.ok _
  congr 1
  unfold storeData
  congr 1
  apply List.ext_getElem
  · simp
  · intro i h1 h2
    simp only [List.getElem_map, List.getElem_zipWith, List.map_append]
    congr 1
    have hi : i < X.length := by simp at h1; omega
    conv_rhs => rw [← List.map_id X[i]]
    apply List.map_congr_left
    intro x hx
    conv_rhs => rw [id, ← List.map_id x]
    apply List.map_congr_left
    intro v hv
    exact truncZ_integer (hX _ (List.getElem_mem hi) x hx v hv)

/-- **C164 is false** for `NRM` and for `NEW`: the integers 0, 1, 2 become 0, 0, 1 instead of 0, 1/2, 1, and `NEW` around the cut at
the quantile 1/2 appends 0, 0, 0 instead of 0, 1/2, 1/2, without any error. -/
theorem C164_counterexample [NpMath ℚ] (T : FloatText ℚ) (C : TArr ℚ) :
    ((Prep.nrm false).transformT T C ⟨.int64, [[[0, 1, 2]]]⟩).toOption = some ⟨.int64, [[[0, 0, 1]]]⟩ ∧
    ((Prep.nrm false).transformC T C.data [[[0, 1, 2]]]).toOption = some [[[0, 1 / 2, 1]]] ∧
    ((Prep.new (some (.qtc { q := 1 / 4, quantile := some (1 / 2) })) : Prep ℚ).transformT T C ⟨.int64, [[[0, 1, 2]]]⟩).toOption =
      some ⟨.int64, [[[0, 1, 2], [0, 0, 0]]]⟩ ∧
    ((Prep.new (some (.qtc { q := 1 / 4, quantile := some (1 / 2) })) : Prep ℚ).transformC T C.data [[[0, 1, 2]]]).toOption =
      some [[[0, 1, 2], [0, 1 / 2, 1 / 2]]] := by
  refine ⟨?_, ?_, ?_, ?_⟩
  · change ((NRM.transform false _).map _).toOption = _
    decide +kernel
  · change (NRM.transform false _).toOption = _
    decide +kernel
  · change (((QTC.transform _ _).map _ >>= _ : Except Err (TArr ℚ))).toOption = _
    decide +kernel
  · change ((QTC.transform _ _ >>= _ : Except Err (Data ℚ))).toOption = _
    decide +kernel

/-! ### Who raises -/

/-- The preparateurs that hand the data or the input of the cache to a compiled function. -/
def Prep.CallsCompiled : Prep R → Prop
  | .inc p => p.depth ≠ 0
  | .mav _ | .rin _ | .jld _ | .rpe _ | .win _ => True
  | .spe p => p.step.isSome
  | .dim p _ => p.CallsCompiled
  | .new (some p) => p.CallsCompiled
  | _ => False

theorem data_keep {q : Except Err (Data R)} {t : DType} : (q.map (TArr.mk t)).map TArr.data = q := by cases q <;> rfl

/-- **C164 (partial).** A preparateur that calls no compiled function and does not truncate never adds a `TypeError`: it returns
for an `int64` array exactly the numbers, or the error, of the float array. -/
theorem C164_no_type_error_partial [NpMath R] (T : FloatText R) : ∀ (p : Prep R) (C X : TArr R), p.NoTruncation →
    ¬ p.CallsCompiled → X.Proper → (p.transformT T C X).map TArr.data = p.transformC T C.data X.data
  | .inc p, C, X, _, hc, _ => by
    have hd : p.depth = 0 := not_not.1 hc
    simp only [Prep.transformT, Prep.transformC, if_pos hd]
    exact data_keep
  | .std p, C, X, _, _, _ => data_keep
  | .lag, C, X, _, _, _ => data_keep
  | .ffn p, C, X, _, _, _ => data_keep
  | .rdw p, C, X, _, _, _ => data_keep
  | .cts p, C, X, _, _, _ => data_keep
  | .qtc p, C, X, _, _, _ => data_keep
  | .func f, C, X, _, _, _ => data_keep
  | .dil p, C, X, _, _, _ => data_keep
  | .dot p, C, X, _, _, _ => data_keep
  | .pdd p, C, X, _, _, _ => data_keep
  | .mav p, C, X, _, hc, _ => absurd trivial hc
  | .rin p, C, X, _, hc, _ => absurd trivial hc
  | .jld p, C, X, _, hc, _ => absurd trivial hc
  | .rpe p, C, X, _, hc, _ => absurd trivial hc
  | .win p, C, X, _, hc, _ => absurd trivial hc
  | .nrm p, C, X, hp, _, _ => hp.elim
  | .spe p, C, X, _, hc, _ => by
    have hs : p.step.isNone = true := by
      have : ¬ p.step.isSome = true := hc
      cases h : p.step with
      | none => rfl
      | some _ => rw [h] at this; simp at this
    simp only [Prep.transformT, Prep.transformC, if_pos hs]
    exact data_keep
  | .dim p dims, C, X, hp, hc, hX => by
    simp only [Prep.transformT, Prep.transformC]
    cases e : selectDims dims X.data with
    | error _ => rfl
    | ok sub =>
      rw [ok_bind, ok_bind]
      have ih := C164_no_type_error_partial T p ⟨X.dtype, sub⟩ ⟨X.dtype, sub⟩ hp hc (fun ht => all_select (hX ht) e)
      have ih : _ = Prep.transformC T sub p sub := ih
      rw [← ih]
      cases e1 : Prep.transformT T ⟨X.dtype, sub⟩ p ⟨X.dtype, sub⟩ with
      | error er => rfl
      | ok Z =>
        change (deleteDims dims X.data >>= _).map _ = (deleteDims dims X.data >>= _)
        cases e2 : deleteDims dims X.data with
        | error _ => rfl
        | ok rest => exact data_keep
  | .new none, C, X, _, _, _ => rfl
  | .new (some p), C, X, hp, hc, hX => by
    have h1 := C164_integers_partial T (.new (some p)) C X hp hX
    have ih := C164_no_type_error_partial T p X X hp.1 hc hX
    cases e : (Prep.new (some p)).transformT T C X with
    | ok Y => rw [e] at h1; exact h1.1.symm
    | error er =>
      simp only [Prep.transformT] at e
      simp only [Prep.transformC]
      rw [← ih]
      cases e1 : Prep.transformT T X p X with
      | error er' =>
        rw [e1] at e
        injection e with e; subst e; rfl
      | ok Z =>
        rw [e1, ok_bind, map_error_iff] at e
        change _ = appendDims X.data Z.data
        rw [e]; rfl

/-- **C164.** A preparateur that calls a compiled function returns nothing for `int64` data with a cache of `int64` data: it
raises. -/
theorem C164_compiled_raises [NpMath R] (T : FloatText R) : ∀ (p : Prep R) (C X : TArr R), p.CallsCompiled →
    C.dtype = .int64 → X.dtype = .int64 → ∀ Y, p.transformT T C X ≠ .ok Y
  | .inc p, C, X, hc, _, hX, Y, h => by
    have hd : p.depth ≠ 0 := hc
    simp only [Prep.transformT, if_neg hd, hX] at h
    cases h
  | .mav p, C, X, _, _, hX, Y, h => by
    simp only [Prep.transformT, hX, compiled] at h
    split_ifs at h <;> cases h
  | .rin p, C, X, _, _, hX, Y, h => by
    simp only [Prep.transformT, hX, compiled] at h
    split_ifs at h <;> cases h
  | .jld p, C, X, _, _, hX, Y, h => by
    simp only [Prep.transformT, hX, compiled] at h
    split_ifs at h <;> cases h
  | .rpe p, C, X, _, _, hX, Y, h => by
    simp only [Prep.transformT, hX, compiled] at h
    split_ifs at h <;> cases h
  | .win p, C, X, _, hC, _, Y, h => by
    simp only [Prep.transformT, hC] at h
    cases h
  | .spe p, C, X, hc, hC, _, Y, h => by
    have hs : ¬ p.step.isNone = true := by
      have : p.step.isSome = true := hc
      cases h : p.step with
      | none => rw [h] at this; simp at this
      | some _ => simp
    simp only [Prep.transformT, if_neg hs, hC] at h
    cases h
  | .dim p dims, C, X, hc, _, hX, Y, h => by
    simp only [Prep.transformT] at h
    cases e : selectDims dims X.data with
    | error _ => rw [e] at h; cases h
    | ok sub =>
      rw [e, ok_bind] at h
      cases e1 : Prep.transformT T ⟨X.dtype, sub⟩ p ⟨X.dtype, sub⟩ with
      | error _ => rw [e1] at h; cases h
      | ok Z => exact C164_compiled_raises T p ⟨X.dtype, sub⟩ ⟨X.dtype, sub⟩ hc hX hX Z e1
  | .new none, C, X, hc, _, _, Y, h => hc
  | .new (some p), C, X, hc, _, hX, Y, h => by
    simp only [Prep.transformT] at h
    cases e1 : Prep.transformT T X p X with
    | error _ => rw [e1] at h; cases h
    | ok Z => exact C164_compiled_raises T p X X hc hX hX Z e1

/-! ### Examples -/

/-- The theorems apply to: `NEW` around a `DIM` around a time shift, on integers, which returns an `int64` array. -/
example [NpMath ℚ] (T : FloatText ℚ) (C : TArr ℚ) :
    let p : Prep ℚ := .new (some (.dim (.cts { s := 1 }) [0]))
    p.NoTruncation ∧ ¬ p.CallsCompiled ∧ TArr.Proper (⟨.int64, [[[3, -1, 4], [1, 5, 9]]]⟩ : TArr ℚ) ∧
    (p.transformT T C ⟨.int64, [[[3, -1, 4], [1, 5, 9]]]⟩).toOption =
      some ⟨.int64, [[[3, -1, 4], [1, 5, 9], [1, 5, 9], [-1, 4, 4]]]⟩ := by
  refine ⟨⟨trivial, trivial⟩, id, ?_, ?_⟩
  · intro _ s hs x hx v hv
    simp only [List.mem_singleton] at hs
    subst hs
    simp only [List.mem_cons, List.not_mem_nil, or_false] at hx
    rcases hx with rfl | rfl <;> simp only [List.mem_cons, List.not_mem_nil, or_false] at hv <;>
      rcases hv with rfl | rfl | rfl
    · exact ⟨3, by norm_num⟩
    · exact ⟨-1, by norm_num⟩
    · exact ⟨4, by norm_num⟩
    · exact ⟨1, by norm_num⟩
    · exact ⟨5, by norm_num⟩
    · exact ⟨9, by norm_num⟩
  · simp only [Prep.transformT]
    decide +kernel

/-- `INC` raises a `TypeError` for integers and works for floats. -/
example [NpMath ℚ] (T : FloatText ℚ) (C : TArr ℚ) :
    (Prep.inc { shift := .int 1 }).transformT T C ⟨.int64, [[[3, -1, 4]]]⟩ = .error .typeError ∧
    ((Prep.inc { shift := .int 1 }).transformT T C ⟨.float64, [[[3, -1, 4]]]⟩).toOption = some ⟨.float64, [[[0, -4, 5]]]⟩ := by
  refine ⟨rfl, ?_⟩
  simp only [Prep.transformT]
  decide +kernel

/-- A general word with two letters that read the first dimension, on integers; a `SimpleWord` with the same sums works for
floats and raises for integers. -/
example :
    let letter : ELetter ℚ := ⟨[fun d Z => Z.getD (d - 1).toNat []], [1], "DIM(1)".toList⟩
    let g : ISSConf ℚ := ⟨[.general { els := [letter, letter] }], .single, .reals, none⟩
    let s : ISSConf ℚ := ⟨[.simple { els := [[1], [1]], maxDim := 1, name := "[1][1]".toList }], .single, .reals, none⟩
    (g.transformT (fun _ => 1) ⟨.int64, [[[1, 2, 3]]]⟩).toOption = some [[[0, 2, 11]]] ∧
    (s.transformT (fun _ => 1) ⟨.float64, [[[1, 2, 3]]]⟩).toOption = some [[[0, 2, 11]]] ∧
    s.transformT (fun _ => 1) ⟨.int64, [[[1, 2, 3]]]⟩ = .error .typeError := by
  refine ⟨?_, ?_, rfl⟩ <;> decide +kernel

end Fruits
