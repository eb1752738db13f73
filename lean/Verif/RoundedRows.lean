import Verif.RoundedKernels

/-! # The rounded kernels as a recursion over the extended letters -/

namespace Fruits
set_option linter.unusedSectionVars false
variable {R : Type} [Field R] [LinearOrder R] [IsStrictOrderedRing R]
variable (F : Fp R) (expf : R → R)

/-- The part of iteration `k` before a row is saved. -/
def Fp.preK (k : RKind) (total : Bool) (Z : List (List R)) (alpha w : List R) (i : ℕ) (el : List ℤ)
    (tmp : List R) : List R :=
  match k, total with
  | .reals, true => F.cumsum (F.vmul (F.lettersMul Z el tmp) (F.expW expf w (alpha.getD i 0)))
  | .reals, false =>
    let tmp := if i > 0 then roll1z tmp else tmp
    let tmp := F.lettersMul Z el tmp
    if i > 0 then F.vmul tmp (F.expNegW expf w (alpha.getD (i - 1) 0)) else tmp
  | .arctic, true => maxLoop (F.vadd (F.lettersAdd Z el tmp) (F.vscale w (alpha.getD i 0)))
  | .arctic, false =>
    let tmp := F.lettersAdd Z el tmp
    if i > 0 then F.vsub tmp (F.vscale w (alpha.getD (i - 1) 0)) else tmp
  | .bayesian, true => maxLoop (F.vmul (F.lettersMul Z el tmp) (F.expW expf w (alpha.getD i 0)))
  | .bayesian, false =>
    let tmp := F.lettersMul Z el tmp
    if i > 0 then F.vmul tmp (F.expNegW expf w (alpha.getD (i - 1) 0)) else tmp

/-- The saved row. -/
def Fp.outK (k : RKind) (total : Bool) (n : ℕ) (alpha w : List R) (i : ℕ) (tmp : List R) : List R :=
  match k, total with
  | .reals, true => F.vmul tmp (F.expNegW expf w (alpha.getD i 0))
  | .reals, false => F.cumsum tmp
  | .arctic, true => F.vsub tmp (F.vscale w (alpha.getD i 0))
  | .arctic, false => maxRowLoop (zeros n) tmp
  | .bayesian, true => F.vmul tmp (F.expNegW expf w (alpha.getD i 0))
  | .bayesian, false => maxRowLoop (ones n) tmp

/-- The rest of the iteration, if another letter follows. -/
def Fp.postK (k : RKind) (total : Bool) (alpha w : List R) (i : ℕ) (tmp : List R) : List R :=
  match k, total with
  | .reals, true => F.vmul (roll1z tmp) (F.expNegW expf w (alpha.getD i 0))
  | .reals, false => F.cumsum (F.vmul tmp (F.expW expf w (alpha.getD i 0)))
  | .arctic, true => F.vsub tmp (F.vscale w (alpha.getD i 0))
  | .arctic, false => maxLoop (F.vadd tmp (F.vscale w (alpha.getD i 0)))
  | .bayesian, true => F.vmul tmp (F.expNegW expf w (alpha.getD i 0))
  | .bayesian, false => maxLoop (F.vmul tmp (F.expW expf w (alpha.getD i 0)))

/-- `tmp` at the start. -/
def initK (k : RKind) (n : ℕ) : List R :=
  match k with
  | .arctic => zeros n
  | _ => ones n

/-- `tmp` before iteration `i`. -/
def Fp.tmpK (k : RKind) (total : Bool) (Z : List (List R)) (n : ℕ) (word : List (List ℤ)) (alpha w : List R) : ℕ → List R
  | 0 => initK k n
  | i + 1 => F.postK expf k total alpha w i
      (F.preK expf k total Z alpha w i (word.getD i []) (Fp.tmpK k total Z n word alpha w i))

/-- The row of the prefix with `i + 1` letters. -/
def Fp.rowK (k : RKind) (total : Bool) (Z : List (List R)) (n : ℕ) (word : List (List ℤ)) (alpha w : List R) (i : ℕ) :
    List R :=
  F.outK expf k total n alpha w i
    (F.preK expf k total Z alpha w i (word.getD i []) (F.tmpK expf k total Z n word alpha w i))

theorem Fp.fastSingle_rows (k : RKind) (total : Bool) (Z : List (List R)) (word : List (List ℤ)) (alpha w : List R)
    {ext : ℕ} (he : ext ≤ word.length) :
    F.fastSingle expf k Z word alpha w ext total
      = tab ext fun r => F.rowK expf k total Z (ncols Z) word alpha w (word.length - ext + r) := by
  have fin : ∀ (f : ℕ → List ℤ → List R × List (List R) → List R × List (List R)) (tmp0 B : List R),
      (word ≠ [] → tmp0 = F.tmpK expf k total Z (ncols Z) word alpha w 0) →
      (∀ i (hi : i < word.length) tmp res, tmp = F.tmpK expf k total Z (ncols Z) word alpha w i →
        (word.length - i ≤ ext → res.getD (ext - (word.length - i)) [] = B) →
        ∃ tmp' v, f i word[i] (tmp, res) =
          (tmp', if word.length - i ≤ ext then res.set (ext - (word.length - i)) v else res) ∧
          (word.length - i ≤ ext → v = F.rowK expf k total Z (ncols Z) word alpha w i) ∧
          (i + 1 < word.length → tmp' = F.tmpK expf k total Z (ncols Z) word alpha w (i + 1))) →
      (enumFold f 0 word (tmp0, List.replicate ext B)).2
        = tab ext fun r => F.rowK expf k total Z (ncols Z) word alpha w (word.length - ext + r) := by
    intro f tmp0 B h0 hs
    obtain ⟨h1, h2⟩ := kernel_inv word ext he
      (fun i tmp => tmp = F.tmpK expf k total Z (ncols Z) word alpha w i)
      (fun i v => v = F.rowK expf k total Z (ncols Z) word alpha w i) B f tmp0 h0 hs
    refine eq_tab h1 fun r hr => ?_
    rw [← h2 r (by omega)]
    simp [List.getD_eq_getElem?_getD, hr]
  have hg : ∀ i (hi : i < word.length), word.getD i [] = word[i] := fun i hi => by
    simp [List.getD_eq_getElem?_getD, hi]
  cases k <;> cases total <;>
  · refine fin _ _ _ (fun _ => rfl) ?_
    intro i hi tmp res htmp hres
    refine ⟨_, _, rfl, ?_, ?_⟩
    · intro h
      simp only [Fp.rowK, hg i hi, ← htmp, Fp.outK, Fp.preK]
      try rw [hres h]
    · intro h
      simp only [Fp.tmpK, hg i hi, ← htmp, Fp.postK, Fp.preK]
      rw [if_pos (by omega)]

/-! ### truncation -/

/-- `v` and its first `m` entries. -/
def Trunc (n m : ℕ) (v v' : List R) : Prop := ∃ x : ℕ → R, v = tab n x ∧ v' = tab m x

variable {n m : ℕ}

omit [LinearOrder R] [IsStrictOrderedRing R] in
theorem Trunc.of_take {v : List R} (h : v.length = n) (hm : m ≤ n) : Trunc n m v (v.take m) := by
  have e : v = tab n fun t => v.getD t 0 := by rw [← h]; exact tab_of_list _ _
  refine ⟨_, e, ?_⟩
  conv_lhs => rw [e]
  rw [take_tab, min_eq_left hm]

omit [Field R] [LinearOrder R] [IsStrictOrderedRing R] in
theorem Trunc.eq_take {v v' : List R} (h : Trunc n m v v') (hm : m ≤ n) : v' = v.take m := by
  obtain ⟨x, rfl, rfl⟩ := h
  rw [take_tab, min_eq_left hm]

omit [Field R] [LinearOrder R] [IsStrictOrderedRing R] in
theorem Trunc.zip {v v' y y' : List R} (h : Trunc n m v v') (h' : Trunc n m y y') (f : R → R → R) :
    Trunc n m (List.zipWith f v y) (List.zipWith f v' y') := by
  obtain ⟨x, rfl, rfl⟩ := h
  obtain ⟨z, rfl, rfl⟩ := h'
  exact ⟨_, zipWith_tab _ _ _ _, zipWith_tab _ _ _ _⟩

omit [Field R] [LinearOrder R] [IsStrictOrderedRing R] in
theorem Trunc.map {v v' : List R} (h : Trunc n m v v') (f : R → R) : Trunc n m (v.map f) (v'.map f) := by
  obtain ⟨x, rfl, rfl⟩ := h
  exact ⟨_, map_tab _ _ _, map_tab _ _ _⟩

omit [LinearOrder R] [IsStrictOrderedRing R] in
theorem Trunc.roll {v v' : List R} (h : Trunc n m v v') : Trunc n m (roll1z v) (roll1z v') := by
  obtain ⟨x, rfl, rfl⟩ := h
  exact ⟨_, roll1z_tab _ _, roll1z_tab _ _⟩

theorem Trunc.cumsum {v v' : List R} (h : Trunc n m v v') : Trunc n m (F.cumsum v) (F.cumsum v') := by
  obtain ⟨x, rfl, rfl⟩ := h
  exact ⟨_, F.cumsum_tab _ _, F.cumsum_tab _ _⟩

omit [IsStrictOrderedRing R] in
theorem Trunc.maxLoop {v v' : List R} (h : Trunc n m v v') : Trunc n m (Fruits.maxLoop v) (Fruits.maxLoop v') := by
  obtain ⟨x, rfl, rfl⟩ := h
  exact ⟨_, maxLoop_tab _ _, maxLoop_tab _ _⟩

omit [IsStrictOrderedRing R] in
theorem Trunc.maxRow {v v' : List R} (h : Trunc n m v v') (c : R) :
    Trunc n m (maxRowLoop (List.replicate n c) v) (maxRowLoop (List.replicate m c) v') := by
  obtain ⟨x, rfl, rfl⟩ := h
  rw [replicate_eq_tab, replicate_eq_tab]
  exact ⟨_, maxRowLoop_tab _ _ _, maxRowLoop_tab _ _ _⟩

omit [Field R] [LinearOrder R] [IsStrictOrderedRing R] in
theorem Trunc.iter {v v' y y' : List R} (h : Trunc n m v v') (h' : Trunc n m y y') (f : R → R → R) (j : ℕ) :
    Trunc n m ((fun t => List.zipWith f t y)^[j] v) ((fun t => List.zipWith f t y')^[j] v') := by
  induction j with
  | zero => exact h
  | succ j ih => rw [Function.iterate_succ_apply', Function.iterate_succ_apply']; exact ih.zip h' f

/-- Truncated series. -/
structure TruncZ (n m : ℕ) (Z Z' : List (List R)) : Prop where
  rows : ∀ d < Z.length, Trunc n m (row Z d) (row Z' d)
  cols : ncols Z = n
  cols' : ncols Z' = m

omit [IsStrictOrderedRing R] [LinearOrder R] in
theorem TruncZ.of_take {Z : List (List R)} (hZ : Rect Z n) (hne : Z ≠ []) (hm : m ≤ n) :
    TruncZ n m Z (Z.map (List.take m)) := by
  refine ⟨fun d hd => ?_, ncols_eq hZ hne, ?_⟩
  · have e : row (Z.map (List.take m)) d = (row Z d).take m := by
      simp [row, List.getD_eq_getElem?_getD, hd]
    rw [e]
    refine Trunc.of_take (hZ _ ?_) hm
    rw [row, List.getD_eq_getElem?_getD, List.getElem?_eq_getElem hd]
    exact List.getElem_mem hd
  · refine ncols_eq ?_ (by simpa using hne)
    intro x hx
    obtain ⟨y, hy, rfl⟩ := List.mem_map.1 hx
    rw [List.length_take, hZ y hy, min_eq_left hm]

theorem enumFold_related {α σ τ : Type*} (P : σ → τ → Prop) (f : ℕ → α → σ → σ) (g : ℕ → α → τ → τ) (b : ℕ)
    (h : ∀ i a s t, i < b → P s t → P (f i a s) (g i a t)) (k : ℕ) (xs : List α) (hk : k + xs.length ≤ b)
    (s : σ) (t : τ) (h0 : P s t) : P (enumFold f k xs s) (enumFold g k xs t) := by
  induction xs generalizing k s t with
  | nil => exact h0
  | cons x xs ih =>
    simp only [List.length_cons] at hk
    exact ih (k + 1) (by omega) _ _ (h k x s t (by omega) h0)

theorem Trunc.lettersMul {Z Z' : List (List R)} (hZ : TruncZ n m Z Z') {el : List ℤ} (hel : el.length ≤ Z.length)
    {v v' : List R} (h : Trunc n m v v') : Trunc n m (F.lettersMul Z el v) (F.lettersMul Z' el v') := by
  refine enumFold_related (Trunc n m) _ _ Z.length (fun d occ s t hd hst => ?_) 0 el (by omega) v v' h
  unfold Fp.letterMul
  by_cases h1 : occ > 0
  · rw [if_pos h1, if_pos h1]
    exact hst.iter (hZ.rows d hd) _ _
  · rw [if_neg h1, if_neg h1]
    by_cases h2 : occ < 0
    · rw [if_pos h2, if_pos h2]
      exact hst.iter (hZ.rows d hd) _ _
    · rw [if_neg h2, if_neg h2]; exact hst

theorem Trunc.lettersAdd {Z Z' : List (List R)} (hZ : TruncZ n m Z Z') {el : List ℤ} (hel : el.length ≤ Z.length)
    {v v' : List R} (h : Trunc n m v v') : Trunc n m (F.lettersAdd Z el v) (F.lettersAdd Z' el v') := by
  refine enumFold_related (Trunc n m) _ _ Z.length (fun d e s t hd hst => ?_) 0 el (by omega) v v' h
  exact hst.zip ((hZ.rows d hd).map fun x => F.rnd ((e : R) * x)) _

section
variable {Z Z' : List (List R)} {word : List (List ℤ)} {alpha w w' : List R}

theorem Trunc.preK (k : RKind) (total : Bool) (hZ : TruncZ n m Z Z') (hw : Trunc n m w w') (i : ℕ) {el : List ℤ}
    (hel : el.length ≤ Z.length) {v v' : List R} (h : Trunc n m v v') :
    Trunc n m (F.preK expf k total Z alpha w i el v) (F.preK expf k total Z' alpha w' i el v') := by
  cases k <;> cases total <;> simp only [Fp.preK]
  · by_cases hi : i > 0
    · simp only [if_pos hi]
      exact (Trunc.lettersMul F hZ hel h.roll).zip (hw.map _) _
    · simp only [if_neg hi]
      exact Trunc.lettersMul F hZ hel h
  · exact Trunc.cumsum F ((Trunc.lettersMul F hZ hel h).zip (hw.map _) _)
  · by_cases hi : i > 0
    · simp only [if_pos hi]
      exact (Trunc.lettersAdd F hZ hel h).zip (hw.map _) _
    · simp only [if_neg hi]
      exact Trunc.lettersAdd F hZ hel h
  · exact ((Trunc.lettersAdd F hZ hel h).zip (hw.map _) _).maxLoop
  · by_cases hi : i > 0
    · simp only [if_pos hi]
      exact (Trunc.lettersMul F hZ hel h).zip (hw.map _) _
    · simp only [if_neg hi]
      exact Trunc.lettersMul F hZ hel h
  · exact ((Trunc.lettersMul F hZ hel h).zip (hw.map _) _).maxLoop

theorem Trunc.outK (k : RKind) (total : Bool) (hw : Trunc n m w w') (i : ℕ) {v v' : List R} (h : Trunc n m v v') :
    Trunc n m (F.outK expf k total n alpha w i v) (F.outK expf k total m alpha w' i v') := by
  cases k <;> cases total <;> simp only [Fp.outK]
  · exact Trunc.cumsum F h
  · exact h.zip (hw.map _) _
  · exact h.maxRow 0
  · exact h.zip (hw.map _) _
  · exact h.maxRow 1
  · exact h.zip (hw.map _) _

theorem Trunc.postK (k : RKind) (total : Bool) (hw : Trunc n m w w') (i : ℕ) {v v' : List R} (h : Trunc n m v v') :
    Trunc n m (F.postK expf k total alpha w i v) (F.postK expf k total alpha w' i v') := by
  cases k <;> cases total <;> simp only [Fp.postK]
  · exact Trunc.cumsum F (h.zip (hw.map _) _)
  · exact h.roll.zip (hw.map _) _
  · exact (h.zip (hw.map _) _).maxLoop
  · exact h.zip (hw.map _) _
  · exact (h.zip (hw.map _) _).maxLoop
  · exact h.zip (hw.map _) _

theorem Trunc.rowK (k : RKind) (total : Bool) (hZ : TruncZ n m Z Z') (hw : Trunc n m w w')
    (hfit : ∀ el ∈ word, el.length ≤ Z.length) (i : ℕ) :
    Trunc n m (F.rowK expf k total Z n word alpha w i) (F.rowK expf k total Z' m word alpha w' i) := by
  have hel : ∀ i, (word.getD i []).length ≤ Z.length := fun i => by
    rcases Nat.lt_or_ge i word.length with h | h
    · rw [List.getD_eq_getElem?_getD, List.getElem?_eq_getElem h]
      exact hfit _ (List.getElem_mem h)
    · rw [List.getD_eq_getElem?_getD, List.getElem?_eq_none h]; simp
  have ht : ∀ i, Trunc n m (F.tmpK expf k total Z n word alpha w i) (F.tmpK expf k total Z' m word alpha w' i) := by
    intro i
    induction i with
    | zero =>
      cases k
      · exact ⟨fun _ => 1, replicate_eq_tab _ _, replicate_eq_tab _ _⟩
      · exact ⟨fun _ => 0, replicate_eq_tab _ _, replicate_eq_tab _ _⟩
      · exact ⟨fun _ => 1, replicate_eq_tab _ _, replicate_eq_tab _ _⟩
    | succ i ih => exact Trunc.postK F expf k total hw i (Trunc.preK F expf k total hZ hw i (hel i) ih)
  exact Trunc.outK F expf k total hw i (Trunc.preK F expf k total hZ hw i (hel i) (ht i))

end

end Fruits
