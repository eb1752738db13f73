import Verif.Sieve
import Verif.Props.Prep10

/-! # C59 – C62: segments, MAX, MIN, END -/

namespace Fruits
set_option linter.unusedSectionVars false

variable {R : Type} [Field R] [LinearOrder R] [IsStrictOrderedRing R] [FloorRing R]

/-! ### Specification -/

/-- `X.shape == (m, n)`. -/
def HasShape2 {R : Type*} (X : List (List R)) (m n : ℕ) : Prop := X.length = m ∧ ∀ r ∈ X, r.length = n

/-- The time index a cut stands for, in series `i` of length `n`: an integer `k ≥ 0` itself, a negative one counted from
behind (`-1` is the end), a float the coquantile of the series `i` of the cache input `C`. -/
def cutPos (C : Data R) (nm : Norm) (n i : ℕ) : Cut R → ℕ
  | .int k => if 0 ≤ k then k.toNat else (n + 1 + k).toNat
  | .float f => coqSpec nm (at3 C i 0) n f

/-- The cut lies in the series. -/
def Cut.InRange (n : ℕ) : Cut R → Prop
  | .int k => -(n + 1 : ℤ) ≤ k ∧ k ≤ n
  | .float _ => True

/-- The ends of the segments of series `i`: zero and the cut positions in increasing order. -/
def bounds (C : Data R) (p : Seg R) (n i : ℕ) : List ℕ :=
  (0 :: p.cut.map (cutPos C p.norm n i)).insertionSort (· ≤ ·)

/-- The values of segment `j` of the row `x`. -/
def segVals (b : List ℕ) (j : ℕ) (x : List R) : List R := (x.take (b.getD (j + 1) 0)).drop (b.getD j 0)

/-! ### Lemmas about the model -/

theorem HasShape2.eq_tab {R : Type} [Zero R] {X : List (List R)} {m n : ℕ} (h : HasShape2 X m n) : X = tab2 m n (at2 X) :=
  series_eq_tab2 h.1 h.2

theorem HasShape2.row {R : Type} [Zero R] {X : List (List R)} {m n : ℕ} (h : HasShape2 X m n) {i : ℕ} (hi : i < m) :
    X.getD i [] = tab n (at2 X i) := by
  conv_lhs => rw [h.eq_tab]
  rw [tab2, getD_tab hi]

theorem HasShape2.rowLen_eq {R : Type} [Zero R] {X : List (List R)} {m n : ℕ} (h : HasShape2 X m n) (hm : 0 < m) : rowLen X = n := by
  unfold rowLen
  rw [h.row hm, tab_length]

theorem cutPos_le (C : Data R) (nm : Norm) (n i : ℕ) (c : Cut R) (hc : c.InRange n) : cutPos C nm n i c ≤ n := by
  cases c with
  | int k =>
    simp only [cutPos, Cut.InRange] at hc ⊢
    split <;> omega
  | float f => exact coqSpec_le _ _ _ _

theorem norm_str_text (nm : Norm) : nm.str = nm.text := by cases nm <;> rfl

theorem cutColumn_eq (T : FloatText R) (hT : T.Lawful) (C : Data R) (p : Seg R) {m dc n : ℕ} (hC : HasShape C m dc n)
    (hdc : 0 < dc) (hn : 0 < n) (c : Cut R) (hc : c.InRange n) :
    p.cutColumn T C m n c = .ok (tab m fun i => ((cutPos C p.norm n i c : ℕ) : ℤ)) := by
  cases c with
  | int k =>
    simp only [Seg.cutColumn, cutPos, Cut.InRange] at hc ⊢
    rw [replicate_eq_tab]
    congr 1
    apply tab_congr
    intro i _
    split <;> omega
  | float f =>
    simp only [Seg.cutColumn, cutPos]
    rw [norm_str_text, coqs_eq T hT C hC hdc hn, ok_bind, if_pos (by simp), map_tab]
    rfl

theorem cuts_eq (T : FloatText R) (hT : T.Lawful) (C : Data R) (p : Seg R) {m dc n : ℕ} (hC : HasShape C m dc n)
    (hdc : 0 < dc) (hn : 0 < n) (hp : ∀ c ∈ p.cut, c.InRange n) :
    p.cuts T C m n = .ok (tab m fun i => (bounds C p n i).map fun k : ℕ => (k : ℤ)) := by
  unfold Seg.cuts
  have h : p.cut.mapM (p.cutColumn T C m n) = .ok (p.cut.map fun c => tab m fun i => ((cutPos C p.norm n i c : ℕ) : ℤ)) :=
    mapM_ok_map fun c hc => cutColumn_eq T hT C p hC hdc hn c (hp c hc)
  rw [h, ok_bind]
  show Except.ok _ = _
  congr 1
  apply tab_congr
  intro i hi
  unfold bounds
  rw [List.map_insertionSort (r := (· ≤ ·)) (s := (· ≤ ·)) (f := fun k : ℕ => (k : ℤ)) (hl := by
    intro a _ b _; exact Int.ofNat_le.symm)]
  congr 1
  rw [List.map_cons, List.map_map, List.map_map]
  congr 1
  apply List.map_congr_left
  intro c _
  simp only [Function.comp]
  rw [getD_tab hi]

theorem bounds_length (C : Data R) (p : Seg R) (n i : ℕ) : (bounds C p n i).length = p.cut.length + 1 := by
  unfold bounds
  rw [List.length_insertionSort]; simp

theorem bounds_perm (C : Data R) (p : Seg R) (n i : ℕ) :
    (bounds C p n i).Perm (0 :: p.cut.map (cutPos C p.norm n i)) := List.perm_insertionSort _ _

theorem bounds_sorted (C : Data R) (p : Seg R) (n i : ℕ) : (bounds C p n i).Pairwise (· ≤ ·) :=
  List.pairwise_insertionSort _ _

theorem bounds_mono (C : Data R) (p : Seg R) (n i : ℕ) {j k : ℕ} (hjk : j ≤ k) (hk : k ≤ p.cut.length) :
    (bounds C p n i).getD j 0 ≤ (bounds C p n i).getD k 0 := by
  have hl := bounds_length C p n i
  rw [getD_getElem (by omega), getD_getElem (by omega)]
  rcases Nat.lt_or_ge j k with h | h
  · exact List.pairwise_iff_getElem.1 (bounds_sorted C p n i) j k (by omega) (by omega) h
  · have : j = k := by omega
    subst this; exact le_rfl

theorem bounds_le (C : Data R) (p : Seg R) (n i : ℕ) (hp : ∀ c ∈ p.cut, c.InRange n) (j : ℕ) :
    (bounds C p n i).getD j 0 ≤ n := by
  rcases Nat.lt_or_ge j (bounds C p n i).length with h | h
  · have hm : (bounds C p n i).getD j 0 ∈ 0 :: p.cut.map (cutPos C p.norm n i) :=
      (bounds_perm C p n i).subset (getD_mem_lt h)
    rcases List.mem_cons.1 hm with h0 | hm
    · rw [h0]; exact Nat.zero_le _
    · obtain ⟨c, hc, he⟩ := List.mem_map.1 hm
      rw [← he]; exact cutPos_le _ _ _ _ _ (hp c hc)
  · rw [List.getD_eq_getElem?_getD, List.getElem?_eq_none h]; exact Nat.zero_le _

theorem bounds_zero (C : Data R) (p : Seg R) (n i : ℕ) : (bounds C p n i).getD 0 0 = 0 := by
  have hmem : 0 ∈ bounds C p n i := (bounds_perm C p n i).symm.subset (by simp)
  obtain ⟨k, hk, he⟩ := List.getElem_of_mem hmem
  have := bounds_mono C p n i (Nat.zero_le k) (by rw [bounds_length] at hk; omega)
  rw [getD_getElem (i := k) hk, he] at this
  omega

/-- The last end is the greatest cut position. -/
theorem bounds_last (C : Data R) (p : Seg R) (n i : ℕ) :
    (∀ c ∈ p.cut, cutPos C p.norm n i c ≤ (bounds C p n i).getD p.cut.length 0) ∧
    ((bounds C p n i).getD p.cut.length 0 = 0 ∨ ∃ c ∈ p.cut, cutPos C p.norm n i c = (bounds C p n i).getD p.cut.length 0) := by
  have hl := bounds_length C p n i
  constructor
  · intro c hc
    have hmem : cutPos C p.norm n i c ∈ bounds C p n i :=
      (bounds_perm C p n i).symm.subset (List.mem_cons_of_mem _ (List.mem_map_of_mem hc))
    obtain ⟨k, hk, he⟩ := List.getElem_of_mem hmem
    have := bounds_mono C p n i (j := k) (k := p.cut.length) (by omega) le_rfl
    rw [getD_getElem hk, he] at this
    exact this
  · have hm : (bounds C p n i).getD p.cut.length 0 ∈ 0 :: p.cut.map (cutPos C p.norm n i) :=
      (bounds_perm C p n i).subset (getD_mem_lt (by omega))
    rcases List.mem_cons.1 hm with h0 | hm
    · exact Or.inl h0
    · obtain ⟨c, hc, he⟩ := List.mem_map.1 hm
      exact Or.inr ⟨c, hc, he⟩

/-! ### C59 -/

theorem take_segs (x : List R) (b : ℕ → ℕ) (hb : ∀ j, b j ≤ b (j + 1)) (h0 : b 0 = 0) (J : ℕ) :
    ((List.range J).map fun j => (x.take (b (j + 1))).drop (b j)).flatten = x.take (b J) := by
  induction J with
  | zero => simp [h0]
  | succ J ih =>
    rw [List.range_succ, List.map_append, List.flatten_append, ih]
    simp only [List.map_cons, List.map_nil, List.flatten_cons, List.flatten_nil, List.append_nil]
    have e : x.take (b J) = (x.take (b (J + 1))).take (b J) := by rw [List.take_take, min_eq_left (hb J)]
    rw [e, List.take_append_drop]

/-- **C59.** For cuts in range the sieve works with the ends `bounds`: sorted, one more than there are cuts, starting with 0,
and a rearrangement of 0 and the cut positions; the segments between consecutive ends, put together, are exactly the first
`max(cut)` values of the series. -/
theorem C59_partition (T : FloatText R) (hT : T.Lawful) (C : Data R) (p : Seg R) {m dc n : ℕ} (hC : HasShape C m dc n)
    (hdc : 0 < dc) (hn : 0 < n) (hp : ∀ c ∈ p.cut, c.InRange n) :
    p.cuts T C m n = .ok ((List.range m).map fun i => (bounds C p n i).map fun k : ℕ => (k : ℤ)) ∧
    ∀ i, (bounds C p n i).Pairwise (· ≤ ·) ∧ (bounds C p n i).length = p.cut.length + 1 ∧
      (bounds C p n i).getD 0 0 = 0 ∧
      (bounds C p n i).Perm (0 :: p.cut.map (cutPos C p.norm n i)) ∧ (∀ b ∈ bounds C p n i, b ≤ n) ∧
      ∀ x : List R, x.length = n → ∃ M, (∀ c ∈ p.cut, cutPos C p.norm n i c ≤ M) ∧
        (M = 0 ∨ ∃ c ∈ p.cut, cutPos C p.norm n i c = M) ∧
        ((List.range p.cut.length).map fun j => segVals (bounds C p n i) j x).flatten = x.take M := by
  refine ⟨cuts_eq T hT C p hC hdc hn hp, fun i => ⟨bounds_sorted _ _ _ _, bounds_length _ _ _ _, bounds_zero _ _ _ _,
    bounds_perm _ _ _ _, ?_, ?_⟩⟩
  · intro b hb
    obtain ⟨k, hk, he⟩ := List.getElem_of_mem hb
    have := bounds_le C p n i hp k
    rw [getD_getElem hk, he] at this
    exact this
  · intro x hx
    obtain ⟨h1, h2⟩ := bounds_last C p n i
    refine ⟨_, h1, h2, ?_⟩
    have h3 := take_segs x (fun j => (bounds C p n i).getD (min j p.cut.length) 0)
      (fun j => bounds_mono C p n i (by omega) (by omega)) (by rw [Nat.zero_min]; exact bounds_zero _ _ _ _) p.cut.length
    rw [min_self] at h3
    rw [← h3]
    congr 1
    apply List.map_congr_left
    intro j hj
    have := List.mem_range.1 hj
    unfold segVals
    rw [min_eq_left (by omega), min_eq_left (by omega)]

/-- Non-vacuity: cuts `[5, -1, 2, 2]` on series of length 6. -/
example : bounds ([] : Data ℚ) { cut := [.int 5, .int (-1), .int 2, .int 2], q := [-1, 1] } 6 0 = [0, 2, 2, 5, 6] := by
  decide +kernel

/-! ### Features of segment sieves -/

theorem foldlM_set {R : Type} (K : ℕ) (v : ℕ → ℕ → Except Err R) (w : ℕ → ℕ → R) (L : List (ℕ × ℕ))
    (h : ∀ e ∈ L, v e.1 e.2 = .ok (w e.1 e.2)) (z : List R) :
    L.foldlM (fun (res : List R) (e : ℕ × ℕ) => do
      let y ← v e.1 e.2
      pure (res.set (e.1 * K + e.2) y)) z
    = (.ok (L.foldl (fun res e => res.set (e.1 * K + e.2) (w e.1 e.2)) z) : Except Err (List R)) := by
  induction L generalizing z with
  | nil => rfl
  | cons a L ih =>
    rw [List.foldlM_cons, h a (by simp), ok_bind, List.foldl_cons, ← ih fun e he => h e (List.mem_cons_of_mem _ he)]
    rfl

theorem foldl_set_tab {R : Type} (N : ℕ) (L : List (ℕ × ℕ)) (u f : ℕ → R) (K : ℕ) :
    L.foldl (fun res e => res.set (e.1 * K + e.2) (u (e.1 * K + e.2))) (tab N f)
    = tab N fun p => if p ∈ L.map (fun e => e.1 * K + e.2) then u p else f p := by
  induction L generalizing f with
  | nil => simp
  | cons a L ih =>
    rw [List.foldl_cons, set_tab, ih]
    apply tab_congr
    intro p _
    simp only [List.map_cons, List.mem_cons]
    by_cases h1 : p ∈ L.map (fun e => e.1 * K + e.2)
    · rw [if_pos h1, if_pos (Or.inr h1)]
    · rw [if_neg h1]
      by_cases h2 : p = a.1 * K + a.2
      · subst h2; rw [if_pos (Or.inl rfl)]; simp
      · rw [if_neg (not_or.2 ⟨h2, h1⟩)]; simp [h2]

theorem fillGrid_ok {R : Type} [Zero R] {J K : ℕ} {v : ℕ → ℕ → Except Err R} {w : ℕ → ℕ → R} (h : ∀ j < J, ∀ k < K, v j k = .ok (w j k)) :
    fillGrid J K v = .ok (tab (J * K) fun p => w (p / K) (p % K)) := by
  unfold fillGrid
  have hmem : ∀ e ∈ (List.range J).flatMap fun j => (List.range K).map fun k => (j, k), e.1 < J ∧ e.2 < K := by
    intro e he
    obtain ⟨j, hj, he⟩ := List.mem_flatMap.1 he
    obtain ⟨k, hk, rfl⟩ := List.mem_map.1 he
    exact ⟨List.mem_range.1 hj, List.mem_range.1 hk⟩
  rw [foldlM_set K v w _ fun e he => h e.1 (hmem e he).1 e.2 (hmem e he).2]
  congr 1
  have hu : ∀ e ∈ (List.range J).flatMap fun j => (List.range K).map fun k => (j, k), ∀ res : List R,
      res.set (e.1 * K + e.2) (w e.1 e.2) = res.set (e.1 * K + e.2) ((fun p => w (p / K) (p % K)) (e.1 * K + e.2)) := by
    intro e he res
    obtain ⟨-, h2⟩ := hmem e he
    simp only
    rw [Nat.mul_comm, Nat.mul_add_div (by omega), Nat.mul_add_mod, Nat.div_eq_of_lt h2, Nat.mod_eq_of_lt h2, Nat.add_zero]
  rw [List.foldl_ext (f := fun (res : List R) (e : ℕ × ℕ) => res.set (e.1 * K + e.2) (w e.1 e.2))
    (g := fun res e => res.set (e.1 * K + e.2) ((fun p => w (p / K) (p % K)) (e.1 * K + e.2))) (a := zeros (J * K))
    (H := fun res e he => hu e he res)]
  unfold zeros
  rw [replicate_eq_tab, foldl_set_tab (u := fun p => w (p / K) (p % K))]
  apply tab_congr
  intro p hp
  rw [if_pos]
  have hK : 0 < K := by
    rcases Nat.eq_zero_or_pos K with h0 | h0
    · subst h0; simp at hp
    · exact h0
  refine List.mem_map.2 ⟨(p / K, p % K), ?_, ?_⟩
  · refine List.mem_flatMap.2 ⟨p / K, List.mem_range.2 ?_, List.mem_map.2 ⟨p % K, List.mem_range.2 (Nat.mod_lt _ hK), rfl⟩⟩
    exact Nat.div_lt_of_lt_mul (by rwa [Nat.mul_comm] at hp)
  · simp only
    rw [Nat.mul_comm]; exact Nat.div_add_mod p K

theorem fillGrid_length {R : Type} [Zero R] {J K : ℕ} {v : ℕ → ℕ → Except Err R} {r : List R} (h : fillGrid J K v = .ok r) :
    r.length = J * K := by
  unfold fillGrid at h
  have : ∀ (L : List (ℕ × ℕ)) (z r : List R), L.foldlM (fun (res : List R) (e : ℕ × ℕ) => do
      let y ← v e.1 e.2
      pure (res.set (e.1 * K + e.2) y)) z = (.ok r : Except Err (List R)) → r.length = z.length := by
    intro L
    induction L with
    | nil => intro z r h; cases h; rfl
    | cons a L ih =>
      intro z r h
      rw [List.foldlM_cons] at h
      rcases hv : v a.1 a.2 with e | y
      · rw [hv] at h; cases h
      rw [hv, ok_bind, pure_bind] at h
      rw [ih _ _ h]; simp
  rw [this _ _ _ h]; simp [zeros]

theorem getD_map_int (b : List ℕ) (j : ℕ) : (b.map fun k : ℕ => (k : ℤ)).getD j 0 = ((b.getD j 0 : ℕ) : ℤ) := by
  rw [List.getD_eq_getElem?_getD, List.getD_eq_getElem?_getD, List.getElem?_map]
  cases b[j]? <;> rfl

/-- What all the `_backend` functions return: feature `j * K + k` of series `i` is the operation on the segment `j` and the
band `k`. -/
theorem backend_eq (op : SegOp R) (v : ℕ → ℕ → ℕ → R) (qs : List (QVal R)) (X : List (List R)) (b : ℕ → List ℕ) (J : ℕ)
    {m n : ℕ} (hX : HasShape2 X m n) (hb : ∀ i < m, (b i).length = J + 1) (hq : qs ≠ [])
    (hop : ∀ i < m, ∀ j < J, ∀ k < qs.length - 1, op (tab n (at2 X i)) ((b i).getD j 0 : ℕ) ((b i).getD (j + 1) 0 : ℕ)
      (qs.getD k ⊥) (qs.getD (k + 1) ⊥) = .ok (v i j k)) :
    backend op (tab m fun i => (b i).map fun k : ℕ => (k : ℤ)) qs X
    = .ok (tab m fun i => tab (J * (qs.length - 1)) fun p => v i (p / (qs.length - 1)) (p % (qs.length - 1))) := by
  unfold backend
  rw [hX.1]
  refine mapM_ok_map fun i hi => ?_
  replace hi := List.mem_range.1 hi
  rw [getD_tab hi, hX.row hi]
  unfold backendRow
  rw [if_neg (by tauto)]
  have hl : ((b i).map fun k : ℕ => (k : ℤ)).length - 1 = J := by rw [List.length_map, hb i hi]; rfl
  rw [hl]
  refine fillGrid_ok fun j hj k hk => ?_
  rw [getD_map_int, getD_map_int]
  exact hop i hi j hj k hk

end Fruits
