import Verif.Props.Total1
import Verif.Props.Weightings

/-! # The preparateurs of the library do not raise on the data they are made for (part of property C109) -/

namespace Fruits
set_option linter.unusedSectionVars false

variable {R : Type} [Field R] [LinearOrder R] [IsStrictOrderedRing R] [FloorRing R]

/-- How the cache of a preparateur belongs to the data it works on: `own` -- it was made from these data (the cache of a wrapped preparateur);
`aligned` -- it was made from series of the same length, the first of which are the data; `loose` -- nothing is known. -/
inductive CacheMode
  | own
  | aligned
  | loose

/-- `C` is the input of the cache, `X` are data of shape `(m, ·, n)`. -/
def CacheMode.Fits (c : CacheMode) (C X : Data R) (m n : ℕ) : Prop :=
  match c with
  | .own => C = X
  | .aligned => ∃ mc dc, HasShape C mc dc n ∧ m ≤ mc ∧ 0 < dc
  | .loose => True

/-- The argument `shift` of `INC` is a positive number of steps; a float or a callable need `zero_padding=True`. -/
def INC.ok (p : INC R) : Prop :=
  match p.shift with
  | .int k => 1 ≤ k
  | .float f => 0 < f ∧ p.zeroPadding = true
  | .call f => (∀ n, 0 < n → 1 ≤ f n) ∧ p.zeroPadding = true

/-- `RIN`: a given kernel has a row of the same length for each dimension; a drawn one has a non-negative width, no condition on its sum, and at most as many
output dimensions as there are input dimensions. -/
def RIN.ok (p : RIN R) (d d' : ℕ) : Prop :=
  match p.constKernel with
  | some k => (∃ w, k.length = d ∧ ∀ r ∈ k, r.length = w) ∧ d' = d
  | none => p.forceSumOne = false ∧ (match p.width with | .int k => 0 ≤ k | .call f => ∀ n, 0 < n → 0 ≤ f n) ∧
      (if 0 < p.outDim then (d' : ℤ) = p.outDim ∧ d' ≤ d else d' = d)

/-- The settings of a preparateur are ones that the documentation allows, and `d'` is the number of dimensions it makes out of data with `d` dimensions.
Not covered: `RIN(force_sum_one=True)` (its loop need not end), `RDW(dist="dirichlet")` (raises if all data are zero), and a preparateur that changes the length
inside of a wrapper.  `c` says how the cache belongs to the data: `LAG` changes the length of the series, so it is only allowed if no later seed depends on the
cache; `WIN` and `SPE(step_transform=…)` read the cache. -/
def Prep.Accepts [NpMath R] : CacheMode → Prep R → ℕ → ℕ → Prop
  | _, .inc p, d, d' => p.ok ∧ d' = d
  | _, .std _, d, d' => d' = d
  | _, .nrm _, d, d' => d' = d
  | _, .mav p, d, d' => validN p.given ∧ d' = d
  | c, .lag, d, d' => c = .loose ∧ d' = 2 * d
  | _, .ffn p, _, d' => d' = p.dOut ∧ 0 < d'
  | _, .rin p, d, d' => p.ok d d'
  | _, .rdw p, d, d' => p.dirichlet = false ∧ d' = d
  | _, .jld p, d, d' => JLD.outDim d p.d = (d' : ℤ) ∧ 0 < d' ∧ (p.distribute = true → d' ≤ d)
  | c, .spe p, d, d' => (p.step = none ∨ c = .own) ∧ d' = d
  | _, .rpe _, d, d' => d = 2 ∧ d' = 2
  | _, .cts p, d, d' => (0 < p.s ∨ p.pseudo = true) ∧ d' = d
  | _, .qtc p, d, d' => (0 ≤ p.q ∧ p.q ≤ 1) ∧ d' = d
  | c, .func f, d, d' => 0 < d' ∧ ∀ (X : Data R) (m n : ℕ), HasShape X m d n → 0 < m → 0 < n →
      ∃ Y n', f X = .ok Y ∧ HasShape Y m d' n' ∧ 0 < n' ∧ (c ≠ .loose → n' = n)
  | _, .dil p, d, d' => (∀ k, p.clusters = some k → 0 ≤ k ∧ k ≤ 1) ∧ d' = d
  | c, .win _, d, d' => c ≠ .loose ∧ d' = d
  | _, .dot p, d, d' => (validN p.given ∧ validFirst p.firstGiven) ∧ d' = d
  | _, .pdd _, d, d' => d' = d
  | _, .dim p dims, d, d' => dims ≠ [] ∧ (∀ k ∈ dims, -(d : ℤ) ≤ k ∧ k < d) ∧
      ∃ e, p.Accepts .own dims.length e ∧ d' = ((List.range d).filter fun j => j ∉ dims.map (dimOf d)).length + e
  | _, .new none, d, d' => d' = d + d
  | _, .new (some p), d, d' => ∃ e, p.Accepts .own d e ∧ d' = d + e

theorem Prep.Accepts.pos [NpMath R] : ∀ {c : CacheMode} {p : Prep R} {d d' : ℕ}, p.Accepts c d d' → 0 < d → 0 < d'
  | _, .inc _, _, _, h, hd => by simp only [Prep.Accepts] at h; omega
  | _, .std _, _, _, h, hd => by simp only [Prep.Accepts] at h; omega
  | _, .nrm _, _, _, h, hd => by simp only [Prep.Accepts] at h; omega
  | _, .mav _, _, _, h, hd => by simp only [Prep.Accepts] at h; omega
  | _, .lag, _, _, h, hd => by simp only [Prep.Accepts] at h; omega
  | _, .ffn _, _, _, h, hd => h.2
  | _, .rin p, d, d', h, hd => by
    simp only [Prep.Accepts, RIN.ok] at h
    split at h
    · omega
    · obtain ⟨_, _, h⟩ := h
      split at h <;> omega
  | _, .rdw _, _, _, h, hd => by simp only [Prep.Accepts] at h; omega
  | _, .jld _, _, _, h, hd => h.2.1
  | _, .spe _, _, _, h, hd => by simp only [Prep.Accepts] at h; omega
  | _, .rpe _, _, _, h, hd => by simp only [Prep.Accepts] at h; omega
  | _, .cts _, _, _, h, hd => by simp only [Prep.Accepts] at h; omega
  | _, .qtc _, _, _, h, hd => by simp only [Prep.Accepts] at h; omega
  | _, .func _, _, _, h, hd => h.1
  | _, .dil _, _, _, h, hd => by simp only [Prep.Accepts] at h; omega
  | _, .win _, _, _, h, hd => by simp only [Prep.Accepts] at h; omega
  | _, .dot _, _, _, h, hd => by simp only [Prep.Accepts] at h; omega
  | _, .pdd _, _, _, h, hd => by simp only [Prep.Accepts] at h; omega
  | _, .dim p dims, d, d', h, hd => by
    simp only [Prep.Accepts] at h
    obtain ⟨h1, _, e, h2, rfl⟩ := h
    have := Prep.Accepts.pos (p := p) h2 (List.length_pos_of_ne_nil h1)
    omega
  | _, .new none, _, _, h, hd => by simp only [Prep.Accepts] at h; omega
  | _, .new (some p), d, d', h, hd => by
    simp only [Prep.Accepts] at h
    obtain ⟨e, h2, rfl⟩ := h
    omega

/-- The preparateur transforms all data with `d` dimensions, into data with `d'` dimensions; the length can only change if nothing depends on the cache. -/
def Prep.Works [NpMath R] (T : FloatText R) (c : CacheMode) (p : Prep R) (d d' : ℕ) : Prop :=
  ∀ (C X : Data R) (m n : ℕ), HasShape X m d n → 0 < m → 0 < d → 0 < n → c.Fits C X m n →
    ∃ Y n', p.transformC T C X = .ok Y ∧ HasShape Y m d' n' ∧ 0 < n' ∧ (c ≠ .loose → n' = n)

/-! ### Shapes of results -/

theorem mapRows_shape {f : List R → List R} {X : Data R} {m d n n' : ℕ} (hX : HasShape X m d n) (hf : ∀ r, r.length = n → (f r).length = n') :
    HasShape (mapRows f X) m d n' := by
  refine ⟨by simp [mapRows, hX.1], fun s hs => ?_⟩
  obtain ⟨s0, h0, rfl⟩ := List.mem_map.1 hs
  obtain ⟨a, b⟩ := hX.2 s0 h0
  refine ⟨by simpa using a, fun r hr => ?_⟩
  obtain ⟨r0, h1, rfl⟩ := List.mem_map.1 hr
  exact hf _ (b r0 h1)

theorem mapEntries_shape {f : R → R} {X : Data R} {m d n : ℕ} (hX : HasShape X m d n) : HasShape (mapEntries f X) m d n :=
  mapRows_shape hX fun r hr => by simpa using hr

theorem map_shape {f : Series R → Series R} {X : Data R} {m d n d' n' : ℕ} (hX : HasShape X m d n)
    (hf : ∀ s, s.length = d → (∀ r ∈ s, r.length = n) → (f s).length = d' ∧ ∀ r ∈ f s, r.length = n') : HasShape (X.map f) m d' n' := by
  refine ⟨by simp [hX.1], fun s hs => ?_⟩
  obtain ⟨s0, h0, rfl⟩ := List.mem_map.1 hs
  exact hf s0 (hX.2 s0 h0).1 (hX.2 s0 h0).2

theorem mapM_shape {f : Series R → Except Err (Series R)} {X : Data R} {m d n d' n' : ℕ} (hX : HasShape X m d n)
    (hf : ∀ s, s.length = d → (∀ r ∈ s, r.length = n) → ∃ s', f s = .ok s' ∧ s'.length = d' ∧ ∀ r ∈ s', r.length = n') :
    ∃ Y, X.mapM f = .ok Y ∧ HasShape Y m d' n' := by
  obtain ⟨Y, h1, h2⟩ := mapM_total (l := X) (f := f) (Q := fun _ s' => s'.length = d' ∧ ∀ r ∈ s', r.length = n')
    fun s hs => hf s (hX.2 s hs).1 (hX.2 s hs).2
  refine ⟨Y, h1, by rw [← h2.length_eq, hX.1], fun s hs => ?_⟩
  obtain ⟨_, _, h⟩ := forall₂_right_mem h2 s hs
  exact h

theorem mapRowsM_shape {f : List R → Except Err (List R)} {X : Data R} {m d n n' : ℕ} (hX : HasShape X m d n)
    (hf : ∀ r, r.length = n → ∃ r', f r = .ok r' ∧ r'.length = n') : ∃ Y, mapRowsM f X = .ok Y ∧ HasShape Y m d n' := by
  refine mapM_shape hX fun s h1 h2 => ?_
  obtain ⟨s', h3, h4⟩ := mapM_total (l := s) (f := f) (Q := fun _ r' => r'.length = n') fun r hr => hf r (h2 r hr)
  refine ⟨s', h3, by rw [← h4.length_eq, h1], fun r hr => ?_⟩
  obtain ⟨_, _, h⟩ := forall₂_right_mem h4 r hr
  exact h

theorem setSlc_total {α : Type} {x v : List α} {a b n : ℕ} (hx : x.length = n) (ha : a ≤ n) (hb : b ≤ n) (hv : v.length = b - a ∨ v.length = 1) :
    ∃ y, setSlc x a b v = .ok y ∧ y.length = n := by
  have key : ∃ y, setSlc x a b v = .ok y := by
    unfold setSlc
    by_cases h : v.length = b - a
    · rw [if_pos h]; exact ⟨_, rfl⟩
    · rw [if_neg h]
      rcases hv with hv | hv
      · exact absurd hv h
      · obtain ⟨c, rfl⟩ := List.length_eq_one_iff.1 hv
        exact ⟨_, rfl⟩
  obtain ⟨y, hy⟩ := key
  exact ⟨y, hy, (setSlc_length (by omega) (by omega) hy).trans hx⟩

theorem slc_length {α : Type} (x : List α) (a b : ℤ) : (slc x a b).length = pyClip x.length b - pyClip x.length a := by
  unfold slc
  have := pyClip_le x.length b
  rw [List.length_drop, List.length_take, Nat.min_eq_left this]

theorem slcFrom_length {α : Type} (x : List α) (a : ℤ) : (slcFrom x a).length = x.length - pyClip x.length a := by
  rw [slcFrom, List.length_drop]

theorem slcTo_length {α : Type} (x : List α) (a : ℤ) : (slcTo x a).length = pyClip x.length a := by
  rw [slcTo, List.length_take, Nat.min_eq_left (pyClip_le _ _)]

theorem pyClip_neg' (n : ℕ) (k : ℤ) (hk : 1 ≤ k) : pyClip n (-k) = n - pyClip n k := by
  unfold pyClip
  rw [if_neg (by omega), if_pos (by omega), neg_neg]
  omega

theorem increments1_total {x : List R} {n : ℕ} (hx : x.length = n) {k : ℤ} (hk : 1 ≤ k) : ∃ y, increments1 k x = .ok y ∧ y.length = n := by
  unfold increments1
  simp only
  have e : (slcFrom x k).length = (slcTo x (-k)).length := by
    rw [slcFrom_length, slcTo_length, pyClip_neg' _ _ hk]
  rw [if_pos e, hx]
  have hc := pyClip_le n k
  refine setSlc_total (by simp [zeros]) hc le_rfl (Or.inl ?_)
  unfold vsub
  rw [List.length_zipWith, ← e, Nat.min_self, slcFrom_length, hx]

theorem INC.loop_total {p : INC R} (hp : p.ok) {n : ℕ} (hn : 0 < n) {x : List R} (hx : x.length = n) : ∀ (k : ℕ) (out : List R), out.length = n →
    ∃ y, p.loop n x k out = .ok y ∧ y.length = n
  | 0, out, h => ⟨out, rfl, h⟩
  | k + 1, out, h => by
    have hk : 1 ≤ p.shift.eval n := by
      unfold INC.ok at hp
      unfold Shift.eval
      split at hp
      · rename_i e; rw [e]; exact hp
      · rename_i f e; rw [e]
        have hn' : (0 : R) < n := by exact_mod_cast hn
        exact Int.ceil_pos.2 (mul_pos hp.1 hn')
      · rename_i f e; rw [e]; exact hp.1 n hn
    obtain ⟨y, h1, h2⟩ := increments1_total h hk
    rw [INC.loop, h1, ok_bind]
    by_cases hz : p.zeroPadding = true
    · rw [if_pos hz]; exact INC.loop_total hp hn hx k y h2
    · rw [if_neg hz]
      have : ∃ s : ℤ, p.shift = .int s := by
        unfold INC.ok at hp
        split at hp
        · rename_i s e; exact ⟨s, e⟩
        · exact absurd hp.2 hz
        · exact absurd hp.2 hz
      obtain ⟨s, hs⟩ := this
      have hr : ∃ z, p.shift.restore x y = .ok z ∧ z.length = n := by
        rw [hs]
        refine setSlc_total h2 (Nat.zero_le _) (by rw [h2]; exact pyClip_le _ _) (Or.inl ?_)
        rw [slcTo_length, hx, h2, Nat.sub_zero]
      obtain ⟨z, h3, h4⟩ := hr
      rw [h3]
      exact INC.loop_total hp hn hx k z h4

theorem works_same [NpMath R] {T : FloatText R} {c : CacheMode} {p : Prep R} {d d' : ℕ}
    (h : ∀ (C X : Data R) (m n : ℕ), HasShape X m d n → 0 < m → 0 < d → 0 < n → c.Fits C X m n → ∃ Y, p.transformC T C X = .ok Y ∧ HasShape Y m d' n) :
    p.Works T c d d' := by
  intro C X m n hX hm hd hn hC
  obtain ⟨Y, h1, h2⟩ := h C X m n hX hm hd hn hC
  exact ⟨Y, n, h1, h2, hn, fun _ => rfl⟩

theorem MAV.row_length (w : ℕ) (x : List R) : (MAV.row w x).length = x.length := by
  unfold MAV.row
  generalize List.range' w (x.length + 1 - w) = l
  have : ∀ (l : List ℕ) (z : List R), (l.foldl (fun res (k : ℕ) => res.set (k - 1) ((slc x ((k : ℤ) - w) k).sum / (w : R))) z).length = z.length := by
    intro l
    induction l with
    | nil => intro z; rfl
    | cons a l ih => intro z; rw [List.foldl_cons, ih, List.length_set]
  rw [this]; simp [zeros]

theorem CTS.row_total {pseudo : Bool} {shift : ℤ} (h : pseudo = true ∨ 1 ≤ shift) {x : List R} {n : ℕ} (hx : x.length = n) (hn : 0 < n) :
    ∃ y, CTS.row pseudo shift x = .ok y ∧ y.length = n := by
  unfold CTS.row
  by_cases hp : pseudo = true
  · rw [if_pos hp]
    exact ⟨_, rfl, (fillSlc_length (pyClip_le _ _) (Nat.zero_le _) _).trans hx⟩
  · rw [if_neg hp]
    have hs : 1 ≤ shift := h.resolve_left hp
    obtain ⟨y, h1, h2⟩ := setSlc_total (x := x) (v := slcFrom x shift) (a := 0) (b := pyClip x.length (-shift)) hx (Nat.zero_le _)
      (by rw [hx]; exact pyClip_le _ _) (Or.inl (by rw [slcFrom_length, pyClip_neg' _ _ hs, Nat.sub_zero]))
    rw [h1, ok_bind]
    refine setSlc_total h2 (by rw [h2]; exact pyClip_le _ _) (by rw [h2]) (Or.inr ?_)
    rw [slcFrom_length, h2, show (-1 : ℤ) = -((1 : ℕ) : ℤ) from rfl, pyClip_neg _ _ Nat.one_pos]
    omega

theorem foldl_len_total {α β : Type} {f : List α → β → List α} (hf : ∀ x b, (f x b).length = x.length) : ∀ (l : List β) (x : List α),
    (l.foldl f x).length = x.length
  | [], _ => rfl
  | b :: l, x => by rw [List.foldl_cons, foldl_len_total hf l, hf]

theorem PDD.row_length (indices : List ℤ) (width : ℤ) (x : List R) : (PDD.row indices width x).length = x.length :=
  foldl_len_total (fun _ _ => fillSlc_length (pyClip_le _ _) (pyClip_le _ _) _) _ _

theorem DIL.row_length (indices lens : List ℕ) (x : List R) : (DIL.row indices lens x).length = x.length :=
  foldl_len_total (fun _ _ => fillSlc_length (pyClip_le _ _) (pyClip_le _ _) _) _ _

theorem RIN.outDims_shape (s : Series R) (kernel : List (List R)) (dims : List ℕ) (w n : ℕ) : ∀ (cs : List ℕ) (start : ℕ),
    (RIN.outDims s kernel dims w n start cs).length = cs.length ∧ ∀ r ∈ RIN.outDims s kernel dims w n start cs, r.length = n
  | [], _ => ⟨rfl, by simp [RIN.outDims]⟩
  | c :: cs, start => by
    obtain ⟨a, b⟩ := RIN.outDims_shape s kernel dims w n cs (start + c)
    refine ⟨by rw [RIN.outDims, List.length_cons, a, List.length_cons], fun r hr => ?_⟩
    rw [RIN.outDims] at hr
    rcases List.mem_cons.1 hr with rfl | hr
    · simp
    · exact b r hr

theorem JLD.outDims_shape (s : Series R) (st : JLDState R) (n : ℕ) : ∀ (cs : List ℕ) (start k : ℕ),
    (JLD.outDims s st n start k cs).length = cs.length ∧ ∀ r ∈ JLD.outDims s st n start k cs, r.length = n
  | [], _, _ => ⟨rfl, by simp [JLD.outDims]⟩
  | c :: cs, start, k => by
    obtain ⟨a, b⟩ := JLD.outDims_shape s st n cs (start + c) (k + 1)
    refine ⟨by rw [JLD.outDims, List.length_cons, a, List.length_cons], fun r hr => ?_⟩
    rw [JLD.outDims] at hr
    rcases List.mem_cons.1 hr with rfl | hr
    · simp
    · exact b r hr

theorem RIN.series_shape (adaptive : Bool) (st : RINState R) (n : ℕ) (s : Series R) :
    (RIN.series adaptive st n s).length = st.ndim.length ∧ ∀ r ∈ RIN.series adaptive st n s, r.length = n := by
  unfold RIN.series
  simp only
  split
  · obtain ⟨a, b⟩ := RIN.outDims_shape (s.map fun x => zeros (st.kernel.getD 0 []).length ++ x) st.kernel st.dims (st.kernel.getD 0 []).length
      (n + (st.kernel.getD 0 []).length) st.ndim 0
    refine ⟨by rw [List.length_map, a], fun r hr => ?_⟩
    obtain ⟨r0, h0, rfl⟩ := List.mem_map.1 hr
    rw [List.length_drop, b r0 h0]; omega
  · exact RIN.outDims_shape _ _ _ _ _ _ _

theorem WIN.row_total (a b : ℕ) (x : List R) {n : ℕ} (hx : x.length = n) : ∃ y, WIN.row a b x = .ok y ∧ y.length = n := by
  unfold WIN.row
  rw [hx]
  exact setSlc_total (by simp [zeros]) (pyClip_le _ _) (pyClip_le _ _) (Or.inl (by rw [slc_length, hx]))

/-! ### Fitting and transforming -/

theorem lib_fit [NpMath R] {L : Lib R} {g : Rng R} {p q : Prep R} {X : Data R} (h : p.fit g L.fuel X = .ok (some q)) : L.prepFit g p X = .ok q := by
  unfold Lib.prepFit; rw [h]

theorem entries_ne_nil {X : Data R} {m d n : ℕ} (hX : HasShape X m d n) (hm : 0 < m) (hd : 0 < d) (hn : 0 < n) : entries X ≠ [] := by
  rcases X with _ | ⟨s, X⟩
  · have := hX.1; simp at this; omega
  obtain ⟨a, b⟩ := hX.2 s (by simp)
  rcases s with _ | ⟨r, s⟩
  · simp at a; omega
  have c := b r (by simp)
  rcases r with _ | ⟨v, r⟩
  · simp at c; omega
  simp [entries]

theorem selectDims_shape {dims : List ℤ} {X : Data R} {m d n : ℕ} (hX : HasShape X m d n) (hdims : ∀ k ∈ dims, -(d : ℤ) ≤ k ∧ k < d) :
    ∃ sub, selectDims dims X = .ok sub ∧ HasShape sub m dims.length n := by
  refine mapM_shape hX fun s h1 h2 => ?_
  obtain ⟨s', h3, h4⟩ := mapM_total (l := dims) (f := fun k : ℤ => (do let j ← normIdx s.length k; pure (s.getD j []) : Except Err (List R)))
    (Q := fun _ r' => r'.length = n) (by
      intro k hk
      beta_reduce
      rw [h1, normIdx_eq (hdims k hk), ok_bind]
      have hlt : dimOf d k < s.length := by
        have := hdims k hk
        unfold dimOf; rw [h1]; split <;> omega
      exact ⟨_, rfl, h2 _ (getD_mem_lt hlt)⟩)
  refine ⟨s', h3, h4.length_eq.symm, fun r hr => ?_⟩
  obtain ⟨_, _, h⟩ := forall₂_right_mem h4 r hr
  exact h

/-- Fitting a preparateur to data it is made for succeeds, and it then transforms all such data. -/
theorem Prep.fit_works [NpMath R] (L : Lib R) (hT : L.T.Lawful) (g : Rng R) (hg : g.Valid) : ∀ (c : CacheMode) (p : Prep R) {d d' : ℕ} {X : Data R} {m n : ℕ},
    p.Accepts c d d' → HasShape X m d n → 0 < m → 0 < d → 0 < n →
    ∃ q, L.prepFit g p X = .ok q ∧ q.Accepts c d d' ∧ q.Works L.T c d d'
  | c, .inc p, d, d', X, m, n, h, hX, hm, hd, hn => by
    refine ⟨.inc p, lib_fit rfl, h, works_same fun C Y m' n' hY hm' hd' hn' _ => ?_⟩
    obtain ⟨h1, rfl⟩ := h
    simp only [Prep.transformC, INC.transform, hY.shape2_eq hm' hd']
    exact mapRowsM_shape hY fun r hr => INC.loop_total h1 hn' hr p.depth r hr
  | c, .std p, d, d', X, m, n, h, hX, hm, hd, hn => by
    cases h
    refine ⟨.std (p.fit X), lib_fit rfl, rfl, works_same fun C Y m' n' hY hm' hd' hn' _ => ?_⟩
    simp only [Prep.transformC]
    by_cases hs : p.separately = true
    · rw [show p.fit X = p by rw [STD.fit, if_pos hs]]
      exact ⟨_, std_separately p hs Y hY, hasShape_rows (fun i j => by simp)⟩
    · rw [STD.fit, if_neg hs, STD.transform, if_neg hs]
      exact ⟨_, rfl, mapEntries_shape hY⟩
  | c, .nrm b, d, d', X, m, n, h, hX, hm, hd, hn => by
    cases h
    refine ⟨.nrm b, lib_fit rfl, rfl, works_same fun C Y m' n' hY hm' hd' hn' _ => ?_⟩
    obtain ⟨lo, hi, _, h2⟩ := nrm_closed b Y hY hd' hn'
    exact ⟨_, h2, hasShape_tab3 _⟩
  | c, .mav p, d, d', X, m, n, h, hX, hm, hd, hn => by
    obtain ⟨h1, rfl⟩ := h
    have hf : ∃ w, (p.fit X).w = some w ∧ (p.fit X).given = p.given := by
      unfold MAV.fit
      rcases hgv : p.given with k | f
      · rw [hgv] at h1
        simp only
        rw [if_pos (by have : 1 ≤ k := h1; omega)]
        exact ⟨_, rfl, rfl⟩
      · exact ⟨_, rfl, rfl⟩
    obtain ⟨w, hw, hgv⟩ := hf
    refine ⟨.mav (p.fit X), lib_fit rfl, ⟨by rw [hgv]; exact h1, rfl⟩, works_same fun C Y m' n' hY hm' hd' hn' _ => ?_⟩
    simp only [Prep.transformC, MAV.transform, hw]
    exact ⟨_, rfl, mapRows_shape hY fun r hr => by rw [MAV.row_length, hr]⟩
  | c, .lag, d, d', X, m, n, h, hX, hm, hd, hn => by
    refine ⟨.lag, lib_fit rfl, h, fun C Y m' n' hY hm' hd' hn' _ => ?_⟩
    obtain ⟨h1, rfl⟩ := h
    obtain ⟨Z, h2, h3, _⟩ := C44_lead_lag L.T Y hY hn'
    exact ⟨Z, 2 * n' - 1, h2, h3, by omega, fun hc => absurd h1 hc⟩
  | c, .ffn p, d, d', X, m, n, h, hX, hm, hd, hn => by
    refine ⟨.ffn (p.fit g X), lib_fit rfl, h, works_same fun C Y m' n' hY hm' hd' hn' _ => ?_⟩
    obtain ⟨rfl, _⟩ := h
    obtain ⟨_, _, _, _, _, H⟩ := C56_network L.T g p X hX hm
    obtain ⟨Z, h1, h2, _⟩ := H Y m' n' hY hm' hd'
    exact ⟨Z, h1, h2⟩
  | c, .rin p, d, d', X, m, n, h, hX, hm, hd, hn => by
    have key : ∃ st : RINState R, p.fit g L.fuel X = .ok (some { p with fitted := some st }) ∧ st.ndim.length = d' := by
      simp only [Prep.Accepts, RIN.ok] at h
      unfold RIN.fit
      rw [hX.shape1_eq hm, hX.shape2_eq hm hd]
      rcases hk : p.constKernel with _ | k
      · rw [hk] at h
        obtain ⟨h1, h2, h3⟩ := h
        have hw : ¬ p.width.eval n < 0 := by
          unfold Width.eval
          rcases hp : p.width with k | f
          · rw [hp] at h2; simp only at h2 ⊢; omega
          · rw [hp] at h2; have := h2 n hn; simp only; omega
        have ho : ∃ o : ℕ, (if 0 < p.outDim then p.outDim else (d : ℤ)) = o ∧ o ≤ d ∧ 0 < o ∧ d' = o := by
          split at h3
          · rename_i hp
            exact ⟨d', by rw [if_pos hp]; exact h3.1.symm, h3.2, by omega, rfl⟩
          · rename_i hp
            exact ⟨d, by rw [if_neg hp], le_rfl, hd, h3⟩
        obtain ⟨o, ho1, ho2, ho3, ho4⟩ := ho
        simp only
        rw [ho1, if_neg (by omega), if_neg hw, h1]
        refine ⟨_, rfl, ?_⟩
        rw [ho4]
        exact (groupSizes_spec d o ho3).1
      · rw [hk] at h
        exact ⟨_, rfl, by simp [h.2]⟩
    obtain ⟨st, h1, h2⟩ := key
    refine ⟨.rin { p with fitted := some st }, lib_fit (by simp only [Prep.fit]; rw [h1]; rfl), h, works_same fun C Y m' n' hY hm' hd' hn' _ => ?_⟩
    simp only [Prep.transformC, RIN.transform]
    rw [hY.shape2_eq hm' hd']
    refine ⟨_, rfl, map_shape hY fun s _ _ => ?_⟩
    rw [← h2]
    exact RIN.series_shape _ _ _ _
  | c, .rdw p, d, d', X, m, n, h, hX, hm, hd, hn => by
    obtain ⟨h1, rfl⟩ := h
    refine ⟨.rdw { p with weights := some (((List.range (shape1 X)).map fun i => g.unit 0 i).map fun v => v / ((List.range (shape1 X)).map fun i => g.unit 0 i).sum) },
      lib_fit (by simp only [Prep.fit, RDW.fit]; rw [h1]; rfl), ⟨h1, rfl⟩, works_same fun C Y m' n' hY hm' hd' hn' _ => ?_⟩
    simp only [Prep.transformC, RDW.transform]
    refine mapM_shape hY fun s h2 h3 => ?_
    rw [if_pos (by simp [h2, hX.shape1_eq hm])]
    refine ⟨_, rfl, by simp [h2, hX.shape1_eq hm], fun r hr => ?_⟩
    obtain ⟨i, hi, rfl⟩ := List.getElem_of_mem hr
    rw [List.getElem_zipWith, List.length_map]
    exact h3 _ (List.getElem_mem _)
  | c, .jld p, d, d', X, m, n, h, hX, hm, hd, hn => by
    obtain ⟨h1, h2, h3⟩ := h
    have key : ∃ st : JLDState R, p.fit g X = .ok { p with fitted := some st } ∧ st.ndim.length = d' := by
      unfold JLD.fit
      simp only [hX.shape1_eq hm, h1, Int.toNat_natCast]
      by_cases hs : p.distribute = true
      · have := h3 hs
        rw [if_pos hs, if_neg (by omega), if_neg (by omega), if_neg (by omega)]
        exact ⟨_, rfl, (groupSizes_spec d d' h2).1⟩
      · rw [if_neg hs, if_neg (by omega)]
        exact ⟨_, rfl, by simp⟩
    obtain ⟨st, h4, h5⟩ := key
    refine ⟨.jld { p with fitted := some st }, lib_fit (by simp only [Prep.fit]; rw [h4]; rfl), ⟨h1, h2, h3⟩, works_same fun C Y m' n' hY hm' hd' hn' _ => ?_⟩
    simp only [Prep.transformC, JLD.transform]
    rw [hY.shape2_eq hm' hd']
    refine ⟨_, rfl, map_shape hY fun s _ _ => ?_⟩
    rw [← h5]
    exact JLD.outDims_shape _ _ _ _ _ _
  | c, .spe p, d, d', X, m, n, h, hX, hm, hd, hn => by
    obtain ⟨h1, rfl⟩ := h
    refine ⟨.spe p, lib_fit rfl, ⟨h1, rfl⟩, works_same fun C Y m' n' hY hm' hd' hn' hC => ?_⟩
    simp only [Prep.transformC, SPE.transform]
    rcases hs : p.step with _ | nm
    · simp only
      refine ⟨_, rfl, mapRows_shape hY fun r hr => ?_⟩
      simp [hY.shape2_eq hm' hd', hr]
    · rw [hs] at h1
      have hc : c = .own := h1.resolve_left (by simp)
      subst hc
      have hC : C = Y := hC
      subst hC
      simp only
      rw [issSums_eq L.T C nm hY hd', ok_bind]
      have hl : ∀ w ∈ (tab m' fun i => tab n' (variation nm (at3 C i 0))).map p.wave, w.length = shape2 C := by
        intro w hw
        obtain ⟨r, hr, rfl⟩ := List.mem_map.1 hw
        obtain ⟨i, _, rfl⟩ := mem_tab.1 hr
        rw [hY.shape2_eq hm' hd']
        simp [SPE.wave]
      have hw : ((tab m' fun i => tab n' (variation nm (at3 C i 0))).map p.wave).length = C.length := by simp [hY.1]
      rw [if_pos hl, if_pos hw]
      refine ⟨_, rfl, by rw [List.length_zipWith, hw, hY.1, Nat.min_self], fun s hs => ?_⟩
      obtain ⟨i, hi, rfl⟩ := List.getElem_of_mem hs
      rw [List.getElem_zipWith]
      have hi1 : i < C.length := by rw [List.length_zipWith] at hi; omega
      obtain ⟨a, b⟩ := hY.2 C[i] (List.getElem_mem hi1)
      refine ⟨by rw [List.length_map, a], fun r hr => ?_⟩
      obtain ⟨r0, h0, rfl⟩ := List.mem_map.1 hr
      rw [List.length_zipWith, b r0 h0, hl _ (List.getElem_mem _), hY.shape2_eq hm' hd', Nat.min_self]
  | c, .rpe p, d, d', X, m, n, h, hX, hm, hd, hn => by
    obtain ⟨rfl, rfl⟩ := h
    refine ⟨.rpe p, lib_fit rfl, ⟨rfl, rfl⟩, works_same fun C Y m' n' hY hm' hd' hn' _ => ?_⟩
    simp only [Prep.transformC, RPE.transform]
    rw [if_neg (by rw [hY.shape1_eq hm']; simp), hY.shape2_eq hm' hd']
    refine ⟨_, rfl, map_shape hY fun s _ _ => ⟨rfl, fun r hr => ?_⟩⟩
    simp only [RPE.series, List.mem_cons, List.not_mem_nil, or_false] at hr
    rcases hr with rfl | rfl <;> simp
  | c, .cts p, d, d', X, m, n, h, hX, hm, hd, hn => by
    obtain ⟨h1, rfl⟩ := h
    refine ⟨.cts p, lib_fit rfl, ⟨h1, rfl⟩, works_same fun C Y m' n' hY hm' hd' hn' _ => ?_⟩
    simp only [Prep.transformC, CTS.transform]
    rw [hY.shape2_eq hm' hd']
    refine mapRowsM_shape hY fun r hr => CTS.row_total ?_ hr hn'
    rcases h1 with h1 | h1
    · refine Or.inr ?_
      unfold CTS.shift
      split
      · omega
      · rename_i hs
        have : 1 ≤ p.s := by
          by_contra hlt
          exact hs ⟨h1, not_le.1 hlt⟩
        rw [pyInt_nonneg h1.le]
        exact Int.le_floor.2 (by exact_mod_cast this)
    · exact Or.inl h1
  | c, .qtc p, d, d', X, m, n, h, hX, hm, hd, hn => by
    obtain ⟨h1, rfl⟩ := h
    obtain ⟨_, v, hv, _⟩ := (C46_quantile_cut L.T X (entries_ne_nil hX hm hd hn) p.q p.lower p.bound).1 h1
    have hq : ∃ v, Fruits.quantile (entries X) p.q = .ok v := by
      rcases hx : Fruits.quantile (entries X) p.q with e | v
      · unfold QTC.fit at hv; simp only at hv; rw [hx] at hv; cases hv
      · exact ⟨v, rfl⟩
    obtain ⟨v, hq⟩ := hq
    refine ⟨.qtc { p with quantile := some v }, lib_fit (by simp only [Prep.fit, QTC.fit]; rw [hq]; rfl), ⟨h1, rfl⟩, works_same fun C Y m' n' hY hm' hd' hn' _ => ?_⟩
    simp only [Prep.transformC, QTC.transform]
    split
    · exact ⟨_, rfl, mapEntries_shape hY⟩
    · exact ⟨_, rfl, mapEntries_shape hY⟩
  | c, .func f, d, d', X, m, n, h, hX, hm, hd, hn =>
    ⟨.func f, lib_fit rfl, h, fun C Y m' n' hY hm' _ hn' _ => h.2 Y m' n' hY hm' hn'⟩
  | c, .dil p, d, d', X, m, n, h, hX, hm, hd, hn => by
    obtain ⟨h1, rfl⟩ := h
    obtain ⟨p', h2⟩ := C47_fit_succeeds g hg p h1 X hX hm hd hn
    have h3 : ∃ st, p' = { p with fitted := some st } := by
      unfold DIL.fit at h2
      simp only at h2
      split at h2
      · cases h2
      · rcases hl : DIL.lengths g (shape2 X) (if (p.nclusters g (shape2 X)) ≥ (shape2 X : ℤ) then List.range (shape2 X)
          else (g.choice 0 (shape2 X) (p.nclusters g (shape2 X)).toNat).insertionSort (· ≤ ·)) (p.nclusters g (shape2 X)).toNat with e | lens
        · rw [hl] at h2; cases h2
        · rw [hl] at h2; cases h2; exact ⟨_, rfl⟩
    obtain ⟨⟨idx, lens⟩, rfl⟩ := h3
    refine ⟨.dil { p with fitted := some (idx, lens) }, lib_fit (by simp only [Prep.fit]; rw [h2]; rfl), ⟨h1, rfl⟩, works_same fun C Y m' n' hY hm' hd' hn' _ => ?_⟩
    simp only [Prep.transformC, DIL.transform]
    exact ⟨_, rfl, mapRows_shape hY fun r hr => by rw [DIL.row_length, hr]⟩
  | c, .win p, d, d', X, m, n, h, hX, hm, hd, hn => by
    obtain ⟨h1, rfl⟩ := h
    refine ⟨.win p, lib_fit rfl, ⟨h1, rfl⟩, works_same fun C Y m' n' hY hm' hd' hn' hC => ?_⟩
    have hC' : ∃ mc dc, HasShape C mc dc n' ∧ m' ≤ mc ∧ 0 < dc := by
      cases c with
      | own => have hC : C = Y := hC; subst hC; exact ⟨m', d', hY, le_rfl, hd'⟩
      | aligned => exact hC
      | loose => exact absurd rfl h1
    obtain ⟨mc, dc, hS, hle, hdc⟩ := hC'
    simp only [Prep.transformC, WIN.transform]
    have e : "L2".toList = Norm.L2.text := rfl
    rw [e, coqs_eq L.T hT C hS hdc hn' p.start .L2, ok_bind, coqs_eq L.T hT C hS hdc hn' p.stop .L2, ok_bind]
    obtain ⟨Z, h2, h3⟩ := mapM_total (l := List.range Y.length) (Q := fun _ (s : Series R) => s.length = d' ∧ ∀ r ∈ s, r.length = n')
      (f := fun i => match (tab mc fun i => coqSpec .L2 (at3 C i 0) n' p.start)[i]?, (tab mc fun i => coqSpec .L2 (at3 C i 0) n' p.stop)[i]? with
        | some u, some v => (Y.getD i []).mapM (WIN.row u v)
        | _, _ => .error .indexError) (by
        intro i hi
        have hi1 : i < Y.length := List.mem_range.1 hi
        have hi2 : i < mc := by rw [hY.1] at hi1; omega
        beta_reduce
        rw [tab_getElem?, tab_getElem?, if_pos hi2, if_pos hi2]
        simp only
        obtain ⟨a, b⟩ := hY.2 _ (getD_mem_lt (e := []) hi1)
        obtain ⟨s', h3, h4⟩ := mapM_total (l := Y.getD i []) (Q := fun _ r' => r'.length = n')
          (f := WIN.row (coqSpec .L2 (at3 C i 0) n' p.start) (coqSpec .L2 (at3 C i 0) n' p.stop)) fun r hr => WIN.row_total _ _ r (b r hr)
        refine ⟨s', h3, by rw [← h4.length_eq, a], fun r hr => ?_⟩
        obtain ⟨_, _, h⟩ := forall₂_right_mem h4 r hr
        exact h)
    refine ⟨Z, h2, by rw [← h3.length_eq, List.length_range, hY.1], fun s hs => ?_⟩
    obtain ⟨_, _, h⟩ := forall₂_right_mem h3 s hs
    exact h
  | c, .dot p, d, d', X, m, n, h, hX, hm, hd, hn => by
    obtain ⟨⟨h1, h2⟩, rfl⟩ := h
    refine ⟨.dot (p.fit X), lib_fit rfl, ⟨⟨h1, h2⟩, rfl⟩, works_same fun C Y m' n' hY hm' hd' hn' _ => ?_⟩
    simp only [Prep.transformC, DOT.transform, DOT.fit]
    refine mapRowsM_shape hY fun r hr => ?_
    have hpos : ¬ DOT.fitN (shape2 X : ℤ) p.given ≤ 0 := by
      rw [hX.shape2_eq hm hd]
      rcases hgv : p.given with k | f
      · rw [hgv] at h1
        have : 1 ≤ k := h1
        simp only [DOT.fitN]; split <;> omega
      · simp only [DOT.fitN]; split <;> omega
    unfold DOT.row
    rw [if_neg hpos]
    exact ⟨_, rfl, by simp [hr]⟩
  | c, .pdd p, d, d', X, m, n, h, hX, hm, hd, hn => by
    cases h
    have h1 : ∃ st : List ℤ × ℤ, p.fit X = .ok { p with fitted := some st } := by
      unfold PDD.fit
      simp only
      have hlin : ∀ (a b : ℤ), 0 ≤ b → ∃ l, linspaceInt a b = .ok l := by
        intro a b hb
        unfold linspaceInt
        rw [if_neg (by omega)]
        split <;> exact ⟨_, rfl⟩
      have hpts : 1 ≤ max (pyInt ((1 - p.density) * (((shape2 X : ℕ) : ℤ) : R))) 1 := le_max_right _ _
      generalize max (pyInt ((1 - p.density) * (((shape2 X : ℕ) : ℤ) : R))) 1 = pts at hpts ⊢
      obtain ⟨l, hl⟩ : ∃ l, linspaceInt ((shape2 X : ℤ) - pyInt (((max (pyInt (p.proportion * (((shape2 X : ℕ) : ℤ) : R))) 1 : ℤ) : R) / (pts : R)))
          (if pts = (shape2 X : ℤ) - pyInt (((max (pyInt (p.proportion * (((shape2 X : ℕ) : ℤ) : R))) 1 : ℤ) : R) / (pts : R)) then pts - 1 else pts) = .ok l := by
        apply hlin
        split <;> omega
      rw [hl]
      exact ⟨_, rfl⟩
    obtain ⟨⟨idx, width⟩, h1⟩ := h1
    refine ⟨.pdd { p with fitted := some (idx, width) }, lib_fit (by simp only [Prep.fit]; rw [h1]; rfl), rfl, works_same fun C Y m' n' hY hm' hd' hn' _ => ?_⟩
    simp only [Prep.transformC, PDD.transform]
    exact ⟨_, rfl, mapRows_shape hY fun r hr => by rw [PDD.row_length, hr]⟩
  | c, .dim p dims, d, d', X, m, n, h, hX, hm, hd, hn => by
    simp only [Prep.Accepts] at h
    obtain ⟨h1, h2, e, h3, rfl⟩ := h
    obtain ⟨sub, h4, h5⟩ := selectDims_shape hX h2
    obtain ⟨q, h6, h7, h8⟩ := Prep.fit_works L hT g hg .own p h3 h5 hm (List.length_pos_of_ne_nil h1) hn
    refine ⟨.dim q dims, ?_, by simp only [Prep.Accepts]; exact ⟨h1, h2, e, h7, rfl⟩, works_same fun C Y m' n' hY hm' hd' hn' _ => ?_⟩
    · unfold Lib.prepFit at h6 ⊢
      simp only [Prep.fit]
      rw [h4, ok_bind]
      rcases hf : p.fit g L.fuel sub with e | _ | q'
      · rw [hf] at h6; cases h6
      · rw [hf] at h6; cases h6
      · rw [hf] at h6; cases h6; rfl
    · obtain ⟨sub', i1, _, i2⟩ := C51_dim L.T q dims Y hY h2 hm'
      obtain ⟨Z, n'', j1, j2, _, j3⟩ := h8 sub' sub' m' n' i1 hm' (List.length_pos_of_ne_nil h1) hn' rfl
      have := j3 (by simp)
      subst this
      obtain ⟨W, k1, k2⟩ := i2 Z e j1 j2
      exact ⟨W, k1, k2.1⟩
  | c, .new none, d, d', X, m, n, h, hX, hm, hd, hn => by
    cases h
    refine ⟨.new none, lib_fit rfl, rfl, works_same fun C Y m' n' hY hm' hd' hn' _ => ?_⟩
    obtain ⟨Z, h1, h2, _⟩ := C51_new_none L.T Y hY
    exact ⟨Z, h1, h2⟩
  | c, .new (some p), d, d', X, m, n, h, hX, hm, hd, hn => by
    simp only [Prep.Accepts] at h
    obtain ⟨e, h3, rfl⟩ := h
    obtain ⟨q, h6, h7, h8⟩ := Prep.fit_works L hT g hg .own p h3 hX hm hd hn
    refine ⟨.new (some q), ?_, by simp only [Prep.Accepts]; exact ⟨e, h7, rfl⟩, works_same fun C Y m' n' hY hm' hd' hn' _ => ?_⟩
    · unfold Lib.prepFit at h6 ⊢
      simp only [Prep.fit]
      rcases hf : p.fit g L.fuel X with e | _ | q'
      · rw [hf] at h6; cases h6
      · rw [hf] at h6; cases h6
      · rw [hf] at h6; cases h6; rfl
    · obtain ⟨Z, n'', j1, j2, _, j3⟩ := h8 Y Y m' n' hY hm' hd' hn' rfl
      have := j3 (by simp)
      subst this
      obtain ⟨W, k1, k2, _⟩ := C51_new L.T q Y Z hY hm' hd' j2 (h7.pos hd) j1
      exact ⟨W, k1, k2⟩

end Fruits
