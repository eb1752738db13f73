import Verif.Props.Fruit1

/-! # The feature matrix of a fruit, continued (properties C73, C82, C83) -/

namespace Fruits
set_option linter.unusedSectionVars false

variable {R P I W S V : Type} [Field R] [LinearOrder R] [FloorRing R]

theorem sliceN_columns {K : Sem R P I W S V} {w : World R P I W S} {s : ℕ} (hpos : ∀ a ∈ (w.slice s).sieves, 0 ≤ K.sieveN (w.sieve a))
    {N : ℤ} (hN : sliceN K w s = .ok N) : ∃ cols, sliceColumns K w s = .ok cols ∧ N = (cols.length : ℤ) := by
  unfold sliceN at hN
  rcases hc : sliceCount K w s with e | cnt
  · rw [hc] at hN; simp at hN
  rw [hc] at hN
  have hN : sieveTotal K w s * (cnt : ℤ) = N := Except.ok.inj hN
  obtain ⟨ns, hns, hprod⟩ := sliceCount_eq hc
  refine ⟨_, by rw [sliceColumns, hns]; rfl, ?_⟩
  have htot : sieveTotal K w s = ((sumN K ((w.slice s).sieves.map w.sieve) : ℕ) : ℤ) := by
    unfold sieveTotal
    rw [sum_toNat (by intro x hx; obtain ⟨a, ha, rfl⟩ := List.mem_map.1 hx; exact hpos a ha)]
    simp [sumN, List.map_map, Function.comp_def]
  have : ∀ t : List ℕ, ((List.range (w.slice s).sieves.length).flatMap fun j =>
      (List.range (K.sieveN (w.sieve ((w.slice s).sieves.getD j 0))).toNat).map fun q => (⟨s, t, j, q⟩ : Col)).length =
      sumN K ((w.slice s).sieves.map w.sieve) := by
    intro t
    rw [List.length_flatMap, sumN]
    simp only [List.length_map, List.length_range, List.map_map]
    congr 1
    apply List.ext_getElem
    · simp
    · intro j h1 h2
      simp only [List.length_map, List.length_range] at h1
      simp [List.getElem?_eq_getElem h1]
  rw [List.length_flatMap]
  simp only [this, List.map_const', List.sum_replicate, tuples_length, hprod, smul_eq_mul]
  rw [← hN, htot]; push_cast; ring

/-- The events of one slice, with the argument of `on_sieve` left out: `on_next_slice`, one `on_preparateur` per preparateur
with its output, `on_preparation_end` with the prepared data, for every iterated sum `on_iterated_sum` with that iterated sum
and one `on_sieve` per sieve, and `on_sieving_end` with the features of the slice. -/
def sliceEvents (K : Sem R P I W S V) (w : World R P I W S) (C X : Data R) (s : ℕ) (A : List (List V)) : List (Event R V) :=
  .nextSlice :: (stages K w C (w.slice s).preps X).map .preparateur ++ [.preparationEnd (prepared K w C X s)] ++
    ((iterateIss K C ((w.slice s).iss.map w.issAt) (prepared K w C X s)).1.flatMap fun it =>
      .iteratedSum it :: List.replicate (w.slice s).sieves.length (.sieve [])) ++ [.sievingEnd A]

/-- The calls that callback number `j` receives. -/
def seenBy (j : ℕ) (tr : Trace R V) : List (Event R V) := (tr.filter fun p => p.1 = j).map Prod.snd

theorem seenBy_append (j : ℕ) (a b : Trace R V) : seenBy j (a ++ b) = seenBy j a ++ seenBy j b := by
  simp [seenBy]

theorem seenBy_emit {j n : ℕ} (h : j < n) (e : Event R V) : seenBy j (emit n e) = [e] := by
  have : (List.filter (fun k => decide (k = j)) (List.range n)) = [j] := by
    induction n with
    | zero => omega
    | succ n ih =>
      rw [List.range_succ, List.filter_append]
      by_cases hj : j = n
      · subst hj
        have h0 : List.filter (fun k => decide (k = j)) (List.range j) = [] := by
          rw [List.filter_eq_nil_iff]; intro k hk; rw [List.mem_range] at hk; simp; omega
        rw [h0]; simp
      · rw [ih (by omega)]
        simp [Ne.symm hj]
  simp only [seenBy, emit, List.filter_map, Function.comp_def, this, List.map_cons, List.map_nil]

theorem seenBy_flatMap {α : Type} (j : ℕ) (l : List α) (f : α → Trace R V) :
    seenBy j (l.flatMap f) = l.flatMap fun a => seenBy j (f a) := by
  induction l with
  | nil => rfl
  | cons a l ih => rw [List.flatMap_cons, seenBy_append, ih, List.flatMap_cons]

theorem seenBy_erase (j : ℕ) (tr : Trace R V) : seenBy j (Trace.erase tr) = (seenBy j tr).map Event.erase := by
  simp [seenBy, Trace.erase, List.filter_map, Function.comp_def]

theorem slicesLoop_spec {K : Sem R P I W S V} (hK : K.KeepsRows) (hC : K.CountsRight) {w : World R P I W S} {n : ℕ} {C X : Data R} (hCX : C.length = X.length) :
    ∀ (ss : List ℕ) (css : List (List Col)), (∀ s ∈ ss, SliceCoherent K w s) → ss.mapM (sliceColumns K w) = .ok css →
    ∀ (pre : List (List V)) (k z : ℕ), (∀ r ∈ pre, r.length = k) → pre.length = X.length → css.flatten.length ≤ z →
    ∀ D' tr, slicesLoop K w n C X ss (padded K.zero pre z) (k : ℤ) = (.ok D', tr) →
    ∃ As : List (List (List V)),
      List.Forall₂ (fun s A => (sliceTransform K w n s C X).1 = .ok A) ss As ∧
      D' = padded K.zero (extend pre fun i => As.flatMap fun A => A.getD i []) (z - css.flatten.length) ∧
      (∀ i < X.length, (As.flatMap fun A => A.getD i []).map some = css.flatten.map (colValue K w C X i)) ∧
      (∀ j < n, (seenBy j tr).map Event.erase = (List.zip ss As).flatMap fun p => sliceEvents K w C X p.1 p.2) ∧
      (∀ s ∈ ss, (stages K w C (w.slice s).preps X).length = (w.slice s).preps.length)
  | [], css, _, hcss, pre, k, z, hp, _, _, D', tr, h => by
    have : css = [] := by simpa [pure, Except.pure, eq_comm] using hcss
    subst this
    simp only [slicesLoop, Prod.mk.injEq, Except.ok.injEq] at h
    obtain ⟨rfl, rfl⟩ := h
    refine ⟨[], List.Forall₂.nil, ?_, ?_, ?_, ?_⟩
    · simp [extend_nil]
    · simp
    · intro j _; simp [seenBy]
    · simp
  | s :: ss, css, hco, hcss, pre, k, z, hp, hl, hz, D', tr, h => by
    rw [mapM_ok_iff] at hcss
    obtain ⟨cols, css', hcols, hcss', rfl⟩ := List.forall₂_cons_left_iff.1 hcss
    rw [slicesLoop] at h
    rcases hN : sliceN K w s with e | N
    · rw [hN] at h; simp at h
    rw [hN] at h
    simp only at h
    rcases hA : sliceTransform K w n s C X with ⟨e | A, tr1⟩
    · rw [hA] at h; simp at h
    rw [hA] at h
    simp only at h
    obtain ⟨_, cols', hc1, hc2, hc3, hc4, hc5, hc6⟩ := sliceTransform_spec hK hC (hco s (by simp)) hCX hA
    rw [hcols] at hc1
    have := Except.ok.inj hc1
    subst this
    rw [hN] at hc2
    have hNe : N = (cols.length : ℤ) := Except.ok.inj hc2
    subst hNe
    rcases hD : setCols (padded K.zero pre z) (k : ℤ) ((k : ℤ) + (cols.length : ℤ)) A with e | D1
    · rw [hD] at h; simp at h
    rw [hD] at h
    simp only [Prod.mk.injEq] at h
    obtain ⟨h1, h2⟩ := h
    have hlen : (List.flatten (cols :: css')).length = cols.length + css'.flatten.length := by simp
    rw [hlen] at hz
    obtain ⟨e1, e2, e3⟩ := setCols_padded (by omega) hp (by rw [hc3, hl]) hD
    have hrowlen : ∀ i < X.length, (A.getD i []).length = cols.length := by
      intro i hi
      have := congrArg List.length (hc4 i hi)
      simpa using this
    have hz1 : List.zipWith (fun p v => p ++ spread cols.length v) pre A = extend pre fun i => A.getD i [] := by
      rw [zipWith_eq_mapIdx _ ([] : List V) _ _ (by rw [hc3, hl])]
      unfold extend
      apply List.ext_getElem
      · simp
      · intro i h1 h2
        simp only [List.length_mapIdx] at h1
        simp only [List.getElem_mapIdx]
        have hs : spread cols.length (A.getD i []) = A.getD i [] := if_pos (hrowlen i (by omega))
        rw [hs]
    rw [hz1] at e1 e2
    have hk1 : (k : ℤ) + (cols.length : ℤ) = ((k + cols.length : ℕ) : ℤ) := by push_cast; rfl
    rw [hk1, e1] at h1 h2
    obtain ⟨As, i1, i2, i3, i4, i5⟩ := slicesLoop_spec hK hC hCX ss css' (fun t ht => hco t (by simp [ht])) (mapM_ok_iff.2 hcss') _
      (k + cols.length) (z - cols.length) e2 (by simp [extend, hl]) (by omega) D' _ (Prod.ext h1 rfl)
    refine ⟨A :: As, List.Forall₂.cons (by rw [hA]) i1, ?_, ?_, ?_, ?_⟩
    · rw [i2, extend_extend, hlen, Nat.sub_add_eq]
      rfl
    · intro i hi
      rw [List.flatMap_cons, List.map_append, hc4 i hi, i3 i hi, List.flatten_cons, List.map_append]
    · intro j hj
      rw [← h2, seenBy_append, seenBy_append, List.map_append, List.map_append, i4 j hj, List.zip_cons_cons, List.flatMap_cons]
      congr 1
      rw [← seenBy_erase, ← seenBy_erase, hc5, erase_emit, seenBy_emit hj]
      simp only [seenBy_append, seenBy_emit hj, seenBy_flatMap]
      unfold sliceEvents
      have hrep : ∀ m, seenBy j (List.replicate m (emit n (Event.sieve ([] : List (List V))) : Trace R V)).flatten =
          List.replicate m (.sieve []) := by
        intro m
        induction m with
        | zero => rfl
        | succ m ih => rw [List.replicate_succ, List.flatten_cons, seenBy_append, ih, seenBy_emit hj]; rfl
      simp only [hrep, Event.erase]
      simp [List.append_assoc, List.map_eq_flatMap]
    · intro t ht
      rcases List.mem_cons.1 ht with rfl | ht
      · exact hc6
      · exact i5 t ht

theorem fruitTransform_spec {K : Sem R P I W S V} (hK : K.KeepsRows) (hC : K.CountsRight) {w : World R P I W S} {n f : ℕ}
    (hco : ∀ s ∈ (w.fruit f).slices, SliceCoherent K w s) {C X : Data R} (hCX : C.length = X.length) {A : List (List V)} {tr : Trace R V}
    (h : fruitTransform K w n f C X = (.ok A, tr)) :
    (w.fruit f).fitted = true ∧
    ∃ (cols : List Col) (As : List (List (List V))), columns K w f = .ok cols ∧ fruitN K w f = .ok (cols.length : ℤ) ∧
      List.Forall₂ (fun s B => (sliceTransform K w n s C X).1 = .ok B) (w.fruit f).slices As ∧
      A.length = X.length ∧
      (∀ i < X.length, A.getD i [] = (As.flatMap fun B => B.getD i []).map K.post) ∧
      (∀ i < X.length, (A.getD i []).map some = cols.map fun c => (colValue K w C X i c).map K.post) ∧
      (∀ j < n, (seenBy j tr).map Event.erase = (List.zip (w.fruit f).slices As).flatMap fun p => sliceEvents K w C X p.1 p.2) ∧
      (∀ s ∈ (w.fruit f).slices, (stages K w C (w.slice s).preps X).length = (w.slice s).preps.length) := by
  unfold fruitTransform at h
  by_cases hf : (w.fruit f).fitted = true
  swap
  · rw [if_neg hf] at h; simp at h
  rw [if_pos hf] at h
  refine ⟨hf, ?_⟩
  rcases hN : fruitN K w f with e | N
  · rw [hN] at h; simp at h
  rw [hN] at h
  simp only [ok_bind] at h
  -- the columns
  obtain ⟨css, hcss, hNe⟩ : ∃ css, (w.fruit f).slices.mapM (sliceColumns K w) = .ok css ∧ N = (css.flatten.length : ℤ) := by
    unfold fruitN at hN
    rcases hns : (w.fruit f).slices.mapM (sliceN K w) with e | ns
    · rw [hns] at hN; simp at hN
    rw [hns] at hN
    have hN : ns.sum = N := Except.ok.inj hN
    rw [mapM_ok_iff] at hns
    have : ∀ (ss : List ℕ) (ns : List ℤ), (∀ s ∈ ss, SliceCoherent K w s) → List.Forall₂ (fun s n => sliceN K w s = .ok n) ss ns →
        ∃ css, List.Forall₂ (fun s c => sliceColumns K w s = .ok c) ss css ∧ ns.sum = (css.flatten.length : ℤ) := by
      intro ss ns hco h
      induction h with
      | nil => exact ⟨[], List.Forall₂.nil, rfl⟩
      | cons hab _ ih =>
        obtain ⟨css, h1, h2⟩ := ih fun s hs => hco s (by simp [hs])
        obtain ⟨c, hc1, hc2⟩ := sliceN_columns (hco _ (by simp)).1 hab
        refine ⟨c :: css, List.Forall₂.cons hc1 h1, ?_⟩
        rw [List.sum_cons, h2, hc2, List.flatten_cons, List.length_append]; push_cast; rfl
    obtain ⟨css, h1, h2⟩ := this _ _ hco hns
    exact ⟨css, mapM_ok_iff.2 h1, by rw [← hN, h2]⟩
  subst hNe
  have hz : zerosE K X.length (css.flatten.length : ℤ) = .ok (padded K.zero (List.replicate X.length []) css.flatten.length) := by
    unfold zerosE
    rw [if_neg (by omega), Int.toNat_natCast]
    simp [padded]
  rw [hz] at h
  simp only at h
  rcases hl : slicesLoop K w n C X (w.fruit f).slices (padded K.zero (List.replicate X.length []) css.flatten.length) 0 with ⟨e | B, tr'⟩
  · rw [hl] at h; simp at h
  rw [hl] at h
  simp only [Prod.mk.injEq, Except.ok.injEq] at h
  obtain ⟨rfl, rfl⟩ := h
  obtain ⟨As, i1, i2, i3, i4, i5⟩ := slicesLoop_spec hK hC hCX _ css hco hcss (List.replicate X.length []) 0 css.flatten.length
    (by intro r hr; rw [List.eq_of_mem_replicate hr]; rfl) (by simp) le_rfl B tr' hl
  have hB : ∀ i < X.length, (B.map fun r => r.map K.post).getD i [] = (As.flatMap fun A => A.getD i []).map K.post := by
    intro i hi
    rw [i2, Nat.sub_self, List.getD_eq_getElem?_getD]
    simp [padded, extend, hi]
  refine ⟨css.flatten, As, by rw [columns, hcss]; rfl, rfl, i1, ?_, hB, ?_, i4, i5⟩
  · rw [i2]; simp [padded, extend]
  · intro i hi
    rw [hB i hi, List.map_map]
    have := congrArg (List.map (Option.map K.post)) (i3 i hi)
    simpa [List.map_map, Function.comp_def] using this

end Fruits
