import Verif.Props.Sieve7

/-! # C117: which settings of `PPV` and `CPV` can be constructed and fitted -/

namespace Fruits
set_option linter.unusedSectionVars false

variable {R : Type} [Field R] [LinearOrder R] [IsStrictOrderedRing R] [FloorRing R]

/-! ### Specification -/

/-- The argument `constant`, one flag for each of `n` quantiles. -/
def flagsOf (n : ℕ) : OneOrList Bool → List Bool
  | .one c => List.replicate n c
  | .list cs => cs

/-- The quantiles of the argument `quantile`. -/
def quantilesOf : OneOrList R → List R
  | .one q => [q]
  | .list qs => qs

/-- The documented settings of `PPV`: as many flags as quantiles, probabilities between 0 and 1 unless they are constants, a
sample size in `(0, 1]` and at least two quantiles for `segments`. -/
def PPVDocumented (quantile : OneOrList R) (constant : OneOrList Bool) (sampleSize : R) (segments : Bool) : Prop :=
  (flagsOf (quantilesOf quantile).length constant).length = (quantilesOf quantile).length ∧
  (∀ i < (quantilesOf quantile).length, (flagsOf (quantilesOf quantile).length constant)[i]? = some false →
    ∃ q, (quantilesOf quantile)[i]? = some q ∧ 0 ≤ q ∧ q ≤ 1) ∧
  (0 < sampleSize ∧ sampleSize ≤ 1) ∧ (segments = true → 2 ≤ (quantilesOf quantile).length)

/-! ### Proofs -/

theorem zip_check (qs : List R) (cs : List Bool) (hl : cs.length = qs.length) :
    ((qs.zip cs).any fun e => !e.2 && !decide (0 ≤ e.1 ∧ e.1 ≤ 1)) = false ↔
      ∀ i < qs.length, cs[i]? = some false → ∃ q, qs[i]? = some q ∧ 0 ≤ q ∧ q ≤ 1 := by
  rw [List.any_eq_false]
  constructor
  · intro h i hi hc
    obtain ⟨hi', hc'⟩ := List.getElem?_eq_some_iff.1 hc
    refine ⟨qs[i], List.getElem?_eq_getElem hi, ?_⟩
    have hm : (qs[i], cs[i]) ∈ qs.zip cs := by
      have : (qs.zip cs)[i]'(by simp [hl, hi]) ∈ qs.zip cs := List.getElem_mem _
      rwa [List.getElem_zip] at this
    have h1 := h _ hm
    rw [hc'] at h1
    simpa using h1
  · rintro h ⟨q, c⟩ he
    obtain ⟨i, hi, he2⟩ := List.getElem_of_mem he
    rw [List.getElem_zip] at he2
    have hi2 : i < qs.length ∧ i < cs.length := by simpa using hi
    injection he2 with e1 e2
    cases c with
    | true => simp
    | false =>
      obtain ⟨q', h1, h2⟩ := h i hi2.1 (by rw [List.getElem?_eq_getElem hi2.2, e2])
      rw [List.getElem?_eq_getElem hi2.1, e1] at h1
      cases h1
      simpa using h2

theorem args_list (qs : List R) (c : OneOrList Bool) : PPV.args (.list qs) c =
    if (flagsOf qs.length c).length ≠ qs.length then .error .valueError
    else if (qs.zip (flagsOf qs.length c)).any fun e => !e.2 && !decide (0 ≤ e.1 ∧ e.1 ≤ 1) then .error .valueError
    else .ok (qs, flagsOf qs.length c) := by
  cases c with
  | one c =>
    have e : (qs.map fun _ => c) = List.replicate qs.length c := by rw [List.map_const']
    simp only [PPV.args, flagsOf, e, List.length_replicate, ne_eq, not_true, if_false]
    rfl
  | list cs =>
    simp only [PPV.args, flagsOf, ne_comm]
    rfl

/-- **C117, documented settings are accepted.** The new sieve has the given quantiles with their flags, in the given order if
not `segments`. -/
theorem C117_accepts (setOrder : List R → List R) (quantile : OneOrList R) (constant : OneOrList Bool) (ss : R) (seg : Bool)
    (h : PPVDocumented quantile constant ss seg) :
    ∃ p, PPV.new setOrder quantile constant ss seg = .ok p ∧ p.sampleSize = ss ∧ p.segments = seg ∧ p.q = none ∧
      (seg = false → p.qc.map (·.1) = quantilesOf quantile ∧ p.qc.map (·.2) = flagsOf (quantilesOf quantile).length constant) := by
  obtain ⟨h1, h2, h3, h4⟩ := h
  have ha : PPV.args quantile constant = .ok (quantilesOf quantile, flagsOf (quantilesOf quantile).length constant) := by
    cases quantile with
    | list qs =>
      simp only [quantilesOf] at h1 h2 ⊢
      rw [args_list, if_neg (not_not.2 h1), if_neg]
      rw [(zip_check qs _ h1).2 h2]; simp
    | one q =>
      cases constant with
      | one c => rfl
      | list cs =>
        simp only [quantilesOf, flagsOf, List.length_cons, List.length_nil] at h1 ⊢
        simp only [PPV.args]
        rw [if_neg (by omega)]
  unfold PPV.new
  rw [ha, ok_bind]
  simp only
  rw [if_neg (not_not.2 h3)]
  have h5 : ¬ (seg && decide ((quantilesOf quantile).length = 1)) = true := by
    cases seg with
    | false => simp
    | true => have := h4 rfl; simp; omega
  rw [if_neg h5]
  refine ⟨_, rfl, rfl, rfl, rfl, fun hs => ?_⟩
  subst hs
  simp only [Bool.false_eq_true, if_false]
  refine ⟨List.map_fst_zip (by omega), List.map_snd_zip (by omega)⟩

/-- **C117, other lists are rejected.** A list of quantiles with undocumented settings raises a `ValueError`. (Except that the
empty list is accepted with `segments`.) -/
theorem C117_rejects (setOrder : List R → List R) (qs : List R) (hqs : qs ≠ []) (constant : OneOrList Bool) (ss : R) (seg : Bool)
    (h : ¬ PPVDocumented (.list qs) constant ss seg) : PPV.new setOrder (.list qs) constant ss seg = .error .valueError := by
  unfold PPV.new
  rw [args_list]
  by_cases h1 : (flagsOf qs.length constant).length = qs.length
  swap
  · rw [if_pos h1]; rfl
  rw [if_neg (not_not.2 h1)]
  by_cases h2 : ((qs.zip (flagsOf qs.length constant)).any fun e => !e.2 && !decide (0 ≤ e.1 ∧ e.1 ≤ 1)) = true
  · rw [if_pos h2]; rfl
  rw [if_neg h2, ok_bind]
  simp only
  by_cases h3 : 0 < ss ∧ ss ≤ 1
  swap
  · rw [if_pos h3]
  rw [if_neg (not_not.2 h3)]
  have h4 : seg = true ∧ qs.length = 1 := by
    by_contra hc
    refine h ⟨h1, (zip_check qs _ h1).1 (by simpa using h2), h3, fun hs => ?_⟩
    have : qs.length ≠ 1 := fun hl => hc ⟨hs, hl⟩
    have := List.length_pos_iff.2 hqs
    simp only [quantilesOf]
    omega
  rw [if_pos (by simp [h4])]

/-- **C117, one number.** A single quantile with several flags, a wrong sample size or `segments` raises a `ValueError`. -/
theorem C117_rejects_one (setOrder : List R → List R) (q : R) (constant : OneOrList Bool) (ss : R) (seg : Bool)
    (h : (∃ cs, constant = .list cs ∧ 2 ≤ cs.length) ∨ ¬ (0 < ss ∧ ss ≤ 1) ∨ seg = true) :
    PPV.new setOrder (.one q) constant ss seg = .error .valueError := by
  by_cases h0 : ∃ cs, constant = .list cs ∧ 2 ≤ cs.length
  · obtain ⟨cs, rfl, h1⟩ := h0
    unfold PPV.new PPV.args
    simp only
    rw [if_pos (by omega)]; rfl
  have ha : ∃ cs, PPV.args (.one q) constant = .ok ([q], cs) := by
    cases constant with
    | one c => exact ⟨[c], rfl⟩
    | list cs =>
      refine ⟨cs, ?_⟩
      simp only [PPV.args]
      rw [if_neg]
      intro hc
      exact h0 ⟨cs, rfl, by omega⟩
  obtain ⟨cs, ha⟩ := ha
  unfold PPV.new
  rw [ha, ok_bind]
  simp only
  by_cases h3 : 0 < ss ∧ ss ≤ 1
  swap
  · rw [if_pos h3]
  rw [if_neg (not_not.2 h3)]
  have hs : seg = true := (h.resolve_left h0).resolve_left (not_not.2 h3)
  rw [if_pos (by simp [hs])]

/-- **C117, the part that holds about fitting.** A `PPV` (`CPV`) constructed with documented settings can be fitted on every
non-empty array, if `segments` is not set or if all its quantiles have the same flag. -/
theorem C117_fit_partial (setOrder : List R → List R) (ho : SetOrder setOrder) (quantile : OneOrList R)
    (constant : OneOrList Bool) (ss : R) (seg : Bool) (h : PPVDocumented quantile constant ss seg)
    (hseg : seg = true → ∃ c, constant = .one c) (p : PPV R) (hp : PPV.new setOrder quantile constant ss seg = .ok p)
    (g : Rng R) (hg : g.Valid) (X : List (List R)) {m n : ℕ} (hX : HasShape2 X m n) (hm : 0 < m) (hn : 0 < n) :
    (∃ s, (Sieve.ppv p).fit g X = .ok s) ∧ ∃ s, (Sieve.cpv p).fit g X = .ok s := by
  obtain ⟨p', h1, h2, h3, -, h5⟩ := C117_accepts setOrder quantile constant ss seg h
  rw [hp] at h1
  cases h1
  obtain ⟨g1, g2, g3, g4⟩ := h
  have key : ∀ e ∈ p.qc, e.2 = false → 0 ≤ e.1 ∧ e.1 ≤ 1 := by
    cases seg with
    | false =>
      obtain ⟨a1, a2⟩ := h5 rfl
      intro e he hf
      obtain ⟨i, hi, rfl⟩ := List.getElem_of_mem he
      have b1 : (quantilesOf quantile)[i]? = some p.qc[i].1 := by rw [← a1]; simp [hi]
      have b2 : (flagsOf (quantilesOf quantile).length constant)[i]? = some false := by rw [← a2, ← hf]; simp [hi]
      have hl : i < (quantilesOf quantile).length := by rw [← a1]; simpa using hi
      obtain ⟨q, c1, c2⟩ := g2 i hl b2
      rw [b1] at c1
      cases c1
      exact c2
    | true =>
      obtain ⟨c, rfl⟩ := hseg rfl
      have hq : ∃ qs, quantile = .list qs := by
        cases quantile with
        | list qs => exact ⟨qs, rfl⟩
        | one q => have := g4 rfl; simp [quantilesOf] at this
      obtain ⟨qs, rfl⟩ := hq
      simp only [quantilesOf] at *
      by_cases hd : 2 ≤ qs.dedup.length
      · have := C71_ppv_copySafe setOrder ho qs c ss true p hp (fun _ => hd)
        intro e he hf
        exact (this.1 e he).resolve_left (by simp [hf])
      · unfold PPV.new at hp
        rw [args_list, if_neg (not_not.2 g1), if_neg (by rw [(zip_check qs _ g1).2 g2]; simp), ok_bind] at hp
        simp only at hp
        rw [if_neg (not_not.2 g3), if_neg (by have := g4 trivial; simp; omega)] at hp
        cases hp
        intro e he hf
        simp only [if_true] at he
        have he := (List.perm_insertionSort _ _).subset he
        have a1 := (List.of_mem_zip he).1
        have a2 := (List.of_mem_zip he).2
        rw [(ho _).mem_iff, List.mem_dedup] at a1
        obtain ⟨i, hi, hi2⟩ := List.getElem_of_mem a1
        simp only [flagsOf, List.mem_replicate] at a2
        obtain ⟨q, c1, c2⟩ := g2 i hi (by simp [flagsOf, hi, ← a2.2, hf])
        rw [List.getElem?_eq_getElem hi, hi2] at c1
        cases c1
        exact c2
  have hok : ({ p with segments := false } : PPV R).ok := ⟨by simpa [h2] using g3, key, by simp⟩
  obtain ⟨qs, hq, -⟩ := PPV.fit_total hg hok hX hm hn
  have hfit : ∃ q, p.fit g X = .ok q := by
    unfold PPV.fit at hq ⊢
    have e : ({ p with segments := false } : PPV R).fitValue g X = p.fitValue g X := rfl
    rw [e] at hq
    rcases hM : p.qc.zipIdx.mapM (p.fitValue g X) with er | M
    · rw [hM] at hq; cases hq
    · exact ⟨_, rfl⟩
  obtain ⟨q, hq⟩ := hfit
  exact ⟨⟨.ppv q, by simp only [Sieve.fit]; rw [hq]; rfl⟩, ⟨.cpv q, by simp only [Sieve.fit]; rw [hq]; rfl⟩⟩

theorem choice_ne_nil (g : Rng ℚ) (hg : g.Valid) (c : ℕ) (X : List (List ℚ)) {m n : ℕ} (hX : HasShape2 X m n) (hm : 0 < m)
    (hn : 0 < n) : ((g.choice c X.length (max (pyInt ((1 : ℚ) * (X.length : ℚ))) 1).toNat).map fun i => X.getD i []).flatten ≠ [] := by
  have hk : (max (pyInt ((1 : ℚ) * (X.length : ℚ))) 1).toNat = m := by
    rw [hX.1, one_mul, pyInt_nonneg (by positivity), Int.floor_natCast]; omega
  rw [hk, hX.1]
  refine flatten_ne_nil (m := m) (n := n) ⟨by rw [List.length_map, hg.choice_length _ _ _ le_rfl], fun r hr => ?_⟩ hm hn
  obtain ⟨i, hi, rfl⟩ := List.mem_map.1 hr
  exact hX.2 _ (getD_mem_lt (by rw [hX.1]; exact hg.choice_lt _ _ _ le_rfl i hi))

/-- **C117 fails: one number.** `PPV(2.0)` is accepted although 2 is no probability, and can never be fitted: `fit` raises on
every non-empty array with a `ValueError`. -/
theorem C117_counterexample (g : Rng ℚ) (hg : g.Valid) (X : List (List ℚ)) {m n : ℕ} (hX : HasShape2 X m n) (hm : 0 < m)
    (hn : 0 < n) : ∃ p, PPV.new id (.one (2 : ℚ)) (.one false) 1 false = .ok p ∧
      (match (Sieve.ppv p).fit g X with | .error e => e = .valueError | .ok _ => False) := by
  refine ⟨⟨[(2, false)], 1, false, none⟩, rfl, ?_⟩
  simp only [Sieve.fit, PPV.fit]
  have hv : ([((2 : ℚ), false)].zipIdx.mapM (PPV.fitValue g ⟨[(2, false)], 1, false, none⟩ X)) = .error .valueError := by
    have e : [((2 : ℚ), false)].zipIdx = [((2, false), 0)] := rfl
    rw [e, List.mapM_cons]
    have : PPV.fitValue g (⟨[(2, false)], 1, false, none⟩ : PPV ℚ) X ((2, false), 0) = .error .valueError := by
      simp only [PPV.fitValue, Bool.false_eq_true, if_false]
      exact (quantile_spec _ (choice_ne_nil g hg 0 X hX hm hn) 2).2 (by norm_num)
    rw [this]; rfl
  rw [hv]
  rfl

/-- **C117 fails: segments.** `PPV([2, 1/2], constant=[True, False], segments=True)` is accepted, but if the set of quantiles
is iterated in the order `1/2, 2` the flags are swapped and `2` becomes a probability: `fit` raises. -/
theorem C117_counterexample_segments (g : Rng ℚ) (hg : g.Valid) (X : List (List ℚ)) {m n : ℕ} (hX : HasShape2 X m n)
    (hm : 0 < m) (hn : 0 < n) :
    PPVDocumented (.list [(2 : ℚ), 1/2]) (.list [true, false]) 1 true ∧
    ∃ p, PPV.new (fun l => l.dedup.reverse) (.list [(2 : ℚ), 1/2]) (.list [true, false]) 1 true = .ok p ∧
      (match (Sieve.ppv p).fit g X with | .error e => e = .valueError | .ok _ => False) := by
  constructor
  · refine ⟨rfl, ?_, by norm_num, fun _ => le_rfl⟩
    intro i hi h
    simp only [quantilesOf, List.length_cons, List.length_nil] at hi
    interval_cases i
    · simp [flagsOf] at h
    · exact ⟨1/2, rfl, by norm_num⟩
  refine ⟨⟨[(1/2, true), (2, false)], 1, true, none⟩, ?_, ?_⟩
  · have e : ((([(2 : ℚ), 1/2].dedup.reverse).zip [true, false]).insertionSort fun a b => a.1 ≤ b.1) = [(1/2, true), (2, false)] := by
      decide +kernel
    unfold PPV.new PPV.args
    simp only [List.length_cons, List.length_nil, ne_eq, not_true, if_false, if_true]
    rw [if_neg (by decide +kernel), ok_bind]
    simp only [if_true, e]
    rw [if_neg (by norm_num), if_neg (by simp)]
    rfl
  simp only [Sieve.fit, PPV.fit]
  have hv : ([((1/2 : ℚ), true), (2, false)].zipIdx.mapM (PPV.fitValue g ⟨[(1/2, true), (2, false)], 1, true, none⟩ X))
      = .error .valueError := by
    have e : [((1/2 : ℚ), true), (2, false)].zipIdx = [((1/2, true), 0), ((2, false), 1)] := rfl
    rw [e, List.mapM_cons, List.mapM_cons]
    have h1 : PPV.fitValue g (⟨[(1/2, true), (2, false)], 1, true, none⟩ : PPV ℚ) X ((2, false), 1) = .error .valueError := by
      simp only [PPV.fitValue, Bool.false_eq_true, if_false]
      exact (quantile_spec _ (choice_ne_nil g hg 1 X hX hm hn) 2).2 (by norm_num)
    have h2 : PPV.fitValue g (⟨[(1/2, true), (2, false)], 1, true, none⟩ : PPV ℚ) X ((1/2, true), 0) = .ok (1/2) := rfl
    rw [h1, h2]; rfl
  rw [hv]
  rfl

/-- Non-vacuity. -/
example : PPVDocumented (.list [(1/2 : ℚ), 3]) (.list [false, true]) (1/2) true := by
  refine ⟨rfl, ?_, by norm_num, fun _ => le_rfl⟩
  intro i hi h
  simp only [quantilesOf, List.length_cons, List.length_nil] at hi
  interval_cases i
  · exact ⟨1/2, rfl, by norm_num⟩
  · simp [flagsOf] at h
end Fruits
