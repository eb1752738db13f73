import Verif.PrepFit
import Verif.Props.Sieve6
import Verif.WordOps

/-! # Copies of seeds (property C71) -/

namespace Fruits
set_option linter.unusedSectionVars false

variable {R : Type} [Field R] [LinearOrder R] [FloorRing R]

/-! ### Preparateurs -/

/-- What every history of the API guarantees about a preparateur: a separate standardisation has no fitted mean, a moving
average of non-positive integer width no fitted width. -/
def Prep.Wf : Prep R → Prop
  | .std p => p.separately = true → p.fitted = none
  | .mav p => ∀ k, p.given = .int k → k ≤ 0 → p.w = none
  | .dim p _ => p.Wf
  | .new (some p) => p.Wf
  | _ => True

/-- Every `STD` in the preparateur has the default `std_eps`. -/
def Prep.DefaultEps : Prep R → Prop
  | .std p => p.eps = 1 / 100000
  | .dim p _ => p.DefaultEps
  | .new (some p) => p.DefaultEps
  | _ => True

/-- `seed.fit(X); seed.transform(Y)`; `none`: a fit did not end within `fuel` rounds. -/
def Prep.fitThenTransform [NpMath R] (T : FloatText R) (g : Rng R) (fuel : ℕ) (p : Prep R) (X Y : Data R) :
    Except Err (Option (Data R)) :=
  match p.fit g fuel X with
  | .error e => .error e
  | .ok none => .ok none
  | .ok (some q) => (q.transform T Y).map some

theorem Prep.wf_copy : ∀ p : Prep R, p.copy.Wf
  | .std p => fun _ => rfl
  | .mav p => fun _ _ _ => rfl
  | .dim p _ => Prep.wf_copy p
  | .new (some p) => Prep.wf_copy p
  | .new none => trivial
  | .inc _ => trivial
  | .nrm _ => trivial
  | .lag => trivial
  | .ffn _ => trivial
  | .rin _ => trivial
  | .rdw _ => trivial
  | .jld _ => trivial
  | .spe _ => trivial
  | .rpe _ => trivial
  | .cts _ => trivial
  | .qtc _ => trivial
  | .func _ => trivial
  | .dil _ => trivial
  | .win _ => trivial
  | .dot _ => trivial
  | .pdd _ => trivial

theorem Prep.copy_fit [NpMath R] (g : Rng R) (fuel : ℕ) : ∀ (p : Prep R) (X : Data R), p.Wf → p.DefaultEps →
    p.copy.fit g fuel X = p.fit g fuel X
  | .std p, X, hw, he => by
    obtain ⟨s, v, e, f⟩ := p
    simp only [Prep.DefaultEps] at he
    subst he
    cases s with
    | true => obtain rfl := hw rfl; rfl
    | false => rfl
  | .mav p, X, hw, he => by
    obtain ⟨gv, w⟩ := p
    cases gv with
    | float f => rfl
    | int k =>
      by_cases hk : 0 < k
      · simp only [Prep.copy, Prep.fit, MAV.fit, if_pos hk]
      · obtain rfl := hw k rfl (by omega)
        rfl
  | .dim p dims, X, hw, he => by
    simp only [Prep.copy, Prep.fit]
    congr 1
    funext sub
    rw [Prep.copy_fit g fuel p sub hw he]
  | .new (some p), X, hw, he => by
    simp only [Prep.copy, Prep.fit]
    rw [Prep.copy_fit g fuel p X hw he]
  | .rin p, X, _, _ => by
    simp only [Prep.copy, Prep.fit, RIN.fit]
  | .rdw p, X, _, _ => by
    simp only [Prep.copy, Prep.fit, RDW.fit]
  | .jld p, X, _, _ => by
    simp only [Prep.copy, Prep.fit, JLD.fit]
  | .qtc p, X, _, _ => rfl
  | .dil p, X, _, _ => by cases p; rfl
  | .dot p, X, _, _ => rfl
  | .pdd p, X, _, _ => rfl
  | .ffn p, X, _, _ => rfl
  | .new none, X, _, _ => rfl
  | .inc _, _, _, _ => rfl
  | .nrm _, _, _, _ => rfl
  | .lag, _, _, _ => rfl
  | .spe _, _, _, _ => rfl
  | .rpe _, _, _, _ => rfl
  | .cts _, _, _, _ => rfl
  | .func _, _, _, _ => rfl
  | .win _, _, _, _ => rfl

/-- Fitting keeps the invariant. -/
theorem Prep.wf_fit [NpMath R] (g : Rng R) (fuel : ℕ) : ∀ (p q : Prep R) (X : Data R), p.Wf →
    p.fit g fuel X = .ok (some q) → q.Wf
  | .std p, q, X, hw, h => by
    cases h
    intro hs
    unfold STD.fit at hs ⊢
    by_cases hp : p.separately = true
    · rw [if_pos hp]; exact hw hp
    · rw [if_neg hp] at hs; exact absurd hs hp
  | .mav p, q, X, hw, h => by
    cases h
    obtain ⟨gv, w⟩ := p
    intro k hk hk0
    cases gv with
    | float f => exact absurd hk (by simp [MAV.fit])
    | int k' =>
      by_cases h0 : 0 < k'
      · simp only [MAV.fit, if_pos h0, IntOrFloat.int.injEq] at hk
        omega
      · simp only [MAV.fit, if_neg h0, IntOrFloat.int.injEq] at hk ⊢
        exact hw k' rfl (by omega)
  | .dim p dims, q, X, hw, h => by
    simp only [Prep.fit] at h
    rcases hs : selectDims dims X with e | sub
    · rw [hs] at h; cases h
    rw [hs, ok_bind] at h
    rcases hr : p.fit g fuel sub with e | r
    · rw [hr] at h; cases h
    rw [hr, ok_bind] at h
    cases r with
    | none => cases h
    | some q' => cases h; exact Prep.wf_fit g fuel p q' sub hw hr
  | .new (some p), q, X, hw, h => by
    simp only [Prep.fit] at h
    rcases hr : p.fit g fuel X with e | r
    · rw [hr] at h; cases h
    rw [hr, ok_bind] at h
    cases r with
    | none => cases h
    | some q' => cases h; exact Prep.wf_fit g fuel p q' X hw hr
  | .rin p, q, X, _, h => by
    simp only [Prep.fit] at h
    rcases hr : p.fit g fuel X with e | r
    · rw [hr] at h; cases h
    rw [hr, ok_bind] at h
    cases r with
    | none => cases h
    | some q' => cases h; trivial
  | .rdw p, q, X, _, h => by
    simp only [Prep.fit] at h
    rcases hr : p.fit g X with e | r <;> rw [hr] at h <;> cases h
    trivial
  | .jld p, q, X, _, h => by
    simp only [Prep.fit] at h
    rcases hr : p.fit g X with e | r <;> rw [hr] at h <;> cases h
    trivial
  | .qtc p, q, X, _, h => by
    simp only [Prep.fit] at h
    rcases hr : p.fit X with e | r <;> rw [hr] at h <;> cases h
    trivial
  | .dil p, q, X, _, h => by
    simp only [Prep.fit] at h
    rcases hr : p.fit g X with e | r <;> rw [hr] at h <;> cases h
    trivial
  | .pdd p, q, X, _, h => by
    simp only [Prep.fit] at h
    rcases hr : p.fit X with e | r <;> rw [hr] at h <;> cases h
    trivial
  | .dot p, q, X, _, h => by cases h; trivial
  | .ffn p, q, X, _, h => by cases h; trivial
  | .new none, q, X, _, h => by cases h; trivial
  | .inc _, _, _, _, h => by cases h; trivial
  | .nrm _, _, _, _, h => by cases h; trivial
  | .lag, _, _, _, h => by cases h; trivial
  | .spe _, _, _, _, h => by cases h; trivial
  | .rpe _, _, _, _, h => by cases h; trivial
  | .cts _, _, _, _, h => by cases h; trivial
  | .func _, _, _, _, h => by cases h; trivial
  | .win _, _, _, _, h => by cases h; trivial

/-- A newly constructed preparateur: no fitted state. -/
def Prep.Unfitted : Prep R → Prop
  | .std p => p.fitted = none
  | .mav p => p.w = none
  | .ffn p => p.fitted = none
  | .rin p => p.fitted = none
  | .rdw p => p.weights = none
  | .jld p => p.fitted = none
  | .qtc p => p.quantile = none
  | .dil p => p.fitted = none
  | .dot p => p.fitted = none
  | .pdd p => p.fitted = none
  | .dim p _ => p.Unfitted
  | .new (some p) => p.Unfitted
  | _ => True

theorem Prep.Unfitted.wf : ∀ {p : Prep R}, p.Unfitted → p.Wf
  | .std _, h => fun _ => h
  | .mav _, h => fun _ _ _ => h
  | .dim p _, h => Prep.Unfitted.wf (p := p) h
  | .new (some p), h => Prep.Unfitted.wf (p := p) h
  | .new none, _ => trivial
  | .inc _, _ => trivial
  | .nrm _, _ => trivial
  | .lag, _ => trivial
  | .ffn _, _ => trivial
  | .rin _, _ => trivial
  | .rdw _, _ => trivial
  | .jld _, _ => trivial
  | .spe _, _ => trivial
  | .rpe _, _ => trivial
  | .cts _, _ => trivial
  | .qtc _, _ => trivial
  | .func _, _ => trivial
  | .dil _, _ => trivial
  | .win _, _ => trivial
  | .dot _, _ => trivial
  | .pdd _, _ => trivial

/-- The preparateurs that histories of `fit` and `copy` reach from newly constructed ones. -/
inductive Prep.Reachable [NpMath R] : Prep R → Prop
  | fresh (p : Prep R) (h : p.Unfitted) : Prep.Reachable p
  | copy (p : Prep R) (h : Prep.Reachable p) : Prep.Reachable p.copy
  | fit (p q : Prep R) (g : Rng R) (fuel : ℕ) (X : Data R) (h : Prep.Reachable p) (hq : p.fit g fuel X = .ok (some q)) :
      Prep.Reachable q

theorem Prep.Reachable.wf [NpMath R] {p : Prep R} (h : p.Reachable) : p.Wf := by
  induction h with
  | fresh p h => exact h.wf
  | copy p _ _ => exact Prep.wf_copy p
  | fit p q g fuel X _ hq ih => exact Prep.wf_fit g fuel p q X ih hq

/-- C71 for preparateurs: a copy of a preparateur (fitted or not), fitted with the same data and randomness, gives the same
result (or raises the same exception) on every dataset. What is missing: `STD` with another `std_eps` than the default. -/
theorem C71_prep_partial [NpMath R] (T : FloatText R) (g : Rng R) (fuel : ℕ) (p : Prep R) (X Y : Data R)
    (hp : p.Reachable) (he : p.DefaultEps) :
    p.copy.fitThenTransform T g fuel X Y = p.fitThenTransform T g fuel X Y := by
  unfold Prep.fitThenTransform
  rw [Prep.copy_fit g fuel p X hp.wf he]

/-- Copying is possible before and after fitting with the same result, and a copy of a copy is the copy. -/
theorem C71_prep_copy_idempotent : ∀ p : Prep R, p.copy.copy = p.copy
  | .dim p _ => by simp only [Prep.copy]; rw [C71_prep_copy_idempotent p]
  | .new (some p) => by simp only [Prep.copy]; rw [C71_prep_copy_idempotent p]
  | .new none => rfl
  | .std p => rfl
  | .mav p => rfl
  | .inc _ => rfl
  | .nrm _ => rfl
  | .lag => rfl
  | .ffn _ => rfl
  | .rin _ => rfl
  | .rdw _ => rfl
  | .jld _ => rfl
  | .spe _ => rfl
  | .rpe _ => rfl
  | .cts _ => rfl
  | .qtc _ => rfl
  | .func _ => rfl
  | .dil _ => rfl
  | .win _ => rfl
  | .dot _ => rfl
  | .pdd _ => rfl

/-- The missing case: `STD(var=False, std_eps=1)` divides by 2, its copy by 1.00001. -/
theorem C71_std_counterexample :
    letI : NpMath ℚ := ⟨id, id, fun a _ => a, id, id⟩
    ((Prep.std { var := false, eps := 1 } : Prep ℚ).transform ⟨fun _ => [], fun _ => none⟩ [[[1, 3]]]).toOption ≠
      (((Prep.std { var := false, eps := 1 } : Prep ℚ).copy).transform ⟨fun _ => [], fun _ => none⟩ [[[1, 3]]]).toOption := by
  decide +kernel

/-- Non-vacuity: a fitted preparateur is reachable and its copy is a different object. -/
example : letI : NpMath ℚ := ⟨id, id, fun a _ => a, id, id⟩
    Prep.Reachable (Prep.mav { given := .int 2, w := some 2 } : Prep ℚ) :=
  letI : NpMath ℚ := ⟨id, id, fun a _ => a, id, id⟩
  Prep.Reachable.fit (.mav { given := .int 2 }) _ ⟨fun _ _ _ => 0, fun _ _ _ => [], fun _ _ _ => 0, fun _ _ _ => 0, fun _ _ => 0, id⟩ 0
    [[[1, 2, 3]]] (.fresh _ rfl) rfl

/-! ### ISS -/

/-- C71 for an ISS: nothing is fitted and the copy has the same words, mode, semiring and weighting. -/
theorem C71_iss (expf : R → R) (c : ISSConf R) (X : Data R) :
    c.copy.transform expf X = c.transform expf X ∧ c.copy.label = c.label ∧ c.copy.nIteratedSums = c.nIteratedSums :=
  ⟨rfl, rfl, rfl⟩

/-! ### Sieves -/

/-- `sieve.fit(X); sieve.transform(Y)`, `C` the input of the cache of the second call. -/
def Sieve.fitThenTransform (T : FloatText R) (g : Rng R) (s : Sieve R) (X : List (List R)) (C : Data R) (Y : List (List R)) :
    Except Err (List (List R)) :=
  match s.fit g X with
  | .error e => .error e
  | .ok s' => s'.transformC T C Y

/-- A segment sieve whose copy keeps the norm: the default norm, or only integer cuts. -/
def Seg.NormKept (p : Seg R) : Prop := p.norm = .L2 ∨ ∀ c ∈ p.cut, ∃ k, c = .int k

/-- A `PPV` (or `CPV`) the copy of which is the same: quantiles to be computed are in `[0, 1]`, and for `segments` there are
at least two increasing quantiles with the same flag `constant`. -/
structure PPV.CopySafe (p : PPV R) : Prop where
  valid : ∀ e ∈ p.qc, e.2 = true ∨ (0 ≤ e.1 ∧ e.1 ≤ 1)
  sample : 0 < p.sampleSize ∧ p.sampleSize ≤ 1
  seg : p.segments = true → 2 ≤ p.qc.length ∧ (p.qc.map (·.1)).Pairwise (· < ·) ∧ ∃ c, ∀ e ∈ p.qc, e.2 = c

/-- The configurations whose copies behave the same. -/
def Sieve.CopySafe : Sieve R → Prop
  | .seg _ p => p.NormKept
  | .inc _ _ p => p.NormKept
  | .ppv p => p.CopySafe
  | .cpv p => p.CopySafe
  | .wrapInc s _ _ => s.CopySafe
  | .wrapInt s => s.CopySafe

theorem mapM_congr_mem {α β : Type} {f h : α → Except Err β} : ∀ {l : List α}, (∀ a ∈ l, f a = h a) → l.mapM f = l.mapM h
  | [], _ => rfl
  | a :: l, H => by
    rw [List.mapM_cons, List.mapM_cons, H a (by simp), mapM_congr_mem fun b hb => H b (by simp [hb])]

theorem Seg.cuts_norm {p q : Seg R} (T : FloatText R) (C : Data R) (m n : ℕ) (h : p.NormKept) (hc : q.cut = p.cut)
    (hq : q.norm = .L2) : q.cuts T C m n = p.cuts T C m n := by
  unfold Seg.cuts
  rw [hc]
  have : p.cut.mapM (q.cutColumn T C m n) = p.cut.mapM (p.cutColumn T C m n) := by
    apply mapM_congr_mem
    intro c hcm
    rcases h with h | h
    · cases c with
      | int k => rfl
      | float f => simp only [Seg.cutColumn]; rw [h, hq]
    · obtain ⟨k, rfl⟩ := h c hcm
      rfl
  rw [this]

theorem Seg.copy_transform {p q : Seg R} (T : FloatText R) (C : Data R) (k : SegKind) (Y : List (List R)) (h : p.NormKept)
    (hc : q.cut = p.cut) (hq : q.norm = .L2) (h1 : q.q = p.q) (h2 : q.quantiles = p.quantiles) :
    q.transform T C k Y = p.transform T C k Y := by
  have hu : q.useQuantiles = p.useQuantiles := by
    unfold Seg.useQuantiles Seg.requiresFitting Seg.unfittedQuantiles
    rw [h1, h2]
  have hcuts := fun m n => Seg.cuts_norm T C m n h hc hq
  cases k <;> simp only [Seg.transform, hu, hcuts]

theorem Seg.copy_incTransform {p q : Seg R} (T : FloatText R) (C : Data R) (k : IncKind) (i : ℤ) (Y : List (List R))
    (h : p.NormKept) (hc : q.cut = p.cut) (hq : q.norm = .L2) (h1 : q.q = p.q) (h2 : q.quantiles = p.quantiles) :
    q.incTransform T C k i Y = p.incTransform T C k i Y := by
  have hu : q.useQuantiles = p.useQuantiles := by
    unfold Seg.useQuantiles Seg.requiresFitting Seg.unfittedQuantiles
    rw [h1, h2]
  have hcuts := fun m n => Seg.cuts_norm T C m n h hc hq
  simp only [Seg.incTransform, hu, hcuts]

/-- Sorting a list without ties gives the one sorted list with these elements. -/
theorem insertionSort_fst_eq {c : Bool} {l l' : List (R × Bool)} (hp : l'.Perm l) (hs : (l.map (·.1)).Pairwise (· < ·))
    (hc : ∀ e ∈ l, e.2 = c) : l'.insertionSort (fun a b => a.1 ≤ b.1) = l := by
  have h1 : (l'.insertionSort (fun a b => a.1 ≤ b.1)).Perm l := (List.perm_insertionSort _ _).trans hp
  haveI : Std.Total (fun a b : R × Bool => a.1 ≤ b.1) := ⟨fun a b => le_total a.1 b.1⟩
  haveI : IsTrans (R × Bool) (fun a b => a.1 ≤ b.1) := ⟨fun a b d h h' => le_trans h h'⟩
  have h2 := List.pairwise_insertionSort (fun a b : R × Bool => a.1 ≤ b.1) l'
  have h3 : l.Pairwise (fun a b => a.1 ≤ b.1) := by
    rw [List.pairwise_map] at hs
    exact hs.imp fun h => h.le
  refine h1.eq_of_pairwise ?_ h2 h3
  intro a b ha hb h h'
  exact Prod.ext (le_antisymm h h') ((hc a (h1.mem_iff.1 ha)).trans (hc b hb).symm)

theorem PPV.copy_new {p : PPV R} (setOrder : List R → List R) (ho : SetOrder setOrder) (h : p.CopySafe) :
    PPV.new setOrder (.list (p.qc.map (·.1))) (.list (p.qc.map (·.2))) p.sampleSize p.segments =
      .ok { p with q := none } := by
  have hz : (p.qc.map (·.1)).zip (p.qc.map (·.2)) = p.qc := by
    rw [List.zip_map']; simp
  have hv : (p.qc.any fun e => !e.2 && !decide (0 ≤ e.1 ∧ e.1 ≤ 1)) = false := by
    rw [List.any_eq_false]
    intro e he
    rcases h.valid e he with h1 | h1
    · simp [h1]
    · simp [h1]
  have hargs : PPV.args (.list (p.qc.map (·.1))) (.list (p.qc.map (·.2))) = .ok (p.qc.map (·.1), p.qc.map (·.2)) := by
    unfold PPV.args
    simp only [hz, hv, List.length_map, ne_eq, not_true_eq_false, if_false]
    rfl
  unfold PPV.new
  rw [hargs, ok_bind]
  simp only
  rw [if_neg (not_not.2 h.sample)]
  cases hseg : p.segments with
  | false =>
    simp only [Bool.false_and, if_false, hz]
    simp only [Bool.false_eq_true, if_false]
    obtain ⟨qc, ss, sg, q⟩ := p
    simp only at hseg; subst hseg; rfl
  | true =>
    obtain ⟨h2, h3, c, hc⟩ := h.seg hseg
    have hnd : (p.qc.map (·.1)).Nodup := h3.imp fun h => h.ne
    have hperm : (setOrder (p.qc.map (·.1))).Perm (p.qc.map (·.1)) := by
      have := ho (p.qc.map (·.1))
      rwa [List.dedup_eq_self.2 hnd] at this
    have hcs : p.qc.map (·.2) = List.replicate p.qc.length c := by
      rw [List.eq_replicate_iff]
      refine ⟨by simp, ?_⟩
      intro b hb
      obtain ⟨e, he, rfl⟩ := List.mem_map.1 hb
      exact hc e he
    have hzip : ∀ l : List R, l.length = p.qc.length → l.zip (List.replicate p.qc.length c) = l.map fun q => (q, c) := by
      intro l hl
      rw [← hl]
      clear hl
      induction l with
      | nil => rfl
      | cons a l ih => simpa [List.replicate_succ] using ih
    have hz2 : ((setOrder (p.qc.map (·.1))).zip (p.qc.map (·.2))).insertionSort (fun a b => a.1 ≤ b.1) = p.qc := by
      rw [hcs, hzip _ (by rw [hperm.length_eq]; simp)]
      have h4 : p.qc = (p.qc.map (·.1)).map fun q => (q, c) := by
        rw [List.map_map]

        apply List.ext_getElem (by simp); intro i h5 h6; simp only [List.getElem_map, Function.comp]; exact Prod.ext rfl (hc _ (List.getElem_mem h5))
      refine insertionSort_fst_eq ?_ h3 hc
      conv_rhs => rw [h4]
      exact hperm.map _
    rw [if_neg (by simp; omega)]
    simp only [if_true, hz2]
    obtain ⟨qc, ss, sg, q⟩ := p
    simp only at hseg; subst hseg; rfl

/-- Two fits raise the same exception or give sieves with equal transforms. -/
def SameFit (T : FloatText R) (a b : Except Err (Sieve R)) : Prop :=
  (∃ e, a = .error e ∧ b = .error e) ∨
    ∃ a' b', a = .ok a' ∧ b = .ok b' ∧ ∀ C Y, Sieve.transformC T C a' Y = Sieve.transformC T C b' Y

theorem copy_sameFit (T : FloatText R) (g : Rng R) (setOrder : List R → List R) (ho : SetOrder setOrder) :
    ∀ (s : Sieve R), s.CopySafe → ∃ c, s.copy setOrder = .ok c ∧ ∀ X, SameFit T (c.fit g X) (s.fit g X)
  | .seg k p, h => by
    refine ⟨_, rfl, fun X => ?_⟩
    simp only [Sieve.fit, Seg.fit]
    rcases hq : p.q.mapM (quantileValue X.flatten) with e | qs
    · exact .inl ⟨e, rfl, rfl⟩
    · exact .inr ⟨_, _, rfl, rfl, fun C Y =>
        Seg.copy_transform T C k Y (p := { p with quantiles := some _ }) h rfl rfl rfl rfl⟩
  | .inc k i p, h => by
    refine ⟨_, rfl, fun X => ?_⟩
    simp only [Sieve.fit, Seg.incFit, Seg.fit]
    rcases preTransform i X with e | A
    · exact .inl ⟨e, rfl, rfl⟩
    simp only [ok_bind]
    rcases hq : p.q.mapM (quantileValue A.flatten) with e | qs
    · exact .inl ⟨e, rfl, rfl⟩
    · exact .inr ⟨_, _, rfl, rfl, fun C Y =>
        Seg.copy_incTransform T C k i Y (p := { p with quantiles := some _ }) h rfl rfl rfl rfl⟩
  | .ppv p, h => by
    refine ⟨.ppv { p with q := none }, ?_, fun X => ?_⟩
    · simp only [Sieve.copy]; rw [PPV.copy_new setOrder ho h]; rfl
    · have : Sieve.fit g (.ppv { p with q := none }) X = Sieve.fit g (.ppv p) X := rfl
      rw [this]
      rcases Sieve.fit g (.ppv p) X with e | a
      · exact .inl ⟨e, rfl, rfl⟩
      · exact .inr ⟨a, a, rfl, rfl, fun _ _ => rfl⟩
  | .cpv p, h => by
    refine ⟨.cpv { p with q := none }, ?_, fun X => ?_⟩
    · simp only [Sieve.copy]; rw [PPV.copy_new setOrder ho h]; rfl
    · have : Sieve.fit g (.cpv { p with q := none }) X = Sieve.fit g (.cpv p) X := rfl
      rw [this]
      rcases Sieve.fit g (.cpv p) X with e | a
      · exact .inl ⟨e, rfl, rfl⟩
      · exact .inr ⟨a, a, rfl, rfl, fun _ _ => rfl⟩
  | .wrapInc s d k, h => by
    obtain ⟨c, hc, H⟩ := copy_sameFit T g setOrder ho s h
    refine ⟨.wrapInc c d k, by simp only [Sieve.copy]; rw [hc]; rfl, fun X => ?_⟩
    simp only [Sieve.fit]
    rcases wrapIncData d k X with e | A
    · exact .inl ⟨e, rfl, rfl⟩
    simp only [ok_bind]
    rcases H A with ⟨e, h1, h2⟩ | ⟨a, b, h1, h2, h3⟩
    · rw [h1, h2]; exact .inl ⟨e, rfl, rfl⟩
    · rw [h1, h2]
      refine .inr ⟨_, _, rfl, rfl, fun C Y => ?_⟩
      simp only [Sieve.transformC]
      congr 1
      funext B
      exact h3 _ _
  | .wrapInt s, h => by
    obtain ⟨c, hc, H⟩ := copy_sameFit T g setOrder ho s h
    refine ⟨.wrapInt c, by simp only [Sieve.copy]; rw [hc]; rfl, fun X => ?_⟩
    simp only [Sieve.fit]
    rcases H (X.map cumsum) with ⟨e, h1, h2⟩ | ⟨a, b, h1, h2, h3⟩
    · rw [h1, h2]; exact .inl ⟨e, rfl, rfl⟩
    · rw [h1, h2]
      refine .inr ⟨_, _, rfl, rfl, fun C Y => ?_⟩
      simp only [Sieve.transformC]
      exact h3 _ _

/-- C71 for sieves: the copy of a sieve (fitted or not) exists and, fitted with the same data and randomness, gives the same
features (or raises the same exception) on every input and with every cache. What is missing: configurations that are not
`CopySafe`. -/
theorem C71_sieve_partial (T : FloatText R) (g : Rng R) (setOrder : List R → List R) (ho : SetOrder setOrder)
    (s : Sieve R) (hs : s.CopySafe) : ∃ c, s.copy setOrder = .ok c ∧
      ∀ X C Y, c.fitThenTransform T g X C Y = s.fitThenTransform T g X C Y := by
  obtain ⟨c, hc, H⟩ := copy_sameFit T g setOrder ho s hs
  refine ⟨c, hc, fun X C Y => ?_⟩
  unfold Sieve.fitThenTransform
  rcases H X with ⟨e, h1, h2⟩ | ⟨a, b, h1, h2, h3⟩
  · rw [h1, h2]
  · rw [h1, h2]; exact h3 C Y

/-- Which `PPV` objects are `CopySafe`: those constructed with a list of quantiles and one flag `constant`, for `segments`
with at least two different quantiles. -/
theorem C71_ppv_copySafe (setOrder : List R → List R) (ho : SetOrder setOrder) (qs : List R) (c : Bool) (ss : R)
    (segments : Bool) (p : PPV R) (h : PPV.new setOrder (.list qs) (.one c) ss segments = .ok p)
    (h2 : segments = true → 2 ≤ qs.dedup.length) : p.CopySafe := by
  unfold PPV.new PPV.args at h
  simp only at h
  by_cases hv : ((qs.zip (qs.map fun _ => c)).any fun e => !e.2 && !decide (0 ≤ e.1 ∧ e.1 ≤ 1)) = true
  · rw [if_pos hv] at h; cases h
  rw [if_neg hv, ok_bind] at h
  simp only at h
  by_cases hss : 0 < ss ∧ ss ≤ 1
  swap
  · rw [if_pos hss] at h; cases h
  rw [if_neg (not_not.2 hss)] at h
  have hz : ∀ l : List R, l.length ≤ qs.length → l.zip (qs.map fun _ => c) = l.map fun q => (q, c) := by
    intro l hl
    apply List.ext_getElem
    · simp [hl]
    · intro i h1 h2; simp
  have hval : ∀ q ∈ qs, c = true ∨ (0 ≤ q ∧ q ≤ 1) := by
    intro q hq
    rw [hz qs le_rfl, List.any_eq_true] at hv
    by_contra hcon
    rw [not_or] at hcon
    apply hv
    refine ⟨(q, c), List.mem_map.2 ⟨q, hq, rfl⟩, ?_⟩
    have h1 : c = false := by simpa using hcon.1
    simp only [h1, Bool.not_false, Bool.true_and, Bool.not_eq_true', decide_eq_false_iff_not]
    exact hcon.2
  cases segments with
  | false =>
    simp only [Bool.false_and, Bool.false_eq_true, if_false] at h
    cases h
    refine ⟨?_, hss, fun h => by cases h⟩
    intro e he
    simp only [hz qs le_rfl] at he
    obtain ⟨q, hq, rfl⟩ := List.mem_map.1 he
    exact hval q hq
  | true =>
    have hd := h2 rfl
    have hlen : (setOrder qs).length = qs.dedup.length := (ho qs).length_eq
    have hle : (setOrder qs).length ≤ qs.length := hlen ▸ (List.dedup_sublist qs).length_le
    have hq1 : qs.length ≠ 1 := by
      have := (List.dedup_sublist qs).length_le; omega
    simp only [Bool.true_and, decide_eq_true_eq, if_neg hq1, if_true, hz _ hle] at h
    cases h
    have hpm := List.perm_insertionSort (fun a b : R × Bool => a.1 ≤ b.1) ((setOrder qs).map fun q => (q, c))
    have hmem : ∀ e ∈ ((setOrder qs).map fun q => (q, c)).insertionSort (fun a b : R × Bool => a.1 ≤ b.1),
        e.1 ∈ qs ∧ e.2 = c := by
      intro e he
      obtain ⟨q, hq, rfl⟩ := List.mem_map.1 (hpm.mem_iff.1 he)
      exact ⟨List.mem_dedup.1 ((ho qs).mem_iff.1 hq), rfl⟩
    refine ⟨?_, hss, fun _ => ⟨?_, ?_, c, fun e he => (hmem e he).2⟩⟩
    · intro e he
      obtain ⟨h3, h4⟩ := hmem e he
      rw [h4]; exact hval _ h3
    · show 2 ≤ List.length (List.insertionSort _ _)
      rw [List.length_insertionSort, List.length_map, hlen]; exact hd
    · haveI : Std.Total (fun a b : R × Bool => a.1 ≤ b.1) := ⟨fun a b => le_total a.1 b.1⟩
      haveI : IsTrans (R × Bool) (fun a b => a.1 ≤ b.1) := ⟨fun a b d h h' => le_trans h h'⟩
      have hsrt := List.pairwise_insertionSort (fun a b : R × Bool => a.1 ≤ b.1) ((setOrder qs).map fun q => (q, c))
      have hnd : ((((setOrder qs).map fun q => (q, c)).insertionSort (fun a b : R × Bool => a.1 ≤ b.1)).map (·.1)).Nodup := by
        rw [(hpm.map _).nodup_iff, List.map_map]
        have : ((fun e : R × Bool => e.1) ∘ fun q => (q, c)) = id := rfl
        rw [this, List.map_id, (ho qs).nodup_iff]
        exact List.nodup_dedup qs
      have h5 : ((((setOrder qs).map fun q => (q, c)).insertionSort (fun a b : R × Bool => a.1 ≤ b.1)).map (·.1)).Pairwise (· ≤ ·) :=
        List.pairwise_map.2 hsrt
      exact (h5.and hnd).imp fun h => lt_of_le_of_ne h.1 h.2

/-- A random generator that always selects row 0. -/
def rngZero : Rng ℚ := ⟨fun _ _ _ => 0, fun _ _ _ => [0], fun _ _ _ => 0, fun _ _ _ => 0, fun _ _ => 0, id⟩

/-- The float text used in the examples: every string is the number 1/2. -/
def textHalf : FloatText ℚ := ⟨fun _ => [], fun _ => some (1 / 2)⟩

/-- The missing cases: (1) `MAX(cut=0.5, coquantile_norm="L1")`: the copy uses the norm `L2` and so another cut. -/
theorem C71_norm_counterexample :
    ((Sieve.seg .max ({ cut := [.float (1 / 2)], q := [-1, 1], norm := .L1 } : Seg ℚ)).copy id).toOption.isSome ∧
    ((Sieve.seg .max ({ cut := [.float (1 / 2)], q := [-1, 1], norm := .L1 } : Seg ℚ)).transform textHalf
      [[(0 : ℚ), 3, 5, 7]]).toOption = some [[3]] ∧
    (match (Sieve.seg .max ({ cut := [.float (1 / 2)], q := [-1, 1], norm := .L1 } : Seg ℚ)).copy id with
      | .ok c => (c.transform textHalf [[(0 : ℚ), 3, 5, 7]]).toOption = some [[0]]
      | .error _ => False) := by
  refine ⟨by decide +kernel, by decide +kernel, ?_⟩
  show ((Sieve.seg .max ({ cut := [.float (1 / 2)], q := [-1, 1] } : Seg ℚ)).transform textHalf
      [[(0 : ℚ), 3, 5, 7]]).toOption = some [[0]]
  decide +kernel

/-- (2) `PPV([0.5, 0.5], segments=True)` (one distinct quantile) can be constructed but `copy()` raises. -/
theorem C71_ppv_raises :
    (PPV.new List.dedup (.list [(1 : ℚ) / 2, 1 / 2]) (.one false) 1 true).toOption.isSome ∧
    (do
      let p ← PPV.new List.dedup (.list [(1 : ℚ) / 2, 1 / 2]) (.one false) 1 true
      (Sieve.ppv p).copy List.dedup).toOption.isNone := by
  decide +kernel

/-- (3) `PPV([0, 1], constant=[True, False], segments=True)` where `set` is iterated in decreasing order: the flags of the copy
are exchanged and its features differ. -/
theorem C71_flags_counterexample :
    (do
      let p ← PPV.new (fun l => l.dedup.insertionSort (· ≥ ·)) (.list [(0 : ℚ), 1]) (.list [true, false]) 1 true
      (Sieve.ppv p).fitThenTransform textHalf rngZero [[2, 3]] [] [[2, 3]]).toOption = some [[0]] ∧
    (do
      let p ← PPV.new (fun l => l.dedup.insertionSort (· ≥ ·)) (.list [(0 : ℚ), 1]) (.list [true, false]) 1 true
      let c ← (Sieve.ppv p).copy (fun l => l.dedup.insertionSort (· ≥ ·))
      c.fitThenTransform textHalf rngZero [[2, 3]] [] [[2, 3]]).toOption = some [[1 / 2]] := by
  decide +kernel

/-- The order used in (3) is an order of a set. -/
example : SetOrder (fun l : List ℚ => l.dedup.insertionSort (· ≥ ·)) := fun _ => List.perm_insertionSort _ _

/-- Non-vacuity: a `CopySafe` sieve with nested wrappers, float cuts and segments. -/
example : (Sieve.wrapInt (.wrapInc (.ppv ⟨[((0 : ℚ), false), (1 / 2, false), (1, false)], 1, true, none⟩) 1 1)).CopySafe :=
  ⟨by intro e he; fin_cases he <;> (right; constructor <;> norm_num), by norm_num, fun _ => ⟨by decide, by decide +kernel,
    false, by intro e he; fin_cases he <;> rfl⟩⟩

end Fruits
