import Verif.Props.Builtin1
import Verif.Props.Fruit12

/-! # The seeds of the library can be fitted again (for property C77) -/

namespace Fruits
set_option linter.unusedSectionVars false

variable {R : Type} [Field R] [LinearOrder R] [FloorRing R]

/-! ### Preparateurs -/

theorem STD.refit [NpMath R] (p : STD R) (X Y : Data R) : (p.fit X).fit Y = p.fit Y := by
  unfold STD.fit
  by_cases h : p.separately = true
  · simp [h]
  · simp [h]

theorem MAV.refit (p : MAV R) (X Y : Data R) : (p.fit X).fit Y = p.fit Y := by
  rcases p with ⟨giv, w⟩
  cases giv with
  | float f => rfl
  | int k =>
    by_cases h : 0 < k
    · simp [MAV.fit, h]
    · simp [MAV.fit, h]

theorem RIN.fit_spec {g : Rng R} {fuel : ℕ} {p q : RIN R} {X : Data R} (h : p.fit g fuel X = .ok (some q)) :
    ∃ st, q = { p with fitted := some st } := by
  unfold RIN.fit at h
  simp only at h
  generalize (if 0 < p.outDim then p.outDim else (shape1 X : ℤ)) = od at h
  generalize RIN.drawSumOne g (shape1 X) (p.width.eval (shape2 X)).toNat fuel 0 = dr at h
  split at h
  · exact ⟨_, (Option.some.inj (Except.ok.inj h)).symm⟩
  · split at h
    · cases h
    split at h
    · cases h
    split at h
    · cases dr with
      | none => simp at h
      | some k => exact ⟨_, (Option.some.inj (Except.ok.inj h)).symm⟩
    · exact ⟨_, (Option.some.inj (Except.ok.inj h)).symm⟩

theorem RIN.refit {g : Rng R} {fuel : ℕ} {p q : RIN R} {X : Data R} (h : p.fit g fuel X = .ok (some q)) (g' : Rng R) (fuel' : ℕ)
    (Y : Data R) : q.fit g' fuel' Y = p.fit g' fuel' Y := by
  obtain ⟨st, rfl⟩ := RIN.fit_spec h
  unfold RIN.fit
  rfl

theorem RDW.fit_spec {g : Rng R} {p q : RDW R} {X : Data R} (h : p.fit g X = .ok q) :
    ∃ st, q = { p with weights := some st } := by
  unfold RDW.fit at h
  by_cases hd : p.dirichlet = true
  · rw [if_pos hd] at h
    rcases ha : RDW.alphas X with e | al
    · rw [ha] at h; cases h
    rw [ha, ok_bind] at h
    rcases hm : maxE (al.filter fun a => decide (a ≠ 0)) with e | v
    · rw [hm] at h; cases h
    rw [hm, ok_bind] at h
    exact ⟨_, (Except.ok.inj h).symm⟩
  · rw [if_neg hd] at h
    exact ⟨_, (Except.ok.inj h).symm⟩

theorem RDW.refit {g : Rng R} {p q : RDW R} {X : Data R} (h : p.fit g X = .ok q) (g' : Rng R) (Y : Data R) :
    q.fit g' Y = p.fit g' Y := by
  obtain ⟨st, rfl⟩ := RDW.fit_spec h
  rfl

theorem JLD.fit_spec [NpMath R] {g : Rng R} {p q : JLD R} {X : Data R} (h : p.fit g X = .ok q) :
    ∃ st, q = { p with fitted := some st } := by
  unfold JLD.fit at h
  simp only at h
  split at h
  · split at h
    · cases h
    split at h
    · cases h
    split at h
    · cases h
    exact ⟨_, (Except.ok.inj h).symm⟩
  · split at h
    · cases h
    exact ⟨_, (Except.ok.inj h).symm⟩

theorem JLD.refit [NpMath R] {g : Rng R} {p q : JLD R} {X : Data R} (h : p.fit g X = .ok q) (g' : Rng R) (Y : Data R) :
    q.fit g' Y = p.fit g' Y := by
  obtain ⟨st, rfl⟩ := JLD.fit_spec h
  rfl

theorem QTC.refit {p q : QTC R} {X : Data R} (h : p.fit X = .ok q) (Y : Data R) : q.fit Y = p.fit Y := by
  unfold QTC.fit at h
  rcases hv : Fruits.quantile (entries X) p.q with e | v
  · rw [hv] at h; cases h
  · rw [hv, ok_bind] at h
    cases h
    rfl

theorem DIL.fit_spec {g : Rng R} {p q : DIL R} {X : Data R} (h : p.fit g X = .ok q) :
    ∃ st, q = { p with fitted := some st } := by
  unfold DIL.fit at h
  simp only at h
  split at h
  · cases h
  generalize DIL.lengths g (shape2 X) _ _ = l at h
  cases l with
  | error e => cases h
  | ok l => exact ⟨_, (Except.ok.inj h).symm⟩

theorem DIL.refit {g : Rng R} {p q : DIL R} {X : Data R} (h : p.fit g X = .ok q) (g' : Rng R) (Y : Data R) :
    q.fit g' Y = p.fit g' Y := by
  obtain ⟨st, rfl⟩ := DIL.fit_spec h
  rfl

theorem PDD.fit_spec {p q : PDD R} {X : Data R} (h : p.fit X = .ok q) :
    ∃ st, q = { p with fitted := some st } := by
  unfold PDD.fit at h
  simp only at h
  generalize linspaceInt _ _ = l at h
  cases l with
  | error e => cases h
  | ok l => exact ⟨_, (Except.ok.inj h).symm⟩

theorem PDD.refit {p q : PDD R} {X : Data R} (h : p.fit X = .ok q) (Y : Data R) : q.fit Y = p.fit Y := by
  obtain ⟨st, rfl⟩ := PDD.fit_spec h
  rfl

/-- A preparateur forgets an earlier `fit` when it is fitted again. -/
theorem Prep.refit [NpMath R] {g : Rng R} {fuel : ℕ} : ∀ (p q : Prep R) (X : Data R), p.fit g fuel X = .ok (some q) →
    ∀ (g' : Rng R) (fuel' : ℕ) (Y : Data R), q.fit g' fuel' Y = p.fit g' fuel' Y
  | .dim p dims, q, X, h, g', fuel', Y => by
    simp only [Prep.fit] at h
    rcases hs : selectDims dims X with e | sub
    · rw [hs] at h; cases h
    · rw [hs, ok_bind] at h
      rcases hr : p.fit g fuel sub with e | r
      · rw [hr] at h; cases h
      · rw [hr, ok_bind] at h
        cases r with
        | none => cases h
        | some p' =>
          cases h
          simp only [Prep.fit]
          rcases hs' : selectDims dims Y with e | sub'
          · rfl
          · rw [ok_bind, ok_bind, Prep.refit p p' sub hr g' fuel' sub']
  | .new (some p), q, X, h, g', fuel', Y => by
    simp only [Prep.fit] at h
    rcases hr : p.fit g fuel X with e | r
    · rw [hr] at h; cases h
    · rw [hr, ok_bind] at h
      cases r with
      | none => cases h
      | some p' =>
        cases h
        simp only [Prep.fit]
        rw [Prep.refit p p' X hr g' fuel' Y]
  | .new none, q, X, h, _, _, _ => by cases h; rfl
  | .func f, q, X, h, _, _, _ => by cases h; rfl
  | .inc _, q, X, h, _, _, _ => by cases h; rfl
  | .nrm _, q, X, h, _, _, _ => by cases h; rfl
  | .lag, q, X, h, _, _, _ => by cases h; rfl
  | .win _, q, X, h, _, _, _ => by cases h; rfl
  | .spe _, q, X, h, _, _, _ => by cases h; rfl
  | .rpe _, q, X, h, _, _, _ => by cases h; rfl
  | .cts _, q, X, h, _, _, _ => by cases h; rfl
  | .std p, q, X, h, _, _, Y => by cases h; simp only [Prep.fit]; rw [p.refit X Y]
  | .mav p, q, X, h, _, _, Y => by cases h; simp only [Prep.fit]; rw [p.refit X Y]
  | .ffn _, q, X, h, _, _, _ => by cases h; rfl
  | .dot _, q, X, h, _, _, _ => by cases h; rfl
  | .rin p, q, X, h, g', fuel', Y => by
    simp only [Prep.fit] at h
    rcases hr : p.fit g fuel X with e | r
    · rw [hr] at h; cases h
    · rw [hr, ok_bind] at h
      cases r with
      | none => cases h
      | some p' => cases h; simp only [Prep.fit]; rw [RIN.refit hr g' fuel' Y]
  | .rdw p, q, X, h, g', _, Y => by
    simp only [Prep.fit] at h
    rcases hr : p.fit g X with e | r
    · rw [hr] at h; cases h
    · rw [hr, ok_bind] at h; cases h; simp only [Prep.fit]; rw [RDW.refit hr g' Y]
  | .jld p, q, X, h, g', _, Y => by
    simp only [Prep.fit] at h
    rcases hr : p.fit g X with e | r
    · rw [hr] at h; cases h
    · rw [hr, ok_bind] at h; cases h; simp only [Prep.fit]; rw [JLD.refit hr g' Y]
  | .qtc p, q, X, h, _, _, Y => by
    simp only [Prep.fit] at h
    rcases hr : p.fit X with e | r
    · rw [hr] at h; cases h
    · rw [hr, ok_bind] at h; cases h; simp only [Prep.fit]; rw [QTC.refit hr Y]
  | .dil p, q, X, h, g', _, Y => by
    simp only [Prep.fit] at h
    rcases hr : p.fit g X with e | r
    · rw [hr] at h; cases h
    · rw [hr, ok_bind] at h; cases h; simp only [Prep.fit]; rw [DIL.refit hr g' Y]
  | .pdd p, q, X, h, _, _, Y => by
    simp only [Prep.fit] at h
    rcases hr : p.fit X with e | r
    · rw [hr] at h; cases h
    · rw [hr, ok_bind] at h; cases h; simp only [Prep.fit]; rw [PDD.refit hr Y]

/-- The copy of a preparateur does not depend on a `fit`. -/
theorem Prep.fit_copy [NpMath R] {g : Rng R} {fuel : ℕ} : ∀ (p q : Prep R) (X : Data R), p.fit g fuel X = .ok (some q) →
    q.copy = p.copy
  | .dim p dims, q, X, h => by
    simp only [Prep.fit] at h
    rcases hs : selectDims dims X with e | sub
    · rw [hs] at h; cases h
    · rw [hs, ok_bind] at h
      rcases hr : p.fit g fuel sub with e | r
      · rw [hr] at h; cases h
      · rw [hr, ok_bind] at h
        cases r with
        | none => cases h
        | some p' =>
          cases h
          simp only [Prep.copy]
          rw [Prep.fit_copy p p' sub hr]
  | .new (some p), q, X, h => by
    simp only [Prep.fit] at h
    rcases hr : p.fit g fuel X with e | r
    · rw [hr] at h; cases h
    · rw [hr, ok_bind] at h
      cases r with
      | none => cases h
      | some p' =>
        cases h
        simp only [Prep.copy]
        rw [Prep.fit_copy p p' X hr]
  | .new none, q, X, h => by cases h; rfl
  | .func f, q, X, h => by cases h; rfl
  | .inc _, q, X, h => by cases h; rfl
  | .nrm _, q, X, h => by cases h; rfl
  | .lag, q, X, h => by cases h; rfl
  | .win _, q, X, h => by cases h; rfl
  | .spe _, q, X, h => by cases h; rfl
  | .rpe _, q, X, h => by cases h; rfl
  | .cts _, q, X, h => by cases h; rfl
  | .std p, q, X, h => by
    cases h
    simp only [Prep.copy, STD.fit]
    split <;> rfl
  | .mav p, q, X, h => by
    cases h
    rcases p with ⟨giv, w⟩
    cases giv with
    | float f => rfl
    | int k => simp only [Prep.copy, MAV.fit]; split <;> rfl
  | .ffn _, q, X, h => by cases h; rfl
  | .dot _, q, X, h => by cases h; simp only [Prep.copy, DOT.fit]
  | .rin p, q, X, h => by
    simp only [Prep.fit] at h
    rcases hr : p.fit g fuel X with e | r
    · rw [hr] at h; cases h
    · rw [hr, ok_bind] at h
      cases r with
      | none => cases h
      | some p' => cases h; obtain ⟨st, rfl⟩ := RIN.fit_spec hr; rfl
  | .rdw p, q, X, h => by
    simp only [Prep.fit] at h
    rcases hr : p.fit g X with e | r
    · rw [hr] at h; cases h
    · rw [hr, ok_bind] at h; cases h; obtain ⟨st, rfl⟩ := RDW.fit_spec hr; rfl
  | .jld p, q, X, h => by
    simp only [Prep.fit] at h
    rcases hr : p.fit g X with e | r
    · rw [hr] at h; cases h
    · rw [hr, ok_bind] at h; cases h; obtain ⟨st, rfl⟩ := JLD.fit_spec hr; rfl
  | .qtc p, q, X, h => by
    simp only [Prep.fit] at h
    rcases hr : p.fit X with e | r
    · rw [hr] at h; cases h
    · rw [hr, ok_bind] at h; cases h
      unfold QTC.fit at hr
      rcases hv : Fruits.quantile (entries X) p.q with e | v
      · rw [hv] at hr; cases hr
      · rw [hv, ok_bind] at hr; cases hr; rfl
  | .dil p, q, X, h => by
    simp only [Prep.fit] at h
    rcases hr : p.fit g X with e | r
    · rw [hr] at h; cases h
    · rw [hr, ok_bind] at h; cases h; obtain ⟨st, rfl⟩ := DIL.fit_spec hr; rfl
  | .pdd p, q, X, h => by
    simp only [Prep.fit] at h
    rcases hr : p.fit X with e | r
    · rw [hr] at h; cases h
    · rw [hr, ok_bind] at h; cases h; obtain ⟨st, rfl⟩ := PDD.fit_spec hr; rfl

/-- Both `safeFit`s see only the value. -/
theorem Lib.safeFit_val [NpMath R] (L : Lib R) (g : Rng R) (p : SafePrep R) (X : Data R) :
    (L.safeFit g p X).map Subtype.val = L.prepFit g p.1 X := by
  unfold Lib.safeFit
  split <;> rename_i h <;> exact h.symm

theorem map_val_injective {α : Type} {φ : α → Prop} {a b : Except Err { x : α // φ x }}
    (h : a.map Subtype.val = b.map Subtype.val) : a = b := by
  cases a <;> cases b <;> simp_all [Except.map]
  exact Subtype.ext h

theorem Lib.safeFit_refit [NpMath R] (L : Lib R) (g : Rng R) (p q : SafePrep R) (X : Data R) (h : L.safeFit g p X = .ok q)
    (g' : Rng R) (Y : Data R) : L.safeFit g' q Y = L.safeFit g' p Y := by
  apply map_val_injective
  rw [Lib.safeFit_val, Lib.safeFit_val]
  have h1 : L.prepFit g p.1 X = .ok q.1 := by rw [← Lib.safeFit_val, h]; rfl
  unfold Lib.prepFit at h1 ⊢
  rcases hr : p.1.fit g L.fuel X with e | r
  · rw [hr] at h1; cases h1
  rw [hr] at h1
  cases r with
  | none => cases h1
  | some p' =>
    simp only [Except.ok.injEq] at h1
    rw [h1] at hr
    rw [Prep.refit p.1 q.1 X hr g' L.fuel Y]

/-! ### Iterated sums -/

theorem CosWISS.fit_spec {g : Rng R} {c c' : CosWISS R} {ws : List (SWord R)} {X : Data R} (h : c.fit g ws X = .ok c') :
    ∃ net drops, c' = { c with net := net, drops := drops } ∧ (c.ffnSize = none → net = c.net) ∧
      (c.dropout = none → drops = c.drops) := by
  unfold CosWISS.fit at h
  simp only at h
  rcases hd : c.dropout with _ | d
  · rw [hd] at h
    refine ⟨_, c.drops, (Except.ok.inj h).symm, fun hf => ?_, fun _ => rfl⟩
    rw [hf]
  · rw [hd] at h
    simp only at h
    generalize cosDrops g _ _ _ _ _ = l at h
    cases l with
    | error e => cases h
    | ok l =>
      refine ⟨_, _, (Except.ok.inj h).symm, fun hf => ?_, fun hf => ?_⟩
      · rw [hf]
      · cases hf

theorem CosWISS.refit {g : Rng R} {c c' : CosWISS R} {ws : List (SWord R)} {X : Data R} (h : c.fit g ws X = .ok c')
    (g' : Rng R) (ws' : List (SWord R)) (Y : Data R) : c'.fit g' ws' Y = c.fit g' ws' Y := by
  obtain ⟨net, drops, rfl, h1, h2⟩ := CosWISS.fit_spec h
  unfold CosWISS.fit
  rcases hf : c.ffnSize with _ | f <;> rcases hd : c.dropout with _ | d
  · rw [h1 hf, h2 hd]
  · simp only [h1 hf]
  · simp only [h2 hd]
  · simp only

/-! ### Sieves -/

theorem Seg.fit_spec {p p' : Seg R} {X : List (List R)} (h : p.fit X = .ok p') : ∃ qs, p' = { p with quantiles := some qs } := by
  unfold Seg.fit at h
  rcases hq : p.q.mapM (quantileValue X.flatten) with e | qs
  · rw [hq] at h; cases h
  · rw [hq] at h; exact ⟨_, (Except.ok.inj h).symm⟩

theorem Seg.incFit_spec {p p' : Seg R} {i : ℤ} {X : List (List R)} (h : p.incFit i X = .ok p') :
    ∃ qs, p' = { p with quantiles := some qs } := by
  unfold Seg.incFit at h
  rcases hq : preTransform i X with e | A
  · rw [hq] at h; cases h
  · rw [hq, ok_bind] at h; exact Seg.fit_spec h

theorem Seg.useQuantiles_free {p : Seg R} (hr : p.requiresFitting = false) (qs : Option (List (QVal R))) :
    Seg.useQuantiles { p with quantiles := qs } = p.useQuantiles := by
  have e : Seg.requiresFitting { p with quantiles := qs } = false := hr
  unfold Seg.useQuantiles
  rw [e, hr]
  rfl

theorem PPV.fit_spec {g : Rng R} {p p' : PPV R} {X : List (List R)} (h : p.fit g X = .ok p') :
    ∃ qs, p' = { p with q := some qs } := by
  unfold PPV.fit at h
  rcases hp : p.qc.zipIdx.mapM (p.fitValue g X) with e | q
  · rw [hp] at h; cases h
  · rw [hp] at h; exact ⟨_, (Except.ok.inj h).symm⟩

/-- The copy of a sieve does not depend on a `fit`. -/
theorem Sieve.fit_copy (o : List R → List R) {g : Rng R} : ∀ (s t : Sieve R) (X : List (List R)), s.fit g X = .ok t →
    t.copy o = s.copy o
  | .seg k p, t, X, h => by
    simp only [Sieve.fit] at h
    rcases hp : p.fit X with e | q
    · rw [hp] at h; cases h
    · rw [hp, ok_bind] at h; cases h
      obtain ⟨qs, rfl⟩ := Seg.fit_spec hp
      rfl
  | .inc k i p, t, X, h => by
    simp only [Sieve.fit] at h
    rcases hp : p.incFit i X with e | q
    · rw [hp] at h; cases h
    · rw [hp, ok_bind] at h; cases h
      obtain ⟨qs, rfl⟩ := Seg.incFit_spec hp
      rfl
  | .ppv p, t, X, h => by
    simp only [Sieve.fit] at h
    rcases hp : p.fit g X with e | q
    · rw [hp] at h; cases h
    · rw [hp, ok_bind] at h; cases h
      obtain ⟨qs, rfl⟩ := PPV.fit_spec hp
      rfl
  | .cpv p, t, X, h => by
    simp only [Sieve.fit] at h
    rcases hp : p.fit g X with e | q
    · rw [hp] at h; cases h
    · rw [hp, ok_bind] at h; cases h
      obtain ⟨qs, rfl⟩ := PPV.fit_spec hp
      rfl
  | .wrapInc s d k, t, X, h => by
    simp only [Sieve.fit] at h
    rcases hY : wrapIncData d k X with e | Y
    · rw [hY] at h; cases h
    rw [hY, ok_bind] at h
    rcases hp : s.fit g Y with e | q
    · rw [hp] at h; cases h
    · rw [hp, ok_bind] at h; cases h
      simp only [Sieve.copy]
      rw [Sieve.fit_copy o s q Y hp]
  | .wrapInt s, t, X, h => by
    simp only [Sieve.fit] at h
    rcases hp : s.fit g (X.map cumsum) with e | q
    · rw [hp] at h; cases h
    · rw [hp, ok_bind] at h; cases h
      simp only [Sieve.copy]
      rw [Sieve.fit_copy o s q _ hp]

/-- `fit` does not matter for a sieve that does not require fitting. -/
theorem Sieve.fit_free (T : FloatText R) {g : Rng R} : ∀ (s t : Sieve R) (X : List (List R)), s.fit g X = .ok t →
    s.requiresFitting = false → ∀ (C : Data R) (Y : List (List R)), t.transformC T C Y = s.transformC T C Y
  | .seg k p, t, X, h, hr, C, Y => by
    simp only [Sieve.fit] at h
    rcases hp : p.fit X with e | q
    · rw [hp] at h; cases h
    · rw [hp, ok_bind] at h; cases h
      obtain ⟨qs, rfl⟩ := Seg.fit_spec hp
      have e := Seg.useQuantiles_free (p := p) hr (some qs)
      simp only [Sieve.transformC]
      unfold Seg.transform
      rw [e]
      rfl
  | .inc k i p, t, X, h, hr, C, Y => by
    simp only [Sieve.fit] at h
    rcases hp : p.incFit i X with e | q
    · rw [hp] at h; cases h
    · rw [hp, ok_bind] at h; cases h
      obtain ⟨qs, rfl⟩ := Seg.incFit_spec hp
      have e := Seg.useQuantiles_free (p := p) hr (some qs)
      simp only [Sieve.transformC]
      unfold Seg.incTransform
      rw [e]
      rfl
  | .ppv p, t, X, h, hr, C, Y => by cases hr
  | .cpv p, t, X, h, hr, C, Y => by cases hr
  | .wrapInc s d k, t, X, h, hr, C, Y => by
    simp only [Sieve.fit] at h
    rcases hY : wrapIncData d k X with e | Z
    · rw [hY] at h; cases h
    rw [hY, ok_bind] at h
    rcases hp : s.fit g Z with e | q
    · rw [hp] at h; cases h
    · rw [hp, ok_bind] at h; cases h
      simp only [Sieve.transformC]
      rcases hZ : wrapIncData d k Y with e | Z'
      · rfl
      · rw [ok_bind, ok_bind]
        exact Sieve.fit_free T s q Z hp hr _ _
  | .wrapInt s, t, X, h, hr, C, Y => by
    simp only [Sieve.fit] at h
    rcases hp : s.fit g (X.map cumsum) with e | q
    · rw [hp] at h; cases h
    · rw [hp, ok_bind] at h; cases h
      simp only [Sieve.transformC]
      exact Sieve.fit_free T s q _ hp hr _ _

theorem Lib.sieveCopy_val (L : Lib R) (s : SafeSieve R) : (L.sieveCopy s).map Subtype.val = s.1.copy L.setOrder := by
  unfold Lib.sieveCopy
  split <;> rename_i h <;> exact h.symm

theorem safeSieveFit_val (g : Rng R) (s : SafeSieve R) (X : List (List R)) :
    (safeSieveFit g s X).map Subtype.val = s.1.fit g X := by
  unfold safeSieveFit
  split <;> rename_i h <;> exact h.symm

/-- All seeds of the library can be fitted again. -/
theorem builtin_refits [IsStrictOrderedRing R] [NpMath R] (L : Lib R) : (builtin L).Refits where
  prep := fun g p _ X p' h g' _ X' => L.safeFit_refit g p p' X h g' X'
  iss := fun g i ws _ X i' h g' ws' _ X' => by
    change BIss.fit g i ws X = .ok i' at h
    change BIss.fit g' i' ws' X' = BIss.fit g' i ws' X'
    cases i with
    | iss o => cases h; rfl
    | cos c =>
      simp only [BIss.fit] at h ⊢
      rcases hs : simpleWords ws with e | sw
      · rw [hs] at h; cases h
      rw [hs, ok_bind] at h
      rcases hc : c.fit g sw X with e | c'
      · rw [hc] at h; cases h
      rw [hc, ok_bind] at h
      cases h
      simp only
      rcases hs' : simpleWords ws' with e | sw'
      · rfl
      · rw [ok_bind, ok_bind, CosWISS.refit hc g' sw' X']
  issRequires := fun g i ws _ X i' h => by
    change BIss.fit g i ws X = .ok i' at h
    change i'.requires = i.requires
    cases i with
    | iss o => cases h; rfl
    | cos c =>
      simp only [BIss.fit] at h
      rcases hs : simpleWords ws with e | sw
      · rw [hs] at h; cases h
      rw [hs, ok_bind] at h
      rcases hc : c.fit g sw X with e | c'
      · rw [hc] at h; cases h
      rw [hc, ok_bind] at h
      cases h
      obtain ⟨net, drops, rfl, -, -⟩ := CosWISS.fit_spec hc
      rfl
  issSame := fun g i ws _ X i' h hr => by
    change BIss.fit g i ws X = .ok i' at h
    change i.requires = false at hr
    cases i with
    | iss o => cases h; rfl
    | cos c =>
      simp only [BIss.fit] at h
      rcases hs : simpleWords ws with e | sw
      · rw [hs] at h; cases h
      rw [hs, ok_bind] at h
      rcases hc : c.fit g sw X with e | c'
      · rw [hc] at h; cases h
      rw [hc, ok_bind] at h
      cases h
      obtain ⟨net, drops, rfl, h1, h2⟩ := CosWISS.fit_spec hc
      simp only [BIss.requires, CosWISS.requiresFitting, Bool.or_eq_false_iff, Option.isSome_eq_false_iff,
        Option.isNone_iff_eq_none] at hr
      rw [h1 hr.1, h2 hr.2]
  issCount := fun g i ws _ X i' h ws' => by
    change BIss.fit g i ws X = .ok i' at h
    change i'.count ws' = i.count ws'
    cases i with
    | iss o => cases h; rfl
    | cos c =>
      simp only [BIss.fit] at h
      rcases hs : simpleWords ws with e | sw
      · rw [hs] at h; cases h
      rw [hs, ok_bind] at h
      rcases hc : c.fit g sw X with e | c'
      · rw [hc] at h; cases h
      rw [hc, ok_bind] at h
      cases h
      obtain ⟨net, drops, rfl, -, -⟩ := CosWISS.fit_spec hc
      rfl
  sieve := fun g v _ X v' h => by
    apply map_val_injective
    change (L.sieveCopy v').map Subtype.val = (L.sieveCopy v).map Subtype.val
    rw [Lib.sieveCopy_val, Lib.sieveCopy_val]
    exact Sieve.fit_copy L.setOrder v.1 v'.1 X (safeSieveFit_ok h)
  sieveSame := fun g v _ X v' h hr C' X' => Sieve.fit_free L.T v.1 v'.1 X (safeSieveFit_ok h) hr C' X'

end Fruits
