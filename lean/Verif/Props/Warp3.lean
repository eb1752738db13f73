import Verif.Props.Warp2
import Verif.Props.Fruit10
import Verif.Props.Builtin1
import Verif.Props.Prep4

/-! # C106: the features of whole fruits do not change under time warping -/

set_option linter.unusedSectionVars false

namespace Fruits
variable {R : Type} [Field R] [LinearOrder R] [IsStrictOrderedRing R] [FloorRing R]

/-! ### Which seeds -/

/-- Preparateurs that commute with the repetition of samples: `NRM`, `QTC` and `STD(separately=False)`. -/
def Prep.Elastic : Prep R → Prop
  | .nrm _ => True
  | .qtc _ => True
  | .std p => p.separately = false
  | _ => False

/-- Sieves that do not see repeated samples: `END`, `MAX` and `MIN` with their default quantiles, `NPI` and `MPI` with their default
quantiles, all with cuts at the beginning, the end or coquantiles. -/
def Sieve.Elastic : Sieve R → Prop
  | .seg .end_ p => ∀ c ∈ p.cut, c.Elastic
  | .seg .max p => (∀ c ∈ p.cut, c.Elastic) ∧ p.q = [-1, 1]
  | .seg .min p => (∀ c ∈ p.cut, c.Elastic) ∧ p.q = [-1, 1]
  | .inc .npi i p => i = 1 ∧ (∀ c ∈ p.cut, c.Elastic) ∧ p.q = [0, 1]
  | .inc .mpi i p => i = 1 ∧ (∀ c ∈ p.cut, c.Elastic) ∧ p.q = [0, 1]
  | _ => False

theorem Seg.fit_same {p q : Seg R} {X : List (List R)} (h : p.fit X = .ok q) : q.cut = p.cut ∧ q.q = p.q := by
  unfold Seg.fit at h
  rcases hq : p.q.mapM (quantileValue X.flatten) with e | qs
  · rw [hq] at h; cases h
  · rw [hq, ok_bind] at h; cases h; exact ⟨rfl, rfl⟩

theorem Seg.incFit_same {i : ℤ} {p q : Seg R} {X : List (List R)} (h : p.incFit i X = .ok q) : q.cut = p.cut ∧ q.q = p.q := by
  unfold Seg.incFit at h
  rcases hA : preTransform i X with e | A
  · rw [hA] at h; cases h
  · rw [hA, ok_bind] at h; exact Seg.fit_same h

theorem Sieve.Elastic.fit {g : Rng R} {s t : Sieve R} {X : List (List R)} (hs : s.Elastic) (h : s.fit g X = .ok t) : t.Elastic := by
  cases s with
  | seg k p =>
    simp only [Sieve.fit] at h
    rcases hp : p.fit X with e | q
    · rw [hp] at h; cases h
    rw [hp, ok_bind] at h
    cases h
    obtain ⟨h1, h2⟩ := Seg.fit_same hp
    cases k <;> simp_all [Sieve.Elastic]
  | inc k i p =>
    simp only [Sieve.fit] at h
    rcases hp : p.incFit i X with e | q
    · rw [hp] at h; cases h
    rw [hp, ok_bind] at h
    cases h
    obtain ⟨h1, h2⟩ := Seg.incFit_same hp
    cases k <;> simp_all [Sieve.Elastic]
  | ppv p => exact hs.elim
  | cpv p => exact hs.elim
  | wrapInc s d k => exact hs.elim
  | wrapInt s => exact hs.elim

theorem Sieve.Elastic.copy {o : List R → List R} {s t : Sieve R} (hs : s.Elastic) (h : s.copy o = .ok t) : t.Elastic := by
  cases s with
  | seg k p => simp only [Sieve.copy] at h; cases h; cases k <;> simp_all [Sieve.Elastic]
  | inc k i p => simp only [Sieve.copy] at h; cases h; cases k <;> simp_all [Sieve.Elastic]
  | ppv p => exact hs.elim
  | cpv p => exact hs.elim
  | wrapInc s d k => exact hs.elim
  | wrapInt s => exact hs.elim

theorem Sieve.Elastic.warps (T : FloatText R) (hT : T.Lawful) {s : Sieve R} (hs : s.Elastic) {X : Data R} {m d n n' : ℕ} (hX : HasShape X m d n)
    (hm : 0 < m) (hd : 0 < d) {φ : ℕ → ℕ → ℕ} (hφ : ∀ i < m, IsWarp n n' (φ i)) : SieveWarps T s X m n n' φ := by
  intro A hA
  have npi : ∀ (k : IncKind) (p : Seg R), (k = .npi ∨ k = .mpi) → (∀ c ∈ p.cut, c.Elastic) → p.q = [0, 1] →
      (Sieve.inc k 1 p).transformC T (warp φ n' X) (warp2 φ n' A) = (Sieve.inc k 1 p).transformC T X A := by
    intro k p hk hp hq
    refine C96_npi_mpi T hT hX hm hd hφ p hp _ (useQuantiles_01 p hq) (by simp) ?_ hA k hk
    intro k hk
    have : k = 0 := by simp at hk; omega
    subst this
    simp [InBand]
  cases s with
  | seg k p =>
    cases k <;> simp only [Sieve.Elastic] at hs
    · exact C96_max_min T hT hX hm hd hφ p hs.1 hs.2 hA _ (Or.inl rfl)
    · exact C96_max_min T hT hX hm hd hφ p hs.1 hs.2 hA _ (Or.inr rfl)
    · exact C12_end T hT hX hm hd hφ p hs hA
  | inc k i p =>
    cases k <;> simp only [Sieve.Elastic] at hs
    · obtain ⟨rfl, h2, h3⟩ := hs
      exact npi _ p (Or.inl rfl) h2 h3
    · obtain ⟨rfl, h2, h3⟩ := hs
      exact npi _ p (Or.inr rfl) h2 h3
  | ppv p => exact hs.elim
  | cpv p => exact hs.elim
  | wrapInc s d k => exact hs.elim
  | wrapInt s => exact hs.elim

/-- The preparateur commutes with the repetition of samples (or raises in both cases). -/
def PrepWarps [NpMath R] (T : FloatText R) (p : Prep R) (C C' : Data R) (m d n n' : ℕ) (φ : ℕ → ℕ → ℕ) : Prop :=
  ∀ X, HasShape X m d n → (∃ e, p.transformC T C X = .error e ∧ p.transformC T C' (warp φ n' X) = .error e) ∨
    ∃ Y, p.transformC T C X = .ok Y ∧ HasShape Y m d n ∧ p.transformC T C' (warp φ n' X) = .ok (warp φ n' Y)

theorem warp_tab3 {m d n n' : ℕ} {φ : ℕ → ℕ → ℕ} (hφ : ∀ i < m, IsWarp n n' (φ i)) (f : ℕ → ℕ → ℕ → R) :
    warp φ n' (tab3 m d n f) = tab3 m d n' fun i j t => f i j (φ i t) := by
  rw [((hasShape_tab3 f).warp φ n').eq_tab3]
  refine tab3_congr fun i hi j hj t ht => ?_
  rw [at3_warp (hasShape_tab3 f) φ hi hj ht, at3_tab3 hi hj ((hφ i hi).lt ht)]

theorem mapEntries_warps {m d n n' : ℕ} {φ : ℕ → ℕ → ℕ} (hφ : ∀ i < m, IsWarp n n' (φ i)) (g : R → R) {X : Data R} (hX : HasShape X m d n) :
    HasShape (mapEntries g X) m d n ∧ mapEntries g (warp φ n' X) = warp φ n' (mapEntries g X) := by
  rw [hX.eq_tab3, warp_tab3 hφ, mapEntries_tab3, mapEntries_tab3, warp_tab3 hφ]
  exact ⟨hasShape_tab3 _, rfl⟩

theorem nrm_warps [NpMath R] (T : FloatText R) (sd : Bool) (C C' : Data R) {m d n n' : ℕ} (hm : 0 < m) (hd : 0 < d) {φ : ℕ → ℕ → ℕ}
    (hφ : ∀ i < m, IsWarp n n' (φ i)) : PrepWarps T (.nrm sd) C C' m d n n' φ := by
  intro X hX
  have hn := (hφ 0 hm).pos
  have hn' := (hφ 0 hm).pos'
  obtain ⟨lo, hi, hlh, hY⟩ := nrm_closed sd X hX hd hn
  obtain ⟨lo', hi', hlh', hY'⟩ := nrm_closed sd (warp φ n' X) (hX.warp φ n') hd hn'
  refine Or.inr ⟨_, hY, hasShape_tab3 _, ?_⟩
  show NRM.transform sd _ = _
  rw [hY', warp_tab3 hφ]
  congr 1
  refine tab3_congr fun i hi1 j hj t ht => ?_
  have hw := hφ i hi1
  have hset : (fun p : ℕ × ℕ => at3 (warp φ n' X) i p.1 p.2) '' block sd d n' j = (fun p : ℕ × ℕ => at3 X i p.1 p.2) '' block sd d n j := by
    ext v
    constructor
    · rintro ⟨p, hp, rfl⟩
      simp only [block, Set.mem_setOf_eq] at hp
      refine ⟨(p.1, φ i p.2), ?_, ?_⟩
      · simp only [block, Set.mem_setOf_eq]
        exact ⟨hp.1, hw.lt hp.2.1, hp.2.2⟩
      · simp only
        rw [at3_warp hX φ hi1 hp.1 hp.2.1]
    · rintro ⟨p, hp, rfl⟩
      simp only [block, Set.mem_setOf_eq] at hp
      obtain ⟨s, h1, h2, -⟩ := hw.first (t := n' - 1) (k := p.2) (by omega) (by rw [hw.stop]; omega)
      refine ⟨(p.1, s), ?_, ?_⟩
      · simp only [block, Set.mem_setOf_eq]
        exact ⟨hp.1, by omega, hp.2.2⟩
      · simp only
        rw [at3_warp hX φ hi1 hp.1 (by omega), h2]
  have e1 := hlh i hi1 j hj
  have e2 := hlh' i hi1 j hj
  rw [hset] at e2
  rw [e2.1.unique e1.1, e2.2.unique e1.2, at3_warp hX φ hi1 hj ht]

theorem Prep.Elastic.warps [NpMath R] (T : FloatText R) {p : Prep R} (hp : p.Elastic) (C C' : Data R) {m d n n' : ℕ} (hm : 0 < m) (hd : 0 < d)
    {φ : ℕ → ℕ → ℕ} (hφ : ∀ i < m, IsWarp n n' (φ i)) : PrepWarps T p C C' m d n n' φ := by
  cases p <;> simp only [Prep.Elastic] at hp
  case nrm sd => exact nrm_warps T sd C C' hm hd hφ
  case qtc p =>
    intro X hX
    simp only [Prep.transformC, QTC.transform]
    rcases p.quantile with _ | c
    · exact Or.inl ⟨_, rfl, rfl⟩
    · simp only
      cases p.lower
      · obtain ⟨h1, h2⟩ := mapEntries_warps hφ (fun v => if v > c then p.bound.getD c else v) hX
        exact Or.inr ⟨_, rfl, h1, congrArg Except.ok h2⟩
      · obtain ⟨h1, h2⟩ := mapEntries_warps hφ (fun v => if v < c then p.bound.getD c else v) hX
        exact Or.inr ⟨_, rfl, h1, congrArg Except.ok h2⟩
  case std p =>
    intro X hX
    simp only [Prep.transformC, STD.transform, hp, Bool.false_eq_true, if_false]
    rcases p.fitted with _ | ⟨mu, sd⟩
    · exact Or.inl ⟨_, rfl, rfl⟩
    · obtain ⟨h1, h2⟩ := mapEntries_warps hφ (fun v => (v - mu) / (sd + p.eps)) hX
      exact Or.inr ⟨_, rfl, h1, congrArg Except.ok h2⟩

/-! ### The iterated sums of a fruit -/

theorem yieldWords_block {expf : R → R} {c : ISSConf R} {X : Data R} {f : ℕ → Except Err (Data R)}
    (hf : ∀ i (h : i < c.words.length), f i = .ok (c.wordRows expf X i (c.words[i]))) : ∀ (k i : ℕ), i + k = c.words.length →
      yieldWords f (List.range' i k) = (c.blockRows expf X i (c.words.drop i), none)
  | 0, i, h => by
    rw [List.drop_eq_nil_of_le (by omega)]
    rfl
  | k + 1, i, h => by
    have hi : i < c.words.length := by omega
    rw [List.range'_succ, yieldWords, hf i hi, List.drop_eq_getElem_cons hi, ISSConf.blockRows,
      yieldWords_block hf k (i + 1) (by omega)]

/-- A fruit gets the iterated sums of an `ISS` that `ISS.transform` gives. -/
theorem gen_iss [NpMath R] (L : Lib R) (o : ISSObj R) (ws : List (IWord R)) (hs : SimpleISS (⟨ws, o.mode, o.semiring, none⟩ : ISSConf R))
    (C Y : Data R) {w : Option (Weighting R)} (hw : weightingOf L.T C Y o.weighting = .ok w) :
    BIss.gen L (.iss o) ws C Y = ((⟨ws, o.mode, o.semiring, w⟩ : ISSConf R).blockRows L.expf Y 0 ws, none) := by
  have hne : ws.length ≠ 0 := by
    have := hs.nonempty
    simpa using this
  have hus : ∀ wt, (⟨ws, o.mode, o.semiring, wt⟩ : ISSConf R).Usable := fun wt h => absurd h hs.semiring
  simp only [BIss.gen]
  rw [if_neg hne, List.range_eq_range']
  have := yieldWords_block (expf := L.expf) (c := (⟨ws, o.mode, o.semiring, w⟩ : ISSConf R)) (X := Y) (f := o.wordSums L.expf L.T ws C Y) ?_ ws.length 0
    (by simp)
  · rw [this]
    rfl
  · intro i hi
    have hi' : i < ws.length := hi
    obtain ⟨s, hsm⟩ := hs.simple _ (List.getElem_mem hi')
    have hsm' : ws[i] = .simple s := hsm
    have hwt : weightingFor L.T C Y o (.simple s) = .ok w := by
      unfold weightingFor
      unfold weightingOf at hw
      cases hk : o.weighting with
      | none => rw [hk] at hw; simpa using hw
      | some k => rw [hk] at hw; simpa using hw
    unfold ISSObj.wordSums
    rw [List.getElem?_eq_getElem hi']
    have h1 : (o.conf ws none).nBatch i 1 = .ok _ := nBatch_eq (hus none) i 1 (by simp only [ISSObj.conf]; omega)
    have h2 : (o.conf ws w).batch L.expf Y i 1 = .ok _ := batch_eq L.expf (hus w) Y i 1 (by simp only [ISSObj.conf]; omega)
    simp only [h1, ok_bind]
    rw [hsm', hwt, ok_bind, h2]
    congr 1
    have e : ((o.conf ws w).words.drop i).take 1 = [ws[i]] := by
      simp only [ISSObj.conf]
      rw [List.drop_eq_getElem_cons hi']
      rfl
    simp only [ISSObj.conf] at e
    simp only [e, ISSConf.blockRows, List.append_nil]
    rw [hsm']

/-- The iterated sums of the warped data are the warped iterated sums. -/
def GenWarps [NpMath R] (L : Lib R) (i : BIss R) (ws : List (IWord R)) (C C' Y Y' : Data R) (m n n' : ℕ) (φ : ℕ → ℕ → ℕ) : Prop :=
  ∃ A : List (List (List R)), (∀ a ∈ A, HasShape2 a m n) ∧ i.gen L ws C Y = (A, none) ∧ i.gen L ws C' Y' = (A.map (warp2 φ n'), none)

theorem warpedWeighting_id {φ : ℕ → ℕ → ℕ} {n n' m d : ℕ} {Y Y' : Data R} (hY : HasShape Y m d n) {w w' : Option (Weighting R)}
    (h : WarpedWeighting φ n n' Y Y' w w') : WarpedWeighting (fun _ t => t) n n Y Y w w := by
  cases h with
  | none => exact .none
  | some g g' total look warped =>
    refine .some g g rfl look ?_
    have hg : HasShape2 (g.lookup Y) m n := ⟨by rw [look.1, hY.1], look.2⟩
    exact hg.ext (hg.warp2 _ n) fun i hi t ht => (at2_warp2 hg (fun _ t => t) hi ht).symm

theorem blocks_warp {expf : R → R} {ws : List (IWord R)} {mode : ISSMode} {k : SemiringKind} {w w' : Option (Weighting R)}
    (hs : SimpleISS (⟨ws, mode, k, w⟩ : ISSConf R)) {Y Y' : Data R} {m n n' : ℕ} {φ : ℕ → ℕ → ℕ} (hY : Y.length = m)
    (h : (⟨ws, mode, k, w'⟩ : ISSConf R).transform expf Y' = ((⟨ws, mode, k, w⟩ : ISSConf R).transform expf Y).map fun A => A.map (warp2 φ n'))
    (hid : (⟨ws, mode, k, w⟩ : ISSConf R).transform expf Y = ((⟨ws, mode, k, w⟩ : ISSConf R).transform expf Y).map fun A => A.map (warp2 (fun _ t => t) n)) :
    (∀ a ∈ (⟨ws, mode, k, w⟩ : ISSConf R).blockRows expf Y 0 ws, HasShape2 a m n) ∧
      (⟨ws, mode, k, w'⟩ : ISSConf R).blockRows expf Y' 0 ws = ((⟨ws, mode, k, w⟩ : ISSConf R).blockRows expf Y 0 ws).map (warp2 φ n') := by
  have hus : ∀ wt, (⟨ws, mode, k, wt⟩ : ISSConf R).Usable := fun wt h => absurd h hs.semiring
  have e1 := transform_eq expf (hus w) hs.nonempty Y
  have e2 := transform_eq expf (hus w') hs.nonempty Y'
  have hlen := (C17_count expf _ (hus w) Y _ e1).2
  simp only at e1 e2 hlen
  rw [e1] at hid h
  rw [e2] at h
  refine ⟨warp2_id_shape (Except.ok.inj hid) fun a ha => by rw [hlen a ha, hY], Except.ok.inj h⟩

/-- The iterated sums of a Reals `ISS` behind `INC`. -/
theorem gen_reals [NpMath R] (L : Lib R) (hexp : ExpLike L.expf) {C X : Data R} {m d n n' : ℕ} (hC : HasShape C m d n) (hX : HasShape X m d n)
    (hm : 0 < m) (hd : 0 < d) {φ : ℕ → ℕ → ℕ} (hφ : ∀ i < m, IsWarp n n' (φ i)) (zp : Bool) (o : ISSObj R) (ws : List (IWord R))
    (hr : o.semiring = .reals) (hs : SimpleISS (⟨ws, o.mode, .reals, none⟩ : ISSConf R))
    (hw : ∀ s, IWord.simple s ∈ ws → ∀ el ∈ s.els, PositiveLetter d el) (hwt : WarpFree o.weighting) :
    ∃ Y Y', (Prep.inc ⟨.int 1, 1, zp⟩).transform L.T X = .ok Y ∧ (Prep.inc ⟨.int 1, 1, zp⟩).transform L.T (warp φ n' X) = .ok Y' ∧
      Y.length = m ∧ Y'.length = m ∧ GenWarps L (.iss o) ws C (warp φ n' C) Y Y' m n n' φ := by
  have hn := (hφ 0 hm).pos
  obtain ⟨Y, Y', h1, h1', h2, h2', _⟩ := inc_warp L.T hX hφ zp
  obtain ⟨w, w', e1, e2, e3⟩ := weightingOf_warp L.T hC hm hd hφ h2 h2' o.weighting hwt
  have hs' : SimpleISS (⟨ws, o.mode, .reals, w⟩ : ISSConf R) := ⟨hs.1, hs.2, hs.3, hs.4, hs.5⟩
  obtain ⟨Y1, Y1', g1, g1', g2⟩ := C12_iterated_sums L.T hexp hX hd hφ zp ⟨ws, o.mode, .reals, w⟩ hs' rfl hw
  rw [h1] at g1; rw [h1'] at g1'
  obtain rfl := Except.ok.inj g1
  obtain rfl := Except.ok.inj g1'
  obtain ⟨Y2, Y2', k1, k1', k2⟩ := C12_iterated_sums L.T hexp hX hd (φ := fun _ t => t) (fun i hi => isWarp_id hn) zp ⟨ws, o.mode, .reals, w⟩ hs' rfl hw
  rw [warp_id hX, h1] at k1'; rw [h1] at k1
  obtain rfl := Except.ok.inj k1
  obtain rfl := Except.ok.inj k1'
  obtain ⟨b1, b2⟩ := blocks_warp hs' h2.1 (g2 w' e3) (k2 w (warpedWeighting_id h2 e3))
  refine ⟨Y, Y', h1, h1', h2.1, h2'.1, _, b1, ?_, ?_⟩
  · rw [gen_iss L o ws (by rw [hr]; exact hs) C Y e1, hr]
  · rw [gen_iss L o ws (by rw [hr]; exact hs) _ Y' e2, hr, b2]

/-- The iterated sums of an Arctic `ISS`, or of a Bayesian one on non-negative data. -/
theorem gen_arctic [NpMath R] (L : Lib R) (hexp : ExpLike L.expf) {C X : Data R} {m d n n' : ℕ} (hC : HasShape C m d n) (hX : HasShape X m d n)
    (hm : 0 < m) (hd : 0 < d) {φ : ℕ → ℕ → ℕ} (hφ : ∀ i < m, IsWarp n n' (φ i)) (o : ISSObj R) (ws : List (IWord R))
    (hr : o.semiring = .arctic ∨ o.semiring = .bayesian ∧ Nonnegative X) (hs : SimpleISS (⟨ws, o.mode, o.semiring, none⟩ : ISSConf R))
    (hw : ∀ s, IWord.simple s ∈ ws → ∀ el ∈ s.els, el.length ≤ d) (hwt : WarpFree o.weighting) :
    GenWarps L (.iss o) ws C (warp φ n' C) X (warp φ n' X) m n n' φ := by
  have hn := (hφ 0 hm).pos
  obtain ⟨w, w', e1, e2, e3⟩ := weightingOf_warp L.T hC hm hd hφ hX (hX.warp φ n') o.weighting hwt
  have hs' : SimpleISS (⟨ws, o.mode, o.semiring, w⟩ : ISSConf R) := ⟨hs.1, hs.2, hs.3, hs.4, hs.5⟩
  have g := C95_iterated_sums hexp hX hd hφ ⟨ws, o.mode, o.semiring, w⟩ hs' hr hw w' e3
  have k := C95_iterated_sums hexp hX hd (φ := fun _ t => t) (fun i hi => isWarp_id hn) ⟨ws, o.mode, o.semiring, w⟩ hs' hr hw w
    (by rw [warp_id hX]; exact warpedWeighting_id hX e3)
  rw [warp_id hX] at k
  obtain ⟨b1, b2⟩ := blocks_warp hs' hX.1 g k
  exact ⟨_, b1, gen_iss L o ws hs C X e1, by rw [gen_iss L o ws hs _ _ e2, b2]⟩

/-! ### The loops of `Fruit.transform` -/

section loops
variable {P I W S V : Type}

theorem sieveLoop_congr {K : Sem R P I W S V} {C C' : Data R} {it it' : List (List R)} (n n' : ℕ) : ∀ (ss : List S),
    (∀ s ∈ ss, K.sieveTransform s C' it' = K.sieveTransform s C it) → ∀ (D : List (List V)) (k : ℤ),
      (sieveLoop K n' C' it' ss D k).1 = (sieveLoop K n C it ss D k).1
  | [], _, D, k => rfl
  | s :: ss, h, D, k => by
    simp only [sieveLoop]
    rw [h s (by simp)]
    rcases K.sieveTransform s C it with e | A
    · rfl
    simp only
    rcases setCols D k (k + K.sieveN s) A with e | D'
    · rfl
    exact sieveLoop_congr n n' ss (fun t ht => h t (by simp [ht])) D' _

theorem itemLoop_congr {K : Sem R P I W S V} {C C' : Data R} (n n' : ℕ) (ext : List (List S)) (sieves : List S) (g : List (List R) → List (List R))
    (Q : List (List R) → Prop) (hs : ∀ it, Q it → ∀ s, (s ∈ sieves ∨ ∃ row ∈ ext, s ∈ row) → K.sieveTransform s C' (g it) = K.sieveTransform s C it) :
    ∀ (items : List (List (List R))) (_ : ∀ it ∈ items, Q it) (e : Option Err) (j : ℕ) (D : List (List V)) (k : ℤ),
      (itemLoop K n' C' ext sieves (items.map g) e j D k).1 = (itemLoop K n C ext sieves items e j D k).1
  | [], _, e, j, D, k => by cases e <;> rfl
  | it :: items, hit, e, j, D, k => by
    simp only [List.map_cons, itemLoop]
    rcases hr : sievesFor ext sieves j with e' | row
    · rfl
    have hrow : ∀ s ∈ row, s ∈ sieves ∨ ∃ row ∈ ext, s ∈ row := by
      intro s hsr
      unfold sievesFor at hr
      split at hr
      · cases hr; exact Or.inl hsr
      · split at hr
        · rename_i _ row' he
          cases hr
          exact Or.inr ⟨row, List.mem_of_getElem? he, hsr⟩
        · cases hr
    have hl := sieveLoop_congr (K := K) (C := C) (C' := C') n n' row (fun s hsr => hs it (hit it (by simp)) s (hrow s hsr)) D k
    simp only
    rcases h1 : sieveLoop K n C it row D k with ⟨r1, tr1⟩
    rcases h2 : sieveLoop K n' C' (g it) row D k with ⟨r2, tr2⟩
    rw [h1, h2] at hl
    simp only at hl
    subst hl
    rcases r2 with e' | ⟨D', k'⟩
    · rfl
    exact itemLoop_congr n n' ext sieves g Q hs items (fun jt hj => hit jt (by simp [hj])) e (j + 1) D' k'

theorem slicesLoop_sameRows {K : Sem R P I W S V} {w : World R P I W S} {C C' X X' : Data R} (n n' : ℕ) : ∀ (ss : List ℕ),
    (∀ s ∈ ss, (sliceTransform K w n' s C' X').1 = (sliceTransform K w n s C X).1) → ∀ (D : List (List V)) (k : ℤ),
      (slicesLoop K w n' C' X' ss D k).1 = (slicesLoop K w n C X ss D k).1
  | [], _, D, k => rfl
  | s :: ss, h, D, k => by
    simp only [slicesLoop]
    rcases sliceN K w s with e | N
    · rfl
    simp only
    have hs := h s (by simp)
    rcases h1 : sliceTransform K w n s C X with ⟨r1, tr1⟩
    rcases h2 : sliceTransform K w n' s C' X' with ⟨r2, tr2⟩
    rw [h1, h2] at hs
    simp only at hs
    subst hs
    rcases r2 with e | A
    · rfl
    simp only
    rcases setCols D k (k + N) A with e | D'
    · rfl
    exact slicesLoop_sameRows n n' ss (fun t ht => h t (by simp [ht])) D' _

theorem fruitTransform_sameRows {K : Sem R P I W S V} {w : World R P I W S} {C C' X X' : Data R} (n n' f : ℕ) (hl : X'.length = X.length)
    (h : ∀ s ∈ (w.fruit f).slices, (sliceTransform K w n' s C' X').1 = (sliceTransform K w n s C X).1) :
    (fruitTransform K w n' f C' X').1 = (fruitTransform K w n f C X).1 := by
  unfold fruitTransform
  by_cases hf : (w.fruit f).fitted
  swap
  · rw [if_neg hf, if_neg hf]
  rw [if_pos hf, if_pos hf, hl]
  rcases fruitN K w f >>= zerosE K X.length with e | D
  · rfl
  simp only
  have := slicesLoop_sameRows (C := C) (C' := C') (X := X) (X' := X') n n' (w.fruit f).slices h D 0
  rcases h1 : slicesLoop K w n C X (w.fruit f).slices D 0 with ⟨r1, tr1⟩
  rcases h2 : slicesLoop K w n' C' X' (w.fruit f).slices D 0 with ⟨r2, tr2⟩
  rw [h1, h2] at this
  simp only at this
  subst this
  rcases r2 with e | A <;> rfl

theorem transformSieve_sameRows {K : Sem R P I W S V} {w : World R P I W S} {s : ℕ} {C C' Y Y' : Data R} (n n' : ℕ) (hl : Y'.length = Y.length)
    (A : List (List (List R))) (g : List (List R) → List (List R)) (Q : List (List R) → Prop) (hQ : ∀ it ∈ A, Q it)
    (h1 : iterateIss K C ((w.slice s).iss.map w.issAt) Y = (A, none)) (h2 : iterateIss K C' ((w.slice s).iss.map w.issAt) Y' = (A.map g, none))
    (hs : ∀ it, Q it → ∀ t, (t ∈ (w.slice s).sieves.map w.sieve ∨ ∃ row ∈ (w.slice s).ext, t ∈ row) →
      K.sieveTransform t C' (g it) = K.sieveTransform t C it) :
    (transformSieve K w n' s C' Y').1 = (transformSieve K w n s C Y).1 := by
  unfold transformSieve
  rw [hl, h1, h2]
  rcases sliceN K w s >>= zerosE K Y.length with e | D
  · rfl
  simp only
  have := itemLoop_congr (K := K) (C := C) (C' := C') n n' (w.slice s).ext ((w.slice s).sieves.map w.sieve) g Q hs A hQ none 0 D 0
  rcases h3 : itemLoop K n C (w.slice s).ext ((w.slice s).sieves.map w.sieve) A none 0 D 0 with ⟨r1, tr1⟩
  rcases h4 : itemLoop K n' C' (w.slice s).ext ((w.slice s).sieves.map w.sieve) (A.map g) none 0 D 0 with ⟨r2, tr2⟩
  rw [h3, h4] at this
  simp only at this
  subst this
  rcases r2 with e | A <;> rfl

theorem Yields.bind_singleton (f : List (List R) → List (List R)) (hf : ∀ a, f a = a) : ∀ (A : List (List (List R))),
    Yields.bind (fun it => (([f it], none) : Yields (List (List R)))) A none = (A, none)
  | [] => rfl
  | a :: A => by
    simp only [Yields.bind]
    rw [Yields.bind_singleton f hf A, hf a]
    rfl

/-- With one ISS the iterated sums of the slice are those of the ISS. -/
theorem iterateIss_one {K : Sem R P I W S V} {C Y : Data R} (p : I × W) {A : List (List (List R))} (h : K.issGen p.1 p.2 C Y = (A, none)) :
    iterateIss K C [p] Y = (A, none) := by
  simp only [iterateIss, h]
  refine Yields.bind_singleton (fun it => (newAxis it).map fun s => s.getD 0 []) (fun a => ?_) A
  simp only [newAxis, List.map_map]
  conv_rhs => rw [← List.map_id a]
  rfl

end loops

/-! ### Time warping invariant fruits -/

/-- A slice as in `experiments/fruit_twi.py`, for data with `d` dimensions: any number of `NRM`, `QTC` and `STD(separately=False)`, then
`INC` and one Reals ISS with words of positive letters, or without `INC` one Arctic ISS, or on non-negative data one Bayesian ISS
alone; without weighting or with `L1`/`L2` of the raw data; and sieves that do not see repeated samples. -/
structure TwiSlice (w : World R (SafePrep R) (BIss R) (List (IWord R)) (SafeSieve R)) (s d : ℕ) (X : Data R) : Prop where
  sieves : ∀ a ∈ (w.slice s).sieves, (w.sieve a).1.Elastic
  ext : ∀ row ∈ (w.slice s).ext, ∀ t ∈ row, t.1.Elastic
  pipeline : ∃ (as : List ℕ) (b : ℕ) (o : ISSObj R), (w.slice s).iss = [b] ∧ (∀ a ∈ as, (w.prep a).1.Elastic) ∧ (w.issAt b).1 = .iss o ∧
    SimpleISS (⟨(w.issAt b).2, o.mode, o.semiring, none⟩ : ISSConf R) ∧ WarpFree o.weighting ∧
    ((o.semiring = .reals ∧ (∃ a zp, (w.slice s).preps = as ++ [a] ∧ (w.prep a).1 = .inc ⟨.int 1, 1, zp⟩) ∧
        ∀ s, IWord.simple s ∈ (w.issAt b).2 → ∀ el ∈ s.els, PositiveLetter d el) ∨
      (o.semiring = .arctic ∧ (w.slice s).preps = as ∧ ∀ s, IWord.simple s ∈ (w.issAt b).2 → ∀ el ∈ s.els, el.length ≤ d) ∨
      (o.semiring = .bayesian ∧ (w.slice s).preps = [] ∧ Nonnegative X ∧
        ∀ s, IWord.simple s ∈ (w.issAt b).2 → ∀ el ∈ s.els, el.length ≤ d))

theorem transformPreps_append {P I W S V : Type} {K : Sem R P I W S V} {w : World R P I W S} (n : ℕ) (C : Data R) (bs : List ℕ) : ∀ (as : List ℕ) (X : Data R),
    (transformPreps K w n C (as ++ bs) X).1 = (transformPreps K w n C as X).1 >>= fun Y => (transformPreps K w n C bs Y).1
  | [], X => rfl
  | a :: as, X => by
    simp only [List.cons_append, transformPreps]
    rcases K.prepTransform (w.prep a) C X with e | Y
    · rfl
    exact transformPreps_append n C bs as Y

theorem transformPreps_warp [NpMath R] (L : Lib R) {w : World R (SafePrep R) (BIss R) (List (IWord R)) (SafeSieve R)} (n1 n2 : ℕ) (C C' : Data R)
    {m d n n' : ℕ} (hm : 0 < m) (hd : 0 < d) {φ : ℕ → ℕ → ℕ} (hφ : ∀ i < m, IsWarp n n' (φ i)) : ∀ (as : List ℕ),
    (∀ a ∈ as, (w.prep a).1.Elastic) → ∀ X, HasShape X m d n →
      (∃ e, (transformPreps (builtin L) w n1 C as X).1 = .error e ∧ (transformPreps (builtin L) w n2 C' as (warp φ n' X)).1 = .error e) ∨
      ∃ Y, (transformPreps (builtin L) w n1 C as X).1 = .ok Y ∧ HasShape Y m d n ∧
        (transformPreps (builtin L) w n2 C' as (warp φ n' X)).1 = .ok (warp φ n' Y)
  | [], _, X, hX => Or.inr ⟨X, rfl, hX, rfl⟩
  | a :: as, h, X, hX => by
    simp only [transformPreps]
    rcases (h a (by simp)).warps L.T C C' hm hd hφ X hX with ⟨e, e1, e2⟩ | ⟨Y, e1, e2, e3⟩
    · have e1' : (builtin L).prepTransform (w.prep a) C X = .error e := e1
      have e2' : (builtin L).prepTransform (w.prep a) C' (warp φ n' X) = .error e := e2
      rw [e1', e2']
      exact Or.inl ⟨e, rfl, rfl⟩
    · have e1' : (builtin L).prepTransform (w.prep a) C X = .ok Y := e1
      have e3' : (builtin L).prepTransform (w.prep a) C' (warp φ n' X) = .ok (warp φ n' Y) := e3
      rw [e1', e3']
      exact transformPreps_warp L n1 n2 C C' hm hd hφ as (fun b hb => h b (by simp [hb])) Y e2

theorem sliceTransform_warp [NpMath R] (L : Lib R) (hT : L.T.Lawful) (hexp : ExpLike L.expf)
    {w : World R (SafePrep R) (BIss R) (List (IWord R)) (SafeSieve R)} {s : ℕ} {X : Data R} {m d n n' : ℕ} (hs : TwiSlice w s d X)
    (hX : HasShape X m d n) (hm : 0 < m) (hd : 0 < d) {φ : ℕ → ℕ → ℕ} (hφ : ∀ i < m, IsWarp n n' (φ i)) (n1 n2 : ℕ) :
    (sliceTransform (builtin L) w n2 s (warp φ n' X) (warp φ n' X)).1 = (sliceTransform (builtin L) w n1 s X X).1 := by
  obtain ⟨as, b, o, hiss, has, hb, hsimple, hwt, hcase⟩ := hs.pipeline
  -- the sieves
  have hsv : ∀ it, HasShape2 it m n → ∀ t, (t ∈ (w.slice s).sieves.map w.sieve ∨ ∃ row ∈ (w.slice s).ext, t ∈ row) →
      (builtin L).sieveTransform t (warp φ n' X) (warp2 φ n' it) = (builtin L).sieveTransform t X it := by
    intro it hit t ht
    have hel : t.1.Elastic := by
      rcases ht with ht | ⟨row, h1, h2⟩
      · obtain ⟨a, ha, rfl⟩ := List.mem_map.1 ht
        exact hs.sieves a ha
      · exact hs.ext row h1 t h2
    exact hel.warps L.T hT hX hm hd hφ it hit
  -- behind the preparateurs
  have hend : ∀ Y Y' : Data R, Y'.length = Y.length → GenWarps L (.iss o) (w.issAt b).2 X (warp φ n' X) Y Y' m n n' φ →
      (transformSieve (builtin L) w n2 s (warp φ n' X) Y').1 = (transformSieve (builtin L) w n1 s X Y).1 := by
    rintro Y Y' hl ⟨A, g1, g2, g3⟩
    refine transformSieve_sameRows n1 n2 hl A (warp2 φ n') (fun it => HasShape2 it m n) g1 ?_ ?_ hsv
    · rw [hiss]
      refine iterateIss_one (w.issAt b) ?_
      show BIss.gen L (w.issAt b).1 (w.issAt b).2 X Y = _
      rw [hb]
      exact g2
    · rw [hiss]
      refine iterateIss_one (w.issAt b) ?_
      show BIss.gen L (w.issAt b).1 (w.issAt b).2 _ Y' = _
      rw [hb]
      exact g3
  have hprep : (∃ e, (transformPreps (builtin L) w n1 X (w.slice s).preps X).1 = .error e ∧
      (transformPreps (builtin L) w n2 (warp φ n' X) (w.slice s).preps (warp φ n' X)).1 = .error e) ∨
      ∃ Y Y', (transformPreps (builtin L) w n1 X (w.slice s).preps X).1 = .ok Y ∧
        (transformPreps (builtin L) w n2 (warp φ n' X) (w.slice s).preps (warp φ n' X)).1 = .ok Y' ∧ Y'.length = Y.length ∧
        GenWarps L (.iss o) (w.issAt b).2 X (warp φ n' X) Y Y' m n n' φ := by
    rcases hcase with ⟨hr, ⟨a, zp, hp, hinc⟩, hpos⟩ | ⟨hr, hp, hle⟩ | ⟨hr, hp, hnn, hle⟩
    · rw [hp, transformPreps_append, transformPreps_append]
      rcases transformPreps_warp L (w := w) n1 n2 X (warp φ n' X) hm hd hφ as has X hX with ⟨e, e1, e2⟩ | ⟨Z, e1, e2, e3⟩
      · rw [e1, e2]
        exact Or.inl ⟨e, rfl, rfl⟩
      · rw [e1, e3, ok_bind, ok_bind]
        obtain ⟨Y, Y', y1, y2, y3, y4, y5⟩ := gen_reals L hexp hX e2 hm hd hφ zp o (w.issAt b).2 hr (by rw [← hr]; exact hsimple) hpos hwt
        have hk : ∀ C Z : Data R, (builtin L).prepTransform (w.prep a) C Z = (Prep.inc ⟨.int 1, 1, zp⟩).transform L.T Z := by
          intro C Z
          show (w.prep a).1.transformC L.T C Z = _
          rw [hinc]
          rfl
        refine Or.inr ⟨Y, Y', ?_, ?_, by omega, y5⟩
        · simp only [transformPreps]
          rw [hk, y1]
        · simp only [transformPreps]
          rw [hk, y2]
    · rw [hp]
      rcases transformPreps_warp L (w := w) n1 n2 X (warp φ n' X) hm hd hφ as has X hX with ⟨e, e1, e2⟩ | ⟨Z, e1, e2, e3⟩
      · exact Or.inl ⟨e, e1, e2⟩
      · refine Or.inr ⟨Z, _, e1, e3, by rw [e2.1, (e2.warp φ n').1], ?_⟩
        exact gen_arctic L hexp hX e2 hm hd hφ o _ (Or.inl hr) hsimple hle hwt
    · rw [hp]
      refine Or.inr ⟨X, _, rfl, rfl, by rw [hX.1, (hX.warp φ n').1], ?_⟩
      exact gen_arctic L hexp hX hX hm hd hφ o _ (Or.inr ⟨hr, hnn⟩) hsimple hle hwt
  unfold sliceTransform
  by_cases hf : (w.slice s).fitted
  swap
  · rw [if_neg hf, if_neg hf]
  rw [if_pos hf, if_pos hf]
  rcases h1 : transformPreps (builtin L) w n1 X (w.slice s).preps X with ⟨r1, tr1⟩
  rcases h2 : transformPreps (builtin L) w n2 (warp φ n' X) (w.slice s).preps (warp φ n' X) with ⟨r2, tr2⟩
  rw [h1, h2] at hprep
  rcases hprep with ⟨e, e1, e2⟩ | ⟨Y, Y', e1, e2, e3, e4⟩
  · simp only at e1 e2
    subst e1 e2
    rfl
  · simp only at e1 e2
    subst e1 e2
    exact hend Y Y' e3 e4

/-- **C106.** A fruit of time warping invariant slices returns the same features for a dataset and for the dataset in which samples
are repeated, in every series on its own (or raises the same exception). -/
theorem C106_fruit [NpMath R] (L : Lib R) (hT : L.T.Lawful) (hexp : ExpLike L.expf)
    (w : World R (SafePrep R) (BIss R) (List (IWord R)) (SafeSieve R)) (f : ℕ) (X : Data R) {m d n n' : ℕ}
    (hs : ∀ s ∈ (w.fruit f).slices, TwiSlice w s d X) (hX : HasShape X m d n) (hm : 0 < m) (hd : 0 < d) {φ : ℕ → ℕ → ℕ}
    (hφ : ∀ i < m, IsWarp n n' (φ i)) (c c' : ℕ) :
    (fruitTransform (builtin L) w c' f (warp φ n' X) (warp φ n' X)).1 = (fruitTransform (builtin L) w c f X X).1 := by
  refine fruitTransform_sameRows c c' f (by rw [hX.1, (hX.warp φ n').1]) fun s hsm => ?_
  exact sliceTransform_warp L hT hexp (hs s hsm) hX hm hd hφ c c'

/-! ### Fitting keeps slices time warping invariant -/

theorem safeFit_elastic [NpMath R] {L : Lib R} {g : Rng R} {p q : SafePrep R} {X : Data R} (h : L.safeFit g p X = .ok q) :
    (p.1.Elastic → q.1.Elastic) ∧ ∀ i, p.1 = .inc i → q.1 = .inc i := by
  have hf : L.prepFit g p.1 X = .ok q.1 := by
    unfold Lib.safeFit at h
    split at h
    · cases h
    · rename_i q' hq
      cases h
      exact hq
  unfold Lib.prepFit at hf
  rcases hr : p.1.fit g L.fuel X with e | r
  · rw [hr] at hf; cases hf
  rw [hr] at hf
  cases r with
  | none => cases hf
  | some p' =>
    simp only [Except.ok.injEq] at hf
    subst hf
    generalize p.1 = pp at hr
    generalize q.1 = qq at hr
    refine ⟨fun hel => ?_, fun i hi => ?_⟩
    · cases pp <;> simp only [Prep.Elastic] at hel
      case nrm sd => simp only [Prep.fit] at hr; cases hr; trivial
      case qtc p =>
        simp only [Prep.fit] at hr
        rcases hp : p.fit X with e | p2
        · rw [hp] at hr; cases hr
        · rw [hp, ok_bind] at hr; cases hr; trivial
      case std p =>
        simp only [Prep.fit] at hr
        cases hr
        simp only [Prep.Elastic, STD.fit, hel, Bool.false_eq_true, if_false]
    · subst hi
      simp only [Prep.fit] at hr
      cases hr
      rfl

/-- What fitting does to the seeds, as far as time warping is concerned. -/
structure FitKeeps (w w' : World R (SafePrep R) (BIss R) (List (IWord R)) (SafeSieve R)) : Prop where
  prep : ∀ a, ((w.prep a).1.Elastic → (w'.prep a).1.Elastic) ∧ ∀ i, (w.prep a).1 = .inc i → (w'.prep a).1 = .inc i
  iss : ∀ a o, (w.issAt a).1 = .iss o → w'.issAt a = w.issAt a
  sieve : w'.sieve = w.sieve
  fruit : w'.fruit = w.fruit
  slice : ∀ s, (w'.slice s).preps = (w.slice s).preps ∧ (w'.slice s).iss = (w.slice s).iss ∧ (w'.slice s).sieves = (w.slice s).sieves
  ext : ∀ s, (∀ a ∈ (w.slice s).sieves, (w.sieve a).1.Elastic) → (∀ row ∈ (w.slice s).ext, ∀ t ∈ row, t.1.Elastic) →
    ∀ row ∈ (w'.slice s).ext, ∀ t ∈ row, t.1.Elastic

theorem FitKeeps.refl (w : World R (SafePrep R) (BIss R) (List (IWord R)) (SafeSieve R)) : FitKeeps w w :=
  ⟨fun _ => ⟨id, fun _ h => h⟩, fun _ _ _ => rfl, rfl, rfl, fun _ => ⟨rfl, rfl, rfl⟩, fun _ _ h => h⟩

theorem FitKeeps.trans {w w₁ w₂ : World R (SafePrep R) (BIss R) (List (IWord R)) (SafeSieve R)} (h : FitKeeps w w₁) (h' : FitKeeps w₁ w₂) :
    FitKeeps w w₂ where
  prep := fun a => ⟨fun e => (h'.prep a).1 ((h.prep a).1 e), fun i e => (h'.prep a).2 i ((h.prep a).2 i e)⟩
  iss := fun a o e => by
    have e1 := h.iss a o e
    rw [h'.iss a o (by rw [e1]; exact e), e1]
  sieve := by rw [h'.sieve, h.sieve]
  fruit := by rw [h'.fruit, h.fruit]
  slice := fun s => by
    obtain ⟨a1, a2, a3⟩ := h.slice s
    obtain ⟨b1, b2, b3⟩ := h'.slice s
    exact ⟨by rw [b1, a1], by rw [b2, a2], by rw [b3, a3]⟩
  ext := fun s e1 e2 => h'.ext s (by rw [(h.slice s).2.2, h.sieve]; exact e1) (h.ext s e1 e2)

theorem TwiSlice.fit {w w' : World R (SafePrep R) (BIss R) (List (IWord R)) (SafeSieve R)} {s d : ℕ} {X : Data R} (h : TwiSlice w s d X)
    (hk : FitKeeps w w') : TwiSlice w' s d X where
  sieves := by rw [(hk.slice s).2.2, hk.sieve]; exact h.sieves
  ext := hk.ext s h.sieves h.ext
  pipeline := by
    obtain ⟨as, b, o, h1, h2, h3, h4, h5, h6⟩ := h.pipeline
    refine ⟨as, b, o, by rw [(hk.slice s).2.1]; exact h1, fun a ha => (hk.prep a).1 (h2 a ha), ?_⟩
    rw [hk.iss b o h3, (hk.slice s).1]
    refine ⟨h3, h4, h5, ?_⟩
    rcases h6 with ⟨c1, ⟨a, zp, c2, c3⟩, c4⟩ | h6
    · exact Or.inl ⟨c1, ⟨a, zp, c2, (hk.prep a).2 _ c3⟩, c4⟩
    · exact Or.inr h6

theorem fitPreps_keeps [NpMath R] (L : Lib R) (ρ : ℕ → Rng R) (C : Data R) : ∀ (as : List ℕ) (X : Data R)
    (w : World R (SafePrep R) (BIss R) (List (IWord R)) (SafeSieve R)), FitKeeps w (fitPreps (builtin L) ρ C as X w).2
  | [], X, w => FitKeeps.refl w
  | a :: as, X, w => by
    rw [fitPreps]
    rcases hp : (builtin L).prepFit (ρ w.rnd) (w.prep a) C X with e | p
    · exact ⟨fun _ => ⟨id, fun _ h => h⟩, fun _ _ _ => rfl, rfl, rfl, fun _ => ⟨rfl, rfl, rfl⟩, fun _ _ h => h⟩
    have hset : FitKeeps w (w.tick.setPrep a p) := by
      refine ⟨fun b => ?_, fun _ _ _ => rfl, rfl, rfl, fun _ => ⟨rfl, rfl, rfl⟩, fun _ _ h => h⟩
      by_cases hb : b = a
      · subst hb
        simp only [World.setPrep, Function.update_self]
        exact safeFit_elastic hp
      · simp only [World.setPrep, Function.update_of_ne hb]
        exact ⟨id, fun _ h => h⟩
    simp only
    rcases (builtin L).prepTransform p C X with e | Y
    · exact hset
    · exact hset.trans (fitPreps_keeps L ρ C as Y _)

theorem fitIss_keepsTwi [NpMath R] (L : Lib R) (ρ : ℕ → Rng R) (C X : Data R) : ∀ (as : List ℕ)
    (w : World R (SafePrep R) (BIss R) (List (IWord R)) (SafeSieve R)), FitKeeps w (fitIss (builtin L) ρ C X as w).2
  | [], w => FitKeeps.refl w
  | a :: as, w => by
    rw [fitIss]
    by_cases hr : (builtin L).issRequires (w.issAt a).1 = true
    · rw [if_pos hr]
      rcases (builtin L).issFit (ρ w.rnd) (w.issAt a).1 (w.issAt a).2 C X with e | i
      · exact ⟨fun _ => ⟨id, fun _ h => h⟩, fun _ _ _ => rfl, rfl, rfl, fun _ => ⟨rfl, rfl, rfl⟩, fun _ _ h => h⟩
      · refine FitKeeps.trans ?_ (fitIss_keepsTwi L ρ C X as _)
        refine ⟨fun _ => ⟨id, fun _ h => h⟩, fun b o hb => ?_, rfl, rfl, fun _ => ⟨rfl, rfl, rfl⟩, fun _ _ h => h⟩
        by_cases hba : b = a
        · subst hba
          exfalso
          have : BIss.requires (w.issAt b).1 = true := hr
          rw [hb] at this
          cases this
        · rw [issAt_setIss, if_neg hba]
          rfl
    · rw [if_neg hr]; exact fitIss_keepsTwi L ρ C X as w

theorem sieveCopy_elastic {L : Lib R} {s t : SafeSieve R} (hs : s.1.Elastic) (h : L.sieveCopy s = .ok t) : t.1.Elastic := by
  unfold Lib.sieveCopy at h
  split at h
  · cases h
  · rename_i q hq
    cases h
    exact hs.copy hq

theorem sieveFit_elastic {g : Rng R} {s t : SafeSieve R} {X : List (List R)} (hs : s.1.Elastic) (h : safeSieveFit g s X = .ok t) : t.1.Elastic := by
  unfold safeSieveFit at h
  split at h
  · cases h
  · rename_i q hq
    cases h
    exact hs.fit hq

theorem fitFinish_keeps [NpMath R] (L : Lib R) (ρ : ℕ → Rng R) (s : ℕ) (C X : Data R)
    (w : World R (SafePrep R) (BIss R) (List (IWord R)) (SafeSieve R)) : FitKeeps w (fitFinish (builtin L) ρ s C X w).2 := by
  have key : ∀ (rows : List (List (SafeSieve R))) (b : Bool) (r : ℕ), (∀ row ∈ rows,
      ∃ cs, ((w.slice s).sieves.map w.sieve).mapM (builtin L).sieveCopy = .ok cs ∧
        List.Forall₂ (fun c v => ∃ g C X, (builtin L).sieveFit g c C X = .ok v) cs row) →
      FitKeeps w { w.setSlice s { w.slice s with ext := rows, fitted := b } with rnd := r } := by
    intro rows b r hrows
    refine ⟨fun _ => ⟨id, fun _ h => h⟩, fun _ _ _ => rfl, rfl, rfl, fun t => ?_, fun t h1 h2 => ?_⟩
    · by_cases ht : t = s
      · subst ht
        simp [World.setSlice]
      · simp [World.setSlice, Function.update_of_ne ht]
    · by_cases ht : t = s
      · subst ht
        simp only [World.setSlice, Function.update_self]
        intro row hrow v hv
        obtain ⟨cs, hc, hf⟩ := hrows row hrow
        obtain ⟨i, hi, rfl⟩ := List.mem_iff_getElem.1 hv
        have hic : i < cs.length := by rw [hf.length_eq]; exact hi
        obtain ⟨g, C, X, hfit⟩ := hf.get hic hi
        obtain ⟨u, hu, hcu⟩ := mapM_mem hc _ (List.getElem_mem hic)
        obtain ⟨a, ha, rfl⟩ := List.mem_map.1 hu
        exact sieveFit_elastic (sieveCopy_elastic (h1 a ha) hcu) hfit
      · simp only [World.setSlice, Function.update_of_ne ht]
        exact h2
  rw [fitFinish]
  by_cases hr : anyRequires (builtin L) w s = true
  · rw [if_pos hr]
    have hrows := fitItems_rows (builtin L) ρ C ((w.slice s).sieves.map w.sieve) (iterateIss (builtin L) C ((w.slice s).iss.map w.issAt) X).1
        (iterateIss (builtin L) C ((w.slice s).iss.map w.issAt) X).2 w.rnd
    rcases hm : fitItems (builtin L) ρ C ((w.slice s).sieves.map w.sieve) (iterateIss (builtin L) C ((w.slice s).iss.map w.issAt) X).1
        (iterateIss (builtin L) C ((w.slice s).iss.map w.issAt) X).2 w.rnd with ⟨⟨rows, _ | e⟩, r⟩
    · rw [hm] at hrows
      exact key rows true r hrows
    · rw [hm] at hrows
      exact key rows (w.slice s).fitted r hrows
  · rw [if_neg hr]
    refine ⟨fun _ => ⟨id, fun _ h => h⟩, fun _ _ _ => rfl, rfl, rfl, fun t => ?_, fun t h1 h2 => ?_⟩
    · by_cases ht : t = s
      · subst ht
        simp [World.setSlice]
      · simp [World.setSlice, Function.update_of_ne ht]
    · by_cases ht : t = s
      · subst ht
        simp only [World.setSlice, Function.update_self]
        exact h2
      · simp only [World.setSlice, Function.update_of_ne ht]
        exact h2

theorem sliceFit_keeps [NpMath R] (L : Lib R) (ρ : ℕ → Rng R) (s : ℕ) (C X : Data R)
    (w : World R (SafePrep R) (BIss R) (List (IWord R)) (SafeSieve R)) : FitKeeps w (sliceFit (builtin L) ρ s C X w).2 := by
  have htick : FitKeeps w w.tick := ⟨fun _ => ⟨id, fun _ h => h⟩, fun _ _ _ => rfl, rfl, rfl, fun _ => ⟨rfl, rfl, rfl⟩, fun _ _ h => h⟩
  rw [sliceFit]
  by_cases h1 : (w.slice s).iss = []
  · rw [if_pos h1]; exact FitKeeps.refl w
  rw [if_neg h1]
  by_cases h2 : (w.slice s).sieves = []
  · rw [if_pos h2]; exact FitKeeps.refl w
  rw [if_neg h2]
  rcases selectSample (ρ w.rnd) (w.slice s).sample X with e | D
  · exact htick
  simp only
  have k1 := htick.trans (fitPreps_keeps L ρ C (w.slice s).preps D w.tick)
  rcases hp : fitPreps (builtin L) ρ C (w.slice s).preps D w.tick with ⟨r, w1⟩
  rw [hp] at k1
  rcases r with e | Y
  · exact k1
  simp only
  have k2 := k1.trans (fitIss_keepsTwi L ρ C Y (w.slice s).iss w1)
  rcases hi : fitIss (builtin L) ρ C Y (w.slice s).iss w1 with ⟨r, w2⟩
  rw [hi] at k2
  rcases r with e | u
  · exact k2
  exact k2.trans (fitFinish_keeps L ρ s C Y w2)

theorem fitSlices_keeps [NpMath R] (L : Lib R) (ρ : ℕ → Rng R) (C X : Data R) : ∀ (ss : List ℕ)
    (w : World R (SafePrep R) (BIss R) (List (IWord R)) (SafeSieve R)), FitKeeps w (fitSlices (builtin L) ρ C X ss w).2
  | [], w => FitKeeps.refl w
  | s :: ss, w => by
    rw [fitSlices]
    have := sliceFit_keeps L ρ s C X w
    rcases hs : sliceFit (builtin L) ρ s C X w with ⟨r, w'⟩
    rw [hs] at this
    rcases r with e | u
    · exact this
    · exact this.trans (fitSlices_keeps L ρ C X ss w')

/-- **C106**, from the configuration: a fruit of time warping invariant slices, fitted on any training data, returns the same features
for a dataset and for the dataset with repeated samples. -/
theorem C106_fitted [NpMath R] (L : Lib R) (hT : L.T.Lawful) (hexp : ExpLike L.expf) (ρ : ℕ → Rng R)
    (w w' : World R (SafePrep R) (BIss R) (List (IWord R)) (SafeSieve R)) (f : ℕ) (C Xtrain X : Data R) {m d n n' : ℕ}
    (hs : ∀ s ∈ (w.fruit f).slices, TwiSlice w s d X) (hfit : fruitFit (builtin L) ρ f C Xtrain w = (.ok (), w'))
    (hX : HasShape X m d n) (hm : 0 < m) (hd : 0 < d) {φ : ℕ → ℕ → ℕ} (hφ : ∀ i < m, IsWarp n n' (φ i)) (c c' : ℕ) :
    (fruitTransform (builtin L) w' c' f (warp φ n' X) (warp φ n' X)).1 = (fruitTransform (builtin L) w' c f X X).1 := by
  unfold fruitFit at hfit
  have hk := fitSlices_keeps L ρ C Xtrain (w.fruit f).slices w
  rcases hr : fitSlices (builtin L) ρ C Xtrain (w.fruit f).slices w with ⟨r, w1⟩
  rw [hr] at hfit hk
  rcases r with e | u
  · cases hfit
  simp only [Prod.mk.injEq, true_and] at hfit hk
  subst hfit
  refine C106_fruit L hT hexp _ f X (fun s hsm => ?_) hX hm hd hφ c c'
  have hsl : s ∈ (w1.fruit f).slices := by
    simpa [World.setFruit] using hsm
  rw [hk.fruit] at hsl
  have := (hs s hsl).fit hk
  exact ⟨this.sieves, this.ext, this.pipeline⟩

end Fruits
