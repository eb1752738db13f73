import Verif.Fruit
import Verif.Props.Prep10
import Verif.Props.Sieve6

/-! # C97: a fitted fruit treats every series on its own (for any seeds that do) -/

set_option linter.unusedSectionVars false

namespace Fruits
variable {R : Type} [Field R] [LinearOrder R] [IsStrictOrderedRing R] [FloorRing R] {P I W S V : Type}

/-- The preparateur treats the series (with their cache inputs) one by one. -/
def PrepLocal (K : Sem R P I W S V) (p : P) : Prop := PerS fun C X => K.prepTransform p C X

/-- An iterated sum of `m` series. -/
def ItemOK (m : ℕ) (it : List (List R)) : Prop := it.length = m ∧ ∃ n, ∀ r ∈ it, r.length = n

/-- The iterated sums of one series, when `Y` are those of the dataset. -/
def oneSeries (i : ℕ) (Y : List (List (List R))) : List (List (List R)) := Y.map fun it => [it.getD i []]

/-- The generator of iterated sums treats the series one by one. -/
def GenLocal (F : Data R → Data R → Yields (List (List R))) : Prop :=
  ∀ C X : Data R, Uni C → Uni X → C.length = X.length → (F C X).2 = none →
    (∀ it ∈ (F C X).1, ItemOK X.length it) ∧
    ∀ i < X.length, F [C.getD i []] [X.getD i []] = (oneSeries i (F C X).1, none)

/-- The sieve treats the rows one by one. -/
def SieveLocal (K : Sem R P I W S V) (s : S) : Prop :=
  ∀ (C : Data R) (X : List (List R)) (Y : List (List V)) (n : ℕ), (∀ r ∈ X, r.length = n) → C.length = X.length →
    K.sieveTransform s C X = .ok Y → Y.length = X.length ∧ ∀ i < X.length, K.sieveTransform s [C.getD i []] [X.getD i []] = .ok [Y.getD i []]

/-- All seeds of a slice treat the series one by one. -/
structure SliceLocal (K : Sem R P I W S V) (w : World R P I W S) (s : ℕ) : Prop where
  preps : ∀ a ∈ (w.slice s).preps, PrepLocal K (w.prep a)
  iss : ∀ a ∈ (w.slice s).iss, GenLocal fun C X => K.issGen (w.issAt a).1 (w.issAt a).2 C X
  sieves : ∀ s : S, SieveLocal K s

theorem transformPreps_local {K : Sem R P I W S V} {w : World R P I W S} (n n' : ℕ) {C : Data R} (hC : Uni C) :
    ∀ (as : List ℕ), (∀ a ∈ as, PrepLocal K (w.prep a)) → ∀ {X Z : Data R}, Uni X → C.length = X.length →
      (transformPreps K w n C as X).1 = .ok Z →
      Uni Z ∧ Z.length = X.length ∧ ∀ i < X.length, (transformPreps K w n' [C.getD i []] as [X.getD i []]).1 = .ok [Z.getD i []]
  | [], _, X, Z, hX, _, h => by
    simp only [transformPreps] at h ⊢
    cases h
    exact ⟨hX, rfl, fun _ _ => rfl⟩
  | a :: as, hp, X, Z, hX, hl, h => by
    simp only [transformPreps] at h ⊢
    rcases hY : K.prepTransform (w.prep a) C X with e | Y
    · rw [hY] at h; cases h
    rw [hY] at h
    simp only at h
    obtain ⟨y1, y2, y3⟩ := hp a (by simp) C X Y hC hX hl hY
    obtain ⟨z1, z2, z3⟩ := transformPreps_local n n' hC as (fun b hb => hp b (by simp [hb])) y1 (by omega) h
    refine ⟨z1, by omega, fun i hi => ?_⟩
    have := y3 i hi
    simp only at this
    rw [this]
    exact z3 i (by omega)

theorem bind_local {F : List (List R) → Yields (List (List R))} {G : List (List R) → Yields (List (List R))} {m i : ℕ} :
    ∀ (items : List (List (List R))) (e : Option Err),
      (∀ it ∈ items, (F it).2 = none → (∀ jt ∈ (F it).1, ItemOK m jt) ∧ G [it.getD i []] = (oneSeries i (F it).1, none)) →
      (Yields.bind F items e).2 = none →
      e = none ∧ (∀ jt ∈ (Yields.bind F items e).1, ItemOK m jt) ∧
        Yields.bind G (oneSeries i items) none = (oneSeries i (Yields.bind F items e).1, none)
  | [], e, _, h => by
    simp only [Yields.bind] at h ⊢
    exact ⟨h, by simp, rfl⟩
  | it :: items, e, hF, h => by
    simp only [Yields.bind] at h ⊢
    rcases hit : F it with ⟨bs, eo⟩
    cases eo with
    | some e' => rw [hit] at h; cases h
    | none =>
      rw [hit] at h
      simp only at h
      obtain ⟨f1, f2⟩ := hF it (by simp) (by rw [hit])
      rw [hit] at f1 f2
      obtain ⟨h1, h2, h3⟩ := bind_local items e (fun jt hj => hF jt (by simp [hj])) h
      refine ⟨h1, ?_, ?_⟩
      · intro jt hj
        rcases List.mem_append.1 hj with hj | hj
        · exact f1 jt hj
        · exact h2 jt hj
      · simp only [oneSeries, List.map_cons, Yields.bind]
        rw [f2]
        simp only [oneSeries] at h3 ⊢
        rw [h3]
        simp

theorem iterateIss_local {K : Sem R P I W S V} : ∀ (is : List (I × W)), (∀ p ∈ is, GenLocal fun C X => K.issGen p.1 p.2 C X) →
    GenLocal fun C X => iterateIss K C is X
  | [], _ => by
    intro C X hC hX hl _
    simp only [iterateIss]
    refine ⟨?_, fun i hi => ?_⟩
    · intro it hit
      rw [List.mem_singleton] at hit
      subst hit
      refine ⟨by simp, ?_⟩
      rcases Nat.eq_zero_or_pos (shape1 X) with h0 | h0
      · refine ⟨0, fun r hr => ?_⟩
        obtain ⟨s, hs, rfl⟩ := List.mem_map.1 hr
        have := (hX.2 s hs).1
        rw [h0] at this
        rw [List.length_eq_zero_iff.1 this]; rfl
      · refine ⟨shape2 X, fun r hr => ?_⟩
        obtain ⟨s, hs, rfl⟩ := List.mem_map.1 hr
        obtain ⟨a, b⟩ := hX.2 s hs
        exact b _ (getD_mem_lt (by omega))
    · simp only [oneSeries, List.map_cons, List.map_nil]
      congr 3
      rw [getD_getElem hi, getD_getElem (X := X.map fun s => s.getD 0 []) (by simpa using hi)]
      simp
  | p :: is, hp => by
    intro C X hC hX hl h
    simp only [iterateIss] at h ⊢
    have hg := hp p (by simp)
    have ih := iterateIss_local is fun q hq => hp q (by simp [hq])
    have hnone : (K.issGen p.1 p.2 C X).2 = none := by
      clear hg ih
      generalize K.issGen p.1 p.2 C X = g at h
      obtain ⟨items, e⟩ := g
      simp only at h ⊢
      induction items with
      | nil => simpa [Yields.bind] using h
      | cons a as iha =>
        apply iha
        simp only [Yields.bind] at h
        split at h
        · cases h
        · exact h
    obtain ⟨g1, g2⟩ := hg C X hC hX hl hnone
    have key : ∀ i < X.length, ∀ it ∈ (K.issGen p.1 p.2 C X).1, (iterateIss K C is (newAxis it)).2 = none →
        (∀ jt ∈ (iterateIss K C is (newAxis it)).1, ItemOK X.length jt) ∧
        iterateIss K [C.getD i []] is (newAxis [it.getD i []]) = (oneSeries i (iterateIss K C is (newAxis it)).1, none) := by
      intro i hi it hit hn
      obtain ⟨a, n, b⟩ := g1 it hit
      have hu : Uni (newAxis it) := by
        have hs : HasShape (newAxis it) it.length 1 n := by
          refine ⟨by simp [newAxis], fun s hs => ?_⟩
          obtain ⟨r, hr, rfl⟩ := List.mem_map.1 hs
          exact ⟨rfl, fun q hq => by rw [List.mem_singleton] at hq; subst hq; exact b _ hr⟩
        exact hs.uni
      have hlen : (newAxis it).length = X.length := by simp [newAxis, a]
      obtain ⟨j1, j2⟩ := ih C (newAxis it) hC hu (by rw [hlen, hl]) hn
      rw [hlen] at j1 j2
      refine ⟨j1, ?_⟩
      have := j2 i hi
      rw [newAxis_single it i (by omega)] at this
      exact this
    refine ⟨?_, fun i hi => ?_⟩
    · rcases Nat.eq_zero_or_pos X.length with h0 | h0
      · -- no series: only the lengths matter
        intro jt hj
        have : ∀ (items : List (List (List R))) (e : Option Err), (∀ it ∈ items, ItemOK X.length it) →
            (Yields.bind (fun it => iterateIss K C is (newAxis it)) items e).2 = none →
            ∀ jt ∈ (Yields.bind (fun it => iterateIss K C is (newAxis it)) items e).1, ItemOK X.length jt := by
          intro items
          induction items with
          | nil => intro e _ _ jt hj; simp [Yields.bind] at hj
          | cons it items iht =>
            intro e hok hn jt hj
            simp only [Yields.bind] at hn hj
            rcases hit : iterateIss K C is (newAxis it) with ⟨bs, eo⟩
            cases eo with
            | some e' => rw [hit] at hn; cases hn
            | none =>
              rw [hit] at hn hj
              simp only at hn hj
              obtain ⟨a, n, b⟩ := hok it (by simp)
              have hu : Uni (newAxis it) := by
                have hs : HasShape (newAxis it) it.length 1 n := by
                  refine ⟨by simp [newAxis], fun s hs => ?_⟩
                  obtain ⟨r, hr, rfl⟩ := List.mem_map.1 hs
                  exact ⟨rfl, fun q hq => by rw [List.mem_singleton] at hq; subst hq; exact b _ hr⟩
                exact hs.uni
              have hlen : (newAxis it).length = X.length := by simp [newAxis, a]
              obtain ⟨j1, -⟩ := ih C (newAxis it) hC hu (by rw [hlen, hl]) (by simp only [hit])
              rw [hlen] at j1
              simp only [hit] at j1
              rcases List.mem_append.1 hj with hj | hj
              · exact j1 jt hj
              · exact iht e (fun jt hj => hok jt (by simp [hj])) hn jt hj
        exact this _ _ g1 h jt hj
      · exact (bind_local (G := fun it => iterateIss K [C.getD 0 []] is (newAxis it)) _ _ (key 0 h0) h).2.1
    · have := (bind_local (G := fun it => iterateIss K [C.getD i []] is (newAxis it)) _ _ (key i hi) h).2.2
      have hgi := g2 i hi
      simp only at hgi
      rw [hgi]
      exact this

theorem setCols_local {D A D' : List (List V)} {a b : ℤ} (hl : A.length = D.length) (h : setCols D a b A = .ok D') :
    D'.length = D.length ∧ ∀ i < D.length, setCols [D.getD i []] a b [A.getD i []] = .ok [D'.getD i []] := by
  unfold setCols at h
  rw [if_pos hl] at h
  obtain ⟨h1, h2⟩ := mapM_getD h ([], []) []
  have hz : (List.zip D A).length = D.length := by simp [hl]
  refine ⟨by omega, fun i hi => ?_⟩
  have h3 := h2 i (by omega)
  have e : (List.zip D A).getD i ([], []) = (D.getD i [], A.getD i []) := by
    rw [getD_getElem (by omega), getD_getElem hi, getD_getElem (by omega)]
    simp
  rw [e] at h3
  unfold setCols
  rw [if_pos (by simp)]
  exact mapM_single _ _ _ h3

theorem sieveLoop_local {K : Sem R P I W S V} (hK : ∀ s, SieveLocal K s) (n n' : ℕ) {C : Data R} {it : List (List R)} {m : ℕ}
    (hit : ItemOK m it) (hC : C.length = m) : ∀ (ss : List S) (D D' : List (List V)) (k k' : ℤ), D.length = m →
      (sieveLoop K n C it ss D k).1 = .ok (D', k') → D'.length = m ∧ ∀ i < m,
        (sieveLoop K n' [C.getD i []] [it.getD i []] ss [D.getD i []] k).1 = .ok ([D'.getD i []], k')
  | [], D, D', k, k', hD, h => by
    simp only [sieveLoop] at h ⊢
    cases h
    exact ⟨hD, fun _ _ => rfl⟩
  | s :: ss, D, D', k, k', hD, h => by
    simp only [sieveLoop] at h ⊢
    obtain ⟨i1, l, i2⟩ := hit
    rcases hA : K.sieveTransform s C it with e | A
    · rw [hA] at h; cases h
    rw [hA] at h
    simp only at h
    obtain ⟨a1, a2⟩ := hK s C it A l i2 (by omega) hA
    rcases hE : setCols D k (k + K.sieveN s) A with e | E
    · rw [hE] at h; cases h
    rw [hE] at h
    simp only at h
    obtain ⟨e1, e2⟩ := setCols_local (by omega) hE
    obtain ⟨r1, r2⟩ := sieveLoop_local hK n n' ⟨i1, l, i2⟩ hC ss E D' _ k' (by omega) h
    refine ⟨r1, fun i hi => ?_⟩
    rw [a2 i (by omega)]
    simp only
    rw [e2 i (by omega)]
    exact r2 i hi

theorem itemLoop_local {K : Sem R P I W S V} (hK : ∀ s, SieveLocal K s) (n n' : ℕ) {C : Data R} {m : ℕ} (hC : C.length = m)
    (ext : List (List S)) (sieves : List S) : ∀ (items : List (List (List R))) (e : Option Err) (j : ℕ) (D A : List (List V)) (k : ℤ),
      (∀ it ∈ items, ItemOK m it) → D.length = m → (itemLoop K n C ext sieves items e j D k).1 = .ok A →
      A.length = m ∧ ∀ i < m, (itemLoop K n' [C.getD i []] ext sieves (oneSeries i items) none j [D.getD i []] k).1 = .ok [A.getD i []]
  | [], e, j, D, A, k, _, hD, h => by
    cases e with
    | none => simp only [itemLoop] at h; cases h; exact ⟨hD, fun _ _ => rfl⟩
    | some e => simp only [itemLoop] at h; cases h
  | it :: items, e, j, D, A, k, hit, hD, h => by
    simp only [itemLoop] at h
    rcases hr : sievesFor ext sieves j with e' | row
    · rw [hr] at h; cases h
    rw [hr] at h
    simp only at h
    rcases hs : sieveLoop K n C it row D k with ⟨res, tr⟩
    rw [hs] at h
    rcases res with e' | ⟨D', k'⟩
    · cases h
    simp only at h
    obtain ⟨s1, s2⟩ := sieveLoop_local hK n n' (hit it (by simp)) hC row D D' k k' hD (by rw [hs])
    obtain ⟨r1, r2⟩ := itemLoop_local hK n n' hC ext sieves items e (j + 1) D' A k' (fun jt hj => hit jt (by simp [hj])) s1 h
    refine ⟨r1, fun i hi => ?_⟩
    simp only [oneSeries, List.map_cons, itemLoop]
    rw [hr]
    simp only
    have := s2 i hi
    rcases hs' : sieveLoop K n' [C.getD i []] [it.getD i []] row [D.getD i []] k with ⟨res, tr'⟩
    rw [hs'] at this
    simp only at this
    subst this
    exact r2 i hi

theorem zerosE_local {K : Sem R P I W S V} {m : ℕ} {N : ℤ} {D : List (List V)} (h : zerosE K m N = .ok D) :
    D.length = m ∧ ∀ i < m, zerosE K 1 N = .ok [D.getD i []] := by
  unfold zerosE at h ⊢
  by_cases hN : N < 0
  · rw [if_pos hN] at h; cases h
  · rw [if_neg hN] at h ⊢
    cases h
    refine ⟨by simp, fun i hi => ?_⟩
    rw [getD_getElem (by simpa using hi)]
    simp

theorem sliceTransform_local {K : Sem R P I W S V} {w : World R P I W S} {s : ℕ} (hs : SliceLocal K w s) (n n' : ℕ) {C X : Data R}
    (hC : Uni C) (hX : Uni X) (hl : C.length = X.length) {A : List (List V)} (h : (sliceTransform K w n s C X).1 = .ok A) :
    A.length = X.length ∧ ∀ i < X.length, (sliceTransform K w n' s [C.getD i []] [X.getD i []]).1 = .ok [A.getD i []] := by
  unfold sliceTransform at h ⊢
  by_cases hf : (w.slice s).fitted
  swap
  · rw [if_neg hf] at h; cases h
  simp only [if_pos hf] at h ⊢
  rcases hp : transformPreps K w n C (w.slice s).preps X with ⟨res, tr⟩
  rw [hp] at h
  rcases res with e | Y
  · cases h
  simp only at h
  obtain ⟨p1, p2, p3⟩ := transformPreps_local n n' hC (w.slice s).preps hs.preps hX hl (by rw [hp])
  have hiss : GenLocal fun C X => iterateIss K C ((w.slice s).iss.map w.issAt) X := by
    apply iterateIss_local
    intro p hp
    obtain ⟨a, ha, rfl⟩ := List.mem_map.1 hp
    exact hs.iss a ha
  suffices H : A.length = X.length ∧ ∀ i < X.length, (transformSieve K w n' s [C.getD i []] [Y.getD i []]).1 = .ok [A.getD i []] by
    refine ⟨H.1, fun i hi => ?_⟩
    have := p3 i hi
    rcases hp' : transformPreps K w n' [C.getD i []] (w.slice s).preps [X.getD i []] with ⟨res, tr'⟩
    rw [hp'] at this
    simp only at this
    subst this
    exact H.2 i hi
  unfold transformSieve at h ⊢
  rcases hN : sliceN K w s with e | N
  · rw [hN] at h; cases h
  rw [hN, ok_bind] at h
  rcases hD : zerosE K Y.length N with e | D
  · rw [hD] at h; cases h
  rw [hD] at h
  simp only at h
  obtain ⟨d1, d2⟩ := zerosE_local hD
  rcases hI : itemLoop K n C (w.slice s).ext ((w.slice s).sieves.map w.sieve)
        (iterateIss K C ((w.slice s).iss.map w.issAt) Y).1 (iterateIss K C ((w.slice s).iss.map w.issAt) Y).2 0 D 0 with ⟨res, tr'⟩
  rw [hI] at h
  rcases res with e | A'
  · cases h
  simp only at h
  cases h
  have hnone : (iterateIss K C ((w.slice s).iss.map w.issAt) Y).2 = none := by
    clear hiss
    generalize (iterateIss K C ((w.slice s).iss.map w.issAt) Y) = g at hI
    obtain ⟨items, e⟩ := g
    simp only at hI ⊢
    have : ∀ (items : List (List (List R))) (j : ℕ) (D A : List (List V)) (k : ℤ),
        (itemLoop K n C (w.slice s).ext ((w.slice s).sieves.map w.sieve) items e j D k).1 = .ok A → e = none := by
      intro items
      induction items with
      | nil =>
        intro j D A k h
        cases e with
        | none => rfl
        | some e => simp only [itemLoop] at h; cases h
      | cons it items ih =>
        intro j D A k h
        simp only [itemLoop] at h
        split at h
        · cases h
        split at h
        · cases h
        exact ih _ _ _ _ h
    exact this items 0 D A 0 (by rw [hI])
  obtain ⟨g1, g2⟩ := hiss C Y hC p1 (by omega) hnone
  obtain ⟨r1, r2⟩ := itemLoop_local hs.sieves n n' (C := C) (m := Y.length) (by omega) _ _ _ _ 0 D A 0 g1 d1 (by rw [hI])
  refine ⟨by omega, fun i hi => ?_⟩
  rw [ok_bind, List.length_singleton, d2 i (by omega)]
  simp only
  have hgi := g2 i (by omega)
  simp only at hgi
  rw [hgi]
  have := r2 i (by omega)
  rcases hI' : itemLoop K n' [C.getD i []] (w.slice s).ext ((w.slice s).sieves.map w.sieve)
        (oneSeries i (iterateIss K C ((w.slice s).iss.map w.issAt) Y).1) none 0 [D.getD i []] 0 with ⟨res, tr''⟩
  rw [hI'] at this
  simp only at this
  subst this
  rfl

theorem slicesLoop_local {K : Sem R P I W S V} {w : World R P I W S} (n n' : ℕ) {C X : Data R}
    (hC : Uni C) (hX : Uni X) (hl : C.length = X.length) : ∀ (ss : List ℕ), (∀ s ∈ ss, SliceLocal K w s) →
      ∀ (D A : List (List V)) (k : ℤ), D.length = X.length → (slicesLoop K w n C X ss D k).1 = .ok A →
      A.length = X.length ∧ ∀ i < X.length, (slicesLoop K w n' [C.getD i []] [X.getD i []] ss [D.getD i []] k).1 = .ok [A.getD i []]
  | [], _, D, A, k, hD, h => by
    simp only [slicesLoop] at h ⊢
    cases h
    exact ⟨hD, fun _ _ => rfl⟩
  | s :: ss, hs, D, A, k, hD, h => by
    simp only [slicesLoop] at h ⊢
    rcases hN : sliceN K w s with e | N
    · rw [hN] at h; cases h
    rw [hN] at h
    simp only at h ⊢
    rcases hB : sliceTransform K w n s C X with ⟨res, tr⟩
    rw [hB] at h
    rcases res with e | B
    · cases h
    simp only at h
    obtain ⟨b1, b2⟩ := sliceTransform_local (hs s (by simp)) n n' hC hX hl (by rw [hB])
    rcases hE : setCols D k (k + N) B with e | E
    · rw [hE] at h; cases h
    rw [hE] at h
    simp only at h
    obtain ⟨e1, e2⟩ := setCols_local (by omega) hE
    obtain ⟨r1, r2⟩ := slicesLoop_local n n' hC hX hl ss (fun t ht => hs t (by simp [ht])) E A _ (by omega) h
    refine ⟨r1, fun i hi => ?_⟩
    have := b2 i hi
    rcases hB' : sliceTransform K w n' s [C.getD i []] [X.getD i []] with ⟨res, tr'⟩
    rw [hB'] at this
    simp only at this
    subst this
    simp only
    rw [e2 i (by omega)]
    exact r2 i hi

/-- **C97**, for any seeds that treat series one by one: row `i` of the features is what the fruit computes for series `i`
alone. -/
theorem C97_generic {K : Sem R P I W S V} {w : World R P I W S} {f : ℕ} (hf : ∀ s ∈ (w.fruit f).slices, SliceLocal K w s) (n n' : ℕ)
    {X : Data R} (hX : Uni X) {A : List (List V)} (h : (fruitTransform K w n f X X).1 = .ok A) :
    A.length = X.length ∧ ∀ i < X.length, (fruitTransform K w n' f [X.getD i []] [X.getD i []]).1 = .ok [A.getD i []] := by
  unfold fruitTransform at h ⊢
  by_cases hfit : (w.fruit f).fitted
  swap
  · rw [if_neg hfit] at h; cases h
  simp only [if_pos hfit] at h ⊢
  rcases hN : fruitN K w f with e | N
  · rw [hN] at h; cases h
  rw [hN, ok_bind] at h
  rcases hD : zerosE K X.length N with e | D
  · rw [hD] at h; cases h
  rw [hD] at h
  simp only at h
  obtain ⟨d1, d2⟩ := zerosE_local hD
  rcases hB : slicesLoop K w n X X (w.fruit f).slices D 0 with ⟨res, tr⟩
  rw [hB] at h
  rcases res with e | B
  · cases h
  simp only at h
  cases h
  obtain ⟨b1, b2⟩ := slicesLoop_local n n' hX hX rfl _ hf D B 0 d1 (by rw [hB])
  refine ⟨by simpa using b1, fun i hi => ?_⟩
  rw [ok_bind, List.length_singleton, d2 i hi]
  simp only
  have := b2 i hi
  rcases hB' : slicesLoop K w n' [X.getD i []] [X.getD i []] (w.fruit f).slices [D.getD i []] 0 with ⟨res, tr'⟩
  rw [hB'] at this
  simp only at this
  subst this
  simp only [List.map_cons, List.map_nil]
  rw [getD_getElem (by omega), getD_getElem (by simpa using (by omega : i < B.length))]
  simp

end Fruits
