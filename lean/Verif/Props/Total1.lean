import Verif.Props.Fruit14

/-! # `fit` and `transform` do not raise on well-shaped data: the generic part of property C109

`Typing` says which shapes of data the seeds are made for; `Typing.Sound` are the laws the seeds have to satisfy (they are proved for the
seeds of the library in the following modules). -/

namespace Fruits
set_option linter.unusedSectionVars false

variable {R P I W S V : Type} [Field R] [LinearOrder R] [IsStrictOrderedRing R] [FloorRing R]

/-- The shapes of data the seeds are made for.  `prep p d d'`: the preparateur can be fitted to data with `d` dimensions and makes data with
`d'` dimensions out of it; `prepReady p d d'`: it has been fitted to such data.  `iss i ws e d`: the ISS object can be fitted to data with `e`
dimensions and applied to data with `d` dimensions.  `len L n`: series of length `n` may occur inside of a slice that is given series of length `L`. -/
structure Typing (P I W S : Type) where
  len : ℕ → ℕ → Prop
  prep : P → ℕ → ℕ → Prop
  prepReady : P → ℕ → ℕ → Prop
  iss : I → W → ℕ → ℕ → Prop
  issReady : I → W → ℕ → ℕ → Prop
  sieve : S → Prop
  sieveReady : S → Prop

/-- The input `C` of the shared cache belongs to the same dataset as the data of shape `(m, ·, n)` inside of a slice: it has at least as many series, and
their length is one that may lead to the length `n`. -/
def Typing.CacheOf (T : Typing P I W S) (C : Data R) (m n : ℕ) : Prop := ∃ mc dc nc, HasShape C mc dc nc ∧ m ≤ mc ∧ 0 < dc ∧ T.len nc n

/-- The seeds work on the data they are made for. -/
structure Typing.Sound (T : Typing P I W S) (K : Sem R P I W S V) : Prop where
  prep_ready : ∀ p d d', T.prepReady p d d' → T.prep p d d'
  prep_pos : ∀ p d d', T.prep p d d' → 0 < d → 0 < d'
  prep_fit : ∀ (g : Rng R) p d d' (C X : Data R) (m n : ℕ), g.Valid → T.prep p d d' → HasShape X m d n → 0 < m → 0 < d → 0 < n → T.CacheOf C m n →
    ∃ q, K.prepFit g p C X = .ok q ∧ T.prepReady q d d'
  prep_transform : ∀ p d d' (C X : Data R) (m n : ℕ), T.prepReady p d d' → HasShape X m d n → 0 < m → 0 < d → 0 < n → T.CacheOf C m n →
    ∃ Y n', K.prepTransform p C X = .ok Y ∧ HasShape Y m d' n' ∧ 0 < n' ∧ ∀ L, T.len L n → T.len L n'
  iss_ready : ∀ i ws e d, T.issReady i ws e d → T.iss i ws e d
  iss_unfitted : ∀ i ws e d, T.iss i ws e d → K.issRequires i = false → T.issReady i ws e d
  iss_fit : ∀ (g : Rng R) i ws e d (C X : Data R) (m n : ℕ), g.Valid → T.iss i ws e d → K.issRequires i = true → HasShape X m e n → 0 < m → 0 < e →
    0 < n → T.CacheOf C m n → ∃ j, K.issFit g i ws C X = .ok j ∧ T.issReady j ws e d
  iss_count : ∀ (g : Rng R) i ws (C X : Data R) j, K.issFit g i ws C X = .ok j → K.issCount j ws = K.issCount i ws
  iss_counted : ∀ i ws e d, T.issReady i ws e d → ∃ c, K.issCount i ws = .ok c
  iss_gen : ∀ i ws e d (C X : Data R) (m n : ℕ), T.issReady i ws e d → HasShape X m d n → 0 < m → 0 < d → 0 < n → T.CacheOf C m n →
    (K.issGen i ws C X).2 = none ∧ K.issCount i ws = .ok (K.issGen i ws C X).1.length ∧ ∀ it ∈ (K.issGen i ws C X).1, HasShape2 it m n
  sieve_nonneg : ∀ v, T.sieve v → 0 ≤ K.sieveN v
  sieve_unfitted : ∀ v, T.sieve v → K.sieveRequires v = false → T.sieveReady v
  sieve_fit : ∀ (g : Rng R) v (C : Data R) (it : List (List R)) (m n : ℕ), g.Valid → T.sieve v → HasShape2 it m n → 0 < m → 0 < n → T.CacheOf C m n →
    ∃ c v', K.sieveCopy v = .ok c ∧ K.sieveFit g c C it = .ok v' ∧ T.sieveReady v' ∧ K.sieveN v' = K.sieveN v ∧ K.sieveN c = K.sieveN v
  sieve_transform : ∀ v (C : Data R) (it : List (List R)) (m n : ℕ), T.sieveReady v → HasShape2 it m n → 0 < m → 0 < n → T.CacheOf C m n →
    C.length = m → ∃ A, K.sieveTransform v C it = .ok A ∧ HasShape2 A m (K.sieveN v).toNat

/-- The preparateurs of a slice fit together; `τ` gives the numbers of dimensions before and after every preparateur object (one object can be part
of several slices; it has to be used with the same numbers of dimensions everywhere, as it is fitted again by every slice). -/
def Chain (τ : ℕ → ℕ × ℕ) : List ℕ → ℕ → ℕ → Prop
  | [], d, e => d = e
  | a :: as, d, e => (τ a).1 = d ∧ Chain τ as (τ a).2 e

/-- The ISS objects of a slice fit to prepared data with `e` dimensions: the first is applied to the prepared data, the others to the iterated sums of
the one before (which are series with one dimension), and all are fitted on the prepared data. -/
def IssChain (υ : ℕ → ℕ × ℕ) : List ℕ → ℕ → ℕ → Prop
  | [], _, _ => True
  | a :: as, e, d => υ a = (e, d) ∧ IssChain υ as e 1

/-- The slice can be fitted to data with `d` dimensions. -/
structure SliceTyped (T : Typing P I W S) (K : Sem R P I W S V) (τ υ : ℕ → ℕ × ℕ) (w : World R P I W S) (d s : ℕ) : Prop where
  iss_ne : (w.slice s).iss ≠ []
  sieves_ne : (w.slice s).sieves ≠ []
  sample : SampleOk (w.slice s).sample
  chain : ∃ e, Chain τ (w.slice s).preps d e ∧ IssChain υ (w.slice s).iss e e
  prep : ∀ a ∈ (w.slice s).preps, T.prep (w.prep a) (τ a).1 (τ a).2
  iss : ∀ a ∈ (w.slice s).iss, T.iss (w.issAt a).1 (w.issAt a).2 (υ a).1 (υ a).2
  sieve : ∀ a ∈ (w.slice s).sieves, T.sieve (w.sieve a)
  ext : (w.slice s).ext = [] ∨ anyRequires K w s = true

/-- The slice has been fitted to data with `d` dimensions. -/
structure SliceReady (T : Typing P I W S) (K : Sem R P I W S V) (τ υ : ℕ → ℕ × ℕ) (w : World R P I W S) (d s : ℕ) : Prop where
  fitted : (w.slice s).fitted = true
  typed : SliceTyped T K τ υ w d s
  prep : ∀ a ∈ (w.slice s).preps, T.prepReady (w.prep a) (τ a).1 (τ a).2
  iss : ∀ a ∈ (w.slice s).iss, T.issReady (w.issAt a).1 (w.issAt a).2 (υ a).1 (υ a).2
  ext : if anyRequires K w s then
      (∀ c, sliceCount K w s = .ok c → (w.slice s).ext.length = c) ∧
      ∀ row ∈ (w.slice s).ext, (∀ v ∈ row, T.sieveReady v) ∧ row.map K.sieveN = (w.slice s).sieves.map fun a => K.sieveN (w.sieve a)
    else (w.slice s).ext = []

/-! ### Shapes -/

theorem hasShape_newAxis {it : List (List R)} {m n : ℕ} (h : HasShape2 it m n) : HasShape (newAxis it) m 1 n := by
  refine ⟨by simp [newAxis, h.1], fun s hs => ?_⟩
  obtain ⟨r, hr, rfl⟩ := List.mem_map.1 hs
  exact ⟨rfl, fun x hx => by rw [List.mem_singleton] at hx; rw [hx]; exact h.2 r hr⟩

theorem setSlc_shape {α : Type} {x v : List α} {a c N : ℕ} (hx : x.length = N) (hv : v.length = c) (h : a + c ≤ N) :
    ∃ y, setSlc x a (a + c) v = .ok y ∧ y.length = N := by
  refine ⟨x.take a ++ v ++ x.drop (max a (a + c)), ?_, ?_⟩
  · unfold setSlc; rw [if_pos (by omega)]
  · simp only [List.length_append, List.length_take, List.length_drop, hx, hv]; omega

theorem mapM_total {α β : Type} {f : α → Except Err β} {Q : α → β → Prop} : ∀ {l : List α}, (∀ a ∈ l, ∃ b, f a = .ok b ∧ Q a b) →
    ∃ bs, l.mapM f = .ok bs ∧ List.Forall₂ Q l bs
  | [], _ => ⟨[], rfl, List.Forall₂.nil⟩
  | a :: l, h => by
    obtain ⟨b, h1, h2⟩ := h a (by simp)
    obtain ⟨bs, h3, h4⟩ := mapM_total (l := l) fun x hx => h x (by simp [hx])
    refine ⟨b :: bs, ?_, List.Forall₂.cons h2 h4⟩
    rw [List.mapM_cons, h1, h3]; rfl

theorem forall₂_right_mem {α β : Type} {Q : α → β → Prop} : ∀ {l : List α} {bs : List β}, List.Forall₂ Q l bs → ∀ b ∈ bs, ∃ a ∈ l, Q a b
  | _, _, .nil, _, h => by simp at h
  | _, _, .cons h1 h2, b, hb => by
    rcases List.mem_cons.1 hb with rfl | hb
    · exact ⟨_, by simp, h1⟩
    · obtain ⟨a, ha, hq⟩ := forall₂_right_mem h2 b hb
      exact ⟨a, by simp [ha], hq⟩

theorem setCols_shape {D A : List (List V)} {m N k c : ℕ} (hD : HasShape2 D m N) (hA : HasShape2 A m c) (h : k + c ≤ N) :
    ∃ D', setCols D (k : ℤ) ((k : ℤ) + (c : ℤ)) A = .ok D' ∧ HasShape2 D' m N := by
  obtain ⟨hD1, hD2⟩ := hD
  obtain ⟨hA1, hA2⟩ := hA
  unfold setCols
  rw [if_pos (by omega)]
  obtain ⟨D', h1, h2⟩ := mapM_total (l := List.zip D A) (Q := fun _ (y : List V) => y.length = N)
    (f := fun (p : List V × List V) => setSlc p.1 (pyClip p.1.length (k : ℤ)) (pyClip p.1.length ((k : ℤ) + (c : ℤ))) p.2) (by
      intro p hp
      have hp1 := hD2 p.1 (List.of_mem_zip hp).1
      have hp2 := hA2 p.2 (List.of_mem_zip hp).2
      beta_reduce
      rw [hp1, pyClip_of_le (by omega), show ((k : ℤ) + (c : ℤ)) = ((k + c : ℕ) : ℤ) by push_cast; rfl, pyClip_of_le (by omega)]
      exact setSlc_shape hp1 hp2 h)
  refine ⟨D', h1, ?_, ?_⟩
  · rw [← h2.length_eq, List.length_zip, hD1, hA1, Nat.min_self]
  · intro r hr
    obtain ⟨_, _, hx⟩ := forall₂_right_mem h2 r hr
    exact hx

theorem Typing.CacheOf.len {T : Typing P I W S} {C : Data R} {m n n' : ℕ} (h : T.CacheOf C m n) (hl : ∀ L, T.len L n → T.len L n') : T.CacheOf C m n' := by
  obtain ⟨mc, dc, nc, h1, h2, h3, h4⟩ := h
  exact ⟨mc, dc, nc, h1, h2, h3, hl _ h4⟩

/-! ### Transforming -/

variable {K : Sem R P I W S V} {T : Typing P I W S} {τ υ : ℕ → ℕ × ℕ}

theorem transformPreps_total (hT : T.Sound K) {w : World R P I W S} {n : ℕ} {C : Data R} {m : ℕ} (hm : 0 < m) :
    ∀ (as : List ℕ) (d e N : ℕ) (X : Data R), 0 < N → T.CacheOf C m N → Chain τ as d e → (∀ a ∈ as, T.prepReady (w.prep a) (τ a).1 (τ a).2) → 0 < d →
      HasShape X m d N → ∃ Y N', (transformPreps K w n C as X).1 = .ok Y ∧ HasShape Y m e N' ∧ 0 < e ∧ 0 < N' ∧ T.CacheOf C m N'
  | [], d, e, N, X, hN, hC, hc, _, hd, hX => by
    cases hc
    exact ⟨X, N, rfl, hX, hd, hN, hC⟩
  | a :: as, d, e, N, X, hN, hC, hc, hp, hd, hX => by
    obtain ⟨h1, h2⟩ := hc
    have hpa := hp a (by simp)
    rw [h1] at hpa
    obtain ⟨Y, N1, hY, hYs, hN1, hlen⟩ := hT.prep_transform _ _ _ C X m N hpa hX hm hd hN hC
    obtain ⟨Z, N', hZ, hZs⟩ := transformPreps_total hT hm as _ e N1 Y hN1 (hC.len hlen) h2 (fun b hb => hp b (by simp [hb]))
      (hT.prep_pos _ _ _ (hT.prep_ready _ _ _ hpa) hd) hYs
    refine ⟨Z, N', ?_, hZs⟩
    rw [transformPreps, hY]
    exact hZ

theorem yields_bind_total {α β : Type} {f : α → Yields β} {c : ℕ} {Q : β → Prop} : ∀ (l : List α),
    (∀ a ∈ l, (f a).2 = none ∧ (f a).1.length = c ∧ ∀ b ∈ (f a).1, Q b) →
    (Yields.bind f l none).2 = none ∧ (Yields.bind f l none).1.length = l.length * c ∧ ∀ b ∈ (Yields.bind f l none).1, Q b
  | [], _ => ⟨rfl, by simp [Yields.bind], by simp [Yields.bind]⟩
  | a :: l, h => by
    obtain ⟨h1, h2, h3⟩ := h a (by simp)
    obtain ⟨i1, i2, i3⟩ := yields_bind_total l fun x hx => h x (by simp [hx])
    rcases hf : f a with ⟨bs, e⟩
    rw [hf] at h1 h2 h3
    simp only at h1 h2 h3
    subst h1
    rw [Yields.bind, hf]
    refine ⟨i1, ?_, ?_⟩
    · simp only [List.length_append, List.length_cons, i2, h2]; ring
    · intro b hb
      rcases List.mem_append.1 hb with hb | hb
      · exact h3 b hb
      · exact i3 b hb

theorem counts_total (hT : T.Sound K) {w : World R P I W S} {e : ℕ} : ∀ (as : List ℕ) (d : ℕ), IssChain υ as e d → 0 < d →
    (∀ a ∈ as, T.issReady (w.issAt a).1 (w.issAt a).2 (υ a).1 (υ a).2) →
    ∃ ns, (as.mapM fun a => K.issCount (w.issAt a).1 (w.issAt a).2) = .ok ns
  | [], _, _, _, _ => ⟨[], rfl⟩
  | a :: as, d, hc, hd, hi => by
    obtain ⟨h1, h2⟩ := hc
    have hia := hi a (by simp)
    rw [h1] at hia
    obtain ⟨c, g2⟩ := hT.iss_counted _ _ _ _ hia
    obtain ⟨ns, hns⟩ := counts_total hT as 1 h2 one_pos fun b hb => hi b (by simp [hb])
    exact ⟨_ :: ns, by rw [List.mapM_cons, g2, hns]; rfl⟩

/-- The iterated sums of the ISS objects of a slice. -/
theorem iterateIss_total (hT : T.Sound K) {w : World R P I W S} {C : Data R} {m N e : ℕ} (hm : 0 < m) (hN : 0 < N) (hC : T.CacheOf C m N) :
    ∀ (as : List ℕ) (d : ℕ) (X : Data R), IssChain υ as e d → (∀ a ∈ as, T.issReady (w.issAt a).1 (w.issAt a).2 (υ a).1 (υ a).2) → 0 < d →
      HasShape X m d N → (as = [] → d = 1) →
      (iterateIss K C (as.map w.issAt) X).2 = none ∧
      (∃ ns, (as.mapM fun a => K.issCount (w.issAt a).1 (w.issAt a).2) = .ok ns ∧ (iterateIss K C (as.map w.issAt) X).1.length = ns.prod) ∧
      ∀ it ∈ (iterateIss K C (as.map w.issAt) X).1, HasShape2 it m N
  | [], d, X, _, _, hd, hX, _ => by
    refine ⟨rfl, ⟨[], rfl, rfl⟩, fun it hit => ?_⟩
    simp only [List.map_nil, iterateIss, List.mem_singleton] at hit
    subst hit
    refine ⟨by simp [hX.1], fun r hr => ?_⟩
    obtain ⟨s, hs, rfl⟩ := List.mem_map.1 hr
    obtain ⟨h1, h2⟩ := hX.2 s hs
    have h0 : 0 < s.length := by omega
    rw [List.getD_eq_getElem?_getD, List.getElem?_eq_getElem h0]
    exact h2 _ (List.getElem_mem h0)
  | a :: as, d, X, hc, hi, hd, hX, _ => by
    obtain ⟨h1, h2⟩ := hc
    have hia := hi a (by simp)
    rw [h1] at hia
    obtain ⟨g1, g2, g3⟩ := hT.iss_gen _ _ _ _ C X m N hia hX hm hd hN hC
    simp only [List.map_cons, iterateIss, List.mapM_cons, g2]
    -- the counts of the remaining objects do not depend on the iterated sum
    have hrest : ∀ it ∈ (K.issGen (w.issAt a).1 (w.issAt a).2 C X).1, _ := fun it hit =>
      iterateIss_total hT hm hN hC as 1 (newAxis it) h2 (fun b hb => hi b (by simp [hb])) one_pos (hasShape_newAxis (g3 it hit)) (fun _ => rfl)
    obtain ⟨ns, hns⟩ : ∃ ns, (as.mapM fun a => K.issCount (w.issAt a).1 (w.issAt a).2) = .ok ns :=
      counts_total hT as 1 h2 one_pos (fun b hb => hi b (by simp [hb]))
    rw [g1]
    obtain ⟨b1, b2, b3⟩ := yields_bind_total (c := ns.prod) (Q := fun it => HasShape2 it m N)
      (f := fun it => iterateIss K C (as.map w.issAt) (newAxis it)) (K.issGen (w.issAt a).1 (w.issAt a).2 C X).1 (fun it hit => by
        obtain ⟨r1, ⟨ns', r2, r3⟩, r4⟩ := hrest it hit
        rw [hns] at r2
        cases r2
        exact ⟨r1, r3, r4⟩)
    refine ⟨b1, ⟨(K.issGen (w.issAt a).1 (w.issAt a).2 C X).1.length :: ns, ?_, ?_⟩, b3⟩
    · rw [hns]; rfl
    · rw [b2, List.prod_cons]

theorem sieveLoop_total (hT : T.Sound K) {n : ℕ} {C : Data R} {it : List (List R)} {m N M : ℕ} (hm : 0 < m) (hN : 0 < N) (hC : T.CacheOf C m N)
    (hCm : C.length = m)
    (hit : HasShape2 it m N) : ∀ (row : List S) (D : List (List V)) (k : ℕ), (∀ v ∈ row, T.sieveReady v ∧ 0 ≤ K.sieveN v) → HasShape2 D m M →
      k + sumN K row ≤ M →
      ∃ D', (sieveLoop K n C it row D (k : ℤ)).1 = .ok (D', ((k + sumN K row : ℕ) : ℤ)) ∧ HasShape2 D' m M
  | [], D, k, _, hD, _ => ⟨D, by simp [sieveLoop, sumN], hD⟩
  | v :: row, D, k, hv, hD, hk => by
    obtain ⟨h1, h2⟩ := hv v (by simp)
    obtain ⟨c, hc⟩ := Int.eq_ofNat_of_zero_le h2
    obtain ⟨A, hA, hAs⟩ := hT.sieve_transform v C it m N h1 hit hm hN hC hCm
    rw [hc] at hAs
    have hsum : sumN K (v :: row) = c + sumN K row := by simp [sumN, hc]
    obtain ⟨D1, hD1, hD1s⟩ := setCols_shape (k := k) hD hAs (by simp only [Int.toNat_natCast]; omega)
    simp only [Int.toNat_natCast] at hD1
    obtain ⟨D', h3, h4⟩ := sieveLoop_total hT hm hN hC hCm hit row D1 (k + c) (fun u hu => hv u (by simp [hu])) hD1s (by omega)
    refine ⟨D', ?_, h4⟩
    rw [sieveLoop, hA]
    simp only [hc]
    rw [hD1]
    simp only
    rw [show ((k : ℤ) + (c : ℤ)) = ((k + c : ℕ) : ℤ) by push_cast; rfl, h3, hsum, Nat.add_assoc]

theorem itemLoop_total (hT : T.Sound K) {n : ℕ} {C : Data R} {ext : List (List S)} {sieves : List S} {m N M F : ℕ} (hm : 0 < m) (hN : 0 < N)
    (hC : T.CacheOf C m N) (hCm : C.length = m) : ∀ (its : List (List (List R))) (i : ℕ) (D : List (List V)) (k : ℕ), (∀ it ∈ its, HasShape2 it m N) →
      (∀ j < i + its.length, ∃ row, sievesFor ext sieves j = .ok row ∧ sumN K row = F ∧ ∀ v ∈ row, T.sieveReady v ∧ 0 ≤ K.sieveN v) →
      HasShape2 D m M → k + its.length * F ≤ M →
      ∃ D', (itemLoop K n C ext sieves its none i D (k : ℤ)).1 = .ok D' ∧ HasShape2 D' m M
  | [], _, D, _, _, _, hD, _ => ⟨D, by simp [itemLoop], hD⟩
  | it :: its, i, D, k, hits, hrow, hD, hk => by
    obtain ⟨row, h1, h2, h3⟩ := hrow i (by simp)
    have hk' : k + F + its.length * F ≤ M := by
      have : (it :: its).length * F = F + its.length * F := by rw [List.length_cons]; ring
      omega
    have hz : k + sumN K row ≤ M := by
      have : 0 ≤ its.length * F := Nat.zero_le _
      omega
    obtain ⟨D1, h4, h5⟩ := sieveLoop_total hT (n := n) hm hN hC hCm (hits it (by simp)) row D k h3 hD hz
    obtain ⟨D', h6, h7⟩ := itemLoop_total hT hm hN hC hCm its (i + 1) D1 (k + F) (fun x hx => hits x (by simp [hx]))
      (fun j hj => hrow j (by simp only [List.length_cons]; omega)) h5 hk'
    refine ⟨D', ?_, h7⟩
    rw [itemLoop, h1]
    simp only
    rcases hl : sieveLoop K n C it row D (k : ℤ) with ⟨x, tr⟩
    rw [hl] at h4
    simp only at h4
    subst h4
    simp only
    rw [h2, h6]

/-- The number of features of a slice that is ready. -/
theorem sliceN_total (hT : T.Sound K) {w : World R P I W S} {d s : ℕ} (hs : SliceReady T K τ υ w d s) (hd : 0 < d) :
    ∃ c, sliceCount K w s = .ok c ∧ sliceN K w s = .ok ((c * sumN K ((w.slice s).sieves.map w.sieve) : ℕ) : ℤ) := by
  obtain ⟨e, h1, h2⟩ := hs.typed.chain
  have he : 0 < e := by
    have : ∀ (as : List ℕ) (d : ℕ), Chain τ as d e → (∀ a ∈ as, T.prep (w.prep a) (τ a).1 (τ a).2) → 0 < d → 0 < e := by
      intro as
      induction as with
      | nil => intro d hc _ hd; cases hc; exact hd
      | cons a as ih =>
        intro d hc hp hd
        have hpa := hp a (by simp)
        rw [hc.1] at hpa
        exact ih _ hc.2 (fun b hb => hp b (by simp [hb])) (hT.prep_pos _ _ _ hpa hd)
    exact this _ _ h1 hs.typed.prep hd
  obtain ⟨ns, hns⟩ := counts_total hT _ e h2 he hs.iss
  refine ⟨ns.prod, by unfold sliceCount; rw [hns]; rfl, ?_⟩
  unfold sliceN sliceCount
  rw [hns]
  have htot : sieveTotal K w s = ((sumN K ((w.slice s).sieves.map w.sieve) : ℕ) : ℤ) := by
    unfold sieveTotal
    rw [sum_toNat (by intro x hx; obtain ⟨a, ha, rfl⟩ := List.mem_map.1 hx; exact hT.sieve_nonneg _ (hs.typed.sieve a ha))]
    simp [sumN, List.map_map, Function.comp_def]
  show Except.ok (sieveTotal K w s * ((ns.prod : ℕ) : ℤ)) = _
  rw [htot]
  congr 1
  push_cast; ring

theorem sumN_congr {row row' : List S} (h : row.map K.sieveN = row'.map K.sieveN) : sumN K row = sumN K row' := by
  unfold sumN
  rw [show (fun s => (K.sieveN s).toNat) = Int.toNat ∘ K.sieveN from rfl, ← List.map_map, h, List.map_map]

/-- A fitted slice transforms data of the right shape. -/
theorem sliceTransform_total (hT : T.Sound K) {w : World R P I W S} {n d s : ℕ} (hs : SliceReady T K τ υ w d s) {C X : Data R} {m N : ℕ}
    (hX : HasShape X m d N) (hC : T.CacheOf C m N) (hCm : C.length = m) (hm : 0 < m) (hd : 0 < d) (hN : 0 < N) :
    ∃ F : ℕ, sliceN K w s = .ok (F : ℤ) ∧ ∃ A, (sliceTransform K w n s C X).1 = .ok A ∧ HasShape2 A m F := by
  obtain ⟨c, hc1, hc2⟩ := sliceN_total hT hs hd
  refine ⟨_, hc2, ?_⟩
  obtain ⟨e, h1, h2⟩ := hs.typed.chain
  obtain ⟨Y, N', hY, hYs, he, hN', hC'⟩ := transformPreps_total hT (n := n) hm _ d e N X hN hC h1 hs.prep hd hX
  obtain ⟨i1, ⟨ns, i2, i3⟩, i4⟩ := iterateIss_total hT hm hN' hC' _ e Y h2 hs.iss he hYs (fun h => absurd h hs.typed.iss_ne)
  unfold sliceCount at hc1
  rw [i2] at hc1
  have hprod : ns.prod = c := Except.ok.inj hc1
  set sv := (w.slice s).sieves.map w.sieve with hsv
  set F := sumN K sv with hF
  have hnn : ∀ v ∈ sv, 0 ≤ K.sieveN v := by
    intro v hv
    obtain ⟨a, ha, rfl⟩ := List.mem_map.1 hv
    exact hT.sieve_nonneg _ (hs.typed.sieve a ha)
  have hrow : ∀ j < 0 + (iterateIss K C ((w.slice s).iss.map w.issAt) Y).1.length,
      ∃ row, sievesFor (w.slice s).ext sv j = .ok row ∧ sumN K row = F ∧ ∀ v ∈ row, T.sieveReady v ∧ 0 ≤ K.sieveN v := by
    intro j hj
    have hext := hs.ext
    by_cases hr : anyRequires K w s = true
    · rw [if_pos hr] at hext
      obtain ⟨x1, x2⟩ := hext
      have hlen : (w.slice s).ext.length = c := x1 c (by unfold sliceCount; rw [i2]; exact hc1)
      have hjl : j < (w.slice s).ext.length := by omega
      obtain ⟨y1, y2⟩ := x2 _ (List.getElem_mem hjl)
      have hne : ¬ (w.slice s).ext.isEmpty := by
        intro h0
        rw [List.isEmpty_iff] at h0
        rw [h0] at hjl
        simp at hjl
      refine ⟨(w.slice s).ext[j], ?_, ?_, fun v hv => ⟨y1 v hv, ?_⟩⟩
      · unfold sievesFor
        rw [if_neg hne, List.getElem?_eq_getElem hjl]
      · exact sumN_congr (by rw [y2, hsv, List.map_map]; rfl)
      · have : K.sieveN v ∈ (w.slice s).sieves.map fun a => K.sieveN (w.sieve a) := by
          rw [← y2]; exact List.mem_map_of_mem hv
        obtain ⟨a, ha, hav⟩ := List.mem_map.1 this
        rw [← hav]
        exact hT.sieve_nonneg _ (hs.typed.sieve a ha)
    · rw [if_neg hr] at hext
      refine ⟨sv, by rw [hext]; rfl, rfl, fun v hv => ⟨?_, hnn v hv⟩⟩
      obtain ⟨a, ha, rfl⟩ := List.mem_map.1 hv
      refine hT.sieve_unfitted _ (hs.typed.sieve a ha) ?_
      unfold anyRequires at hr
      rw [List.any_eq_true] at hr
      by_contra h
      exact hr ⟨a, ha, by simpa using h⟩
  have hz : (sliceN K w s >>= zerosE K Y.length) = .ok (List.replicate m (List.replicate (c * F) K.zero)) := by
    rw [hc2, ok_bind, zerosE, if_neg (by omega), hYs.1, Int.toNat_natCast]
  obtain ⟨A, hA, hAs⟩ := itemLoop_total hT (n := n) (F := F) (M := c * F) (ext := (w.slice s).ext) (sieves := sv) hm hN' hC' hCm _ 0
    (List.replicate m (List.replicate (c * F) K.zero)) 0 i4 hrow
    ⟨by simp, fun r hr => by rw [List.eq_of_mem_replicate hr]; simp⟩ (by rw [i3, hprod]; omega)
  refine ⟨A, ?_, hAs⟩
  unfold sliceTransform
  rw [if_pos hs.fitted]
  rcases hp : transformPreps K w n C (w.slice s).preps X with ⟨x, tr⟩
  rw [hp] at hY
  simp only at hY
  subst hY
  simp only
  unfold transformSieve
  rw [hz]
  simp only
  rw [i1]
  rcases hl : itemLoop K n C (w.slice s).ext sv (iterateIss K C ((w.slice s).iss.map w.issAt) Y).1 none 0
    (List.replicate m (List.replicate (c * F) K.zero)) 0 with ⟨x, tr'⟩
  rw [Int.natCast_zero] at hA
  rw [hl] at hA
  simp only at hA
  subst hA
  rfl

theorem slicesLoop_total (hT : T.Sound K) {w : World R P I W S} {n d : ℕ} {C X : Data R} {m N : ℕ} (hX : HasShape X m d N) (hC : T.CacheOf C m N)
    (hCm : C.length = m) (hm : 0 < m) (hd : 0 < d) (hN : 0 < N) : ∀ (ss : List ℕ), (∀ s ∈ ss, SliceReady T K τ υ w d s) →
    ∃ Fs : List ℕ, ss.mapM (sliceN K w) = .ok (Fs.map fun F : ℕ => (F : ℤ)) ∧
      ∀ (M k : ℕ) (D : List (List V)), HasShape2 D m M → k + Fs.sum ≤ M →
        ∃ A, (slicesLoop K w n C X ss D (k : ℤ)).1 = .ok A ∧ HasShape2 A m M
  | [], _ => ⟨[], rfl, fun M k D hD _ => ⟨D, rfl, hD⟩⟩
  | s :: ss, hs => by
    obtain ⟨F, h1, A, h2, h3⟩ := sliceTransform_total hT (n := n) (hs s (by simp)) hX hC hCm hm hd hN
    obtain ⟨Fs, h4, h5⟩ := slicesLoop_total hT hX hC hCm hm hd hN (n := n) ss fun t ht => hs t (by simp [ht])
    refine ⟨F :: Fs, ?_, fun M k D hD hk => ?_⟩
    · rw [List.mapM_cons, h1, h4]; rfl
    · rw [List.sum_cons] at hk
      obtain ⟨D1, h6, h7⟩ := setCols_shape (k := k) hD h3 (by omega)
      obtain ⟨A', h8, h9⟩ := h5 M (k + F) D1 h7 (by omega)
      refine ⟨A', ?_, h9⟩
      rw [slicesLoop, h1]
      simp only
      rcases ht : sliceTransform K w n s C X with ⟨x, tr⟩
      rw [ht] at h2
      simp only at h2
      subst h2
      simp only
      rw [h6]
      simp only
      rw [show ((k : ℤ) + (F : ℤ)) = ((k + F : ℕ) : ℤ) by push_cast; rfl, h8]

/-- A fitted fruit transforms data of the right shape, and its number of features is the number of columns. -/
theorem fruitTransform_total (hT : T.Sound K) {w : World R P I W S} {n d f : ℕ} (hf : (w.fruit f).fitted = true)
    (hs : ∀ s ∈ (w.fruit f).slices, SliceReady T K τ υ w d s) {C X : Data R} {m N : ℕ}
    (hX : HasShape X m d N) (hC : T.CacheOf C m N) (hCm : C.length = m) (hm : 0 < m) (hd : 0 < d) (hN : 0 < N) :
    ∃ F : ℕ, fruitN K w f = .ok (F : ℤ) ∧ ∃ A, (fruitTransform K w n f C X).1 = .ok A ∧ HasShape2 A m F := by
  obtain ⟨Fs, h1, h2⟩ := slicesLoop_total hT (n := n) hX hC hCm hm hd hN _ hs
  have hsum : (Fs.map fun F : ℕ => (F : ℤ)).sum = ((Fs.sum : ℕ) : ℤ) := (Nat.cast_list_sum Fs).symm
  have hn : fruitN K w f = .ok ((Fs.sum : ℕ) : ℤ) := by
    unfold fruitN; rw [h1, ← hsum]; rfl
  refine ⟨Fs.sum, hn, ?_⟩
  obtain ⟨A, h3, h4⟩ := h2 Fs.sum 0 (List.replicate m (List.replicate Fs.sum K.zero))
    ⟨by simp, fun r hr => by rw [List.eq_of_mem_replicate hr]; simp⟩ (by omega)
  refine ⟨A.map fun r => r.map K.post, ?_, by simp [h4.1], ?_⟩
  · unfold fruitTransform
    rw [if_pos hf]
    have hz : (fruitN K w f >>= zerosE K X.length) = .ok (List.replicate m (List.replicate Fs.sum K.zero)) := by
      rw [hn, ok_bind, zerosE, if_neg (by omega), hX.1, Int.toNat_natCast]
    rw [hz]
    simp only
    rcases hl : slicesLoop K w n C X (w.fruit f).slices (List.replicate m (List.replicate Fs.sum K.zero)) 0 with ⟨x, tr⟩
    rw [Int.natCast_zero, hl] at h3
    simp only at h3
    subst h3
    rfl
  · intro r hr
    obtain ⟨r', hr', rfl⟩ := List.mem_map.1 hr
    rw [List.length_map]
    exact h4.2 r' hr'

/-! ### Fitting -/

theorem selectSample_total {g : Rng R} (hg : g.Valid) {k : IntOrFloat R} (hk : SampleOk k) {X : Data R} {m d n : ℕ} (hX : HasShape X m d n) (hm : 0 < m) :
    ∃ D m', selectSample g k X = .ok D ∧ HasShape D m' d n ∧ 0 < m' ∧ m' ≤ m := by
  obtain ⟨idx, h1, h2, h3, h4⟩ := C84_sample hg hk hm
  refine ⟨_, idx.length, h4 X hX.1, ⟨by simp, ?_⟩, ?_, ?_⟩
  · intro s hs
    obtain ⟨i, hi, rfl⟩ := List.mem_map.1 hs
    have hil : i < X.length := by rw [hX.1]; exact h2 i hi
    rw [List.getD_eq_getElem?_getD, List.getElem?_eq_getElem hil]
    exact hX.2 _ (List.getElem_mem hil)
  · rw [h3]; cases k <;> simp [sampleSize]
  · have : idx.toFinset ⊆ Finset.range m := fun i hi => by simpa using h2 i (by simpa using hi)
    have := Finset.card_le_card this
    rwa [List.toFinset_card_of_nodup h1, Finset.card_range] at this

theorem Typing.CacheOf.mono {C : Data R} {m m' n : ℕ} (h : T.CacheOf C m n) (hm : m' ≤ m) : T.CacheOf C m' n := by
  obtain ⟨mc, dc, nc, h1, h2, h3⟩ := h
  exact ⟨mc, dc, nc, h1, by omega, h3⟩

/-- What fitting does to the seeds: it keeps what they are made for. -/
structure KeepsTypes (T : Typing P I W S) (K : Sem R P I W S V) (τ υ : ℕ → ℕ × ℕ) (w w' : World R P I W S) : Prop where
  prep : ∀ a, T.prep (w.prep a) (τ a).1 (τ a).2 → T.prep (w'.prep a) (τ a).1 (τ a).2
  prepReady : ∀ a, T.prepReady (w.prep a) (τ a).1 (τ a).2 → T.prepReady (w'.prep a) (τ a).1 (τ a).2
  iss : ∀ a, T.iss (w.issAt a).1 (w.issAt a).2 (υ a).1 (υ a).2 → T.iss (w'.issAt a).1 (w'.issAt a).2 (υ a).1 (υ a).2
  issReady : ∀ a, T.issReady (w.issAt a).1 (w.issAt a).2 (υ a).1 (υ a).2 → T.issReady (w'.issAt a).1 (w'.issAt a).2 (υ a).1 (υ a).2
  count : ∀ a, K.issCount (w'.issAt a).1 (w'.issAt a).2 = K.issCount (w.issAt a).1 (w.issAt a).2
  sieve : w'.sieve = w.sieve
  fruit : w'.fruit = w.fruit

theorem KeepsTypes.refl (w : World R P I W S) : KeepsTypes T K τ υ w w :=
  ⟨fun _ h => h, fun _ h => h, fun _ h => h, fun _ h => h, fun _ => rfl, rfl, rfl⟩

theorem KeepsTypes.trans {w w₁ w₂ : World R P I W S} (h : KeepsTypes T K τ υ w w₁) (h' : KeepsTypes T K τ υ w₁ w₂) : KeepsTypes T K τ υ w w₂ :=
  ⟨fun a x => h'.prep a (h.prep a x), fun a x => h'.prepReady a (h.prepReady a x), fun a x => h'.iss a (h.iss a x),
    fun a x => h'.issReady a (h.issReady a x), fun a => (h'.count a).trans (h.count a), h'.sieve.trans h.sieve, h'.fruit.trans h.fruit⟩

theorem KeepsTypes.setPrep (hT : T.Sound K) {w : World R P I W S} {a : ℕ} {p : P} (h : T.prepReady p (τ a).1 (τ a).2) :
    KeepsTypes T K τ υ w (w.tick.setPrep a p) := by
  have he : ∀ b, (w.tick.setPrep a p).prep b = if b = a then p else w.prep b := by
    intro b
    by_cases hb : b = a
    · subst hb; simp [World.setPrep]
    · simp [World.setPrep, World.tick, hb]
  refine ⟨fun b x => ?_, fun b x => ?_, fun _ h => h, fun _ h => h, fun _ => rfl, rfl, rfl⟩
  · rw [he]
    split
    · rename_i hb; subst hb; exact hT.prep_ready _ _ _ h
    · exact x
  · rw [he]
    split
    · rename_i hb; subst hb; exact h
    · exact x

theorem fitPreps_total (hT : T.Sound K) {ρ : ℕ → Rng R} (hρ : ∀ k, (ρ k).Valid) {C : Data R} {m : ℕ} (hm : 0 < m) :
    ∀ (as : List ℕ) (d e N : ℕ) (X : Data R) (w : World R P I W S), 0 < N → T.CacheOf C m N → Chain τ as d e →
      (∀ a ∈ as, T.prep (w.prep a) (τ a).1 (τ a).2) → 0 < d → HasShape X m d N →
      ∃ Y w' N', fitPreps K ρ C as X w = (.ok Y, w') ∧ HasShape Y m e N' ∧ 0 < e ∧ 0 < N' ∧ T.CacheOf C m N' ∧ KeepsTypes T K τ υ w w' ∧
        ∀ a ∈ as, T.prepReady (w'.prep a) (τ a).1 (τ a).2
  | [], d, e, N, X, w, hN, hC, hc, _, hd, hX => by
    cases hc
    exact ⟨X, w, N, rfl, hX, hd, hN, hC, KeepsTypes.refl w, by simp⟩
  | a :: as, d, e, N, X, w, hN, hC, hc, hp, hd, hX => by
    obtain ⟨h1, h2⟩ := hc
    have hpa := hp a (by simp)
    rw [h1] at hpa
    obtain ⟨q, hq, hqr⟩ := hT.prep_fit (ρ w.rnd) _ _ _ C X m N (hρ _) hpa hX hm hd hN hC
    obtain ⟨Y, N1, hY, hYs, hN1, hlen⟩ := hT.prep_transform _ _ _ C X m N hqr hX hm hd hN hC
    have hqr' : T.prepReady q (τ a).1 (τ a).2 := by rw [h1]; exact hqr
    have hk : KeepsTypes T K τ υ w (w.tick.setPrep a q) := KeepsTypes.setPrep hT hqr'
    obtain ⟨Z, w', N', i1, i2, i3, i6, i7, i4, i5⟩ := fitPreps_total hT hρ hm as _ e N1 Y (w.tick.setPrep a q) hN1 (hC.len hlen) h2
      (fun b hb => hk.prep b (hp b (by simp [hb]))) (hT.prep_pos _ _ _ hpa hd) hYs
    refine ⟨Z, w', N', ?_, i2, i3, i6, i7, hk.trans i4, ?_⟩
    · rw [fitPreps, hq]
      simp only
      rw [hY]
      exact i1
    · intro b hb
      rcases List.mem_cons.1 hb with rfl | hb
      · exact i4.prepReady b (by simpa [World.setPrep] using hqr')
      · exact i5 b hb

theorem fitIss_total (hT : T.Sound K) {ρ : ℕ → Rng R} (hρ : ∀ k, (ρ k).Valid) {C X : Data R} {m N e : ℕ} (hm : 0 < m) (he : 0 < e) (hN : 0 < N)
    (hC : T.CacheOf C m N) (hX : HasShape X m e N) : ∀ (as : List ℕ) (d : ℕ) (w : World R P I W S), IssChain υ as e d →
      (∀ a ∈ as, T.iss (w.issAt a).1 (w.issAt a).2 (υ a).1 (υ a).2) →
      ∃ w', fitIss K ρ C X as w = (.ok (), w') ∧ KeepsTypes T K τ υ w w' ∧
        ∀ a ∈ as, T.issReady (w'.issAt a).1 (w'.issAt a).2 (υ a).1 (υ a).2
  | [], _, w, _, _ => ⟨w, rfl, KeepsTypes.refl w, by simp⟩
  | a :: as, d, w, hc, hi => by
    obtain ⟨h1, h2⟩ := hc
    have hia := hi a (by simp)
    by_cases hr : K.issRequires (w.issAt a).1 = true
    · rw [h1] at hia
      obtain ⟨j, hj, hjr⟩ := hT.iss_fit (ρ w.rnd) _ _ _ _ C X m N (hρ _) hia hr hX hm he hN hC
      have hjr' : T.issReady j (w.issAt a).2 (υ a).1 (υ a).2 := by rw [h1]; exact hjr
      have hat : ∀ b, (w.tick.setIss a j).issAt b = if b = a then (j, (w.issAt a).2) else w.issAt b := fun b => issAt_setIss w.tick a j b
      have hk : KeepsTypes T K τ υ w (w.tick.setIss a j) := by
        refine ⟨fun _ h => h, fun _ h => h, fun b x => ?_, fun b x => ?_, fun b => ?_, rfl, rfl⟩ <;> rw [hat] <;> split <;>
          first
          | (rename_i hb; subst hb; exact hT.iss_ready _ _ _ _ hjr')
          | (rename_i hb; subst hb; exact hjr')
          | (rename_i hb; subst hb; exact hT.iss_count _ _ _ _ _ _ hj)
          | exact x
          | rfl
      obtain ⟨w', i1, i2, i3⟩ := fitIss_total hT hρ hm he hN hC hX as 1 (w.tick.setIss a j) h2 (fun b hb => hk.iss b (hi b (by simp [hb])))
      refine ⟨w', ?_, hk.trans i2, ?_⟩
      · rw [fitIss, if_pos hr, hj]
        exact i1
      · intro b hb
        rcases List.mem_cons.1 hb with rfl | hb
        · exact i2.issReady b (by rw [hat, if_pos rfl]; exact hjr')
        · exact i3 b hb
    · obtain ⟨w', i1, i2, i3⟩ := fitIss_total hT hρ hm he hN hC hX as 1 w h2 (fun b hb => hi b (by simp [hb]))
      refine ⟨w', ?_, i2, ?_⟩
      · rw [fitIss, if_neg hr]
        exact i1
      · intro b hb
        rcases List.mem_cons.1 hb with rfl | hb
        · exact i2.issReady b (hT.iss_unfitted _ _ _ _ hia (by simpa using hr))
        · exact i3 b hb

theorem fitSieves_total {ρ : ℕ → Rng R} {C : Data R} {it : List (List R)} : ∀ (cs : List S) (r : ℕ),
    (∀ c ∈ cs, ∀ r, ∃ v', K.sieveFit (ρ r) c C it = .ok v' ∧ T.sieveReady v' ∧ K.sieveN v' = K.sieveN c) →
    ∃ row r', fitSieves K ρ C it cs r = (.ok row, r') ∧ (∀ v ∈ row, T.sieveReady v) ∧ row.map K.sieveN = cs.map K.sieveN
  | [], r, _ => ⟨[], r, rfl, by simp, rfl⟩
  | c :: cs, r, h => by
    obtain ⟨v', h1, h2, h3⟩ := h c (by simp) r
    obtain ⟨row, r', i1, i2, i3⟩ := fitSieves_total cs (r + 1) fun x hx => h x (by simp [hx])
    refine ⟨v' :: row, r', ?_, ?_, ?_⟩
    · rw [fitSieves, h1]
      simp only
      rw [i1]
    · intro v hv
      rcases List.mem_cons.1 hv with rfl | hv
      · exact h2
      · exact i2 v hv
    · rw [List.map_cons, List.map_cons, h3, i3]

theorem fitItems_total (hT : T.Sound K) {ρ : ℕ → Rng R} (hρ : ∀ k, (ρ k).Valid) {C : Data R} {m N : ℕ} (hm : 0 < m) (hN : 0 < N) (hC : T.CacheOf C m N)
    {sieves : List S} (hs : ∀ v ∈ sieves, T.sieve v) : ∀ (its : List (List (List R))) (r : ℕ), (∀ it ∈ its, HasShape2 it m N) →
    ∃ rows r', fitItems K ρ C sieves its none r = ((rows, none), r') ∧ rows.length = its.length ∧
      ∀ row ∈ rows, (∀ v ∈ row, T.sieveReady v) ∧ row.map K.sieveN = sieves.map K.sieveN
  | [], r, _ => ⟨[], r, rfl, rfl, by simp⟩
  | it :: its, r, hits => by
    have hit := hits it (by simp)
    obtain ⟨cs, h1, h2⟩ := mapM_total (l := sieves) (f := K.sieveCopy)
      (Q := fun v c => K.sieveN c = K.sieveN v ∧ ∀ r, ∃ v', K.sieveFit (ρ r) c C it = .ok v' ∧ T.sieveReady v' ∧ K.sieveN v' = K.sieveN c) (by
        intro v hv
        obtain ⟨c, v', x1, x2, x3, x4, x5⟩ := hT.sieve_fit (ρ 0) v C it m N (hρ 0) (hs v hv) hit hm hN hC
        refine ⟨c, x1, x5, fun r => ?_⟩
        obtain ⟨c', v'', y1, y2, y3, y4, y5⟩ := hT.sieve_fit (ρ r) v C it m N (hρ r) (hs v hv) hit hm hN hC
        rw [x1] at y1; cases y1
        exact ⟨v'', y2, y3, y4.trans x5.symm⟩)
    have hcN : cs.map K.sieveN = sieves.map K.sieveN := by
      clear h1
      induction h2 with
      | nil => rfl
      | cons x _ ih => rw [List.map_cons, List.map_cons, x.1, ih (fun v hv => hs v (by simp [hv]))]
    obtain ⟨row, r', i1, i2, i3⟩ := fitSieves_total (T := T) (ρ := ρ) cs r (fun c hc r => by
      obtain ⟨_, _, hx⟩ := forall₂_right_mem h2 c hc
      exact hx.2 r)
    obtain ⟨rows, r'', j1, j2, j3⟩ := fitItems_total hT hρ hm hN hC hs its r' fun x hx => hits x (by simp [hx])
    refine ⟨row :: rows, r'', ?_, by simp [j2], ?_⟩
    · rw [fitItems, h1]
      simp only
      rw [i1]
      simp only
      rw [j1]
    · intro x hx
      rcases List.mem_cons.1 hx with rfl | hx
      · exact ⟨i2, i3.trans hcN⟩
      · exact j3 x hx

theorem KeepsTypes.sliceTyped {w w' : World R P I W S} (h : KeepsTypes T K τ υ w w') {d s : ℕ} (hc : (w.slice s).SameConf (w'.slice s))
    (hs : SliceTyped T K τ υ w d s) (he : (w'.slice s).ext = [] ∨ anyRequires K w' s = true) : SliceTyped T K τ υ w' d s := by
  obtain ⟨c1, c2, c3, c4⟩ := hc
  refine ⟨by rw [c2]; exact hs.iss_ne, by rw [c3]; exact hs.sieves_ne, by rw [c4]; exact hs.sample, by rw [c1, c2]; exact hs.chain, ?_, ?_, ?_, he⟩
  · rw [c1]; exact fun a ha => h.prep a (hs.prep a ha)
  · rw [c2]; exact fun a ha => h.iss a (hs.iss a ha)
  · rw [c3, h.sieve]; exact hs.sieve

theorem KeepsTypes.sliceCount {w w' : World R P I W S} (h : KeepsTypes T K τ υ w w') {s : ℕ} (hc : (w'.slice s).iss = (w.slice s).iss) :
    sliceCount K w' s = sliceCount K w s := by
  unfold Fruits.sliceCount
  rw [hc]
  simp only [h.count]

/-- The other slices stay ready. -/
theorem KeepsTypes.sliceReady {w w' : World R P I W S} (h : KeepsTypes T K τ υ w w') {d s : ℕ} (hc : w'.slice s = w.slice s)
    (hs : SliceReady T K τ υ w d s) : SliceReady T K τ υ w' d s := by
  have hr : anyRequires K w' s = anyRequires K w s := by unfold anyRequires; rw [hc, h.sieve]
  refine ⟨by rw [hc]; exact hs.fitted, h.sliceTyped (by rw [hc]; exact SliceObj.SameConf.refl _) hs.typed (by rw [hc, hr]; exact hs.typed.ext), ?_, ?_, ?_⟩
  · rw [hc]; exact fun a ha => h.prepReady a (hs.prep a ha)
  · rw [hc]; exact fun a ha => h.issReady a (hs.iss a ha)
  · rw [hr, hc, h.sliceCount (by rw [hc]), h.sieve]; exact hs.ext

/-- Fitting a slice succeeds. -/
theorem sliceFit_total (hT : T.Sound K) {ρ : ℕ → Rng R} (hρ : ∀ k, (ρ k).Valid) {w : World R P I W S} {d s : ℕ} (hs : SliceTyped T K τ υ w d s)
    {C X : Data R} {m N : ℕ} (hX : HasShape X m d N) (hC : T.CacheOf C m N) (hm : 0 < m) (hd : 0 < d) (hN : 0 < N) :
    ∃ w', sliceFit K ρ s C X w = (.ok (), w') ∧ SliceReady T K τ υ w' d s ∧ KeepsTypes T K τ υ w w' ∧
      ∀ t, t ≠ s → w'.slice t = w.slice t := by
  obtain ⟨D, m', h1, h2, h3, h4⟩ := selectSample_total (hρ w.rnd) hs.sample hX hm
  have hC0 := hC.mono h4
  obtain ⟨e, c1, c2⟩ := hs.chain
  obtain ⟨Y, w1, N', p1, p2, p3, hN', hC', p4, p5⟩ := fitPreps_total (υ := υ) hT hρ h3 (w.slice s).preps d e N D w.tick hN hC0 c1 hs.prep hd h2
  have f1 := fitPreps_frame K ρ C (w.slice s).preps D w.tick
  rw [p1] at f1
  obtain ⟨f1a, f1b, f1c, f1d⟩ := f1
  have hk1 : KeepsTypes T K τ υ w w1 := ⟨p4.prep, p4.prepReady, p4.iss, p4.issReady, p4.count, p4.sieve, p4.fruit⟩
  obtain ⟨w2, i1, i2, i3⟩ := fitIss_total (τ := τ) hT hρ h3 p3 hN' hC' p2 (w.slice s).iss e w1 c2 (fun a ha => hk1.iss a (hs.iss a ha))
  have f2 := fitIss_frame K ρ C Y (w.slice s).iss w1
  rw [i1] at f2
  obtain ⟨f2a, f2b, f2c⟩ := f2
  have hsl : w2.slice = w.slice := f2c.trans f1d
  have hk2 := hk1.trans i2
  have hfit : sliceFit K ρ s C X w = fitFinish K ρ s C Y w2 := by
    rw [sliceFit, if_neg hs.iss_ne, if_neg hs.sieves_ne, h1]
    simp only
    rw [p1]
    simp only
    rw [i1]
  have hr2 : anyRequires K w2 s = anyRequires K w s := by unfold anyRequires; rw [hsl, hk2.sieve]
  rw [hfit, fitFinish]
  by_cases hr : anyRequires K w2 s = true
  · rw [if_pos hr, hsl]
    obtain ⟨x1, ⟨ns, x2, x3⟩, x4⟩ := iterateIss_total hT h3 hN' hC' _ e Y c2 i3 p3 p2 (fun h => absurd h hs.iss_ne)
    obtain ⟨rows, r', y1, y2, y3⟩ := fitItems_total hT hρ h3 hN' hC' (sieves := (w.slice s).sieves.map w2.sieve) (by
      intro v hv
      obtain ⟨a, ha, rfl⟩ := List.mem_map.1 hv
      rw [hk2.sieve]; exact hs.sieve a ha) _ w2.rnd x4
    rw [x1, y1]
    refine ⟨_, rfl, ?_, ?_, ?_⟩
    · have hsame : ∀ w3 : World R P I W S, w3.slice s = { w.slice s with ext := rows, fitted := true } → w3.iss = w2.iss → w3.words = w2.words →
          w3.prep = w2.prep → w3.sieve = w2.sieve → w3.fruit = w2.fruit → SliceReady T K τ υ w3 d s := by
        intro w3 e1 e2 e3 e4 e5 e6
        have hat : w3.issAt = w2.issAt := by funext a; simp only [World.issAt, e2, e3]
        have hk3 : KeepsTypes T K τ υ w w3 := by
          refine ⟨?_, ?_, ?_, ?_, ?_, ?_, ?_⟩
          · rw [e4]; exact hk2.prep
          · rw [e4]; exact hk2.prepReady
          · rw [hat]; exact hk2.iss
          · rw [hat]; exact hk2.issReady
          · rw [hat]; exact hk2.count
          · rw [e5]; exact hk2.sieve
          · rw [e6]; exact hk2.fruit
        have hr3 : anyRequires K w3 s = true := by
          rw [← hr2.symm.trans hr]; unfold anyRequires; rw [e1, hk3.sieve]
        refine ⟨by rw [e1], hk3.sliceTyped (by rw [e1]; exact ⟨rfl, rfl, rfl, rfl⟩) hs (Or.inr hr3), ?_, ?_, ?_⟩
        · rw [e1, e4, f2a]; exact p5
        · rw [e1, hat]; exact i3
        · rw [if_pos hr3, e1]
          refine ⟨fun c hc => ?_, fun row hrow => ⟨(y3 row hrow).1, ?_⟩⟩
          · have : Fruits.sliceCount K w3 s = .ok ns.prod := by
              unfold Fruits.sliceCount; rw [e1, hat, x2]; rfl
            rw [this] at hc
            cases hc
            simp only [y2, x3]
          · rw [(y3 row hrow).2, List.map_map, e5]; rfl
      exact hsame _ (by simp [World.setSlice]) rfl rfl rfl rfl rfl
    · exact hk2.trans ⟨fun _ h => h, fun _ h => h, fun _ h => h, fun _ h => h, fun _ => rfl, rfl, rfl⟩
    · intro t ht
      simp [World.setSlice, Function.update_of_ne ht, hsl]
  · rw [if_neg hr, hsl]
    have hext : (w.slice s).ext = [] := hs.ext.resolve_right (by rw [← hr2]; exact hr)
    refine ⟨_, rfl, ?_, ?_, ?_⟩
    · have hk3 : KeepsTypes T K τ υ w (w2.setSlice s { w.slice s with fitted := true }) :=
        hk2.trans ⟨fun _ h => h, fun _ h => h, fun _ h => h, fun _ h => h, fun _ => rfl, rfl, rfl⟩
      have e1 : (w2.setSlice s { w.slice s with fitted := true }).slice s = { w.slice s with fitted := true } := by simp [World.setSlice]
      have hr3 : ¬ anyRequires K (w2.setSlice s { w.slice s with fitted := true }) s = true := by
        rw [show anyRequires K (w2.setSlice s { w.slice s with fitted := true }) s = anyRequires K w2 s by
          unfold anyRequires; rw [e1, hsl]; rfl]
        exact hr
      refine ⟨by rw [e1], hk3.sliceTyped (by rw [e1]; exact ⟨rfl, rfl, rfl, rfl⟩) hs (Or.inl (by rw [e1]; exact hext)), ?_, ?_, ?_⟩
      · rw [e1]; show ∀ a ∈ (w.slice s).preps, T.prepReady (w2.prep a) _ _
        rw [f2a]; exact p5
      · rw [e1]; exact i3
      · rw [if_neg hr3, e1]; exact hext
    · exact hk2.trans ⟨fun _ h => h, fun _ h => h, fun _ h => h, fun _ h => h, fun _ => rfl, rfl, rfl⟩
    · intro t ht
      simp [World.setSlice, Function.update_of_ne ht, hsl]

theorem fitSlices_total (hT : T.Sound K) {ρ : ℕ → Rng R} (hρ : ∀ k, (ρ k).Valid) {d : ℕ} {C X : Data R} {m N : ℕ} (hX : HasShape X m d N)
    (hC : T.CacheOf C m N) (hm : 0 < m) (hd : 0 < d) (hN : 0 < N) : ∀ (ss : List ℕ) (w : World R P I W S), (∀ s ∈ ss, SliceTyped T K τ υ w d s) →
    ∃ w', fitSlices K ρ C X ss w = (.ok (), w') ∧ (∀ s ∈ ss, SliceReady T K τ υ w' d s) ∧ w'.fruit = w.fruit ∧
      ∀ s, SliceReady T K τ υ w d s → SliceReady T K τ υ w' d s
  | [], w, _ => ⟨w, rfl, by simp, rfl, fun _ h => h⟩
  | s :: ss, w, hs => by
    obtain ⟨w1, h1, h2, h3, h4⟩ := sliceFit_total hT hρ (hs s (by simp)) hX hC hm hd hN
    have hstep : ∀ t, SliceReady T K τ υ w d t → SliceReady T K τ υ w1 d t := by
      intro t ht
      by_cases hts : t = s
      · subst hts; exact h2
      · exact h3.sliceReady (h4 t hts) ht
    have htyped : ∀ t ∈ ss, SliceTyped T K τ υ w1 d t := by
      intro t ht
      by_cases hts : t = s
      · subst hts; exact h2.typed
      · have hr : anyRequires K w1 t = anyRequires K w t := by unfold anyRequires; rw [h4 t hts, h3.sieve]
        exact h3.sliceTyped (by rw [h4 t hts]; exact SliceObj.SameConf.refl _) (hs t (by simp [ht]))
          (by rw [h4 t hts, hr]; exact (hs t (by simp [ht])).ext)
    obtain ⟨w', i1, i2, i3, i4⟩ := fitSlices_total hT hρ hX hC hm hd hN ss w1 htyped
    refine ⟨w', ?_, ?_, i3.trans h3.fruit, fun t ht => i4 t (hstep t ht)⟩
    · rw [fitSlices, h1]; exact i1
    · intro t ht
      rcases List.mem_cons.1 ht with rfl | ht
      · exact i4 t h2
      · exact i2 t ht

/-- **C109**, for seeds with a sound typing: fitting a fruit to data of a shape it is made for succeeds, and the fitted fruit transforms every dataset with
that number of dimensions, with `nfeatures()` columns. -/
theorem fruit_total (hT : T.Sound K) {ρ : ℕ → Rng R} (hρ : ∀ k, (ρ k).Valid) {d : ℕ} (hd : 0 < d) {w : World R P I W S} {f : ℕ}
    (hf : ∀ s ∈ (w.fruit f).slices, SliceTyped T K τ υ w d s) {Xtrain : Data R} {m₀ n₀ : ℕ} (hX₀ : HasShape Xtrain m₀ d n₀) (hm₀ : 0 < m₀) (hn₀ : 0 < n₀)
    (hl₀ : T.len n₀ n₀) :
    ∃ w', fruitFit K ρ f Xtrain Xtrain w = (.ok (), w') ∧
      ∀ (c : ℕ) (X : Data R) (m n : ℕ), HasShape X m d n → 0 < m → 0 < n → T.len n n →
        ∃ N : ℕ, fruitN K w' f = .ok (N : ℤ) ∧ ∃ A, (fruitTransform K w' c f X X).1 = .ok A ∧ HasShape2 A m N := by
  obtain ⟨w1, h1, h2, h3, _⟩ := fitSlices_total hT hρ hX₀ ⟨m₀, d, n₀, hX₀, le_rfl, hd, hl₀⟩ hm₀ hd hn₀ _ w hf
  refine ⟨w1.setFruit f { w1.fruit f with fitted := true }, by rw [fruitFit, h1], fun c X m n hX hm hn hl => ?_⟩
  have e1 : ((w1.setFruit f { w1.fruit f with fitted := true }).fruit f) = { w1.fruit f with fitted := true } := by simp [World.setFruit]
  refine fruitTransform_total (τ := τ) (υ := υ) hT (by rw [e1]) ?_ hX ⟨m, d, n, hX, le_rfl, hd, hl⟩ hX.1 hm hd hn
  rw [e1]
  intro s hs
  have hs' := h2 s (by rw [← h3]; exact hs)
  have ht := hs'.typed
  exact ⟨hs'.fitted, ⟨ht.iss_ne, ht.sieves_ne, ht.sample, ht.chain, ht.prep, ht.iss, ht.sieve, ht.ext⟩, hs'.prep, hs'.iss, hs'.ext⟩

end Fruits
