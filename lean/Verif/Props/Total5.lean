import Verif.Props.Total4

/-! # C109: fitting and transforming succeed

A fruit whose slices are configured for data with `d` dimensions can be fitted to every dataset with `d` dimensions, and afterwards transforms every dataset with
`d` dimensions: nothing raises. -/

namespace Fruits
set_option linter.unusedSectionVars false

variable {R : Type} [Field R] [LinearOrder R] [IsStrictOrderedRing R] [FloorRing R] [NpMath R]

/-! ### Specification -/

/-- What a slice needs for data with `d` dimensions.  `changes`: a preparateur may change the length of the series (`LAG`, some functions), and so no seed may rely
on the cache having been made from series of the same length.  `N`: the least length of the series the slice is made for (relevant for integer cuts; a preparateur that
changes the length makes no promise about it).  `τ` and `υ` assign to the preparateur and ISS objects the numbers of dimensions they are used with. -/
structure SliceFor (changes : Bool) (N : ℕ) (τ υ : ℕ → ℕ × ℕ) (w : World R (SafePrep R) (BIss R) (List (IWord R)) (SafeSieve R)) (d s : ℕ) : Prop where
  iss_ne : (w.slice s).iss ≠ []
  sieves_ne : (w.slice s).sieves ≠ []
  sample : SampleOk (w.slice s).sample
  chain : ∃ e, Chain τ (w.slice s).preps d e ∧ IssChain υ (w.slice s).iss e e
  prep : ∀ a ∈ (w.slice s).preps, (w.prep a).1.Accepts (if changes then .loose else .aligned) (τ a).1 (τ a).2
  iss : ∀ a ∈ (w.slice s).iss, (w.issAt a).1.Accepts (if changes then .loose else .aligned) (w.issAt a).2 (υ a).1 (υ a).2
  sieve : ∀ a ∈ (w.slice s).sieves, (w.sieve a).1.Accepts (if changes then .loose else .aligned) (if changes then 1 else N)

/-! ### The seeds of the library -/

/-- The typing of the library's seeds. -/
def builtinTyping (L : Lib R) (changes : Bool) (N : ℕ) : Typing (SafePrep R) (BIss R) (List (IWord R)) (SafeSieve R) where
  len a b := if changes then 0 < a else 0 < a ∧ a = b ∧ N ≤ b
  prep p d d' := p.1.Accepts (if changes then .loose else .aligned) d d'
  prepReady p d d' := p.1.Accepts (if changes then .loose else .aligned) d d' ∧ p.1.Works L.T (if changes then .loose else .aligned) d d'
  iss i ws e d := i.Accepts (if changes then .loose else .aligned) ws e d
  issReady i ws e d := i.Accepts (if changes then .loose else .aligned) ws e d ∧ i.Ready ws d
  sieve v := v.1.Accepts (if changes then .loose else .aligned) (if changes then 1 else N)
  sieveReady v := v.1.Accepts (if changes then .loose else .aligned) (if changes then 1 else N) ∧ v.1.HasState

theorem builtinTyping_fits (L : Lib R) {changes : Bool} {N : ℕ} {C X : Data R} {m n : ℕ} (h : (builtinTyping L changes N).CacheOf C m n) :
    CacheMode.Fits (if changes then .loose else .aligned) C X m n := by
  obtain ⟨mc, dc, nc, h1, h2, h3, h4⟩ := h
  cases changes with
  | true => trivial
  | false =>
    simp only [builtinTyping, Bool.false_eq_true, if_false] at h4
    obtain ⟨_, rfl, _⟩ := h4
    exact ⟨mc, dc, h1, h2, h3⟩

theorem Lib.safeFit_total (L : Lib R) {g : Rng R} {p : SafePrep R} {X : Data R} {q : Prep R} (h : L.prepFit g p.1 X = .ok q) :
    ∃ q' : SafePrep R, L.safeFit g p X = .ok q' ∧ q'.1 = q := by
  unfold Lib.safeFit
  split
  · next e he => rw [h] at he; cases he
  · next q' hq' => rw [h] at hq'; cases hq'; exact ⟨_, rfl, rfl⟩

theorem safeSieveFit_total {g : Rng R} {s : SafeSieve R} {X : List (List R)} {t : Sieve R} (h : s.1.fit g X = .ok t) :
    ∃ t' : SafeSieve R, safeSieveFit g s X = .ok t' ∧ t'.1 = t := by
  unfold safeSieveFit
  split
  · next e he => rw [h] at he; cases he
  · next q' hq' => rw [h] at hq'; cases hq'; exact ⟨_, rfl, rfl⟩

theorem Lib.sieveCopy_total (L : Lib R) {s : SafeSieve R} {t : Sieve R} (h : s.1.copy L.setOrder = .ok t) : ∃ t' : SafeSieve R, L.sieveCopy s = .ok t' ∧ t'.1 = t := by
  unfold Lib.sieveCopy
  split
  · next e he => rw [h] at he; cases he
  · next q' hq' => rw [h] at hq'; cases hq'; exact ⟨_, rfl, rfl⟩

theorem builtin_issCount (L : Lib R) (g : Rng R) (i : BIss R) (ws : List (IWord R)) (C X : Data R) (j : BIss R)
    (h : (builtin L).issFit g i ws C X = .ok j) : (builtin L).issCount j ws = (builtin L).issCount i ws := by
  simp only [builtin] at h ⊢
  cases i with
  | iss o => cases h; rfl
  | cos c =>
    simp only [BIss.fit] at h
    rcases hs : simpleWords ws with e | sw
    · rw [hs] at h; cases h
    rw [hs, ok_bind] at h
    rcases hf : c.fit g sw X with e | c'
    · rw [hf] at h; cases h
    rw [hf, ok_bind] at h
    cases h
    unfold CosWISS.fit at hf
    dsimp only at hf
    rcases hd : c.dropout with _ | dr
    · rw [hd] at hf; cases hf; rfl
    · rw [hd] at hf
      dsimp only at hf
      rcases hx : cosDrops g sw.length c.freqs.length ((sw.map fun w => w.els.length).foldr max 0) (shape2 X) (pyInt (dr * (shape2 X : R))) with e | D
      · rw [hx] at hf; cases hf
      · rw [hx] at hf; cases hf; rfl

theorem builtin_sound (L : Lib R) (hT : L.T.Lawful) (changes : Bool) (N : ℕ) : (builtinTyping L changes N).Sound (builtin L) where
  prep_ready p d d' h := h.1
  prep_pos p d d' h hd := Prep.Accepts.pos h hd
  prep_fit g p d d' C X m n hg h hX hm hd hn hC := by
    obtain ⟨q, h1, h2⟩ := Prep.fit_works L hT g hg _ p.1 h hX hm hd hn
    obtain ⟨q', h3, rfl⟩ := L.safeFit_total h1
    exact ⟨q', h3, h2⟩
  prep_transform p d d' C X m n h hX hm hd hn hC := by
    obtain ⟨Y, n', h1, h2, h3, h4⟩ := h.2 C X m n hX hm hd hn (builtinTyping_fits L hC)
    refine ⟨Y, n', h1, h2, h3, fun a ha => ?_⟩
    cases changes with
    | true => exact ha
    | false => rw [h4 (by simp)]; exact ha
  iss_ready i ws e d h := h.1
  iss_unfitted i ws e d h hr := by
    refine ⟨h, ?_⟩
    cases i with
    | iss o => trivial
    | cos c =>
      intro hf
      simp only [builtin, BIss.requires, CosWISS.requiresFitting] at hr
      rw [hf] at hr
      simp at hr
  iss_fit g i ws e d C X m n hg h hr hX hm he hn hC := by
    cases i with
    | iss o => simp [builtin, BIss.requires] at hr
    | cos c =>
      obtain ⟨c', h1, h2, h3⟩ := cos_fit g h hX hm
      exact ⟨.cos c', h1, h2, h3⟩
  iss_count g i ws C X j h := builtin_issCount L g i ws C X j h
  iss_counted i ws e d h := by
    cases i with
    | iss o => exact issObj_counted h.1
    | cos c => exact ⟨_, rfl⟩
  iss_gen i ws e d C X m n h hX hm hd hn hC := by
    have key : (BIss.gen L i ws C X).2 = none ∧ ∀ it ∈ (BIss.gen L i ws C X).1, HasShape2 it m n := by
      cases i with
      | iss o => exact issObj_gen L h.1 hX hm hd hn (builtinTyping_fits L hC)
      | cos c => exact cos_gen L h.1 h.2 hX hd
    refine ⟨key.1, builtin_countsRight L i ws C X _ ?_, key.2⟩
    show BIss.gen L i ws C X = ((BIss.gen L i ws C X).1, none)
    rw [← key.1]
  sieve_nonneg v h := Sieve.Accepts.nonneg h
  sieve_unfitted v h hr := ⟨h, Sieve.hasState_unfitted hr⟩
  sieve_fit g v C it m n hg h hit hm hn hC := by
    obtain ⟨t, h1, h2⟩ := Sieve.copy_total L.setOrder_ok h v.2
    obtain ⟨c, h3, rfl⟩ := L.sieveCopy_total h1
    obtain ⟨u, h4, h5, h6⟩ := Sieve.fit_total hg h2 hit hm hn
    obtain ⟨v', h7, rfl⟩ := safeSieveFit_total h4
    have e1 := (builtin_keepsN L).copy v c h3
    have e2 := (builtin_keepsN L).fit g c C it v' h7
    exact ⟨c, v', h3, h7, ⟨h5, h6⟩, e2.trans e1, e1⟩
  sieve_transform v C it m n h hit hm hn hC hCm := by
    obtain ⟨mc, dc, nc, h1, h2, h3, h4⟩ := hC
    have hmc : mc = m := by rw [← h1.1, hCm]
    subst hmc
    refine Sieve.transform_total hT h.1 h.2 hit hm hn ?_ h1 h3 ?_ ?_
    · cases changes with
      | true => exact hn
      | false => exact h4.2.2
    · cases changes with
      | true => exact h4
      | false => exact h4.1
    · cases changes with
      | true => exact fun hx => absurd rfl hx
      | false => exact fun _ => h4.2.1

/-- A slice of a reachable world. -/
theorem SliceFor.typed (L : Lib R) {changes : Bool} {N : ℕ} {τ υ : ℕ → ℕ × ℕ} {w : World R (SafePrep R) (BIss R) (List (IWord R)) (SafeSieve R)} {d s : ℕ}
    (h : SliceFor changes N τ υ w d s) (he : (w.slice s).ext = [] ∨ anyRequires (builtin L) w s = true) :
    SliceTyped (builtinTyping L changes N) (builtin L) τ υ w d s :=
  ⟨h.iss_ne, h.sieves_ne, h.sample, h.chain, h.prep, h.iss, h.sieve, he⟩

theorem builtinTyping_len (L : Lib R) {changes : Bool} {N n : ℕ} (hn : 0 < n) (hN : N ≤ n) : (builtinTyping L changes N).len n n := by
  cases changes with
  | true => exact hn
  | false => exact ⟨hn, rfl, hN⟩

/-- **C109.** A fruit, made by any history of calls, all of whose slices are configured for data with `d` dimensions (see `SliceFor`), can be fitted to every
dataset with `d` dimensions whose series have at least `N` time points; the fitted fruit transforms every such dataset (with any number of series, of any
length `≥ N`): no exception is raised, and the result has one row for each series and `nfeatures()` columns. -/
theorem C109_total (L : Lib R) (hT : L.T.Lawful) {ρ : ℕ → Rng R} (hρ : ∀ k, (ρ k).Valid)
    {w₀ w : World R (SafePrep R) (BIss R) (List (IWord R)) (SafeSieve R)} {ops : List (Op R (SafePrep R) (BIss R) (List (IWord R)) (SafeSieve R))}
    (hist : Hist (builtin L) ρ w₀ ops w) (h0 : w₀.Empty) {f : ℕ} (hf : f < w.nFruit) {d N : ℕ} (hd : 0 < d) {changes : Bool} {τ υ : ℕ → ℕ × ℕ}
    (hs : ∀ s ∈ (w.fruit f).slices, SliceFor changes N τ υ w d s)
    {Xtrain : Data R} {m₀ n₀ : ℕ} (hX₀ : HasShape Xtrain m₀ d n₀) (hm₀ : 0 < m₀) (hn₀ : 0 < n₀) (hN₀ : N ≤ n₀) :
    ∃ w', fruitFit (builtin L) ρ f Xtrain Xtrain w = (.ok (), w') ∧
      ∀ (c : ℕ) (X : Data R) (m n : ℕ), HasShape X m d n → 0 < m → 0 < n → N ≤ n →
        ∃ k : ℕ, fruitN (builtin L) w' f = .ok (k : ℤ) ∧ ∃ A, (fruitTransform (builtin L) w' c f X X).1 = .ok A ∧ HasShape2 A m k := by
  have hwf := hist.wf (World.WF.empty h0)
  have hext := ExtInv.hist (builtin_keepsN L) hist h0
  obtain ⟨w', h1, h2⟩ := fruit_total (builtin_sound L hT changes N) hρ hd
    (fun s h => (hs s h).typed L (hext s (hwf.slices f hf s h)).1) hX₀ hm₀ hn₀ (builtinTyping_len L hn₀ hN₀)
  exact ⟨w', h1, fun c X m n hX hm hn hN => h2 c X m n hX hm hn (builtinTyping_len L hn hN)⟩

end Fruits
