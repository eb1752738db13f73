import Verif.CorbChoose
import Verif.Props.Fruit16

/-! # C136: what the accuracy of `fruitify` is -/

namespace Fruits
set_option linter.unusedSectionVars false

variable {R P I W S V : Type} [Field R] [LinearOrder R] [IsStrictOrderedRing R] [FloorRing R]

/-- Only calls `fruit.fit(X)` of existing fruits, returning or raising, lead from `w` to `w₁`. -/
def OnlyFits (K : Sem R P I W S V) (ρ : ℕ → Rng R) (w w₁ : World R P I W S) : Prop :=
  ∃ later, Hist K ρ w later w₁ ∧ ∀ o ∈ later, ∃ g X, o = Op.fruitFit g none X

theorem OnlyFits.refl (K : Sem R P I W S V) (ρ : ℕ → Rng R) (w : World R P I W S) : OnlyFits K ρ w w := ⟨[], .nil, by simp⟩

theorem OnlyFits.trans {K : Sem R P I W S V} {ρ : ℕ → Rng R} {w w₁ w₂ : World R P I W S} (h : OnlyFits K ρ w w₁) (h' : OnlyFits K ρ w₁ w₂) :
    OnlyFits K ρ w w₂ := by
  obtain ⟨l, a, b⟩ := h
  obtain ⟨l', a', b'⟩ := h'
  refine ⟨l ++ l', a.append a', fun o ho => ?_⟩
  rcases List.mem_append.1 ho with ho | ho
  · exact b o ho
  · exact b' o ho

theorem OnlyFits.one (K : Sem R P I W S V) (ρ : ℕ → Rng R) {w : World R P I W S} {f : ℕ} (hf : f < w.nFruit) (X : Data R) :
    OnlyFits K ρ w (fruitFit K ρ f X X w).2 :=
  ⟨[.fruitFit f none X], Hist.snoc (.fruitFit f none X) .nil hf, by simp⟩

theorem fit_keeps (K : Sem R P I W S V) (ρ : ℕ → Rng R) {w : World R P I W S} (hw : w.WF) {g : ℕ} (hg : g < w.nFruit) (X : Data R) :
    (∀ f < w.nFruit, ((fruitFit K ρ g X X w).2.fruit f).slices = (w.fruit f).slices) ∧
    ∀ s < w.nSlice, (w.slice s).SameConf ((fruitFit K ρ g X X w).2.slice s) := by
  have st := fitSlices_steps K (B := fun _ => True) ρ X X (w.fruit g).slices w (hw.slices g hg)
  have h1 : ∀ f < w.nFruit, (fitSlices K ρ X X (w.fruit g).slices w).2.fruit f = w.fruit f := fun f hf => by
    refine st.fruit_eq hf ?_
    rintro (h | ⟨s, _, h⟩)
    · cases h
    · exact h
  have h2 : ∀ s < w.nSlice, (w.slice s).SameConf ((fitSlices K ρ X X (w.fruit g).slices w).2.slice s) := fun s hs => by
    refine st.conf hs ?_
    rintro (h | ⟨s, _, h⟩)
    · cases h
    · exact h
  rw [fruitFit]
  rcases hm : fitSlices K ρ X X (w.fruit g).slices w with ⟨e | x, u⟩
  · rw [hm] at h1 h2
    exact ⟨fun f hf => by rw [h1 f hf], h2⟩
  · rw [hm] at h1 h2
    refine ⟨fun f hf => ?_, h2⟩
    show (Function.update u.fruit g { u.fruit g with fitted := true } f).slices = _
    by_cases e : f = g
    · subst e; rw [Function.update_self]; exact (congrArg FruitObj.slices (h1 f hf) :)
    · rw [Function.update_of_ne e]; exact congrArg FruitObj.slices (h1 f hf)

theorem OnlyFits.keeps {K : Sem R P I W S V} {ρ : ℕ → Rng R} {w w₁ : World R P I W S} (h : OnlyFits K ρ w w₁) (hw : w.WF) :
    w₁.WF ∧ Grows w w₁ ∧ (∀ f < w.nFruit, (w₁.fruit f).slices = (w.fruit f).slices) ∧ ∀ s < w.nSlice, (w.slice s).SameConf (w₁.slice s) := by
  obtain ⟨later, hist, ho⟩ := h
  induction hist with
  | nil => exact ⟨hw, .refl _, fun _ _ => rfl, fun _ _ => .refl _⟩
  | @snoc ops u o hu hl ih =>
    obtain ⟨a, b, c, d⟩ := ih fun o ho' => ho o (List.mem_append_left _ ho')
    have hst := step_steps K ρ o u hl a
    obtain ⟨g, X, rfl⟩ := ho o (by simp)
    obtain ⟨e, f⟩ := fit_keeps K ρ a hl X
    exact ⟨hst.wf a, b.trans hst.grows, fun k hk => (e k (hk.trans_le b.fruit)).trans (c k hk),
      fun s hs => (d s hs).trans (f s (hs.trans_le b.slice))⟩

/-- One run of `fruitify` in a state reached by fits of any fruits has the score that it has in the state before, with the same random numbers. -/
theorem once_alike {K : Sem R P I W S V} (hC : K.CountsRight) (hN : K.KeepsN) (hR : K.Refits) {ρ : ℕ → Rng R}
    {w₀ w w₁ : World R P I W S} {ops : List (Op R P I W S)} (h0 : w₀.Empty) (before : Hist K ρ w₀ ops w)
    (after : OnlyFits K ρ w w₁) {f : ℕ} (hf : f < w.nFruit) {ρ₁ ρ₂ : ℕ → Rng R} (hdraw : ∀ k, ρ₂ (w₁.rnd + k) = ρ₁ (w.rnd + k))
    (clf : Classifier R V) (X Z : Data R) (y z : List ℤ) (a : R) :
    (fruitifyOnce K ρ₂ clf f X y Z z w₁).1 = .ok a ↔ (fruitifyOnce K ρ₁ clf f X y Z z w).1 = .ok a := by
  have hw := before.wf (World.WF.empty h0)
  obtain ⟨_, _, k1, k2⟩ := after.keeps hw
  obtain ⟨later, hist, ho⟩ := after
  obtain ⟨q1, q2⟩ := C77_refit hC hN hR h0 before hist hf (k1 f hf) (fun s hs => k2 s (hw.slices f hf s hs))
    (fun o ho' s _ he => by obtain ⟨g, X, rfl⟩ := ho o ho'; exact he) hdraw X X
  rw [fruitifyOnce, fruitifyOnce]
  rcases e1 : fruitFit K ρ₁ f X X w with ⟨e | u, v⟩
  · rcases e2 : fruitFit K ρ₂ f X X w₁ with ⟨e' | u', v'⟩
    · rw [e1, e2] at q1; simp at q1 ⊢
    · rw [e1, e2] at q1; simp at q1
  · rcases e2 : fruitFit K ρ₂ f X X w₁ with ⟨e' | u', v'⟩
    · rw [e1, e2] at q1; simp at q1
    · rw [e1, e2] at q2
      have key : ∀ (Y : Data R) (A : List (List V)), (fruitTransform K v' 0 f Y Y).1 = .ok A ↔ (fruitTransform K v 0 f Y Y).1 = .ok A := by
        intro Y A
        constructor
        · intro h
          have := (q2 rfl 0 Y Y A (fruitTransform K v' 0 f Y Y).2).1 (Prod.ext h rfl)
          simp only at this
          rw [this]
        · intro h
          have := (q2 rfl 0 Y Y A (fruitTransform K v 0 f Y Y).2).2 (Prod.ext h rfl)
          simp only at this
          rw [this]
      have hX := key X
      have hZ := key Z
      simp only
      rcases a1 : (fruitTransform K v' 0 f X X).1 with e | A
      · rcases a2 : (fruitTransform K v 0 f X X).1 with e' | B
        · simp [bind, Except.bind]
        · rw [a1, a2] at hX; simpa using hX B
      · rcases a2 : (fruitTransform K v 0 f X X).1 with e' | B
        · rw [a1, a2] at hX; simpa using hX A
        · rw [a1, a2] at hX
          obtain rfl : A = B := by simpa using hX B
          rcases b1 : (fruitTransform K v' 0 f Z Z).1 with e | A'
          · rcases b2 : (fruitTransform K v 0 f Z Z).1 with e' | B'
            · simp [bind, Except.bind]
            · rw [b1, b2] at hZ; simpa using hZ B'
          · rcases b2 : (fruitTransform K v 0 f Z Z).1 with e' | B'
            · rw [b1, b2] at hZ; simpa using hZ A'
            · rw [b1, b2] at hZ
              obtain rfl : A' = B' := by simpa using hZ B'
              simp [bind, Except.bind]

theorem once_world (K : Sem R P I W S V) (ρ : ℕ → Rng R) (clf : Classifier R V) (f : ℕ) (X Z : Data R) (y z : List ℤ) (w : World R P I W S) :
    (fruitifyOnce K ρ clf f X y Z z w).2 = (fruitFit K ρ f X X w).2 := by
  rw [fruitifyOnce]
  rcases fruitFit K ρ f X X w with ⟨e | u, v⟩ <;> rfl

theorem runs_fits {K : Sem R P I W S V} {ρ : ℕ → Rng R} {clf : Classifier R V} {f : ℕ} {X Z : Data R} {y z : List ℤ} : ∀ (n : ℕ) (w : World R P I W S),
    w.WF → f < w.nFruit → OnlyFits K ρ w (fruitifyRuns K ρ clf f X y Z z n w).2
  | 0, w, _, _ => OnlyFits.refl K ρ w
  | n + 1, w, hw, hf => by
    have h1 := OnlyFits.one K ρ hf X
    have hk := h1.keeps hw
    have e := once_world K ρ clf f X Z y z w
    rw [fruitifyRuns]
    rcases ho : fruitifyOnce K ρ clf f X y Z z w with ⟨e' | a, v⟩
    · rw [ho] at e; simp only at e ⊢; rw [e]; exact h1
    · rw [ho] at e
      simp only at e ⊢
      rw [e]
      have h2 := runs_fits (K := K) (ρ := ρ) (clf := clf) (X := X) (y := y) (Z := Z) (z := z) n (fruitFit K ρ f X X w).2 hk.1 (hf.trans_le hk.2.1.fruit)
      rcases hr : fruitifyRuns K ρ clf f X y Z z n (fruitFit K ρ f X X w).2 with ⟨e' | as, v'⟩
      · rw [hr] at h2; exact h1.trans h2
      · rw [hr] at h2; exact h1.trans h2

/-- **C136**: what one run computes.  The fruit is fitted on the training series only. -/
theorem C136_once (K : Sem R P I W S V) (ρ : ℕ → Rng R) (clf : Classifier R V) (f : ℕ) (X Z : Data R) (y z : List ℤ) (w : World R P I W S) (a : R) :
    (fruitifyOnce K ρ clf f X y Z z w).1 = .ok a ↔
    ∃ w' F G, fruitFit K ρ f X X w = (.ok (), w') ∧ (fruitTransform K w' 0 f X X).1 = .ok F ∧ (fruitTransform K w' 0 f Z Z).1 = .ok G ∧
      clf F y G z = .ok a := by
  rw [fruitifyOnce]
  rcases fruitFit K ρ f X X w with ⟨e | u, v⟩
  · simp
  · simp only [Prod.mk.injEq, Except.ok.injEq, true_and]
    constructor
    · intro h
      rcases a1 : (fruitTransform K v 0 f X X).1 with e | F
      · rw [a1] at h; simp [bind, Except.bind] at h
      rcases a2 : (fruitTransform K v 0 f Z Z).1 with e | G
      · rw [a1, a2] at h; simp [bind, Except.bind] at h
      · rw [a1, a2] at h
        exact ⟨v, F, G, rfl, a1, a2, h⟩
    · rintro ⟨_, F, G, rfl, h1, h2, h3⟩
      rw [h1, h2]
      exact h3

/-- `C136_runs` for runs that start in a state reached by fits. -/
theorem runs_alike {K : Sem R P I W S V} (hC : K.CountsRight) (hN : K.KeepsN) (hR : K.Refits) {ρ : ℕ → Rng R}
    {w₀ w : World R P I W S} {ops : List (Op R P I W S)} (h0 : w₀.Empty) (before : Hist K ρ w₀ ops w) {f : ℕ} (hf : f < w.nFruit)
    (clf : Classifier R V) (X Z : Data R) (y z : List ℤ) : ∀ (n : ℕ) (v : World R P I W S), OnlyFits K ρ w v → ∀ as v', fruitifyRuns K ρ clf f X y Z z n v = (.ok as, v') →
      as.length = n ∧ ∀ a ∈ as, ∃ r, (fruitifyOnce K (fun j => ρ (r + (j - w.rnd))) clf f X y Z z w).1 = .ok a := by
  intro n
  induction n with
  | zero =>
    intro v _ as v' h
    simp only [fruitifyRuns, Prod.mk.injEq, Except.ok.injEq] at h
    obtain ⟨rfl, _⟩ := h
    simp
  | succ n ih =>
    intro v hv as v' h
    obtain ⟨k1, k2, -, -⟩ := hv.keeps (before.wf (World.WF.empty h0))
    have e := once_world K ρ clf f X Z y z v
    rw [fruitifyRuns] at h
    rcases ho : fruitifyOnce K ρ clf f X y Z z v with ⟨e' | a, v1⟩
    · rw [ho] at h; simp at h
    · rw [ho] at h e
      simp only at h e
      subst e
      have h1 := hv.trans (OnlyFits.one K ρ (hf.trans_le k2.fruit) X)
      rcases hr : fruitifyRuns K ρ clf f X y Z z n (fruitFit K ρ f X X v).2 with ⟨e' | bs, v2⟩
      · rw [hr] at h; simp at h
      · rw [hr] at h
        simp only [Prod.mk.injEq, Except.ok.injEq] at h
        obtain ⟨rfl, _⟩ := h
        obtain ⟨i1, i2⟩ := ih _ h1 _ _ hr
        refine ⟨by simp [i1], fun b hb => ?_⟩
        rcases List.mem_cons.1 hb with rfl | hb
        · refine ⟨v.rnd, (once_alike hC hN hR h0 before hv hf (ρ₂ := ρ) ?_ clf X Z y z b).1 (by rw [ho])⟩
          intro k; simp
        · exact i2 b hb

/-- **C136.**  In a state after any history, every run of `fruitify` has the score that it would have as the first and only run in this
state, with the random numbers drawn from some position on: fit on the training data, transform training and test data, train the classifier on
the training features and score it on the test features.  Earlier runs leave nothing behind but the position in the sequence of random numbers. -/
theorem C136_runs {K : Sem R P I W S V} (hC : K.CountsRight) (hN : K.KeepsN) (hR : K.Refits) {ρ : ℕ → Rng R}
    {w₀ w w' : World R P I W S} {ops : List (Op R P I W S)} (h0 : w₀.Empty) (before : Hist K ρ w₀ ops w) {f : ℕ} (hf : f < w.nFruit)
    (clf : Classifier R V) (X Z : Data R) (y z : List ℤ) {n : ℕ} {as : List R} (h : fruitifyRuns K ρ clf f X y Z z n w = (.ok as, w')) :
    as.length = n ∧ ∀ a ∈ as, ∃ r, (fruitifyOnce K (fun j => ρ (r + (j - w.rnd))) clf f X y Z z w).1 = .ok a :=
  runs_alike hC hN hR h0 before hf clf X Z y z n w (OnlyFits.refl K ρ w) as w' h

/-- **C136**: the value that is returned is the mean of the scores of the runs, NaN for no runs. -/
theorem C136_mean (K : Sem R P I W S V) (ρ : ℕ → Rng R) (clf : Classifier R V) (n f : ℕ) (X Z : Data R) (y z : List ℤ) (w : World R P I W S) (v : Fl R) :
    (fruitify K ρ clf n f X y Z z w).1 = .ok v ↔
    ∃ as, (fruitifyRuns K ρ clf f X y Z z n w).1 = .ok as ∧ ((n = 0 ∧ v = .nan) ∨ (0 < n ∧ v = .finite (as.sum / (n : R)))) := by
  have hlen : ∀ (n : ℕ) (w : World R P I W S) as, (fruitifyRuns K ρ clf f X y Z z n w).1 = .ok as → as.length = n := by
    intro n
    induction n with
    | zero => intro w as h; simp only [fruitifyRuns, Except.ok.injEq] at h; simp [← h]
    | succ n ih =>
      intro w as h
      rw [fruitifyRuns] at h
      rcases ho : fruitifyOnce K ρ clf f X y Z z w with ⟨e' | a, v1⟩
      · rw [ho] at h; simp at h
      · rw [ho] at h
        simp only at h
        have := ih v1
        rcases hr : fruitifyRuns K ρ clf f X y Z z n v1 with ⟨e' | bs, v2⟩
        · rw [hr] at h; simp at h
        · rw [hr] at h this
          simp only [Except.ok.injEq] at h
          simp [← h, this bs rfl]
  have hl := hlen n w
  rw [fruitify]
  rcases hr : fruitifyRuns K ρ clf f X y Z z n w with ⟨e' | as, w'⟩
  · simp
  · rw [hr] at hl
    have hl := hl as rfl
    simp only [Except.ok.injEq, npMean]
    constructor
    · rintro rfl
      refine ⟨as, rfl, ?_⟩
      by_cases e : as = []
      · subst e; left; simp at hl; simp [← hl]
      · right; rw [if_neg e, hl]
        exact ⟨by rw [← hl]; exact List.length_pos_of_ne_nil e, rfl⟩
    · rintro ⟨bs, rfl, ⟨rfl, rfl⟩ | ⟨hn, rfl⟩⟩
      · rw [if_pos (List.length_eq_zero_iff.1 hl)]
      · rw [if_neg (by rintro rfl; simp at hl; omega), hl]

/-- **C136**: if every draw of random numbers has the same outcome, the number of runs does not matter. -/
theorem C136_one_run {K : Sem R P I W S V} (hC : K.CountsRight) (hN : K.KeepsN) (hR : K.Refits) {ρ : ℕ → Rng R}
    {w₀ w : World R P I W S} {ops : List (Op R P I W S)} (h0 : w₀.Empty) (before : Hist K ρ w₀ ops w) {f : ℕ} (hf : f < w.nFruit)
    (hρ : ∀ j k, ρ j = ρ k) (clf : Classifier R V) (X Z : Data R) (y z : List ℤ) (n : ℕ) (v : Fl R) :
    (fruitify K ρ clf (n + 1) f X y Z z w).1 = .ok v ↔ (fruitify K ρ clf 1 f X y Z z w).1 = .ok v := by
  have gen : ∀ (n : ℕ) (v : World R P I W S), OnlyFits K ρ w v → ∀ as, (fruitifyRuns K ρ clf f X y Z z n v).1 = .ok as ↔
      (n = 0 ∧ as = []) ∨ (0 < n ∧ ∃ a, (fruitifyOnce K ρ clf f X y Z z w).1 = .ok a ∧ as = List.replicate n a) := by
    intro n
    induction n with
    | zero =>
      intro v _ as
      simp [fruitifyRuns, eq_comm]
    | succ n ih =>
      intro v hv as
      obtain ⟨k1, k2, -, -⟩ := hv.keeps (before.wf (World.WF.empty h0))
      have e := once_world K ρ clf f X Z y z v
      have hal := once_alike hC hN hR h0 before hv hf (ρ₂ := ρ) (ρ₁ := ρ) (fun k => hρ _ _) clf X Z y z
      rw [fruitifyRuns]
      rcases ho : fruitifyOnce K ρ clf f X y Z z v with ⟨e' | a, v1⟩
      · rw [ho] at hal
        simp only [reduceCtorEq, false_iff] at hal ⊢
        rintro (⟨h, _⟩ | ⟨_, a, h, _⟩)
        · omega
        · exact hal a h
      · rw [ho] at hal e
        simp only at hal e ⊢
        subst e
        have ha := (hal a).1 rfl
        have ih := ih _ (hv.trans (OnlyFits.one K ρ (hf.trans_le k2.fruit) X))
        rcases hr : fruitifyRuns K ρ clf f X y Z z n (fruitFit K ρ f X X v).2 with ⟨e' | bs, v2⟩
        · rw [hr] at ih
          simp only [reduceCtorEq, false_iff] at ih
          exfalso
          rcases Nat.eq_zero_or_pos n with h | h
          · exact ih [] (Or.inl ⟨h, rfl⟩)
          · exact ih _ (Or.inr ⟨h, a, ha, rfl⟩)
        · rw [hr] at ih
          have := (ih bs).1 rfl
          have hbs : bs = List.replicate n a := by
            rcases this with ⟨rfl, rfl⟩ | ⟨_, b, hb, rfl⟩
            · rfl
            · rw [ha] at hb; cases hb; rfl
          simp only [Except.ok.injEq, hbs]
          constructor
          · rintro rfl; exact Or.inr ⟨Nat.succ_pos _, a, ha, by simp [List.replicate_succ]⟩
          · rintro (⟨h, _⟩ | ⟨_, b, hb, rfl⟩)
            · omega
            · rw [ha] at hb; cases hb; simp [List.replicate_succ]
  have h1 := gen (n + 1) w (OnlyFits.refl K ρ w)
  have h2 := gen 1 w (OnlyFits.refl K ρ w)
  rw [C136_mean, C136_mean]
  simp only [h1, h2]
  simp only [Nat.add_eq_zero_iff, one_ne_zero, and_false, false_and, Nat.succ_pos, true_and, false_or, Nat.zero_lt_one]
  have hc : ((n : R) + 1) ≠ 0 := by positivity
  constructor
  · rintro ⟨_, ⟨a, ha, rfl⟩, rfl⟩
    refine ⟨_, ⟨a, ha, rfl⟩, ?_⟩
    simp [List.sum_replicate]
    field_simp
  · rintro ⟨_, ⟨a, ha, rfl⟩, rfl⟩
    refine ⟨_, ⟨a, ha, rfl⟩, ?_⟩
    simp [List.sum_replicate]
    field_simp

end Fruits
