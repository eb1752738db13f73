import Verif.Getters
import Verif.Props.Demo

/-! # C148: the lists of seeds of a slice -/

namespace Fruits
set_option linter.unusedSectionVars false

variable {R P I W S V : Type} [Field R] [LinearOrder R] [FloorRing R]

/-! ## Specification -/

/-- The arguments of `add` before the first one that is not a seed (or a class of seeds). -/
def acceptedArgs : List (Arg P S) → List (Arg P S)
  | [] => []
  | .bad _ :: _ => []
  | a :: as => a :: acceptedArgs as

/-- The preparateurs among the arguments, in order; `old a` is the preparateur at address `a`. -/
def argPreps (old : ℕ → P) : List (Arg P S) → List P
  | [] => []
  | .prep a :: as => old a :: argPreps old as
  | .prepClass p :: as => p :: argPreps old as
  | _ :: as => argPreps old as

/-- The ISS objects among the arguments. -/
def argIss : List (Arg P S) → List ℕ
  | [] => []
  | .iss a :: as => a :: argIss as
  | _ :: as => argIss as

/-- The sieves among the arguments. -/
def argSieves (old : ℕ → S) : List (Arg P S) → List S
  | [] => []
  | .sieve a :: as => old a :: argSieves old as
  | .sieveClass v :: as => v :: argSieves old as
  | _ :: as => argSieves old as

/-! ## Proofs -/

theorem argPreps_congr {f g : ℕ → P} : ∀ {as : List (Arg P S)}, (∀ a, Arg.prep a ∈ as → f a = g a) → argPreps f as = argPreps g as
  | [], _ => rfl
  | .prep a :: as, h => by rw [argPreps, argPreps, h a (by simp), argPreps_congr fun b hb => h b (by simp [hb])]
  | .iss _ :: as, h => argPreps_congr (as := as) fun b hb => h b (by simp [hb])
  | .sieve _ :: as, h => argPreps_congr (as := as) fun b hb => h b (by simp [hb])
  | .prepClass p :: as, h => by rw [argPreps, argPreps, argPreps_congr fun b hb => h b (by simp [hb])]
  | .sieveClass _ :: as, h => argPreps_congr (as := as) fun b hb => h b (by simp [hb])
  | .bad _ :: as, h => argPreps_congr (as := as) fun b hb => h b (by simp [hb])

theorem argSieves_congr {f g : ℕ → S} : ∀ {as : List (Arg P S)}, (∀ a, Arg.sieve a ∈ as → f a = g a) → argSieves f as = argSieves g as
  | [], _ => rfl
  | .sieve a :: as, h => by rw [argSieves, argSieves, h a (by simp), argSieves_congr fun b hb => h b (by simp [hb])]
  | .iss _ :: as, h => argSieves_congr (as := as) fun b hb => h b (by simp [hb])
  | .prep _ :: as, h => argSieves_congr (as := as) fun b hb => h b (by simp [hb])
  | .sieveClass p :: as, h => by rw [argSieves, argSieves, argSieves_congr fun b hb => h b (by simp [hb])]
  | .prepClass _ :: as, h => argSieves_congr (as := as) fun b hb => h b (by simp [hb])
  | .bad _ :: as, h => argSieves_congr (as := as) fun b hb => h b (by simp [hb])

theorem acceptedArgs_sub : ∀ {as : List (Arg P S)} {x : Arg P S}, x ∈ acceptedArgs as → x ∈ as
  | [], x, h => by simp [acceptedArgs] at h
  | .bad _ :: _, x, h => by simp [acceptedArgs] at h
  | .prep _ :: as, x, h => by
    rcases List.mem_cons.1 (by simpa [acceptedArgs] using h) with h | h
    · simp [h]
    · simp [acceptedArgs_sub h]
  | .iss _ :: as, x, h => by
    rcases List.mem_cons.1 (by simpa [acceptedArgs] using h) with h | h
    · simp [h]
    · simp [acceptedArgs_sub h]
  | .sieve _ :: as, x, h => by
    rcases List.mem_cons.1 (by simpa [acceptedArgs] using h) with h | h
    · simp [h]
    · simp [acceptedArgs_sub h]
  | .prepClass _ :: as, x, h => by
    rcases List.mem_cons.1 (by simpa [acceptedArgs] using h) with h | h
    · simp [h]
    · simp [acceptedArgs_sub h]
  | .sieveClass _ :: as, x, h => by
    rcases List.mem_cons.1 (by simpa [acceptedArgs] using h) with h | h
    · simp [h]
    · simp [acceptedArgs_sub h]

/-- What `sliceAdd` does, without assumptions on the world: the lists grow by some addresses that hold the seeds of the accepted arguments. -/
private theorem sliceAdd_lists (s : ℕ) : ∀ (as : List (Arg P S)) (w : World R P I W S), (∀ x ∈ as, x.Live w) →
    (∃ ps, (∀ a ∈ ps, a < (sliceAdd s as w).2.nPrep) ∧ ((sliceAdd s as w).2.slice s).preps = (w.slice s).preps ++ ps ∧
      ps.map (sliceAdd s as w).2.prep = argPreps w.prep (acceptedArgs as)) ∧
    ((sliceAdd s as w).2.slice s).iss = (w.slice s).iss ++ argIss (acceptedArgs as) ∧
    (∃ vs, (∀ a ∈ vs, a < (sliceAdd s as w).2.nSieve) ∧ ((sliceAdd s as w).2.slice s).sieves = (w.slice s).sieves ++ vs ∧
      vs.map (sliceAdd s as w).2.sieve = argSieves w.sieve (acceptedArgs as)) ∧
    w.nPrep ≤ (sliceAdd s as w).2.nPrep ∧ w.nSieve ≤ (sliceAdd s as w).2.nSieve ∧
    (∀ a < w.nPrep, (sliceAdd s as w).2.prep a = w.prep a) ∧ (∀ a < w.nSieve, (sliceAdd s as w).2.sieve a = w.sieve a)
  | [], w, _ => by
    simp only [sliceAdd]
    exact ⟨⟨[], by simp, by simp, rfl⟩, by simp [acceptedArgs, argIss], ⟨[], by simp, by simp, rfl⟩, by simp⟩
  | .bad e :: as, w, _ => by
    simp only [sliceAdd]
    exact ⟨⟨[], by simp, by simp, rfl⟩, by simp [acceptedArgs, argIss], ⟨[], by simp, by simp, rfl⟩, by simp⟩
  | .prep a :: as, w, h => by
    have ha : a < w.nPrep := h (.prep a) (by simp)
    obtain ⟨⟨ps, h1, h2, h3⟩, h4, ⟨vs, h5, h6, h7⟩, h8, h9, h10, h11⟩ := sliceAdd_lists s as (sliceAddPrep s a w) fun x hx => by
      have := h x (by simp [hx]); cases x <;> exact this
    simp only [sliceAdd]
    refine ⟨⟨a :: ps, ?_, ?_, ?_⟩, ?_, ⟨vs, h5, ?_, h7⟩, h8, h9, h10, h11⟩
    · intro b hb
      rcases List.mem_cons.1 hb with rfl | hb
      · exact lt_of_lt_of_le ha h8
      · exact h1 b hb
    · rw [h2]; simp [sliceAddPrep, World.setSlice]
    · rw [List.map_cons, h3, h10 a ha]; rfl
    · rw [h4]; simp [sliceAddPrep, World.setSlice, acceptedArgs, argIss]
    · rw [h6]; simp [sliceAddPrep, World.setSlice]
  | .iss a :: as, w, h => by
    obtain ⟨⟨ps, h1, h2, h3⟩, h4, ⟨vs, h5, h6, h7⟩, h8, h9, h10, h11⟩ := sliceAdd_lists s as (sliceAddIss s a w) fun x hx => by
      have := h x (by simp [hx]); cases x <;> exact this
    simp only [sliceAdd]
    refine ⟨⟨ps, h1, ?_, h3⟩, ?_, ⟨vs, h5, ?_, h7⟩, h8, h9, h10, h11⟩
    · rw [h2]; simp [sliceAddIss, World.setSlice]
    · rw [h4]; simp [sliceAddIss, World.setSlice, acceptedArgs, argIss]
    · rw [h6]; simp [sliceAddIss, World.setSlice]
  | .sieve a :: as, w, h => by
    have ha : a < w.nSieve := h (.sieve a) (by simp)
    obtain ⟨⟨ps, h1, h2, h3⟩, h4, ⟨vs, h5, h6, h7⟩, h8, h9, h10, h11⟩ := sliceAdd_lists s as (sliceAddSieve s a w) fun x hx => by
      have := h x (by simp [hx]); cases x <;> exact this
    simp only [sliceAdd]
    refine ⟨⟨ps, h1, ?_, h3⟩, ?_, ⟨a :: vs, ?_, ?_, ?_⟩, h8, h9, h10, h11⟩
    · rw [h2]; simp [sliceAddSieve, World.setSlice]
    · rw [h4]; simp [sliceAddSieve, World.setSlice, acceptedArgs, argIss]
    · intro b hb
      rcases List.mem_cons.1 hb with rfl | hb
      · exact lt_of_lt_of_le ha h9
      · exact h5 b hb
    · rw [h6]; simp [sliceAddSieve, World.setSlice]
    · rw [List.map_cons, h7, h11 a ha]; rfl
  | .prepClass p :: as, w, h => by
    obtain ⟨⟨ps, h1, h2, h3⟩, h4, ⟨vs, h5, h6, h7⟩, h8, h9, h10, h11⟩ := sliceAdd_lists s as (sliceAddPrep s w.nPrep (w.newPrep p)) fun x hx => by
      have := h x (by simp [hx]); cases x <;> first | exact this | exact Nat.lt_succ_of_lt this
    have e8 : w.nPrep + 1 ≤ (sliceAdd s as (sliceAddPrep s w.nPrep (w.newPrep p))).2.nPrep := h8
    simp only [sliceAdd]
    refine ⟨⟨w.nPrep :: ps, ?_, ?_, ?_⟩, ?_, ⟨vs, h5, ?_, ?_⟩, by omega, h9, ?_, h11⟩
    · intro b hb
      rcases List.mem_cons.1 hb with rfl | hb
      · omega
      · exact h1 b hb
    · rw [h2]; simp [sliceAddPrep, World.setSlice, World.newPrep, World.setPrep]
    · rw [List.map_cons, h3, h10 _ (Nat.lt_succ_self _)]
      show _ :: _ = p :: argPreps w.prep (acceptedArgs as)
      congr 1
      · simp [sliceAddPrep, World.setSlice, World.newPrep, World.setPrep]
      · refine argPreps_congr fun a ha => ?_
        have : a < w.nPrep := h (.prep a) (by simp [acceptedArgs_sub ha])
        simp [sliceAddPrep, World.setSlice, World.newPrep, World.setPrep, Function.update_of_ne (show a ≠ w.nPrep by omega)]
    · rw [h4]; simp [sliceAddPrep, World.setSlice, World.newPrep, World.setPrep, acceptedArgs, argIss]
    · rw [h6]; simp [sliceAddPrep, World.setSlice, World.newPrep, World.setPrep]
    · exact h7
    · intro a ha
      rw [h10 a (Nat.lt_succ_of_lt ha)]
      simp [sliceAddPrep, World.setSlice, World.newPrep, World.setPrep, Function.update_of_ne (show a ≠ w.nPrep by omega)]
  | .sieveClass v :: as, w, h => by
    obtain ⟨⟨ps, h1, h2, h3⟩, h4, ⟨vs, h5, h6, h7⟩, h8, h9, h10, h11⟩ := sliceAdd_lists s as (sliceAddSieve s w.nSieve (w.newSieve v)) fun x hx => by
      have := h x (by simp [hx]); cases x <;> first | exact this | exact Nat.lt_succ_of_lt this
    have e9 : w.nSieve + 1 ≤ (sliceAdd s as (sliceAddSieve s w.nSieve (w.newSieve v))).2.nSieve := h9
    simp only [sliceAdd]
    refine ⟨⟨ps, h1, ?_, h3⟩, ?_, ⟨w.nSieve :: vs, ?_, ?_, ?_⟩, h8, by omega, h10, ?_⟩
    · rw [h2]; simp [sliceAddSieve, World.setSlice, World.newSieve, World.setSieve]
    · rw [h4]; simp [sliceAddSieve, World.setSlice, World.newSieve, World.setSieve, acceptedArgs, argIss]
    · intro b hb
      rcases List.mem_cons.1 hb with rfl | hb
      · omega
      · exact h5 b hb
    · rw [h6]; simp [sliceAddSieve, World.setSlice, World.newSieve, World.setSieve]
    · rw [List.map_cons, h7, h11 _ (Nat.lt_succ_self _)]
      show _ :: _ = v :: argSieves w.sieve (acceptedArgs as)
      congr 1
      · simp [sliceAddSieve, World.setSlice, World.newSieve, World.setSieve]
      · refine argSieves_congr fun a ha => ?_
        have : a < w.nSieve := h (.sieve a) (by simp [acceptedArgs_sub ha])
        simp [sliceAddSieve, World.setSlice, World.newSieve, World.setSieve, Function.update_of_ne (show a ≠ w.nSieve by omega)]
    · intro a ha
      rw [h11 a (Nat.lt_succ_of_lt ha)]
      simp [sliceAddSieve, World.setSlice, World.newSieve, World.setSieve, Function.update_of_ne (show a ≠ w.nSieve by omega)]

private theorem sliceAdd_ok (s : ℕ) : ∀ (args : List (Arg P S)) (w : World R P I W S), (sliceAdd s args w).1 = .ok () ↔ ∀ e, Arg.bad e ∉ args := by
  intro args
  induction args with
  | nil => simp [sliceAdd]
  | cons x as ih =>
    intro w
    cases x with
    | bad e =>
      simp only [sliceAdd]
      refine ⟨fun h => (by simp at h), fun h => absurd (by simp) (h e)⟩
    | _ => simp [sliceAdd, ih]

/-- **C148.**  `add` appends the accepted arguments in their order: behind what the getters returned before, `get_preparateurs()`, `get_iss()` and
`get_sieves()` return the seeds of the call up to the first argument that is not a seed, a class standing for a new instance of it.  The call
raises exactly if there is such an argument. -/
theorem C148_add_partial (K : Sem R P I W S V) (ρ : ℕ → Rng R) (s : ℕ) (args : List (Arg P S)) (w : World R P I W S) (h : (Op.add s args : Op R P I W S).Live w) :
    (∃ ps, getPreparateurs (step K ρ (.add s args) w).2 s = getPreparateurs w s ++ ps ∧
      ps.map (step K ρ (.add s args) w).2.prep = argPreps w.prep (acceptedArgs args)) ∧
    getIss (step K ρ (.add s args) w).2 s = getIss w s ++ argIss (acceptedArgs args) ∧
    (∃ vs, getSieves (step K ρ (.add s args) w).2 s = getSieves w s ++ vs ∧
      vs.map (step K ρ (.add s args) w).2.sieve = argSieves w.sieve (acceptedArgs args)) ∧
    ((step K ρ (.add s args) w).1 = .ok () ↔ ∀ e, Arg.bad e ∉ args) := by
  obtain ⟨⟨ps, _, h2, h3⟩, h4, ⟨vs, _, h6, h7⟩, _⟩ := sliceAdd_lists s args w h.2
  refine ⟨⟨ps, h2, h3⟩, h4, ⟨vs, h6, h7⟩, ?_⟩
  exact sliceAdd_ok s args w

/-- The calls that may change which seeds the slice `s` has. -/
def Op.Reseeds (w : World R P I W S) (s : ℕ) : Op R P I W S → Prop
  | .add s' _ | .clearPreps s' | .clearIss s' | .clearSieves s' | .clear s' => s' = s
  | .fruitAdd f _ => currentSlice w f = .ok s
  | _ => False

/-- **C148.**  After any history, no call except `add` and the `clear` calls on the slice itself (and `Fruit.add` when the slice is the current one)
changes what the getters of an existing slice return: not fitting, transforming, copying, cutting, or anything done with other slices. -/
theorem C148_others_partial {K : Sem R P I W S V} {ρ : ℕ → Rng R} {w₀ w : World R P I W S} {ops : List (Op R P I W S)} (h₀ : w₀.Empty) (hh : Hist K ρ w₀ ops w)
    {o : Op R P I W S} (hl : o.Live w) {s : ℕ} (hs : s < w.nSlice) (ho : ¬ o.Reseeds w s) :
    getPreparateurs (step K ρ o w).2 s = getPreparateurs w s ∧ getIss (step K ρ o w).2 s = getIss w s ∧ getSieves (step K ρ o w).2 s = getSieves w s := by
  by_cases hset : ∃ s' k, o = .setSample s' k
  · obtain ⟨s', k, rfl⟩ := hset
    simp only [step, sliceSetSample, World.setSlice, getPreparateurs, getIss, getSieves]
    by_cases e : s = s'
    · subst e; simp
    · simp [Function.update_of_ne e]
  · have hw := hh.wf (World.WF.empty h₀)
    have := (step_steps K ρ o w hl hw).conf hs (by
      rintro (hf | hf)
      · exact absurd hs (not_lt.2 hf)
      · cases o <;> first
          | exact hset ⟨_, _, rfl⟩
          | (simp only [Op.Writes, Touch.slice.injEq] at hf; exact ho hf.symm)
          | (simp [Op.Writes] at hf; done)
          | skip
        all_goals simp [Op.Writes, FitTouch] at hf
        all_goals first
          | exact ho hf
          | skip)
    exact ⟨this.1, this.2.1, this.2.2.1⟩

/-- **C148.**  `clear_preparateurs`, `clear_iss` and `clear_sieves` empty their own list and keep the other two; `clear` empties all. -/
theorem C148_clear_partial (K : Sem R P I W S V) (ρ : ℕ → Rng R) (s : ℕ) (w : World R P I W S) :
    (getPreparateurs (step K ρ (.clearPreps s) w).2 s = [] ∧ getIss (step K ρ (.clearPreps s) w).2 s = getIss w s ∧
      getSieves (step K ρ (.clearPreps s) w).2 s = getSieves w s) ∧
    (getPreparateurs (step K ρ (.clearIss s) w).2 s = getPreparateurs w s ∧ getIss (step K ρ (.clearIss s) w).2 s = [] ∧
      getSieves (step K ρ (.clearIss s) w).2 s = getSieves w s) ∧
    (getPreparateurs (step K ρ (.clearSieves s) w).2 s = getPreparateurs w s ∧ getIss (step K ρ (.clearSieves s) w).2 s = getIss w s ∧
      getSieves (step K ρ (.clearSieves s) w).2 s = []) ∧
    (getPreparateurs (step K ρ (.clear s) w).2 s = [] ∧ getIss (step K ρ (.clear s) w).2 s = [] ∧ getSieves (step K ρ (.clear s) w).2 s = []) := by
  simp [step, sliceClearPreps, sliceClearIss, sliceClearSieves, sliceClear, sliceSetSample, World.setSlice, getPreparateurs, getIss, getSieves]

/-! ## The lists are not copies -/

/-- **C148** fails for changes of the returned lists: a list returned by `get_sieves()` or `get_preparateurs()` is the list of the slice, and a change
of it is not noticed.  The fruit of `Demo.ops` is fitted.  Its first slice has the sieves `PPV` and `END`.  If `END` is appended to the list
returned by `get_sieves()` after the fit, the slice still counts as fitted and `transform` does not raise; the appended sieve is never
applied, but the features get one more column per iterated sum, which is zero for all series.  `nfeatures()` counts these columns. -/
theorem Demo.C148_false :
    (sliceTransform Demo.K Demo.w 0 0 Demo.X Demo.X).1.toOption = some [[2/3, 4, 2/3, 5], [0, 0, 0, -1]] ∧
    (sliceTransform Demo.K (writeSieves 0 (getSieves Demo.w 0 ++ [1]) Demo.w) 0 0 Demo.X Demo.X).1.toOption
      = some [[2/3, 4, 2/3, 5, 0, 0], [0, 0, 0, -1, 0, 0]] ∧
    (sliceTransform Demo.K (writePreparateurs 0 [] Demo.w) 0 0 Demo.X Demo.X).1.toOption ≠ (sliceTransform Demo.K Demo.w 0 0 Demo.X Demo.X).1.toOption ∧
    (sliceTransform Demo.K (writePreparateurs 0 [] Demo.w) 0 0 Demo.X Demo.X).1.isOk ∧
    (sliceTransform Demo.K (step Demo.K Demo.rng (.add 0 [.sieve 1]) Demo.w).2 0 0 Demo.X Demo.X).1.isOk = false := by
  refine ⟨?_, ?_, ?_, ?_, ?_⟩ <;> decide +kernel

/-- The hypotheses of `C148_add_partial` hold for a call that adds an object and a class and then fails. -/
example : (Op.add 0 [.sieve 1, .prepClass Demo.incPrep, .bad .typeError, .sieve 0] : Demo.DOp).Live Demo.w ∧
    getSieves (step Demo.K Demo.rng (.add 0 [.sieve 1, .prepClass Demo.incPrep, .bad .typeError, .sieve 0]) Demo.w).2 0 = [0, 1, 1] ∧
    getPreparateurs (step Demo.K Demo.rng (.add 0 [.sieve 1, .prepClass Demo.incPrep, .bad .typeError, .sieve 0]) Demo.w).2 0 = [0, 1] := by
  refine ⟨⟨by decide +kernel, ?_⟩, by decide +kernel, by decide +kernel⟩
  intro x hx
  simp only [List.mem_cons, List.not_mem_nil, or_false] at hx
  rcases hx with rfl | rfl | rfl | rfl
  · show 1 < Demo.w.nSieve; decide +kernel
  · trivial
  · trivial
  · show 0 < Demo.w.nSieve; decide +kernel

/-- `C148_others_partial` applies to fitting the fruit of the demo and its first slice. -/
example : ¬ (Op.fruitFit 0 none Demo.X : Demo.DOp).Reseeds Demo.w 0 := fun h => h

end Fruits
