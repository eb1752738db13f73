import Verif.Equality
import Verif.Props.Prep10

/-! # C98–C100: `==` of preparateurs -/

namespace Fruits
set_option linter.unusedSectionVars false

variable {R : Type} [Field R] [LinearOrder R] [IsStrictOrderedRing R] [FloorRing R]

/-! ### What `==` compares -/

/-- The value of a number, whatever its Python type. -/
def IntOrFloat.value : IntOrFloat R → R
  | .int k => (k : R)
  | .float f => f

/-- The class and the settings that `==` looks at. Objects without a key are not equal to anything. -/
inductive PrepKey (R : Type)
  | inc (shift : R ⊕ (ℕ → ℤ)) (depth : ℕ) (zeroPadding : Bool)
  | std (separately var : Bool)
  | nrm (scaleDim : Bool)
  | mav (width : R)
  | lag
  | rin (width : ℤ ⊕ (ℕ → ℤ)) (adaptive : Bool) (outDim : ℤ) (forceSumOne : Bool) (kernel : Option R)
  | rdw (dirichlet : Bool)
  | jld (d : R) (distribute bias : Bool)
  | spe (freq : R) (additive : Bool) (function : Option (R → R)) (step : Option Norm) (maxLength : Option ℕ)
  | rpe (freq : R) (maxLength : Option ℕ)
  | cts (s : R) (pseudo : Bool)
  | qtc (q : R) (lower : Bool) (bound : Option R)
  | win (start stop : R)
  | dot (n : R) (first : Option R)
  | pdd (density proportion : R)

/-- A shift without the type of a number. -/
def Shift.value : Shift R → R ⊕ (ℕ → ℤ)
  | .int k => .inl (k : R)
  | .float f => .inl f
  | .call f => .inr f

/-- A width: a number or a function. -/
def Width.value : Width → ℤ ⊕ (ℕ → ℤ)
  | .int k => .inl k
  | .call f => .inr f

/-- A constant kernel that can be compared: none at all, or one with a single entry. -/
def kernelValue : Option (List (List R)) → Option (Option R)
  | none => some none
  | some [[x]] => some (some x)
  | _ => none

/-- The key of a preparateur. `FUN`, `FFN`, `DIL`, `DIM`, `NEW` and `RIN` with a kernel of more than one entry have none. -/
def Prep.key : Prep R → Option (PrepKey R)
  | .inc p => some (.inc p.shift.value p.depth p.zeroPadding)
  | .std p => some (.std p.separately p.var)
  | .nrm b => some (.nrm b)
  | .mav p => some (.mav p.given.value)
  | .lag => some .lag
  | .rin p => (kernelValue p.constKernel).map fun k => .rin p.width.value p.adaptive p.outDim p.forceSumOne k
  | .rdw p => some (.rdw p.dirichlet)
  | .jld p => some (.jld p.d.value p.distribute p.bias)
  | .spe p => some (.spe p.freq p.additive p.function p.step p.maxLength)
  | .rpe p => some (.rpe p.freq p.maxLength)
  | .cts p => some (.cts p.s p.pseudo)
  | .qtc p => some (.qtc p.q p.lower p.bound)
  | .win p => some (.win p.start p.stop)
  | .dot p => some (.dot p.given.value (p.firstGiven.map IntOrFloat.value))
  | .pdd p => some (.pdd p.density p.proportion)
  | .func _ | .ffn _ | .dil _ | .dim _ _ | .new _ => none

theorem IntOrFloat.pyEq_iff (a b : IntOrFloat R) : a.pyEq b = true ↔ a.value = b.value := by
  cases a <;> cases b <;> simp [IntOrFloat.pyEq, IntOrFloat.value]

theorem optEq_iff {α β : Type*} (e : α → α → Bool) (v : α → β) (h : ∀ a b, e a b = true ↔ v a = v b) (a b : Option α) :
    optEq e a b = true ↔ a.map v = b.map v := by
  cases a <;> cases b <;> simp [optEq, h]

theorem Shift.pyEq_iff {I : PyId R} (hI : I.Lawful) (a b : Shift R) : a.pyEq I b = true ↔ a.value = b.value := by
  cases a <;> cases b <;> simp [Shift.pyEq, Shift.value, hI.nat_iff]

theorem Width.pyEq_iff {I : PyId R} (hI : I.Lawful) (a b : Width) : a.pyEq I b = true ↔ a.value = b.value := by
  cases a <;> cases b <;> simp [Width.pyEq, Width.value, hI.nat_iff]

theorem kernelEq_iff (a b : Option (List (List R))) :
    kernelEq a b = .ok true ↔ ∃ k, kernelValue a = some k ∧ kernelValue b = some k := by
  rcases a with _ | (_ | ⟨_ | ⟨u, _ | ⟨u', us⟩⟩, _ | ⟨l, ls⟩⟩) <;>
    rcases b with _ | (_ | ⟨_ | ⟨v, _ | ⟨v', vs⟩⟩, _ | ⟨l', ls'⟩⟩) <;> simp [kernelEq, kernelValue, eq_comm]

theorem key_rin {p : RIN R} {k : PrepKey R} : (Prep.rin p).key = some k ↔
    ∃ v, kernelValue p.constKernel = some v ∧ k = .rin p.width.value p.adaptive p.outDim p.forceSumOne v := by
  simp [Prep.key, eq_comm]

/-- `==` is true exactly for objects with the same key. -/
theorem Prep.pyEq_true_iff {I : PyId R} (hI : I.Lawful) (a b : Prep R) :
    a.pyEq I b = .ok true ↔ ∃ k, a.key = some k ∧ b.key = some k := by
  by_cases hr : ∃ x y, a = .rin x ∧ b = .rin y
  · obtain ⟨x, y, rfl, rfl⟩ := hr
    simp only [key_rin, Prep.pyEq]
    constructor
    · intro h
      split at h
      · rename_i hc
        simp only [Bool.and_eq_true, decide_eq_true_eq, Width.pyEq_iff hI] at hc
        obtain ⟨k, h1, h2⟩ := (kernelEq_iff _ _).1 h
        exact ⟨_, ⟨k, h1, rfl⟩, k, h2, by simp [hc]⟩
      · simp at h
    · rintro ⟨_, ⟨k, h1, rfl⟩, k', h2, h⟩
      simp only [PrepKey.rin.injEq] at h
      obtain ⟨hw, ha, ho, hf, rfl⟩ := h
      rw [if_pos (by simp [Width.pyEq_iff hI, hw, ha, ho, hf])]
      exact (kernelEq_iff _ _).2 ⟨_, h1, h2⟩
  · have hfld := optEq_iff I.fld id (fun a b => by simp [hI.fld_iff])
    have hnum := optEq_iff IntOrFloat.pyEq IntOrFloat.value (IntOrFloat.pyEq_iff (R := R))
    cases a <;> cases b <;>
      first
      | (exfalso; exact hr ⟨_, _, rfl, rfl⟩)
      | (simp [Prep.pyEq, Prep.key, IntOrFloat.pyEq_iff, Shift.pyEq_iff hI, hfld, hnum, and_assoc]; done)
      | (simp [Prep.pyEq, Prep.key, IntOrFloat.pyEq_iff, Shift.pyEq_iff hI, hfld, hnum, and_assoc]
         constructor <;> (intro h; simp [h]))

/-! ### C98: equal preparateurs behave equally -/

/-- Whether a number is a Python `float`. -/
def IntOrFloat.isFloat : IntOrFloat R → Bool
  | .int _ => false
  | .float _ => true

/-- Whether a shift is a Python `float`. -/
def Shift.isFloat : Shift R → Bool
  | .float _ => true
  | _ => false

/-- Numbers given for the same setting have the same Python type (`int` or `float`). -/
def Prep.SameTypes : Prep R → Prep R → Prop
  | .inc a, .inc b => a.shift.isFloat = b.shift.isFloat
  | .mav a, .mav b => a.given.isFloat = b.given.isFloat
  | .jld a, .jld b => a.d.isFloat = b.d.isFloat
  | .dot a, .dot b => a.given.isFloat = b.given.isFloat ∧ a.firstGiven.map IntOrFloat.isFloat = b.firstGiven.map IntOrFloat.isFloat
  | _, _ => True

/-- Both have the same `std_eps`, if they are `STD` objects. -/
def Prep.SameEps : Prep R → Prep R → Prop
  | .std a, .std b => a.eps = b.eps
  | _, _ => True

/-- The object was constructed and never fitted. -/
def Prep.Fresh : Prep R → Prop
  | .std p => p.fitted = none
  | .mav p => p.w = none
  | .ffn p => p.fitted = none
  | .rin p => p.fitted = none
  | .rdw p => p.weights = none
  | .jld p => p.fitted = none
  | .qtc p => p.quantile = none
  | .dil p => p.fitted = none
  | .dot p => p.fitted = none
  | .pdd p => p.fitted = none
  | .dim p _ => p.Fresh
  | .new (some p) => p.Fresh
  | _ => True

/-- `p.fit(X)` followed by `p.transform(Y)` with a cache of input `C`; `none` if the fit does not end within `fuel` rounds
of its rejection loop. -/
def Prep.run [NpMath R] (T : FloatText R) (g : Rng R) (fuel : ℕ) (p : Prep R) (X C Y : Data R) :
    Except Err (Option (Data R)) :=
  match p.fit g fuel X with
  | .error e => .error e
  | .ok none => .ok none
  | .ok (some q) => match q.transformC T C Y with
    | .error e => .error e
    | .ok Z => .ok (some Z)

theorem IntOrFloat.eq_of {a b : IntOrFloat R} (h : a.value = b.value) (ht : a.isFloat = b.isFloat) : a = b := by
  cases a <;> cases b <;> simp_all [IntOrFloat.value, IntOrFloat.isFloat]

theorem optNum_eq_of {a b : Option (IntOrFloat R)} (h : a.map IntOrFloat.value = b.map IntOrFloat.value)
    (ht : a.map IntOrFloat.isFloat = b.map IntOrFloat.isFloat) : a = b := by
  cases a <;> cases b <;> simp_all
  exact IntOrFloat.eq_of h ht

theorem Shift.eq_of {a b : Shift R} (h : a.value = b.value) (ht : a.isFloat = b.isFloat) : a = b := by
  cases a <;> cases b <;> simp_all [Shift.value, Shift.isFloat]

theorem Width.eq_of {a b : Width} (h : a.value = b.value) : a = b := by
  cases a <;> cases b <;> simp_all [Width.value]

theorem kernelValue_inj {a b : Option (List (List R))} {k : Option R} (ha : kernelValue a = some k)
    (hb : kernelValue b = some k) : a = b := by
  rcases a with _ | (_ | ⟨_ | ⟨u, _ | ⟨u', us⟩⟩, _ | ⟨l, ls⟩⟩) <;>
    rcases b with _ | (_ | ⟨_ | ⟨v, _ | ⟨v', vs⟩⟩, _ | ⟨l', ls'⟩⟩) <;> cases k <;> simp_all [kernelValue]

theorem Prep.copy_eq_of_pyEq {I : PyId R} (hI : I.Lawful) {a b : Prep R} (h : a.pyEq I b = .ok true)
    (ht : a.SameTypes b) : a.copy = b.copy := by
  obtain ⟨k, ha, hb⟩ := (Prep.pyEq_true_iff hI a b).1 h
  by_cases hr : ∃ x y, a = .rin x ∧ b = .rin y
  · obtain ⟨x, y, rfl, rfl⟩ := hr
    obtain ⟨v, h1, rfl⟩ := key_rin.1 ha
    obtain ⟨w, h2, h3⟩ := key_rin.1 hb
    simp only [PrepKey.rin.injEq] at h3
    obtain ⟨hw, h4, h5, h6, rfl⟩ := h3
    simp [Prep.copy, Width.eq_of hw, h4, h5, h6, kernelValue_inj h1 h2]
  · cases a <;> cases b <;>
      first
      | (exfalso; exact hr ⟨_, _, rfl, rfl⟩)
      | (exfalso; subst_vars; simp [Prep.key] at ha hb; done)
      | (exfalso; simp [Prep.key] at ha hb; subst ha; simp at hb; done)
      | (exfalso; obtain ⟨v, _, rfl⟩ := key_rin.1 ha; simp [Prep.key] at hb; done)
      | skip
    all_goals (rename_i x y; simp only [Prep.key, Option.some.injEq] at ha hb; subst ha; simp at hb)
    case inc =>
      simp only [Prep.copy, Prep.SameTypes] at ht ⊢
      have := Shift.eq_of hb.1.symm ht
      cases x; cases y; simp_all
    case lag => rfl
    case std => simp [Prep.copy, hb]
    case nrm => simp [Prep.copy, hb]
    case mav => simp [Prep.copy, Prep.SameTypes] at ht ⊢; exact IntOrFloat.eq_of hb.symm ht
    case rdw => simp [Prep.copy, hb]
    case jld => simp [Prep.copy, Prep.SameTypes] at ht ⊢; exact ⟨IntOrFloat.eq_of hb.1.symm ht, hb.2.1.symm, hb.2.2.symm⟩
    case spe => cases x; cases y; simp_all [Prep.copy]
    case rpe => cases x; cases y; simp_all [Prep.copy]
    case cts => cases x; cases y; simp_all [Prep.copy]
    case qtc => simp [Prep.copy, hb]
    case win => cases x; cases y; simp_all [Prep.copy]
    case dot => simp [Prep.copy, Prep.SameTypes] at ht ⊢; exact ⟨IntOrFloat.eq_of hb.1.symm ht.1, optNum_eq_of hb.2.symm ht.2⟩
    case pdd => simp [Prep.copy, hb]

theorem Prep.copy_of_fresh {p : Prep R} (h : p.Fresh) (hk : p.key ≠ none) (hs : ∀ q, p ≠ .std q) : p.copy = p := by
  cases p <;> first | (exact absurd rfl hk) | (exact absurd rfl (hs _)) | rfl | skip
  all_goals (rename_i q; cases q; simp_all [Prep.copy, Prep.Fresh])

theorem Prep.eq_of_pyEq {I : PyId R} (hI : I.Lawful) {a b : Prep R} (h : a.pyEq I b = .ok true)
    (ht : a.SameTypes b) (he : a.SameEps b) (ha : a.Fresh) (hb : b.Fresh) : a = b := by
  obtain ⟨k, hka, hkb⟩ := (Prep.pyEq_true_iff hI a b).1 h
  by_cases hs : ∃ x, a = .std x
  · obtain ⟨x, rfl⟩ := hs
    cases b <;> simp [Prep.pyEq] at h
    rename_i y
    cases x; cases y
    simp_all [Prep.SameEps, Prep.Fresh]
  · have hs' : ∀ y, b ≠ .std y := by
      rintro y rfl
      cases a <;> simp [Prep.pyEq] at h
      exact hs ⟨_, rfl⟩
    rw [← Prep.copy_of_fresh ha (by simp [hka]) (fun q e => hs ⟨q, e⟩),
      ← Prep.copy_of_fresh hb (by simp [hkb]) hs']
    exact Prep.copy_eq_of_pyEq hI h ht

/-- C98 (what is true of it): two new preparateurs that compare equal and were given numbers of the same Python type and (for
`STD`) the same `std_eps` give the same results: fitted on the same data with the same random numbers and applied to the same
data they return the same array or raise the same exception.  Missing: `1 == 1.0` and `std_eps`, see the counterexamples. -/
theorem C98_equal_behave_partial [NpMath R] {I : PyId R} (hI : I.Lawful) {a b : Prep R} (h : a.pyEq I b = .ok true)
    (ht : a.SameTypes b) (he : a.SameEps b) (ha : a.Fresh) (hb : b.Fresh) (T : FloatText R) (g : Rng R) (fuel : ℕ)
    (X C Y : Data R) : a.run T g fuel X C Y = b.run T g fuel X C Y := by
  rw [Prep.eq_of_pyEq hI h ht he ha hb]

/-- C98 for copies: here neither the fitted state nor `std_eps` matters (a copy of `STD` has the default one). -/
theorem C98_copies [NpMath R] {I : PyId R} (hI : I.Lawful) {a b : Prep R} (h : a.pyEq I b = .ok true)
    (ht : a.SameTypes b) (T : FloatText R) (g : Rng R) (fuel : ℕ) (X C Y : Data R) :
    a.copy.run T g fuel X C Y = b.copy.run T g fuel X C Y := by
  rw [Prep.copy_eq_of_pyEq hI h ht]

/-- C98 fails for `std_eps`: `STD(False, False, 1) == STD(False, False, 3)`, but they transform `[0, 2]` to different arrays
(with any square root, random numbers and cache). -/
theorem C98_counterexample_eps [NpMath ℚ] (I : PyId ℚ) (T : FloatText ℚ) (g : Rng ℚ) (C : Data ℚ) :
    let a : Prep ℚ := .std { separately := false, var := false, eps := 1 }
    let b : Prep ℚ := .std { separately := false, var := false, eps := 3 }
    a.pyEq I b = .ok true ∧ a.Fresh ∧ b.Fresh ∧ a.SameTypes b
      ∧ a.run T g 1 [[[0, 2]]] C [[[0, 2]]] = .ok (some [[[-1/2, 1/2]]])
      ∧ b.run T g 1 [[[0, 2]]] C [[[0, 2]]] = .ok (some [[[-1/4, 1/4]]]) := by
  refine ⟨rfl, rfl, rfl, trivial, ?_, ?_⟩ <;>
  · simp [Prep.run, Prep.fit, STD.fit, Prep.transformC, STD.transform, entries, mapEntries, mean]
    norm_num [mapRows]

/-- C98 fails for `INC(1) == INC(1.0)`: the first takes increments, the second shifts by the whole length. -/
theorem C98_counterexample_types [NpMath ℚ] (I : PyId ℚ) (T : FloatText ℚ) (g : Rng ℚ) (C : Data ℚ) :
    let a : Prep ℚ := .inc { shift := .int 1 }
    let b : Prep ℚ := .inc { shift := .float 1 }
    a.pyEq I b = .ok true ∧ a.Fresh ∧ b.Fresh ∧ a.SameEps b
      ∧ a.run T g 1 [[[1, 3]]] C [[[1, 3]]] = .ok (some [[[0, 2]]])
      ∧ b.run T g 1 [[[1, 3]]] C [[[1, 3]]] = .ok (some [[[0, 0]]]) := by
  refine ⟨by simp [Prep.pyEq, Shift.pyEq], trivial, trivial, trivial, ?_, ?_⟩ <;>
  · simp [Prep.run, Prep.fit, Prep.transformC]
    decide +kernel

/-! ### C99: how far `==` is an equivalence relation -/

/-- The objects that can be compared with themselves: all but `FUN`, `FFN`, `DIL`, `DIM`, `NEW` and `RIN` with a constant kernel
of more than one entry. -/
def Prep.Comparable : Prep R → Prop
  | .func _ | .ffn _ | .dil _ | .dim _ _ | .new _ => False
  | .rin p => p.constKernel = none ∨ ∃ x, p.constKernel = some [[x]]
  | _ => True

theorem Prep.comparable_iff (p : Prep R) : p.Comparable ↔ ∃ k, p.key = some k := by
  cases p <;> simp [Prep.Comparable, Prep.key]
  rename_i q
  rcases q.constKernel with _ | (_ | ⟨_ | ⟨u, _ | ⟨u', us⟩⟩, _ | ⟨l, ls⟩⟩) <;> simp [kernelValue]

/-- C99, reflexivity: `p == p` is true exactly for the comparable objects. -/
theorem C99_reflexive_partial {I : PyId R} (hI : I.Lawful) (p : Prep R) : p.pyEq I p = .ok true ↔ p.Comparable := by
  rw [Prep.pyEq_true_iff hI, Prep.comparable_iff]
  exact ⟨fun ⟨k, h, _⟩ => ⟨k, h⟩, fun ⟨k, h⟩ => ⟨k, h, h⟩⟩

/-- C99, symmetry: if both `a == b` and `b == a` return, they return the same; and if one is true, so is the other one. -/
theorem C99_symmetric {I : PyId R} (hI : I.Lawful) (a b : Prep R) :
    (a.pyEq I b = .ok true → b.pyEq I a = .ok true)
      ∧ ∀ x y, a.pyEq I b = .ok x → b.pyEq I a = .ok y → x = y := by
  have key : ∀ a b : Prep R, a.pyEq I b = .ok true → b.pyEq I a = .ok true := by
    intro a b
    rw [Prep.pyEq_true_iff hI, Prep.pyEq_true_iff hI]
    exact fun ⟨k, h1, h2⟩ => ⟨k, h2, h1⟩
  refine ⟨key a b, fun x y hx hy => ?_⟩
  cases x <;> cases y <;> try rfl
  · rw [key _ _ hy] at hx; simpa using hx
  · rw [key _ _ hx] at hy; simpa using hy

/-- C99, transitivity. -/
theorem C99_transitive {I : PyId R} (hI : I.Lawful) {a b c : Prep R} (h1 : a.pyEq I b = .ok true)
    (h2 : b.pyEq I c = .ok true) : a.pyEq I c = .ok true := by
  rw [Prep.pyEq_true_iff hI] at *
  obtain ⟨k, ha, hb⟩ := h1
  obtain ⟨k', hb', hc⟩ := h2
  rw [hb] at hb'
  cases hb'
  exact ⟨k, ha, hc⟩

/-- C99, exceptions: `a == b` raises only if `a` is a `WIN`, `DOT` or `PDD` and `b` is of another class, or both are `RIN` and
one of them has a constant kernel that is not a single number. -/
theorem C99_raises {I : PyId R} (a b : Prep R) (e : Err) (h : a.pyEq I b = .error e) :
    ((∃ p, a = .win p) ∧ ∀ q, b ≠ .win q) ∨ ((∃ p, a = .dot p) ∧ ∀ q, b ≠ .dot q)
      ∨ ((∃ p, a = .pdd p) ∧ ∀ q, b ≠ .pdd q)
      ∨ ((∃ p, a = .rin p) ∧ (∃ q, b = .rin q) ∧ (¬ a.Comparable ∨ ¬ b.Comparable)) := by
  by_cases hr : ∃ x y, a = .rin x ∧ b = .rin y
  · obtain ⟨x, y, rfl, rfl⟩ := hr
    refine .inr (.inr (.inr ⟨⟨_, rfl⟩, ⟨_, rfl⟩, ?_⟩))
    simp only [Prep.pyEq] at h
    split at h; rotate_left
    · simp at h
    rw [Prep.comparable_iff, Prep.comparable_iff]
    simp only [Prep.key]
    generalize x.constKernel = u at *
    generalize y.constKernel = v at *
    rcases u with _ | (_ | ⟨_ | ⟨u, _ | ⟨u', us⟩⟩, _ | ⟨l, ls⟩⟩) <;>
      rcases v with _ | (_ | ⟨_ | ⟨v, _ | ⟨v', vs⟩⟩, _ | ⟨l', ls'⟩⟩) <;> simp_all [kernelEq, kernelValue]
  · cases a <;> cases b <;> first | (exfalso; exact hr ⟨_, _, rfl, rfl⟩) | (simp [Prep.pyEq] at h; done) | simp

/-- C99 fails: `DIL() == DIL()` is false even for one and the same object, and `INC() == WIN(0, 1)` is false while
`WIN(0, 1) == INC()` raises a `TypeError`. -/
theorem C99_counterexample (I : PyId ℚ) :
    (Prep.dil { clusters := none } : Prep ℚ).pyEq I (.dil { clusters := none }) = .ok false
      ∧ (Prep.inc {} : Prep ℚ).pyEq I (.win ⟨0, 1⟩) = .ok false
      ∧ (Prep.win ⟨0, 1⟩ : Prep ℚ).pyEq I (.inc {}) = .error .typeError := ⟨rfl, rfl, rfl⟩

/-! ### C100: a copy is equal to its original -/

theorem Prep.key_copy (p : Prep R) : p.copy.key = p.key := by
  cases p <;> try rfl
  rename_i q
  cases q <;> rfl

/-- C100 (what is true of it): `p == p.copy()` and `p.copy() == p` for all comparable objects, fitted or not. -/
theorem C100_copy_equal_partial {I : PyId R} (hI : I.Lawful) (p : Prep R) (h : p.Comparable) :
    p.pyEq I p.copy = .ok true ∧ p.copy.pyEq I p = .ok true := by
  obtain ⟨k, hk⟩ := (Prep.comparable_iff p).1 h
  rw [Prep.pyEq_true_iff hI, Prep.pyEq_true_iff hI]
  exact ⟨⟨k, hk, by rw [Prep.key_copy, hk]⟩, ⟨k, by rw [Prep.key_copy, hk], hk⟩⟩

/-- C100 fails for the others: their copies are never equal to them. -/
theorem C100_not_comparable {I : PyId R} (hI : I.Lawful) (p : Prep R) (h : ¬ p.Comparable) :
    p.pyEq I p.copy ≠ .ok true := by
  rw [Prep.comparable_iff] at h
  rw [Ne, Prep.pyEq_true_iff hI]
  rintro ⟨k, hk, _⟩
  exact h ⟨k, hk⟩

/-! ### The hypotheses can be met -/

open Classical in
/-- The identity of functions. -/
noncomputable example : ∃ I : PyId ℚ, I.Lawful := ⟨⟨fun f g => decide (f = g), fun f g => decide (f = g)⟩, by simp, by simp⟩

example (I : PyId ℚ) : (Prep.mav { given := .float (1 / 2), w := some 3 } : Prep ℚ).pyEq I (.mav { given := .float (1 / 2) }) = .ok true := by
  simp [Prep.pyEq, IntOrFloat.pyEq]
example : (Prep.rin { constKernel := some [[1]] } : Prep ℚ).Comparable := .inr ⟨1, rfl⟩
example : ¬ (Prep.rin { constKernel := some [[1, 2]] } : Prep ℚ).Comparable := by simp [Prep.Comparable]
example : ¬ (Prep.new none : Prep ℚ).Comparable := id
end Fruits
