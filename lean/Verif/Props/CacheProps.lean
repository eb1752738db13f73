import Verif.Cache
import Mathlib.Algebra.Order.BigOperators.Group.Finset
import Mathlib.Data.Rat.Floor

/-! # C35–C38: the shared cache and the seed base class -/

namespace Fruits
set_option linter.unusedSectionVars false

variable {R : Type} [Field R] [LinearOrder R] [IsStrictOrderedRing R]

/-! ### Specification -/

/-- The size of an increment: `|v|` or `v²`. -/
def normTerm (nm : Norm) (v : R) : R :=
  match nm with
  | .L1 => |v|
  | .L2 => v ^ 2

/-- The variation of a series up to time `t`: `∑_{1 ≤ s ≤ t} |x_s - x_{s-1}|` (L1) or the sum of squares (L2). -/
def variation (nm : Norm) (x : ℕ → R) (t : ℕ) : R :=
  ∑ s ∈ Finset.range t, normTerm nm (x (s + 1) - x s)

/-- The `q`-coquantile of a series of length `n`: the number of time steps whose variation is at most `q` times the
total variation. -/
def coqSpec (nm : Norm) (x : ℕ → R) (n : ℕ) (q : R) : ℕ :=
  ((Finset.range n).filter fun t => variation nm x t ≤ q * variation nm x (n - 1)).card

/-- The text of a norm. -/
def Norm.text : Norm → PStr
  | .L1 => "L1".toList
  | .L2 => "L2".toList

/-! ### Closed forms -/

theorem increments1_tab (k n : ℕ) (hk : 0 < k) (f : ℕ → R) :
    increments1 (k : ℤ) (tab n f) = .ok (tab n fun t => if t < k then 0 else f t - f (t - k)) := by
  unfold increments1
  simp only [slcFrom_tab, slcTo_neg_tab n k hk, tab_length, if_true, vsub_tab, zeros_eq]
  rw [pyClip_nat, setSlc_tab _ _ _ _ _ _ le_rfl (by omega) (by omega)]
  congr 1
  apply tab_congr
  intro t ht
  by_cases h : t < k
  · rw [if_neg (by omega), if_pos h]
  · rw [if_pos (by omega), if_neg h]
    congr 2 <;> omega

theorem normVal_eq (nm : Norm) (v : R) : nm.val v = normTerm nm v := by
  cases nm
  · rfl
  · simp [Norm.val, normTerm, pow_two]

theorem cumsum_norm (nm : Norm) (n : ℕ) (f : ℕ → R) :
    cumsum ((tab n fun t => if t < 1 then (0 : R) else f t - f (t - 1)).map nm.val) = tab n (variation nm f) := by
  rw [map_tab, cumsum_tab]
  apply tab_congr
  intro t _
  rw [Finset.sum_range_succ']
  have h0 : nm.val (if 0 < 1 then (0 : R) else f 0 - f (0 - 1)) = 0 := by cases nm <;> simp [Norm.val]
  rw [h0, add_zero]
  unfold variation
  apply Finset.sum_congr rfl
  intro s _
  rw [if_neg (by omega), normVal_eq]
  simp

theorem mapM_ok_tab {α : Type} {m : ℕ} {f : ℕ → α} {β : Type} {g : α → Except Err β} {h : ℕ → β}
    (hh : ∀ i < m, g (f i) = .ok (h i)) : (tab m f).mapM g = .ok (tab m h) := by
  induction m generalizing f h with
  | zero => rfl
  | succ m ih =>
    rw [tab_succ', tab_succ', List.mapM_cons, hh 0 (by omega), ok_bind,
      ih (f := fun i => f (i + 1)) (h := fun i => h (i + 1)) (fun i hi => hh (i + 1) (by omega))]
    rfl

theorem normSum_eq (nm : Norm) {X : Data R} {m d n : ℕ} (hX : HasShape X m d n) (hd : 0 < d) :
    normSum nm X = .ok (tab m fun i => tab n (variation nm (at3 X i 0))) := by
  conv_lhs => rw [hX.eq_tab3]
  unfold normSum
  apply mapM_ok_tab
  intro i _
  have : (tab2 d n (at3 X i)).getD 0 [] = tab n (at3 X i 0) := getD_tab hd
  rw [this]
  have h1 := increments1_tab 1 n Nat.one_pos (at3 X i 0)
  rw [Nat.cast_one] at h1
  rw [h1, ok_bind, cumsum_norm]
  rfl

theorem filter_tab_length {α : Type*} (n : ℕ) (f : ℕ → α) (p : α → Bool) :
    ((tab n f).filter p).length = ((Finset.range n).filter fun t => p (f t) = true).card := by
  induction n with
  | zero => simp
  | succ n ih =>
    rw [tab_succ, List.filter_append, List.length_append, ih, Finset.range_add_one, Finset.filter_insert]
    by_cases h : p (f n) = true
    · rw [if_pos h, Finset.card_insert_of_notMem (by simp)]
      simp [h]
    · rw [if_neg h]
      simp [h]

theorem coquantile1_eq (nm : Norm) (x : ℕ → R) (n : ℕ) (hn : 0 < n) (q : R) :
    coquantile1 q (tab n (variation nm x)) = coqSpec nm x n q := by
  unfold coquantile1 coqSpec
  rw [filter_tab_length, tab_length, getD_tab (by omega)]
  simp

/-! ### C35 -/

/-- A request `cache.get(ty, key, X)`. -/
structure Req (R : Type) where
  ty : CacheType
  key : PStr
  arg : Option (NdArr R)

/-- The cache after a history of requests. -/
def Cache.after (T : FloatText R) (c : Cache R) : List (Req R) → Cache R
  | [] => c
  | r :: rs => Cache.after T (c.get T r.ty r.key r.arg).2 rs

/-- What a `get` on a fresh cache with input `I` answers. -/
def direct (T : FloatText R) (ty : CacheType) (key : PStr) (I : Data R) : Except Err (CacheVal R) :=
  match computeKey T ty key I with
  | .error e => .error e
  | .ok none => .error .keyError
  | .ok (some v) => .ok v

theorem fill_fst (T : FloatText R) (c : Cache R) (ty : CacheType) (key : PStr) (I : Data R) :
    (Cache.fill T c ty key I).1 = direct T ty key I := by
  unfold Cache.fill direct
  rcases computeKey T ty key I with e | _ | v <;> rfl

theorem lookup_cons (c : Cache R) (ty ty' : CacheType) (key key' : PStr) (v : CacheVal R) :
    (Cache.lookup ⟨c.input, ((ty', key'), v) :: c.store⟩ ty key)
      = if ty' = ty ∧ key' = key then some v else c.lookup ty key := by
  unfold Cache.lookup
  by_cases h : ty' = ty ∧ key' = key
  · simp [List.find?_cons, h.1, h.2]
  · have : ¬ ((ty', key') = (ty, key)) := by simpa [Prod.ext_iff] using h
    rw [if_neg h, List.find?_cons_of_neg (by simpa using this)]

/-- Every stored value is the direct value for the input. -/
def Cache.Sound (T : FloatText R) (I : Data R) (c : Cache R) : Prop :=
  c.input = some I ∧ ∀ ty key v, c.lookup ty key = some v → direct T ty key I = .ok v

theorem fill_sound {T : FloatText R} {I : Data R} {c : Cache R} (h : c.Sound T I) (ty : CacheType) (key : PStr) :
    (Cache.fill T c ty key I).2.Sound T I := by
  unfold Cache.fill
  rcases hc : computeKey T ty key I with e | _ | v
  · exact h
  · exact h
  · refine ⟨h.1, ?_⟩
    intro ty' key' v' hl
    rw [lookup_cons] at hl
    split at hl
    · next hk =>
      cases hl
      obtain ⟨rfl, rfl⟩ := hk
      simp [direct, hc]
    · exact h.2 _ _ _ hl

theorem get_sound {T : FloatText R} {I : Data R} {c : Cache R} (h : c.Sound T I) (ty : CacheType) (key : PStr)
    (X : Option (NdArr R)) :
    (c.get T ty key X).1 = direct T ty key I ∧ (c.get T ty key X).2.Sound T I := by
  unfold Cache.get
  rcases hl : c.lookup ty key with _ | v
  · rw [h.1]
    exact ⟨fill_fst _ _ _ _ _, fill_sound h _ _⟩
  · exact ⟨(h.2 _ _ _ hl).symm, h⟩

theorem after_sound {T : FloatText R} {I : Data R} (hist : List (Req R)) {c : Cache R} (h : c.Sound T I) :
    (c.after T hist).Sound T I := by
  induction hist generalizing c with
  | nil => exact h
  | cons r rs ih => exact ih (get_sound h _ _ _).2

/-- **C35.** For every history of earlier `get` calls (with any keys and any `X` arguments, successful or not), a
`get(type, key, Y)` on `SharedSeedCache(X)` answers the same as on a fresh cache, and independently of `Y`. -/
theorem C35_history (T : FloatText R) (X : NdArr R) (hist : List (Req R)) (ty : CacheType) (key : PStr)
    (Y : Option (NdArr R)) :
    (((Cache.new (some X)).after T hist).get T ty key Y).1 = ((Cache.new (some X)).get T ty key none).1 := by
  have h0 : (Cache.new (some X)).Sound T X.toData := ⟨rfl, by intro ty key v h; simp [Cache.new, Cache.lookup] at h⟩
  rw [(get_sound (after_sound hist h0) ty key Y).1, (get_sound h0 ty key none).1]

theorem psplit_key (c norm : PStr) (hc : ':' ∉ c) (hn : ':' ∉ norm) : psplit ':' (c ++ ':' :: norm) = [c, norm] := by
  rw [psplit_append _ _ _ hc, psplit_notMem _ _ hn]

theorem normOf_text (nm : Norm) : normOf nm.text = some nm := by cases nm <;> decide

theorem colon_text (nm : Norm) : ':' ∉ nm.text := by cases nm <;> decide

/-- **C35.** The value of the coquantile key of a number `q` and a norm: for every series the number of time steps whose
variation is at most `q` times the total variation of its first dimension, whatever happened to the cache before. -/
theorem C35_coquantile (T : FloatText R) (hT : T.Lawful) (X : Data R) {m d n : ℕ} (hX : HasShape X m d n) (hd : 0 < d)
    (hn : 0 < n) (hist : List (Req R)) (q : R) (nm : Norm) (Y : Option (NdArr R)) :
    (((Cache.new (some (.d3 X))).after T hist).get T .coquantile (T.toText q ++ ':' :: nm.text) Y).1
      = .ok (.idx ((List.range m).map fun i => coqSpec nm (at3 X i 0) n q)) := by
  have h0 : (Cache.new (some (.d3 X))).Sound T X := ⟨rfl, by intro ty key v h; simp [Cache.new, Cache.lookup] at h⟩
  rw [(get_sound (after_sound hist h0) _ _ Y).1]
  simp only [direct, computeKey, psplit_key _ _ (hT.no_colon q) (colon_text nm), normOf_text, normSum_eq nm hX hd,
    ok_bind, hT.ofText_toText, map_tab, coquantile1_eq nm _ n hn]
  rfl

/-- **C35.** The value of the keys `"L1"`, `"L2"`: for every series the variation up to every time step. -/
theorem C35_iss (T : FloatText R) (X : Data R) {m d n : ℕ} (hX : HasShape X m d n) (hd : 0 < d)
    (hist : List (Req R)) (nm : Norm) (Y : Option (NdArr R)) :
    (((Cache.new (some (.d3 X))).after T hist).get T .iss nm.text Y).1
      = .ok (.sums ((List.range m).map fun i => (List.range n).map fun t => variation nm (at3 X i 0) t)) := by
  have h0 : (Cache.new (some (.d3 X))).Sound T X := ⟨rfl, by intro ty key v h; simp [Cache.new, Cache.lookup] at h⟩
  rw [(get_sound (after_sound hist h0) _ _ Y).1]
  simp only [direct, computeKey, normOf_text, normSum_eq nm hX hd, ok_bind]
  rfl

/-- A key that is understood: a norm, or a number, a colon and a norm. -/
def KnownKey (T : FloatText R) : CacheType → PStr → Prop
  | .iss, key => ∃ nm : Norm, key = nm.text
  | .coquantile, key => ∃ c, ∃ nm : Norm, ':' ∉ c ∧ key = c ++ ':' :: nm.text ∧ (T.ofText c).isSome

theorem normOf_eq_some {s : PStr} {nm : Norm} (h : normOf s = some nm) : s = nm.text := by
  unfold normOf at h
  split at h
  · next h1 => cases h; exact h1
  · split at h
    · next h1 => cases h; exact h1
    · cases h

theorem psplit_two {c : Char} {s a b : PStr} (h : psplit c s = [a, b]) : c ∉ a ∧ s = a ++ c :: b := by
  induction s generalizing a b with
  | nil => simp [psplit] at h
  | cons x xs ih =>
    rw [psplit] at h
    by_cases hx : x = c
    · rw [if_pos hx] at h
      simp only [List.cons.injEq] at h
      obtain ⟨rfl, h2⟩ := h
      refine ⟨by simp, ?_⟩
      subst hx
      have key : ∀ (t u : PStr), psplit x t = [u] → t = u := by
        intro t
        induction t with
        | nil => intro u hu; simp [psplit] at hu; exact hu.symm
        | cons y ys ih2 =>
          intro u hu
          rw [psplit] at hu
          split at hu
          · simp [psplit_ne_nil] at hu
          · rcases hs : psplit x ys with _ | ⟨p, ps⟩
            · exact absurd hs (psplit_ne_nil _ _)
            · rw [hs] at hu
              simp only [List.cons.injEq] at hu
              obtain ⟨hu1, hu2⟩ := hu
              subst hu2
              rw [ih2 p hs]; exact hu1
      rw [key _ _ h2]; rfl
    · rw [if_neg hx] at h
      rcases hs : psplit c xs with _ | ⟨p, ps⟩
      · exact absurd hs (psplit_ne_nil _ _)
      · rw [hs] at h
        simp only [List.cons.injEq] at h
        obtain ⟨rfl, rfl⟩ := h
        obtain ⟨h1, h2⟩ := ih hs
        refine ⟨by simp [Ne.symm hx, h1], by rw [h2]; rfl⟩

/-- **C35.** Every other key raises, whatever happened before. -/
theorem C35_unknown_key (T : FloatText R) (X : NdArr R) (hist : List (Req R)) (ty : CacheType) (key : PStr)
    (Y : Option (NdArr R)) (hk : ¬ KnownKey T ty key) :
    ∃ e, (((Cache.new (some X)).after T hist).get T ty key Y).1 = .error e := by
  have h0 : (Cache.new (some X)).Sound T X.toData := ⟨rfl, by intro ty key v h; simp [Cache.new, Cache.lookup] at h⟩
  rw [(get_sound (after_sound hist h0) _ _ Y).1]
  unfold direct computeKey
  cases ty with
  | iss =>
    rcases hn : normOf key with _ | nm
    · exact ⟨_, rfl⟩
    · exact absurd ⟨nm, normOf_eq_some hn⟩ hk
  | coquantile =>
    simp only
    split
    · next e _ => exact ⟨e, rfl⟩
    · exact ⟨_, rfl⟩
    · next v hv =>
      exfalso
      split at hv
      · next c norm hs =>
        rcases hn : normOf norm with _ | nm
        · rw [hn] at hv; simp at hv
        · rw [hn] at hv
          simp only at hv
          rcases hS : normSum nm X.toData with e | S
          · rw [hS] at hv; simp at hv
          · rw [hS, ok_bind] at hv
            rcases hp : T.ofText c with _ | q
            · rw [hp] at hv; simp at hv
            · obtain ⟨h1, h2⟩ := psplit_two hs
              exact hk ⟨c, nm, h1, by rw [h2, normOf_eq_some hn], by rw [hp]; rfl⟩
      · cases hv

/-! ### C36 -/

/-- The value of the first request in a history that names this key, has an argument and can be computed. -/
def firstValue (T : FloatText R) (ty : CacheType) (key : PStr) : List (Req R) → Option (CacheVal R)
  | [] => none
  | r :: rs =>
    if r.ty = ty ∧ r.key = key then
      match r.arg with
      | some Y =>
        -- what a fresh cache built from this argument answers
        match ((Cache.new (some Y)).get T ty key none).1 with
        | .ok v => some v
        | .error _ => firstValue T ty key rs
      | none => firstValue T ty key rs
    else firstValue T ty key rs

theorem get_fresh (T : FloatText R) (Y : NdArr R) (ty : CacheType) (key : PStr) :
    ((Cache.new (some Y)).get T ty key none).1 = direct T ty key Y.toData := by
  have h0 : (Cache.new (some Y)).Sound T Y.toData := ⟨rfl, by intro ty key v h; simp [Cache.new, Cache.lookup] at h⟩
  exact (get_sound h0 ty key none).1

theorem firstValue_same (T : FloatText R) (r : Req R) (rs : List (Req R)) :
    firstValue T r.ty r.key (r :: rs) = match r.arg with
      | some Y => match direct T r.ty r.key Y.toData with
        | .ok v => some v
        | .error _ => firstValue T r.ty r.key rs
      | none => firstValue T r.ty r.key rs := by
  rw [firstValue, if_pos ⟨rfl, rfl⟩]
  rcases r.arg with _ | Y
  · rfl
  · simp only [get_fresh]

theorem lookup_after (T : FloatText R) (hist : List (Req R)) (c : Cache R) (hc : c.input = none) (ty : CacheType)
    (key : PStr) :
    (c.after T hist).input = none ∧
    (c.after T hist).lookup ty key = (c.lookup ty key).orElse fun _ => firstValue T ty key hist := by
  induction hist generalizing c with
  | nil =>
    refine ⟨hc, ?_⟩
    cases h : c.lookup ty key <;> simp [Cache.after, firstValue, h]
  | cons r rs ih =>
    have hin : (c.get T r.ty r.key r.arg).2.input = none := by
      unfold Cache.get Cache.fill
      rw [hc]
      rcases c.lookup r.ty r.key with _ | v
      · rcases r.arg with _ | Y
        · exact hc
        · simp only
          rcases computeKey T r.ty r.key Y.toData with e | _ | v <;> first | exact hc | rfl
      · exact hc
    obtain ⟨h1, h2⟩ := ih _ hin
    refine ⟨h1, ?_⟩
    rw [Cache.after, h2]
    -- the entry after one request
    by_cases hk : r.ty = ty ∧ r.key = key
    · obtain ⟨rfl, rfl⟩ := hk
      rcases hl : c.lookup r.ty r.key with _ | v
      · rw [firstValue_same]
        unfold Cache.get
        rw [hl, hc]
        rcases r.arg with _ | Y
        · simp [hl]
        · simp only [Cache.fill, direct]
          rcases computeKey T r.ty r.key Y.toData with e | _ | v
          · simp [hl]
          · simp [hl]
          · simp only [lookup_cons]
            simp
      · simp [Cache.get, hl]
    · have : (c.get T r.ty r.key r.arg).2.lookup ty key = c.lookup ty key := by
        unfold Cache.get
        rcases c.lookup r.ty r.key with _ | v
        · rw [hc]
          rcases r.arg with _ | Y
          · rfl
          · simp only [Cache.fill]
            rcases computeKey T r.ty r.key Y.toData with e | _ | v
            · rfl
            · rfl
            · simp only [lookup_cons, if_neg hk]
        · rfl
      rw [this, firstValue, if_neg hk]

/-- **C36.** On `SharedSeedCache()` the answer to `get(type, key, Y)` after any history is the value of the first earlier
request for this key that could be computed (from *its* argument); if there was none it is computed from `Y`, and without
`Y` a `RuntimeError` is raised. -/
theorem C36_first_request_wins (T : FloatText R) (hist : List (Req R)) (ty : CacheType) (key : PStr)
    (Y : Option (NdArr R)) :
    (((Cache.new none).after T hist).get T ty key Y).1
      = match firstValue T ty key hist, Y with
        | some v, _ => .ok v
        | none, some Y => ((Cache.new (some Y)).get T ty key none).1
        | none, none => .error .runtimeError := by
  obtain ⟨h1, h2⟩ := lookup_after T hist (Cache.new none) rfl ty key
  have h3 : (Cache.new none : Cache R).lookup ty key = none := rfl
  rw [h3] at h2
  simp only [Option.orElse_none] at h2
  unfold Cache.get
  rw [h2, h1]
  rcases firstValue T ty key hist with _ | v
  · rcases Y with _ | Y
    · rfl
    · simp only [fill_fst]
      exact (get_fresh T Y ty key).symm
  · rfl

/-- A trivial text form, for examples that use no numbers in keys. -/
def noText : FloatText ℚ := ⟨fun _ => [], fun _ => none⟩

/-- Non-vacuity: two requests with different series, the first one wins. -/
example :
    (((Cache.new none).after noText [⟨.iss, "L1".toList, some (.d1 [0, 1, 3])⟩]).get noText .iss "L1".toList
        (some (.d1 [5, 0, 5]))).1.toOption.map (fun v => match v with | .sums s => s | .idx _ => [])
      = some [[0, 1, 3]] := by
  decide +kernel

/-! ### C37 -/

theorem normTerm_nonneg (nm : Norm) (v : R) : 0 ≤ normTerm nm v := by
  cases nm
  · exact abs_nonneg v
  · exact sq_nonneg v

theorem variation_mono (nm : Norm) (x : ℕ → R) : Monotone (variation nm x) := by
  intro a b hab
  unfold variation
  exact Finset.sum_le_sum_of_subset_of_nonneg (Finset.range_mono hab) fun s _ _ => normTerm_nonneg nm _

theorem variation_nonneg (nm : Norm) (x : ℕ → R) (t : ℕ) : 0 ≤ variation nm x t :=
  Finset.sum_nonneg fun _ _ => normTerm_nonneg nm _

theorem coqSpec_lt (nm : Norm) (x : ℕ → R) (n : ℕ) (q : R) (i : ℕ) (hi : i < n) :
    i < coqSpec nm x n q ↔ variation nm x i ≤ q * variation nm x (n - 1) := by
  let P : ℕ → Prop := fun t => variation nm x t ≤ q * variation nm x (n - 1)
  have hcoq : coqSpec nm x n q = ((Finset.range n).filter P).card := rfl
  have hdown : ∀ s t, s ≤ t → P t → P s := fun s t hst ht => (variation_mono nm x hst).trans ht
  constructor
  · intro h
    by_contra hcon
    have hsub : (Finset.range n).filter P ⊆ Finset.range i := by
      intro t ht
      simp only [Finset.mem_filter, Finset.mem_range] at ht ⊢
      by_contra hti
      exact hcon (hdown i t (by omega) ht.2)
    have := Finset.card_le_card hsub
    rw [Finset.card_range] at this
    omega
  · intro h
    have hsub : Finset.range (i + 1) ⊆ (Finset.range n).filter P := by
      intro t ht
      simp only [Finset.mem_filter, Finset.mem_range] at ht ⊢
      exact ⟨by omega, hdown t i (by omega) h⟩
    have := Finset.card_le_card hsub
    rw [Finset.card_range] at this
    omega

/-- **C37.** The coquantiles the cache returns (after any history): for a series with `n ≥ 1` time steps the
`q`-coquantile `c` satisfies `c ≤ n`; `1 ≤ c` if `0 ≤ q`; `c = n` for `q = 1`; and time step `i` lies before `c` if and
only if the variation up to `i` is at most `q` times the total variation. -/
theorem C37_cut_points (T : FloatText R) (hT : T.Lawful) (X : Data R) {m d n : ℕ} (hX : HasShape X m d n) (hd : 0 < d)
    (hn : 0 < n) (hist : List (Req R)) (q : R) (nm : Norm) (Y : Option (NdArr R)) :
    ∃ c : List ℕ, (((Cache.new (some (.d3 X))).after T hist).get T .coquantile (T.toText q ++ ':' :: nm.text) Y).1
        = .ok (.idx c) ∧ c.length = m ∧
      ∀ i < m, (c.getD i 0 ≤ n) ∧ (0 ≤ q → 1 ≤ c.getD i 0) ∧ (q = 1 → c.getD i 0 = n) ∧
        ∀ t < n, (t < c.getD i 0 ↔ variation nm (at3 X i 0) t ≤ q * variation nm (at3 X i 0) (n - 1)) := by
  refine ⟨_, C35_coquantile T hT X hX hd hn hist q nm Y, by simp, ?_⟩
  intro i hi
  have hg : ((List.range m).map fun i => coqSpec nm (at3 X i 0) n q).getD i 0 = coqSpec nm (at3 X i 0) n q :=
    getD_tab (f := fun i => coqSpec nm (at3 X i 0) n q) hi
  rw [hg]
  have hle : coqSpec nm (at3 X i 0) n q ≤ n := by
    have := Finset.card_filter_le (Finset.range n)
      (fun t => variation nm (at3 X i 0) t ≤ q * variation nm (at3 X i 0) (n - 1))
    rw [Finset.card_range] at this
    exact this
  refine ⟨hle, ?_, ?_, fun t ht => coqSpec_lt nm _ n q t ht⟩
  · intro hq
    have := (coqSpec_lt nm (at3 X i 0) n q 0 hn).2 (by
      have h0 : variation nm (at3 X i 0) 0 = 0 := by simp [variation]
      rw [h0]
      exact mul_nonneg hq (variation_nonneg _ _ _))
    omega
  · rintro rfl
    have := (coqSpec_lt nm (at3 X i 0) n 1 (n - 1) (by omega)).2 (by rw [one_mul])
    omega

/-- **C37.** Coquantiles are monotone in `q`. -/
theorem C37_monotone (T : FloatText R) (hT : T.Lawful) (X : Data R) {m d n : ℕ} (hX : HasShape X m d n) (hd : 0 < d)
    (hn : 0 < n) (hist hist' : List (Req R)) (q q' : R) (hqq : q ≤ q') (nm : Norm) :
    ∃ c c' : List ℕ,
      (((Cache.new (some (.d3 X))).after T hist).get T .coquantile (T.toText q ++ ':' :: nm.text) none).1
        = .ok (.idx c) ∧
      (((Cache.new (some (.d3 X))).after T hist').get T .coquantile (T.toText q' ++ ':' :: nm.text) none).1
        = .ok (.idx c') ∧ List.Forall₂ (· ≤ ·) c c' := by
  refine ⟨_, _, C35_coquantile T hT X hX hd hn hist q nm none, C35_coquantile T hT X hX hd hn hist' q' nm none, ?_⟩
  rw [List.forall₂_map_left_iff, List.forall₂_map_right_iff, List.forall₂_same]
  intro i _
  apply Finset.card_le_card
  intro t ht
  simp only [Finset.mem_filter] at ht ⊢
  exact ⟨ht.1, ht.2.trans (mul_le_mul_of_nonneg_right hqq (variation_nonneg _ _ _))⟩

/-- Non-vacuity: a series with its coquantile; the variation is `0, 1, 2, 12`, so three steps lie below half of it. -/
example : (coquantile1 (1/2 : ℚ) ((normSum .L1 [[[0, 1, 0, 10]]]).toOption.get! |>.getD 0 []) = 3) := by decide +kernel

/-! ### C38 -/

variable {σ α : Type}

/-- A call of the public interface of a seed. -/
inductive SeedCall (R : Type)
  | fit (X : Data R)
  | transform (X : Data R)
  | fitTransform (X : Data R)

/-- Performs a call: whether it succeeded, and the seed afterwards. -/
def SeedObj.perform (I : SeedImpl R σ α) (o : SeedObj R σ) : SeedCall R → Bool × SeedObj R σ
  | .fit X => ((o.fit I X).1.isOk, (o.fit I X).2)
  | .transform X => ((o.transform I X).1.isOk, (o.transform I X).2)
  | .fitTransform X => ((o.fitTransform I X).1.isOk, (o.fitTransform I X).2)

/-- Performs calls one after the other as long as they succeed; `none` if one raises. -/
def SeedObj.performAll (I : SeedImpl R σ α) (o : SeedObj R σ) : List (SeedCall R) → Option (SeedObj R σ)
  | [] => some o
  | c :: cs => match o.perform I c with
    | (true, o') => SeedObj.performAll I o' cs
    | (false, _) => none

theorem call_ok_cache {β : Type} {f : Data R → σ → Cache R → Except Err β × σ × Cache R} {X : Data R} {o : SeedObj R σ}
    (ho : o.cache = none) {b : β} (h : (o.call f X).1 = .ok b) : (o.call f X).2.cache = none := by
  unfold SeedObj.call at h ⊢
  rw [ho] at h ⊢
  simp only [Option.getD_none, Option.isSome_none] at h ⊢
  rcases hf : f X o.st (Cache.new (some (.d3 X))) with ⟨e | a, st, c⟩
  · rw [hf] at h; cases h
  · rfl

theorem isOk_iff {β : Type} {r : Except Err β} : r.isOk = true ↔ ∃ b, r = .ok b := by
  cases r <;> simp [Except.isOk, Except.toBool]

/-- **C38 (partial).** Whatever the seed class does, a history of successful `fit`, `transform` and `fit_transform` calls
on a seed without a cache leaves it without a cache, and every call started with a fresh cache of its own data (the answer
of the next call is that of the implementation run on `SharedSeedCache(X)`). Missing: calls that raise, see
`C38_counterexample`. -/
theorem C38_no_cache_left_partial (I : SeedImpl R σ α) (o : SeedObj R σ) (ho : o.cache = none)
    (calls : List (SeedCall R)) (o' : SeedObj R σ) (h : o.performAll I calls = some o') :
    o'.cache = none ∧
      ∀ X, (o'.fit I X).1 = (I.fit X o'.st (Cache.new (some (.d3 X)))).1 ∧
        (o'.transform I X).1 = (I.transform X o'.st (Cache.new (some (.d3 X)))).1 := by
  have hc : o'.cache = none := by
    induction calls generalizing o with
    | nil => cases h; exact ho
    | cons c cs ih =>
      rw [SeedObj.performAll] at h
      have hstep : ∀ o1, o.perform I c = (true, o1) → o1.cache = none := by
        intro o1 h1
        cases c with
        | fit X =>
          simp only [SeedObj.perform, Prod.mk.injEq] at h1
          obtain ⟨b, hb⟩ := isOk_iff.1 h1.1
          rw [← h1.2]; exact call_ok_cache ho hb
        | transform X =>
          simp only [SeedObj.perform, Prod.mk.injEq] at h1
          obtain ⟨b, hb⟩ := isOk_iff.1 h1.1
          rw [← h1.2]; exact call_ok_cache ho hb
        | fitTransform X =>
          simp only [SeedObj.perform, Prod.mk.injEq] at h1
          obtain ⟨b, hb⟩ := isOk_iff.1 h1.1
          rw [← h1.2]
          unfold SeedObj.fitTransform at hb ⊢
          rcases hf : o.fit I X with ⟨e | u, o2⟩
          · rw [hf] at hb; cases hb
          · rw [hf] at hb
            simp only at hb ⊢
            have h2 : o2.cache = none := by
              have := call_ok_cache (o := o) (f := I.fit) (X := X) ho (b := u) (by
                change (o.fit I X).1 = _; rw [hf])
              change (o.fit I X).2.cache = none at this
              rwa [hf] at this
            exact call_ok_cache h2 hb
      rcases hp : o.perform I c with ⟨_ | _, o1⟩
      · rw [hp] at h; cases h
      · rw [hp] at h
        exact ih o1 (hstep o1 hp) h
  refine ⟨hc, ?_⟩
  intro X
  constructor
  · unfold SeedObj.fit SeedObj.call
    rw [hc]
    simp only [Option.getD_none]
    rcases I.fit X o'.st (Cache.new (some (.d3 X))) with ⟨e | a, st, c⟩ <;> rfl
  · unfold SeedObj.transform SeedObj.call
    rw [hc]
    simp only [Option.getD_none]
    rcases I.transform X o'.st (Cache.new (some (.d3 X))) with ⟨e | a, st, c⟩ <;> rfl

/-- A seed whose `_transform` answers the cached total L1 variation and raises for datasets with more than one series. -/
def cacheReader : SeedImpl ℚ Unit (List (List ℚ)) where
  fit _ st c := (.ok (), st, c)
  transform X st c :=
    let r := c.get noText .iss "L1".toList none
    if X.length ≤ 1 then
      match r.1 with
      | .ok (.sums s) => (.ok s, st, r.2)
      | .ok (.idx _) => (.error .typeError, st, r.2)
      | .error e => (.error e, st, r.2)
    else (.error .valueError, st, r.2)

/-- C38 fails after an exception: after a `transform` that raised, the next `transform` of the series `[7, 7]` answers the
variation of the *earlier* data `[0, 5]`, and the seed has a cache. -/
theorem C38_counterexample :
    let o : SeedObj ℚ Unit := ⟨(), none⟩
    let o1 := (o.transform cacheReader [[[0, 5]], [[0, 5]]])
    let o2 := (o1.2.transform cacheReader [[[7, 7]]])
    o1.1.toOption = none ∧ o1.2.cache.isSome = true ∧ o2.1.toOption = some [[0, 5], [0, 5]] ∧
      (o.transform cacheReader [[[7, 7]]]).1.toOption = some [[0, 0]] := by
  decide +kernel

end Fruits
