import Verif.OfWeightLemmas
import Mathlib.Data.Rat.Defs

/-! # Properties of simple words (C23-C28)

`order` is the iteration order of Python sets of integers, `permSet` the iteration order of
`set(itertools.permutations(...))`; both are arbitrary. -/

namespace Fruits
set_option linter.unusedSectionVars false
variable {R : Type}

/-- The set order used in examples. -/
theorem dedup_order {α : Type} [DecidableEq α] : SetOrder (List.dedup : List α → List α) := fun _ => .refl _

/-- The numbers a word consists of. -/
def values (ws : List (List Tok)) : List (List ℤ) := ws.map (·.map Tok.value)

/-- What the constructor does on a string of the grammar without letter 0. -/
theorem mk_eq {order : List ℤ → List ℤ} (ho : SetOrder order) (ws : List (List Tok)) (hwf : WellFormed ws)
    (hnz : NonZero (values ws)) :
    SWord.mk' R order (wordStr ws)
      = .ok ⟨storedEls (maxLetter (values ws)) (values ws), maxLetter (values ws), wordStr ws, none⟩ := by
  have := multiply_eq (R := R) ho [] [] none ws hwf hnz
  rw [List.nil_append, List.nil_append] at this
  exact this

theorem maxLetter_isGreatest (vs : List (List ℤ)) (hwf : WellFormed vs) :
    IsGreatest {n : ℕ | ∃ el ∈ vs, ∃ l ∈ el, n = l.natAbs} (maxLetter vs) := by
  constructor
  · by_cases h : 0 < maxLetter vs
    · obtain ⟨el, hel, l, hl, h2⟩ := exists_maxLetter h
      exact ⟨el, hel, l, hl, h2.symm⟩
    · obtain ⟨hne, hne'⟩ := hwf
      cases vs with
      | nil => exact absurd rfl hne
      | cons el vs =>
        have := hne' el (by simp)
        cases el with
        | nil => exact absurd rfl this
        | cons l el =>
          refine ⟨_, List.mem_cons_self, l, List.mem_cons_self, ?_⟩
          have := le_maxLetter (els := (l :: el) :: vs) List.mem_cons_self (l := l) List.mem_cons_self
          omega
  · rintro n ⟨el, hel, l, hl, rfl⟩
    exact le_maxLetter hel hl

theorem values_wf {ws : List (List Tok)} (h : WellFormed ws) : WellFormed (values ws) := by
  refine ⟨by simpa [values] using h.1, ?_⟩
  intro el hel
  obtain ⟨ts, hts, rfl⟩ := List.mem_map.1 hel
  simpa using h.2 ts hts

/-- **C23 (acceptance).** `SimpleWord(s)` succeeds exactly for the strings `[…][…]…` of the documented form with
at least one letter other than `0`; a string not of this form raises `ValueError`. -/
theorem C23_accepts (order : List ℤ → List ℤ) (ho : SetOrder order) (s : PStr) :
    ((∃ w, SWord.mk' R order s = .ok w) ↔
      ∃ ws : List (List Tok), WellFormed ws ∧ s = wordStr ws ∧ ∃ el ∈ ws, ∃ t ∈ el, t.value ≠ 0) ∧
    ((¬ ∃ ws : List (List Tok), WellFormed ws ∧ s = wordStr ws) → SWord.mk' R order s = .error .valueError) := by
  have hno : (¬ ∃ ws : List (List Tok), WellFormed ws ∧ s = wordStr ws) →
      SWord.mk' R order s = .error .valueError := by
    intro h
    rw [← rmatch_iff] at h
    simp [SWord.mk', SWord.multiply, h]
  refine ⟨?_, hno⟩
  by_cases hg : ∃ ws : List (List Tok), WellFormed ws ∧ s = wordStr ws
  swap
  · constructor
    · rintro ⟨w, hw⟩
      rw [hno hg] at hw; cases hw
    · rintro ⟨ws, h1, h2, -⟩
      exact absurd ⟨ws, h1, h2⟩ hg
  -- evaluate on the grammar
  have heval : ∀ ws : List (List Tok), WellFormed ws → SWord.mk' R order (wordStr ws) =
      ((values ws).mapM (countLetters (maxLetter (values ws)) order)).bind fun new =>
        .ok ⟨new, maxLetter (values ws), wordStr ws, none⟩ := by
    intro ws hwf
    have hm : simpleWordRe.rmatch (wordStr ws) = true := (rmatch_iff _).2 ⟨ws, hwf, rfl⟩
    unfold SWord.mk' SWord.multiply
    rw [if_pos hm]
    simp only [scan_words, ok_bind, List.map_nil, ite_self, List.nil_append]
    change (((values ws).mapM (countLetters (if maxLetter (values ws) > 0 then maxLetter (values ws) else 0) order))
      >>= _) = _
    have : (if maxLetter (values ws) > 0 then maxLetter (values ws) else 0) = maxLetter (values ws) := by
      split <;> omega
    rw [this]
    cases (values ws).mapM (countLetters (maxLetter (values ws)) order) with
    | error e => rfl
    | ok v =>
      simp only [Except.bind, ok_bind]
      rw [show (maxLetter (ws.map (·.map Tok.value))) = maxLetter (values ws) from rfl, this]
  constructor
  · rintro ⟨w, hw⟩
    obtain ⟨ws, hwf, rfl⟩ := hg
    refine ⟨ws, hwf, rfl, ?_⟩
    by_contra hcon
    push Not at hcon
    have hmax : maxLetter (values ws) = 0 := by
      by_contra h0
      obtain ⟨el, hel, l, hl, h2⟩ := exists_maxLetter (Nat.pos_of_ne_zero h0)
      obtain ⟨ts, hts, rfl⟩ := List.mem_map.1 hel
      obtain ⟨t, ht, rfl⟩ := List.mem_map.1 hl
      have := hcon ts hts t ht
      omega
    rw [heval ws hwf, hmax] at hw
    have hv := values_wf hwf
    cases hvs : values ws with
    | nil => exact hv.1 hvs
    | cons el vs =>
      rw [hvs, List.mapM_cons, countLetters_zero ho (hv.2 el (by simp [hvs]))] at hw
      cases hw
  · rintro ⟨ws, hwf, rfl, el, hel, t, ht, h0⟩
    rw [heval ws hwf]
    have hpos : 0 < maxLetter (values ws) := by
      have := le_maxLetter (els := values ws) (List.mem_map.2 ⟨el, hel, rfl⟩)
        (List.mem_map.2 ⟨t, ht, rfl⟩ : t.value ∈ el.map Tok.value)
      omega
    have : ∃ v, (values ws).mapM (countLetters (maxLetter (values ws)) order) = .ok v := by
      have hle : ∀ el ∈ values ws, ∀ l ∈ el, l.natAbs ≤ maxLetter (values ws) :=
        fun el hel l hl => le_maxLetter hel hl
      revert hpos hle
      generalize maxLetter (values ws) = m
      intro hpos
      induction values ws with
      | nil => intro _; exact ⟨[], rfl⟩
      | cons el vs ih =>
        intro hle
        obtain ⟨v, hv⟩ := ih fun e he => hle e (by simp [he])
        obtain ⟨u, hu, -⟩ := countLetters_ok hpos ho (hle el (by simp))
        exact ⟨u :: v, by rw [List.mapM_cons, hu, hv]; rfl⟩
    obtain ⟨v, hv⟩ := this
    rw [hv]
    exact ⟨_, rfl⟩

/-- **C23 (content).** On a string of the documented form without letter `0` the word remembers the string, has the
highest dimension used as its dimension, and stores for every extended letter and every dimension `d` the number of
occurrences of `d` minus the number of occurrences of `-d`. -/
theorem C23_content (order : List ℤ → List ℤ) (ho : SetOrder order) (ws : List (List Tok)) (hwf : WellFormed ws)
    (hnz : ∀ el ∈ ws, ∀ t ∈ el, t.value ≠ 0) :
    ∃ w : SWord R, SWord.mk' R order (wordStr ws) = .ok w ∧ w.name = wordStr ws ∧ w.alpha = none ∧
      IsGreatest {n : ℕ | ∃ el ∈ ws, ∃ t ∈ el, n = t.value.natAbs} w.maxDim ∧
      w.els.length = ws.length ∧
      ∀ (i : ℕ) (el : List Tok), ws[i]? = some el → ∃ row : List ℤ, w.els[i]? = some row ∧ row.length = w.maxDim ∧
        ∀ d : ℕ, d < w.maxDim → row[d]? =
          some (((el.countP fun t => t.value = (d : ℤ) + 1) : ℤ) - (el.countP fun t => t.value = -((d : ℤ) + 1))) := by
  have hnz' : NonZero (values ws) := by
    intro el hel l hl
    obtain ⟨ts, hts, rfl⟩ := List.mem_map.1 hel
    obtain ⟨t, ht, rfl⟩ := List.mem_map.1 hl
    exact hnz ts hts t ht
  refine ⟨_, mk_eq ho ws hwf hnz', rfl, rfl, ?_, by simp [storedEls, values], ?_⟩
  · have := maxLetter_isGreatest (values ws) (values_wf hwf)
    convert this using 2
    ext n
    simp [values]
  · intro i el hi
    refine ⟨tab (maxLetter (values ws)) (signedCount (el.map Tok.value)), ?_, by simp, ?_⟩
    · simp [storedEls, values, hi]
    · intro d hd
      simp only at hd
      rw [tab_getElem?, if_pos hd]
      simp only [signedCount, List.count, List.countP_map, Function.comp_def, Option.some.injEq]
      congr 2

/-- Non-vacuity of C23: `[1-2(11)][-1-1]`. -/
example : (SWord.mk' ℚ List.dedup "[1-2(11)][-1-1]".toList).toOption.map (fun w => (w.els, w.maxDim))
    = some ([[1, -1, 0, 0, 0, 0, 0, 0, 0, 0, 1], [-2, 0, 0, 0, 0, 0, 0, 0, 0, 0, 0]], 11) := by decide +kernel

/-! ### C24 -/

theorem signedCount_perm {a b : List ℤ} (h : a.Perm b) : signedCount a = signedCount b := by
  funext d; unfold signedCount; rw [h.count_eq, h.count_eq]

/-- **C24 (permutation invariance).** Permuting the letters inside the brackets gives an equal word. -/
theorem C24_permuting (order : List ℤ → List ℤ) (ho : SetOrder order) (ws vs : List (List Tok))
    (hws : WellFormed ws) (hvs : WellFormed vs)
    (hnz : ∀ el ∈ ws, ∀ t ∈ el, t.value ≠ 0)
    (hperm : List.Forall₂ (fun a b => (a.map Tok.value).Perm (b.map Tok.value)) ws vs) :
    ∃ u v : SWord R, SWord.mk' R order (wordStr ws) = .ok u ∧ SWord.mk' R order (wordStr vs) = .ok v ∧
      u.eqv v = true := by
  have hperm' : List.Forall₂ List.Perm (values ws) (values vs) := by
    unfold values
    rw [List.forall₂_map_left_iff, List.forall₂_map_right_iff]
    exact hperm
  have hnz' : NonZero (values ws) := by
    intro el hel l hl
    obtain ⟨ts, hts, rfl⟩ := List.mem_map.1 hel
    obtain ⟨t, ht, rfl⟩ := List.mem_map.1 hl
    exact hnz ts hts t ht
  have hflat : (values ws).flatten.Perm (values vs).flatten := by
    clear hnz'
    revert hperm'
    generalize values ws = a
    generalize values vs = b
    intro h
    induction h with
    | nil => exact .refl _
    | cons h1 _ ih => simpa using h1.append ih
  have hnzv : NonZero (values vs) := by
    intro el hel l hl
    have : l ∈ (values ws).flatten := hflat.mem_iff.2 (List.mem_flatten.2 ⟨el, hel, hl⟩)
    obtain ⟨e, he, hl'⟩ := List.mem_flatten.1 this
    exact hnz' e he l hl'
  have hmax : maxLetter (values ws) = maxLetter (values vs) := by
    unfold maxLetter
    exact (hflat.map _).foldr_eq (lcomm := ⟨fun a b c => by simp [max_left_comm]⟩) 0
  refine ⟨_, _, mk_eq ho ws hws hnz', mk_eq ho vs hvs hnzv, ?_⟩
  simp only [SWord.eqv, beq_iff_eq]
  rw [hmax]
  generalize maxLetter (values vs) = m
  unfold storedEls
  clear hmax hnz' hnzv hflat
  revert hperm'
  generalize values ws = a
  generalize values vs = b
  intro h
  induction h with
  | nil => rfl
  | cons h1 _ ih => simp [signedCount_perm h1, ih]

/-- Two stored words with positive letters are equal iff their letters agree up to order. -/
theorem storedEls_eq_iff {a b : List (List ℤ)} (ha : WellFormed a) (hb : WellFormed b)
    (hpa : ∀ el ∈ a, ∀ l ∈ el, 0 < l) (hpb : ∀ el ∈ b, ∀ l ∈ el, 0 < l) :
    storedEls (maxLetter a) a = storedEls (maxLetter b) b ↔
      maxLetter a = maxLetter b ∧ List.Forall₂ List.Perm a b := by
  constructor
  · intro h
    have hm : maxLetter a = maxLetter b := by
      obtain ⟨x, a', rfl⟩ := List.exists_cons_of_ne_nil ha.1
      obtain ⟨y, b', rfl⟩ := List.exists_cons_of_ne_nil hb.1
      simp only [storedEls, List.map_cons, List.cons.injEq] at h
      have := congrArg List.length h.1
      simpa using this
    refine ⟨hm, ?_⟩
    have hle : ∀ el ∈ a, ∀ l ∈ el, l.natAbs ≤ maxLetter a := fun el hel l hl => le_maxLetter hel hl
    have hle' : ∀ el ∈ b, ∀ l ∈ el, l.natAbs ≤ maxLetter a := fun el hel l hl => hm ▸ le_maxLetter hel hl
    rw [← hm] at h
    clear ha hb hm
    revert h hle hle'
    generalize maxLetter a = m
    intro h hle hle'
    unfold storedEls at h
    have h2 : List.Forall₂ (fun x y => tab m (signedCount x) = tab m (signedCount y)) a b := by
      have := List.forall₂_eq_eq_eq (α := List ℤ) ▸ h
      rw [List.forall₂_map_left_iff, List.forall₂_map_right_iff] at this
      exact this
    induction h2 with
    | nil => exact .nil
    | @cons x y a b hxy _ ih =>
      refine .cons ?_ (ih (fun el hel => hpa el (by simp [hel])) (fun el hel => hpb el (by simp [hel]))
        (by simp at h; exact h.2) (fun el hel => hle el (by simp [hel])) (fun el hel => hle' el (by simp [hel])))
      rw [List.perm_iff_count]
      intro l
      have hx := hpa x (by simp)
      have hy := hpb y (by simp)
      by_cases hl : 0 < l
      · by_cases hlm : l.natAbs ≤ m
        · have h1 := tab_injective hxy (l.natAbs - 1) (by omega)
          have hcast : ((l.natAbs - 1 : ℕ) : ℤ) + 1 = l := by omega
          unfold signedCount at h1
          have hx0 : x.count (-l) = 0 := List.count_eq_zero.2 (fun hm => absurd (hx _ hm) (by omega))
          have hy0 : y.count (-l) = 0 := List.count_eq_zero.2 (fun hm => absurd (hy _ hm) (by omega))
          rw [hcast, hx0, hy0] at h1
          simpa using h1
        · rw [List.count_eq_zero.2, List.count_eq_zero.2]
          · intro hm; exact hlm (hle' y (by simp) l hm)
          · intro hm; exact hlm (hle x (by simp) l hm)
      · rw [List.count_eq_zero.2 (fun hm => hl (hx _ hm)), List.count_eq_zero.2 (fun hm => hl (hy _ hm))]
  · rintro ⟨h1, h2⟩
    rw [h1]
    clear h1 ha hb hpa hpb
    generalize maxLetter b = m
    unfold storedEls
    induction h2 with
    | nil => rfl
    | cons h1 _ ih => simp [signedCount_perm h1, ih]

/-- **C24.** For strings with positive letters the two words are equal (`==`) iff they have the same highest dimension
and letter by letter the same multiset of dimensions (`Forall₂` includes: the same number of extended letters). -/
theorem C24_equality (order : List ℤ → List ℤ) (ho : SetOrder order) (ws vs : List (List Tok))
    (hws : WellFormed ws) (hvs : WellFormed vs)
    (hp : ∀ el ∈ ws, ∀ t ∈ el, 0 < t.value) (hp' : ∀ el ∈ vs, ∀ t ∈ el, 0 < t.value) :
    ∃ u v : SWord R, SWord.mk' R order (wordStr ws) = .ok u ∧ SWord.mk' R order (wordStr vs) = .ok v ∧
      (u.eqv v = true ↔
        u.maxDim = v.maxDim ∧ List.Forall₂ (fun a b => (a.map Tok.value).Perm (b.map Tok.value)) ws vs) := by
  have hpos : ∀ zs : List (List Tok), (∀ el ∈ zs, ∀ t ∈ el, 0 < t.value) → ∀ el ∈ values zs, ∀ l ∈ el, 0 < l := by
    intro zs h el hel l hl
    obtain ⟨ts, hts, rfl⟩ := List.mem_map.1 hel
    obtain ⟨t, ht, rfl⟩ := List.mem_map.1 hl
    exact h ts hts t ht
  refine ⟨_, _, mk_eq ho ws hws fun el hel l hl => (hpos ws hp el hel l hl).ne',
    mk_eq ho vs hvs fun el hel l hl => (hpos vs hp' el hel l hl).ne', ?_⟩
  simp only [SWord.eqv, beq_iff_eq]
  rw [storedEls_eq_iff (values_wf hws) (values_wf hvs) (hpos ws hp) (hpos vs hp')]
  unfold values
  rw [List.forall₂_map_left_iff, List.forall₂_map_right_iff]

/-- Non-vacuity of C24: `[12][122] == [21][212]`, and `[1] != [11]`. -/
example : (do let u ← SWord.mk' ℚ List.dedup "[12][122]".toList
              let v ← SWord.mk' ℚ List.dedup "[21][212]".toList
              let w ← SWord.mk' ℚ List.dedup "[12][112]".toList
              pure (u.eqv v, u.eqv w)).toOption = some (true, false) := by decide +kernel

/-! ### C25 -/

theorem wordStr_append (a b : List (List Tok)) : wordStr (a ++ b) = wordStr a ++ wordStr b := by
  simp [wordStr, render]

/-- **C25.** `SimpleWord(s)` multiplied by `t` is `SimpleWord(s + t)`. -/
theorem C25_multiply (order : List ℤ → List ℤ) (ho : SetOrder order) (ws vs : List (List Tok))
    (hws : WellFormed ws) (hvs : WellFormed vs)
    (hnz : ∀ el ∈ ws, ∀ t ∈ el, t.value ≠ 0) (hnz' : ∀ el ∈ vs, ∀ t ∈ el, t.value ≠ 0) :
    ∃ u v : SWord R, SWord.mk' R order (wordStr ws) = .ok u ∧ u.multiply order (wordStr vs) = .ok v ∧
      SWord.mk' R order (wordStr ws ++ wordStr vs) = .ok v ∧ v.name = u.name ++ wordStr vs := by
  have hz : ∀ zs : List (List Tok), (∀ el ∈ zs, ∀ t ∈ el, t.value ≠ 0) → NonZero (values zs) := by
    intro zs h el hel l hl
    obtain ⟨ts, hts, rfl⟩ := List.mem_map.1 hel
    obtain ⟨t, ht, rfl⟩ := List.mem_map.1 hl
    exact h ts hts t ht
  refine ⟨_, _, mk_eq ho ws hws (hz ws hnz), multiply_eq ho (values ws) (wordStr ws) none vs hvs (hz vs hnz'), ?_, rfl⟩
  rw [← wordStr_append]
  have : WellFormed (ws ++ vs) :=
    ⟨by simp [hws.1], fun el hel => (List.mem_append.1 hel).elim (hws.2 el) (hvs.2 el)⟩
  rw [mk_eq ho (ws ++ vs) this (hz _ fun el hel => (List.mem_append.1 hel).elim (hnz el) (hnz' el))]
  have hv : values (ws ++ vs) = values ws ++ vs.map (·.map Tok.value) := by simp [values]
  rw [hv]

/-- **C25 (associativity).** Multiplying by `t` and then by `u` is multiplying by `t + u`. -/
theorem C25_associative (order : List ℤ → List ℤ) (ho : SetOrder order) (ws vs us : List (List Tok))
    (hws : WellFormed ws) (hvs : WellFormed vs) (hus : WellFormed us)
    (hnz : ∀ el ∈ ws, ∀ t ∈ el, t.value ≠ 0) (hnz' : ∀ el ∈ vs, ∀ t ∈ el, t.value ≠ 0)
    (hnz'' : ∀ el ∈ us, ∀ t ∈ el, t.value ≠ 0) :
    ∃ a b c : SWord R, SWord.mk' R order (wordStr ws) = .ok a ∧ a.multiply order (wordStr vs) = .ok b ∧
      b.multiply order (wordStr us) = .ok c ∧ a.multiply order (wordStr vs ++ wordStr us) = .ok c := by
  have hz : ∀ zs : List (List Tok), (∀ el ∈ zs, ∀ t ∈ el, t.value ≠ 0) → NonZero (values zs) := by
    intro zs h el hel l hl
    obtain ⟨ts, hts, rfl⟩ := List.mem_map.1 hel
    obtain ⟨t, ht, rfl⟩ := List.mem_map.1 hl
    exact h ts hts t ht
  have hvu : WellFormed (vs ++ us) :=
    ⟨by simp [hvs.1], fun el hel => (List.mem_append.1 hel).elim (hvs.2 el) (hus.2 el)⟩
  refine ⟨_, _, _, mk_eq ho ws hws (hz ws hnz), multiply_eq ho (values ws) (wordStr ws) none vs hvs (hz vs hnz'),
    multiply_eq ho _ _ none us hus (hz us hnz''), ?_⟩
  rw [← wordStr_append, multiply_eq ho (values ws) (wordStr ws) none (vs ++ us) hvu
    (hz _ fun el hel => (List.mem_append.1 hel).elim (hnz' el) (hnz'' el))]
  simp [wordStr_append]

/-- Why letter `0` is excluded: `SimpleWord("[2]")` times `"[01]"` stores `[1, -1]` for the second letter, and
`SimpleWord("[01]")` alone stores `[0]`. -/
theorem C25_zero_letter_counterexample :
    (do let u ← SWord.mk' ℚ List.dedup "[01]".toList
        let v ← u.multiply List.dedup "[2]".toList
        let w ← SWord.mk' ℚ List.dedup "[01][2]".toList
        pure (u.els, v.els, w.els)).toOption = some ([[0]], [[0, 0], [0, 1]], [[1, -1], [0, 1]]) := by
  decide +kernel

/-- Non-vacuity of C25. -/
example : (do let u ← SWord.mk' ℚ List.dedup "[12]".toList
              let v ← u.multiply List.dedup "[-3]".toList
              pure (v.els, v.maxDim)).toOption = some ([[1, 1, 0], [0, 0, -1]], 3) := by decide +kernel

/-! ### C26, C27 -/

/-- A word of weight `w` over the dimensions `1..dim`, written in any way. -/
structure WordOfWeight (w dim : ℕ) (ws : List (List Tok)) : Prop where
  wf : WellFormed ws
  weight : (ws.map List.length).sum = w
  dims : ∀ el ∈ ws, ∀ t ∈ el, 1 ≤ t.value ∧ t.value ≤ dim

theorem ofWeight_eq {order : List ℤ → List ℤ} (ho : SetOrder order) {permSet : List ℕ → List (List ℕ)}
    (hp : PermOrder permSet) {w : ℕ} (hw : 1 ≤ w) (dim : ℕ) :
    ofWeight R order permSet w dim = .ok ((numWords permSet w dim).map fun ns =>
      let vs := ns.map (·.map fun n : ℕ => (n : ℤ))
      ⟨storedEls (maxLetter vs) vs, maxLetter vs, wordStr (numToks ns), none⟩) := by
  unfold ofWeight
  rw [ofWeightStrings_eq permSet hw dim, ok_bind]
  rw [mapM_ok (g := fun s => match SWord.mk' R order s with | .ok v => v | .error _ => ⟨[], 0, [], none⟩)]
  · rw [List.map_map]
    congr 1
    apply List.map_congr_left
    intro ns hns
    have hns' := (mem_numWords hp hw dim ns).1 hns
    have hwf : WellFormed (numToks ns) := by
      refine ⟨?_, ?_⟩
      · intro h0
        have : ns = [] := by simpa [numToks] using h0
        subst this
        simp at hns'; omega
      · intro el hel
        obtain ⟨e, he, rfl⟩ := List.mem_map.1 hel
        simpa using (hns'.2 e he).1
    have hnz : NonZero (values (numToks ns)) := by
      unfold values
      rw [numToks_value]
      intro el hel l hl
      obtain ⟨e, he, rfl⟩ := List.mem_map.1 hel
      obtain ⟨n, hn, rfl⟩ := List.mem_map.1 hl
      have := ((hns'.2 e he).2.2 n hn).1
      simp; omega
    simp only [Function.comp_apply]
    rw [mk_eq ho (numToks ns) hwf hnz]
    simp only [values, numToks_value]
  · intro s hs
    obtain ⟨ns, hns, rfl⟩ := List.mem_map.1 hs
    have hns' := (mem_numWords hp hw dim ns).1 hns
    have hwf : WellFormed (numToks ns) := by
      refine ⟨?_, ?_⟩
      · intro h0
        have : ns = [] := by simpa [numToks] using h0
        subst this
        simp at hns'; omega
      · intro el hel
        obtain ⟨e, he, rfl⟩ := List.mem_map.1 hel
        simpa using (hns'.2 e he).1
    have hnz : NonZero (values (numToks ns)) := by
      unfold values
      rw [numToks_value]
      intro el hel l hl
      obtain ⟨e, he, rfl⟩ := List.mem_map.1 hel
      obtain ⟨n, hn, rfl⟩ := List.mem_map.1 hl
      have := ((hns'.2 e he).2.2 n hn).1
      simp; omega
    rw [mk_eq ho (numToks ns) hwf hnz]

theorem toNat_cast {el : List ℤ} (h : ∀ l ∈ el, 1 ≤ l) : (el.map Int.toNat).map (fun n : ℕ => (n : ℤ)) = el := by
  rw [List.map_map]
  conv_rhs => rw [← List.map_id el]
  apply List.map_congr_left
  intro l hl
  have := h l hl
  simp; omega

/-- **C26.** `of_weight(w, dim)` contains only words of weight `w` over `1..dim`, and for every such word, however it
is written, exactly one element of the returned tuple is equal to it. Holds for every iteration order of the sets. -/
theorem C26_of_weight (order : List ℤ → List ℤ) (ho : SetOrder order) (permSet : List ℕ → List (List ℕ))
    (hp : PermOrder permSet) (w : ℕ) (hw : 1 ≤ w) (dim : ℕ) :
    ∃ l : List (SWord R), ofWeight R order permSet w dim = .ok l ∧
      (∀ u ∈ l, ∃ ws, WordOfWeight w dim ws ∧ SWord.mk' R order (wordStr ws) = .ok u) ∧
      (∀ ws, WordOfWeight w dim ws →
        ∃! i : ℕ, ∃ u v : SWord R, l[i]? = some u ∧ SWord.mk' R order (wordStr ws) = .ok v ∧ u.eqv v = true) := by
  refine ⟨_, ofWeight_eq ho hp hw dim, ?_, ?_⟩
  · intro u hu
    obtain ⟨ns, hns, rfl⟩ := List.mem_map.1 hu
    have hns' := (mem_numWords hp hw dim ns).1 hns
    have hwf : WellFormed (numToks ns) := by
      refine ⟨?_, ?_⟩
      · intro h0
        have : ns = [] := by simpa [numToks] using h0
        subst this
        simp at hns'; omega
      · intro el hel
        obtain ⟨e, he, rfl⟩ := List.mem_map.1 hel
        simpa using (hns'.2 e he).1
    have hdim : ∀ el ∈ numToks ns, ∀ t ∈ el, 1 ≤ t.value ∧ t.value ≤ dim := by
      intro el hel t ht
      obtain ⟨e, he, rfl⟩ := List.mem_map.1 hel
      obtain ⟨n, hn, rfl⟩ := List.mem_map.1 ht
      rw [(numTok_spec n).2]
      have := (hns'.2 e he).2.2 n hn
      omega
    refine ⟨numToks ns, ⟨hwf, ?_, hdim⟩, ?_⟩
    · rw [← hns'.1, numToks, List.map_map]
      congr 1
      apply List.map_congr_left
      intro el _; simp
    · rw [mk_eq ho (numToks ns) hwf]
      · simp only [values, numToks_value]
      · intro el hel l hl
        obtain ⟨ts, hts, rfl⟩ := List.mem_map.1 hel
        obtain ⟨t, ht, rfl⟩ := List.mem_map.1 hl
        have := (hdim ts hts t ht).1
        omega
  · rintro ws ⟨hwf, hwt, hd⟩
    have hpos : ∀ el ∈ values ws, ∀ l ∈ el, 1 ≤ l ∧ l ≤ (dim : ℤ) := by
      intro el hel l hl
      obtain ⟨ts, hts, rfl⟩ := List.mem_map.1 hel
      obtain ⟨t, ht, rfl⟩ := List.mem_map.1 hl
      exact hd ts hts t ht
    have hnz : NonZero (values ws) := fun el hel l hl => by have := hpos el hel l hl; omega
    -- the canonical form
    set ns : List (List ℕ) := (values ws).map fun el => (el.map Int.toNat).mergeSort with hnsdef
    have hmem : ns ∈ numWords permSet w dim := by
      rw [mem_numWords hp hw]
      constructor
      · rw [← hwt, hnsdef]
        simp [values, Function.comp_def]
      · intro e he
        obtain ⟨el, hel, rfl⟩ := List.mem_map.1 he
        refine ⟨?_, ?_, ?_⟩
        · have := (values_wf hwf).2 el hel
          intro h0
          have hl := congrArg List.length h0
          simp at hl
          exact this hl
        · have := List.pairwise_mergeSort (le := fun a b : ℕ => decide (a ≤ b)) (by intros; simp_all; omega)
            (by intros; simp; omega) (el.map Int.toNat)
          simpa using this
        · intro a ha
          have ha' := (List.mergeSort_perm _ _).mem_iff.1 ha
          obtain ⟨l, hl, rfl⟩ := List.mem_map.1 ha'
          have := hpos el hel l hl
          omega
    have hcanon : ∀ ns' ∈ numWords permSet w dim,
        (storedEls (maxLetter (ns'.map (·.map fun n : ℕ => (n : ℤ)))) (ns'.map (·.map fun n : ℕ => (n : ℤ)))
          = storedEls (maxLetter (values ws)) (values ws) ↔ ns' = ns) := by
      intro ns' hns'
      have h' := (mem_numWords hp hw dim ns').1 hns'
      have hwf' : WellFormed (ns'.map (·.map fun n : ℕ => (n : ℤ))) := by
        refine ⟨?_, ?_⟩
        · intro h0
          have : ns' = [] := by simpa using h0
          subst this
          simp at h'; omega
        · intro el hel
          obtain ⟨e, he, rfl⟩ := List.mem_map.1 hel
          simpa using (h'.2 e he).1
      have hp1 : ∀ el ∈ ns'.map (·.map fun n : ℕ => (n : ℤ)), ∀ l ∈ el, 0 < l := by
        intro el hel l hl
        obtain ⟨e, he, rfl⟩ := List.mem_map.1 hel
        obtain ⟨n, hn, rfl⟩ := List.mem_map.1 hl
        have := ((h'.2 e he).2.2 n hn).1
        simp; omega
      rw [storedEls_eq_iff hwf' (values_wf hwf) hp1 (fun el hel l hl => by have := hpos el hel l hl; omega)]
      constructor
      · rintro ⟨-, hf⟩
        rw [hnsdef]
        rw [List.forall₂_map_left_iff] at hf
        have hsorted : ∀ e ∈ ns', e.Pairwise (· ≤ ·) := fun e he => (h'.2 e he).2.1
        clear hp1 hwf' h' hns' hmem hnsdef
        revert hf hsorted hpos
        generalize values ws = vs
        intro hpos hf hsorted
        induction hf with
        | nil => rfl
        | @cons e v ns' vs h1 _ ih =>
          rw [List.map_cons, ← ih (fun el hel => hpos el (by simp [hel])) (fun e he => hsorted e (by simp [he]))]
          congr 1
          have h2 : e.Perm (v.map Int.toNat) := by
            have := h1.map Int.toNat
            rw [List.map_map] at this
            have he : e.map (Int.toNat ∘ fun n : ℕ => (n : ℤ)) = e := by
              conv_rhs => rw [← List.map_id e]
              apply List.map_congr_left; intro x _; simp
            rwa [he] at this
          have hs := List.pairwise_mergeSort (le := fun a b : ℕ => decide (a ≤ b)) (by intros; simp_all; omega)
            (by intros; simp; omega) (v.map Int.toNat)
          exact List.Perm.eq_of_pairwise (fun a b _ _ h1 h2 => le_antisymm h1 h2) (hsorted e (by simp))
            (by simpa using hs) (h2.trans (List.mergeSort_perm _ _).symm)
      · rintro rfl
        have hf : List.Forall₂ List.Perm (ns.map (·.map fun n : ℕ => (n : ℤ))) (values ws) := by
          rw [hnsdef, List.map_map, List.forall₂_map_left_iff, List.forall₂_same]
          intro el hel
          simp only [Function.comp_apply]
          have h1 := (List.mergeSort_perm (el.map Int.toNat) (fun a b => decide (a ≤ b))).map (fun n : ℕ => (n : ℤ))
          rw [toNat_cast fun l hl => (hpos el hel l hl).1] at h1
          exact h1
        refine ⟨?_, hf⟩
        have hflat : ∀ {a b : List (List ℤ)}, List.Forall₂ List.Perm a b → a.flatten.Perm b.flatten := by
          intro a b h
          induction h with
          | nil => exact .refl _
          | cons h1 _ ih => simpa using h1.append ih
        unfold maxLetter
        exact ((hflat hf).map _).foldr_eq (lcomm := ⟨fun a b c => by simp [max_left_comm]⟩) 0
    obtain ⟨i, hi, hget⟩ := List.getElem_of_mem hmem
    refine ⟨i, ⟨⟨storedEls (maxLetter (ns.map (·.map fun n : ℕ => (n : ℤ)))) (ns.map (·.map fun n : ℕ => (n : ℤ))),
        maxLetter (ns.map (·.map fun n : ℕ => (n : ℤ))), wordStr (numToks ns), none⟩, _, ?_,
        mk_eq ho ws hwf hnz, ?_⟩, ?_⟩
    · simp [List.getElem?_eq_getElem hi, hget]
    · simp only [SWord.eqv, beq_iff_eq]
      exact (hcanon ns hmem).2 rfl
    · rintro j ⟨u, v, hj, hv, huv⟩
      rw [mk_eq ho ws hwf hnz] at hv
      cases hv
      rw [List.getElem?_map] at hj
      obtain ⟨ns', hns', rfl⟩ := Option.map_eq_some_iff.1 hj
      have hm' := List.mem_of_getElem? hns'
      simp only [SWord.eqv, beq_iff_eq] at huv
      have := (hcanon ns' hm').1 huv
      subst this
      obtain ⟨hj', hgj⟩ := List.getElem?_eq_some_iff.1 hns'
      exact (List.Nodup.getElem_inj_iff (nodup_numWords hp hw dim)).1 (by rw [hgj, hget])

/-- **C27.** `len(of_weight(w, 1)) = 2**(w-1)`. -/
theorem C27_count (order : List ℤ → List ℤ) (ho : SetOrder order) (permSet : List ℕ → List (List ℕ))
    (hp : PermOrder permSet) (w : ℕ) (hw : 1 ≤ w) :
    ∃ l : List (SWord R), ofWeight R order permSet w 1 = .ok l ∧ l.length = 2 ^ (w - 1) := by
  refine ⟨_, ofWeight_eq ho hp hw 1, ?_⟩
  rw [List.length_map, length_numWords_one hp hw]

/-- Python set orders exist. -/
theorem permOrder_dedup : PermOrder (fun p => p.permutations.dedup) := fun _ => .refl _

/-- Non-vacuity of C26: `[2][11]` written with parentheses is a word of weight 3 over two dimensions. -/
example : WordOfWeight 3 2 [[.paren false 0 [2]], [.plain false 1, .plain false 1]] := by
  refine ⟨⟨by simp, by simp⟩, by decide, by decide⟩

/-- `of_weight(0)` fails. -/
theorem C26_weight_zero (order : List ℤ → List ℤ) (permSet : List ℕ → List (List ℕ)) (dim : ℕ) :
    ofWeight R order permSet 0 dim = .error .indexError := rfl

end Fruits
