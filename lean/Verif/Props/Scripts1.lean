import Verif.Props.Words5
import Verif.Props.Total6

/-! # The alternating words of the experiments (for C112) -/

namespace Fruits
set_option linter.unusedSectionVars false
variable {R : Type} [Field R] [LinearOrder R] [IsStrictOrderedRing R] [FloorRing R]

/-- The letter at position `i`: `[1][1]…`, `[2][2]…`, `[1][2][1]…`, `[2][1][2]…`. -/
def letterAt (j i : ℕ) : Fin 10 := if j = 0 then 1 else if j = 1 then 2 else if (i + j) % 2 = 0 then 1 else 2

theorem letterAt_cases (j i : ℕ) : letterAt j i = 1 ∨ letterAt j i = 2 := by unfold letterAt; split_ifs <;> simp

theorem letterAt_add_two (j i : ℕ) : letterAt j (i + 2) = letterAt j i := by
  unfold letterAt
  have : (i + 2 + j) % 2 = (i + j) % 2 := by omega
  rw [this]

/-- A word of single letters of pattern `j` with signs. -/
def lineToks (neg : ℕ → Bool) (j n : ℕ) : List (List Tok) := tab n fun i => [.plain (neg i) (letterAt j i)]

/-- `n*"[1]"`, `n*"[2]"`, `n*"[1][2]"`, `n*"[2][1]"` (the last two with `n` blocks of two). -/
def repStr (s : PStr) (n : ℕ) : PStr := (List.replicate n s).flatten

theorem tab_succ_left {α : Type} (n : ℕ) (f : ℕ → α) : tab (n + 1) f = f 0 :: tab n fun i => f (i + 1) := by
  simp [tab, List.range_succ_eq_map]

theorem repStr_one (n : ℕ) : repStr "[1]".toList n = wordStr (lineToks (fun _ => false) 0 n) := by
  unfold repStr lineToks
  induction n with
  | zero => rfl
  | succ n ih =>
    rw [List.replicate_succ, List.flatten_cons, ih, tab_succ_left]
    rfl

theorem repStr_two (n : ℕ) : repStr "[2]".toList n = wordStr (lineToks (fun _ => false) 1 n) := by
  unfold repStr lineToks
  induction n with
  | zero => rfl
  | succ n ih =>
    rw [List.replicate_succ, List.flatten_cons, ih, tab_succ_left]
    rfl

theorem repStr_pair (n j : ℕ) (hj : j = 2 ∨ j = 3) :
    repStr (if j = 2 then "[1][2]".toList else "[2][1]".toList) n = wordStr (lineToks (fun _ => false) j (2 * n)) := by
  unfold repStr lineToks
  induction n with
  | zero => rfl
  | succ n ih =>
    rw [List.replicate_succ, List.flatten_cons, ih, show 2 * (n + 1) = 2 * n + 1 + 1 by omega, tab_succ_left, tab_succ_left]
    simp only [letterAt_add_two]
    rcases hj with rfl | rfl <;> rfl

theorem values_line (neg : ℕ → Bool) (j n : ℕ) : values (lineToks neg j n) = tab n fun i => [signed (neg i) (letterAt j i : ℕ)] := by
  unfold values lineToks
  rw [map_tab]
  rfl

theorem line_wf (neg : ℕ → Bool) (j : ℕ) {n : ℕ} (hn : 1 ≤ n) : WellFormed (lineToks neg j n) := by
  refine ⟨fun h => ?_, fun el hel => ?_⟩
  · have := congrArg List.length h
    simp [lineToks, tab_length] at this; omega
  · obtain ⟨i, _, rfl⟩ := mem_tab.1 hel
    simp

theorem line_value (neg : ℕ → Bool) (j n : ℕ) : ∀ el ∈ values (lineToks neg j n), ∃ x : ℤ, el = [x] ∧ (x.natAbs = 1 ∨ x.natAbs = 2) := by
  rw [values_line]
  intro el hel
  obtain ⟨i, _, rfl⟩ := mem_tab.1 hel
  refine ⟨_, rfl, ?_⟩
  rcases letterAt_cases j i with h | h <;> rw [h] <;> cases neg i <;> simp [signed]

theorem line_max (neg : ℕ → Bool) (j n : ℕ) : maxLetter (values (lineToks neg j n)) ≤ 2 := by
  by_contra hc
  push Not at hc
  obtain ⟨el, hel, l, hl, h2⟩ := exists_maxLetter (els := values (lineToks neg j n)) (by omega)
  obtain ⟨x, rfl, hx⟩ := line_value neg j n el hel
  rw [List.mem_singleton] at hl
  subst hl
  omega

/-- The word as an object. -/
def lineWord (R : Type) (neg : ℕ → Bool) (j n : ℕ) : SWord R :=
  ⟨storedEls (maxLetter (values (lineToks neg j n))) (values (lineToks neg j n)), maxLetter (values (lineToks neg j n)), wordStr (lineToks neg j n), none⟩

theorem mk_line {order : List ℤ → List ℤ} (ho : SetOrder order) (neg : ℕ → Bool) (j : ℕ) {n : ℕ} (hn : 1 ≤ n) :
    SWord.mk' R order (wordStr (lineToks neg j n)) = .ok (lineWord R neg j n) := by
  rw [mk_eq ho _ (line_wf neg j hn)]
  · rfl
  · intro el hel l hl
    obtain ⟨x, rfl, hx⟩ := line_value neg j n el hel
    rw [List.mem_singleton] at hl
    subst hl
    omega

theorem sortedLetters_single {m k : ℕ} (hk : k = 1 ∨ k = 2) (h : k ≤ m) (hm : m ≤ 2) : sortedLetters m [(k : ℤ)] = [k] := by
  interval_cases m <;> rcases hk with rfl | rfl <;> first | omega | decide

theorem line_le_max (j : ℕ) {i n : ℕ} (hi : i < n) : (letterAt j i : ℕ) ≤ maxLetter (values (lineToks (fun _ => false) j n)) := by
  rw [values_line]
  have := le_maxLetter (els := tab n fun i => [signed false (letterAt j i : ℕ)]) (mem_tab.2 ⟨i, hi, rfl⟩) (List.mem_singleton.2 rfl)
  simpa [signed] using this

theorem altToks_line (neg : ℕ → Bool) (j n : ℕ) :
    altToks (maxLetter (values (lineToks (fun _ => false) j n))) neg (values (lineToks (fun _ => false) j n)) = lineToks neg j n := by
  have hm := line_max (fun _ => false) j n
  have hl := fun i (hi : i < n) => line_le_max j hi
  generalize maxLetter (values (lineToks (fun _ => false) j n)) = m at hm hl
  rw [values_line]
  unfold altToks lineToks
  apply List.ext_getElem
  · simp [tab_length]
  · intro i h1 h2
    simp only [List.length_mapIdx, tab_length] at h1
    rw [List.getElem_mapIdx, tab_getElem, tab_getElem]
    have hk : ((letterAt j i : Fin 10) : ℕ) = 1 ∨ ((letterAt j i : Fin 10) : ℕ) = 2 := by
      rcases letterAt_cases j i with h | h <;> rw [h] <;> simp
    have e : sortedLetters m [signed false (letterAt j i : ℕ)] = [(letterAt j i : ℕ)] := by
      rw [← sortedLetters_single hk (hl i h1) hm]
      simp [signed]
    rw [e]
    rcases letterAt_cases j i with h | h <;> rw [h] <;> rfl

/-- `alternate_sign` of the word. -/
theorem alternate_line {order : List ℤ → List ℤ} (ho : SetOrder order) (j : ℕ) {n : ℕ} (hn : 1 ≤ n) (ws out : List (SWord R))
    (h : alternateSign order ws = .ok out) :
    alternateSign order (lineWord R (fun _ => false) j n :: ws) =
      .ok (lineWord R (fun i => decide (i % 2 = 0)) j n :: lineWord R (fun i => decide (i % 2 = 1)) j n :: out) := by
  rw [alternateSign]
  have hpos : ∀ el ∈ values (lineToks (fun _ => false) j n), ∀ l ∈ el, 0 < l := by
    rw [values_line]
    intro el hel l hl
    obtain ⟨i, _, rfl⟩ := mem_tab.1 hel
    rw [List.mem_singleton] at hl
    subst hl
    rcases letterAt_cases j i with h | h <;> rw [h] <;> decide
  have halt : alternateStrings (lineWord R (fun _ => false) j n).els =
      (wordStr (lineToks (fun i => decide (i % 2 = 0)) j n), wordStr (lineToks (fun i => decide (i % 2 = 1)) j n)) := by
    unfold alternateStrings lineWord
    rw [alternate_aux _ (by have := line_max (fun _ => false) j n; omega) _ hpos, altToks_line, altToks_line]
    simp
  simp only [halt, mk_line ho _ j hn, ok_bind, h]

/-- The blocks of the word. -/
def lineBlocks (p j n : ℕ) : List PStr := tab n fun i => (Tok.plain (decide (i % 2 = p)) (letterAt j i)).str

theorem lineWord_blocks (p j n : ℕ) : HasBlocks (.simple (lineWord R (fun i => decide (i % 2 = p)) j n)) (lineBlocks p j n) := by
  have e : lineBlocks p j n = (lineToks (fun i => decide (i % 2 = p)) j n).map (·.flatMap Tok.str) := by
    unfold lineToks lineBlocks
    rw [map_tab]
    simp
  rw [e]
  refine ⟨blocksOK_toks _, rfl, ?_⟩
  simp [lineWord, IWord.len, lineToks, values, storedEls, tab_length]

theorem lineWord_letters (neg : ℕ → Bool) (j n : ℕ) {d : ℕ} (hd : 2 ≤ d) : ∀ el ∈ (lineWord R neg j n).els, el.length ≤ d := by
  intro el hel
  obtain ⟨v, _, rfl⟩ := List.mem_map.1 hel
  rw [tab_length]
  exact (line_max neg j n).trans hd

/-- `alternate_sign([SimpleWord(n*"[1]"), SimpleWord(n*"[2]"), SimpleWord(n/2*"[1][2]"), SimpleWord(n/2*"[2][1]")])`. -/
def altWords (R : Type) (n : ℕ) : List (SWord R) :=
  [lineWord R (fun i => decide (i % 2 = 0)) 0 n, lineWord R (fun i => decide (i % 2 = 1)) 0 n, lineWord R (fun i => decide (i % 2 = 0)) 1 n,
    lineWord R (fun i => decide (i % 2 = 1)) 1 n, lineWord R (fun i => decide (i % 2 = 0)) 2 n, lineWord R (fun i => decide (i % 2 = 1)) 2 n,
    lineWord R (fun i => decide (i % 2 = 0)) 3 n, lineWord R (fun i => decide (i % 2 = 1)) 3 n]

theorem alternate_words {order : List ℤ → List ℤ} (ho : SetOrder order) {k : ℕ} (hk : 1 ≤ k) {u1 u2 u3 u4 : SWord R} {vs : List (SWord R)}
    (h1 : SWord.mk' R order (repStr "[1]".toList (2 * k)) = .ok u1) (h2 : SWord.mk' R order (repStr "[2]".toList (2 * k)) = .ok u2)
    (h3 : SWord.mk' R order (repStr "[1][2]".toList k) = .ok u3) (h4 : SWord.mk' R order (repStr "[2][1]".toList k) = .ok u4)
    (hv : alternateSign order [u1, u2, u3, u4] = .ok vs) : vs = altWords R (2 * k) := by
  have e3 := repStr_pair k 2 (Or.inl rfl)
  have e4 := repStr_pair k 3 (Or.inr rfl)
  rw [if_pos rfl] at e3
  rw [if_neg (by omega)] at e4
  rw [repStr_one, mk_line ho _ _ (by omega)] at h1
  rw [repStr_two, mk_line ho _ _ (by omega)] at h2
  rw [e3, mk_line ho _ _ (by omega)] at h3
  rw [e4, mk_line ho _ _ (by omega)] at h4
  cases h1; cases h2; cases h3; cases h4
  rw [alternate_line ho 0 (by omega) _ _ (alternate_line ho 1 (by omega) _ _ (alternate_line ho 2 (by omega) _ _ (alternate_line ho 3 (by omega) _ _ rfl)))] at hv
  exact (Except.ok.inj hv).symm

theorem mem_altWords {n : ℕ} {v : SWord R} : v ∈ altWords R n ↔ ∃ j < 4, ∃ p < 2, v = lineWord R (fun i => decide (i % 2 = p)) j n := by
  constructor
  · intro h
    simp only [altWords, List.mem_cons, List.not_mem_nil, or_false] at h
    rcases h with rfl | rfl | rfl | rfl | rfl | rfl | rfl | rfl
    · exact ⟨0, by omega, 0, by omega, rfl⟩
    · exact ⟨0, by omega, 1, by omega, rfl⟩
    · exact ⟨1, by omega, 0, by omega, rfl⟩
    · exact ⟨1, by omega, 1, by omega, rfl⟩
    · exact ⟨2, by omega, 0, by omega, rfl⟩
    · exact ⟨2, by omega, 1, by omega, rfl⟩
    · exact ⟨3, by omega, 0, by omega, rfl⟩
    · exact ⟨3, by omega, 1, by omega, rfl⟩
  · rintro ⟨j, hj, p, hp, rfl⟩
    interval_cases j <;> interval_cases p <;> simp [altWords]

/-- Four beginnings of length one and eight of every other length: `8n - 4` iterated sums in EXTENDED mode. -/
theorem altWords_count {n : ℕ} (hn : 1 ≤ n) (k : SemiringKind) (hk : k ≠ .arcticArgmax) (wt : Option (Weighting R)) :
    (⟨(altWords R n).map .simple, .extended, k, wt⟩ : ISSConf R).nIteratedSums = .ok (8 * n - 4) := by
  obtain ⟨L, h1, h2, _, _, h5⟩ := C18_labels_are_prefixes (⟨(altWords R n).map .simple, .extended, k, wt⟩ : ISSConf R) rfl (by
    intro v hv
    obtain ⟨u, hu, rfl⟩ := List.mem_map.1 hv
    obtain ⟨j, _, p, _, rfl⟩ := mem_altWords.1 hu
    exact ⟨_, lineWord_blocks p j n⟩)
  rw [h5 hk]
  congr 1
  have hblen : ∀ p j, (lineBlocks p j n).length = n := fun p j => tab_length _ _
  have hget : ∀ p j q i, i < q → q ≤ n → ((lineBlocks p j n).take q)[i]? = some (Tok.plain (decide (i % 2 = p)) (letterAt j i)).str := by
    intro p j q i hi hq
    rw [List.getElem?_take, if_pos hi, List.getElem?_eq_getElem (by rw [hblen]; omega)]
    simp only [lineBlocks, tab_getElem]
  have hbo : ∀ p j q, BlocksOK ((lineBlocks p j n).take q) := fun p j q b hb => (lineWord_blocks (R := R) p j n).1 b (List.mem_of_mem_take hb)
  let ix : List (ℕ × ℕ × ℕ) := (List.range 2 ×ˢ (List.range 2 ×ˢ [1])) ++ (List.range 4 ×ˢ (List.range 2 ×ˢ List.range' 2 (n - 1)))
  have hix : ∀ j p q, (j, p, q) ∈ ix ↔ p < 2 ∧ ((j < 2 ∧ q = 1) ∨ (j < 4 ∧ 2 ≤ q ∧ q ≤ n)) := by
    intro j p q
    simp only [ix, List.mem_append, List.mem_product, List.mem_range, List.mem_singleton, List.mem_range'_1]
    omega
  have hperm : L.Perm (ix.map fun x => render ((lineBlocks x.2.1 x.1 n).take x.2.2)) := by
    rw [List.perm_ext_iff_of_nodup h1]
    · intro s
      rw [h2, List.mem_map]
      constructor
      · rintro ⟨v, hv, bs, hb, q, hq1, hq2, rfl⟩
        obtain ⟨u, hu, rfl⟩ := List.mem_map.1 hv
        obtain ⟨j, hj, p, hp, rfl⟩ := mem_altWords.1 hu
        obtain rfl := hb.unique (lineWord_blocks p j n)
        rw [hblen] at hq2
        by_cases h : q = 1
        · subst h
          refine ⟨((if letterAt j 0 = 1 then 0 else 1), p, 1), (hix _ _ _).2 ⟨hp, Or.inl ⟨by split <;> omega, rfl⟩⟩, ?_⟩
          congr 1
          apply List.ext_getElem?
          intro i
          rcases Nat.eq_zero_or_pos i with rfl | hi
          · rw [hget _ _ _ _ (by omega) hq2, hget _ _ _ _ (by omega) hq2]
            interval_cases j <;> rfl
          · rw [List.getElem?_eq_none (by simp; omega), List.getElem?_eq_none (by simp; omega)]
        · exact ⟨(j, p, q), (hix _ _ _).2 ⟨hp, Or.inr ⟨hj, by omega, hq2⟩⟩, rfl⟩
      · rintro ⟨⟨j, p, q⟩, hpq, rfl⟩
        rw [hix] at hpq
        exact ⟨_, List.mem_map.2 ⟨_, mem_altWords.2 ⟨j, by omega, p, by omega, rfl⟩, rfl⟩, _, lineWord_blocks p j n, q, by omega,
          by rw [hblen]; omega, rfl⟩
    · refine List.Nodup.map_on ?_ ?_
      · rintro ⟨j, p, q⟩ hx ⟨j', p', q'⟩ hy hxy
        rw [hix] at hx hy
        simp only at hxy
        have he := render_injective (hbo p j q) (hbo p' j' q') hxy
        have hq : q = q' := by
          have := congrArg List.length he
          simp only [List.length_take, hblen] at this
          omega
        subst hq
        have h0 : ((lineBlocks p j n).take q)[0]? = ((lineBlocks p' j' n).take q)[0]? := by rw [he]
        rw [hget _ _ _ _ (by omega) (by omega), hget _ _ _ _ (by omega) (by omega)] at h0
        have hp : p = 0 ∨ p = 1 := by omega
        have hp' : p' = 0 ∨ p' = 1 := by omega
        by_cases hq1 : q = 1
        · have hj : j = 0 ∨ j = 1 := by omega
          have hj' : j' = 0 ∨ j' = 1 := by omega
          rcases hp with rfl | rfl <;> rcases hp' with rfl | rfl <;> rcases hj with rfl | rfl <;> rcases hj' with rfl | rfl <;>
            first | rfl | exact absurd h0 (by decide)
        · have h1 : ((lineBlocks p j n).take q)[1]? = ((lineBlocks p' j' n).take q)[1]? := by rw [he]
          rw [hget _ _ _ _ (by omega) (by omega), hget _ _ _ _ (by omega) (by omega)] at h1
          have hj : j = 0 ∨ j = 1 ∨ j = 2 ∨ j = 3 := by omega
          have hj' : j' = 0 ∨ j' = 1 ∨ j' = 2 ∨ j' = 3 := by omega
          rcases hp with rfl | rfl <;> rcases hp' with rfl | rfl <;> rcases hj with rfl | rfl | rfl | rfl <;> rcases hj' with rfl | rfl | rfl | rfl <;>
            first | rfl | exact absurd h0 (by decide) | exact absurd h1 (by decide)
      · rw [List.nodup_append']
        refine ⟨by decide, List.nodup_range.product (List.nodup_range.product List.nodup_range'), ?_⟩
        rintro ⟨j, p, q⟩ h1 h2
        simp only [List.mem_product, List.mem_range, List.mem_singleton, List.mem_range'_1] at h1 h2
        omega
  rw [hperm.length_eq, List.length_map]
  simp only [ix, List.length_append, List.length_product, List.length_range, List.length_range', List.length_singleton]
  omega

end Fruits
