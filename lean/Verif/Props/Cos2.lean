import Verif.Props.Cos1
import Verif.ISS
import Verif.Props.Prep5

/-! # CosWISS: order of the iterated sums, batches, labels, dropout and the counterexample (C88, C89, C90) -/

namespace Fruits
set_option linter.unusedSectionVars false
variable {R : Type} [Field R] [LinearOrder R] [FloorRing R] [NpMath R]

/-! ### Batches -/

/-- What the generator yields when the computation of every word succeeds. -/
theorem batchLoop_ok (pi : R) (c : CosWISS R) (X : Data R) (b F : ℕ) (r : ℕ → Data R) (hF : ∀ w, (r w).length = F)
    (ws : List (SWord R)) (w0 : ℕ) (results : List (Data R))
    (hres : ∀ x ∈ results, x.length = F) (hlen : 0 < b → results.length < b)
    (h : ∀ j (hj : j < ws.length), c.wordResult pi X (w0 + j) ws[j] = .ok (r (w0 + j))) :
    (c.batchLoop pi X b ws w0 results).2 = none ∧
    (c.batchLoop pi X b ws w0 results).1.flatten
      = results.flatten ++ (tab ws.length fun j => r (w0 + j)).flatten ∧
    (∀ B ∈ (c.batchLoop pi X b ws w0 results).1.dropLast, B.length = b * F) ∧
    (0 < b → ∀ B ∈ (c.batchLoop pi X b ws w0 results).1, B.length ≤ b * F) ∧
    ((c.batchLoop pi X b ws w0 results).1.length = if b = 0 then (if results.length + ws.length = 0 then 0 else 1)
      else (results.length + ws.length + b - 1) / b) := by
  have hsum : ∀ l : List (Data R), (∀ x ∈ l, x.length = F) → l.flatten.length = l.length * F := by
    intro l hl
    induction l with
    | nil => simp
    | cons a as ih =>
      rw [List.flatten_cons, List.length_append, hl a (by simp), ih (fun x hx => hl x (by simp [hx]))]
      rw [List.length_cons]; ring
  induction ws generalizing w0 results with
  | nil =>
    unfold CosWISS.batchLoop
    by_cases h0 : results.length = 0
    · have : results = [] := List.length_eq_zero_iff.1 h0
      subst this
      simp only [List.length_nil, ne_eq, not_true, if_false]
      refine ⟨trivial, by simp, by simp, by simp, ?_⟩
      split
      · simp
      · rw [Nat.div_eq_of_lt (by simp; omega)]
    · rw [if_pos h0]
      refine ⟨rfl, by simp, by simp, ?_, ?_⟩
      · intro hb B hB
        simp only [List.mem_singleton] at hB
        subst hB
        rw [hsum _ hres]
        exact Nat.mul_le_mul_right _ (hlen hb).le
      · split
        · simp [h0]
        · next hb =>
          have := hlen (by omega)
          have : (results.length + ([] : List (SWord R)).length + b - 1) / b = 1 := by
            apply Nat.div_eq_of_lt_le
            · simp; omega
            · simp; omega
          rw [this]; rfl
  | cons word ws ih =>
    have hr0 : c.wordResult pi X w0 word = .ok (r w0) := h 0 (by simp)
    have hres' : ∀ x ∈ results ++ [r w0], x.length = F := by
      intro x hx
      rcases List.mem_append.1 hx with hx | hx
      · exact hres x hx
      · rw [List.mem_singleton.1 hx]; exact hF _
    have hnext : ∀ j (hj : j < ws.length), c.wordResult pi X (w0 + 1 + j) ws[j] = .ok (r (w0 + 1 + j)) := by
      intro j hj
      have := h (j + 1) (by simpa using hj)
      rw [show w0 + (j + 1) = w0 + 1 + j by omega] at this
      simpa using this
    have htab : (tab (word :: ws).length fun j => r (w0 + j)).flatten
        = r w0 ++ (tab ws.length fun j => r (w0 + 1 + j)).flatten := by
      rw [List.length_cons, tab_succ', List.flatten_cons]
      congr 2
      apply tab_congr; intro j _; congr 1; omega
    rw [htab]
    unfold CosWISS.batchLoop
    rw [hr0]
    simp only
    by_cases hb : (results ++ [r w0]).length = b
    · rw [if_pos hb]
      have hb0 : 0 < b := by rw [← hb]; simp
      obtain ⟨i1, i2, i3, i4, i5⟩ := ih (w0 + 1) [] (by simp) (by intro h; simpa using h) hnext
      refine ⟨i1, ?_, ?_, ?_, ?_⟩
      · rw [List.flatten_cons, i2]; simp
      · intro B hB
        have hfst : (results ++ [r w0]).flatten.length = b * F := by rw [hsum _ hres', hb]
        generalize (c.batchLoop pi X b ws (w0 + 1) []).1 = rest at *
        cases rest with
        | nil => simp at hB
        | cons y ys =>
          rw [List.dropLast_cons_of_ne_nil (by simp)] at hB
          rcases List.mem_cons.1 hB with rfl | hB
          · exact hfst
          · exact i3 B hB
      · intro _ B hB
        rcases List.mem_cons.1 hB with rfl | hB
        · rw [hsum _ hres', hb]
        · exact i4 hb0 B hB
      · rw [List.length_cons, i5, if_neg (by omega), if_neg (by omega)]
        have hl : results.length + 1 = b := by simpa using hb
        rw [List.length_nil, List.length_cons, Nat.zero_add,
          show results.length + (ws.length + 1) + b - 1 = (ws.length + b - 1) + b by omega, Nat.add_div_right _ hb0]
    · rw [if_neg hb]
      have hlen' : 0 < b → (results ++ [r w0]).length < b := by
        intro h0
        have := hlen h0
        simp at hb ⊢
        omega
      obtain ⟨i1, i2, i3, i4, i5⟩ := ih (w0 + 1) (results ++ [r w0]) hres' hlen' hnext
      refine ⟨i1, ?_, i3, i4, ?_⟩
      · rw [i2]; simp
      · rw [i5]; simp only [List.length_append, List.length_cons, List.length_nil]
        have : results.length + (0 + 1) + ws.length = results.length + (ws.length + 1) := by omega
        rw [this]

/-- The words and data CosWISS accepts: every word has letters and only uses existing dimensions. -/
structure CosInput (words : List (SWord R)) (X : Data R) (d n : ℕ) : Prop where
  data : IsData X d n
  length : 2 ≤ n
  dims : 0 < d
  letters : ∀ w ∈ words, w.els ≠ []
  fits : ∀ w ∈ words, ∀ el ∈ w.els, el.length ≤ d

/-- C89: the iterated sums of `transform` and the iterated sums of all batches together are, for every batch size, the
results of the words in order, each with one array per frequency; there are `len(freqs) * len(words)` of them; full batches
hold the iterated sums of `b` words, and the number of batches is `ceil(len(words) / b)`. -/
theorem C89_batches (pi : R) (c : CosWISS R) (words : List (SWord R)) (X : Data R) (r : ℕ → Data R)
    (hF : ∀ w, (r w).length = c.freqs.length)
    (hr : ∀ w (hw : w < words.length), c.wordResult pi X w words[w] = .ok (r w)) (hne : words ≠ []) :
    (∀ b, (c.batchTransform pi words X b).2 = none ∧
      (c.batchTransform pi words X b).1.flatten = (tab words.length r).flatten ∧
      (∀ B ∈ (c.batchTransform pi words X b).1.dropLast, B.length = b * c.freqs.length) ∧
      (0 < b → ∀ B ∈ (c.batchTransform pi words X b).1, B.length ≤ b * c.freqs.length) ∧
      (0 < b → (c.batchTransform pi words X b).1.length = (words.length + b - 1) / b)) ∧
    c.transform pi words X = .ok (tab words.length r).flatten ∧
    (tab words.length r).flatten.length = c.nIteratedSums words ∧
    ∀ w < words.length, ∀ f < c.freqs.length,
      (tab words.length r).flatten.getD (w * c.freqs.length + f) [] = (r w).getD f [] := by
  have hW : 0 < words.length := List.length_pos_iff.2 hne
  have hall : ∀ b, _ := fun b => batchLoop_ok pi c X b c.freqs.length r hF words 0 [] (by simp) (by intro h; simpa using h)
    (by intro j hj; simpa using hr j hj)
  have hflat : ∀ W, (tab W r).flatten.length = W * c.freqs.length ∧ ∀ w < W, ∀ f < c.freqs.length,
      (tab W r).flatten.getD (w * c.freqs.length + f) [] = (r w).getD f [] := by
    intro W
    induction W with
    | zero => simp
    | succ W ih =>
      rw [tab_succ, List.flatten_append]
      refine ⟨by simp [ih.1, hF]; ring, ?_⟩
      intro w hw f hf
      rcases Nat.lt_or_ge w W with h | h
      · have hlt : w * c.freqs.length + f < (tab W r).flatten.length := by
          rw [ih.1]
          calc w * c.freqs.length + f < w * c.freqs.length + c.freqs.length := by omega
            _ = (w + 1) * c.freqs.length := by ring
            _ ≤ W * c.freqs.length := Nat.mul_le_mul_right _ h
        rw [List.getD_eq_getElem?_getD, List.getElem?_append_left hlt, ← List.getD_eq_getElem?_getD]
        exact ih.2 w h f hf
      · obtain rfl : w = W := by omega
        rw [List.getD_eq_getElem?_getD, List.getElem?_append_right (by rw [ih.1]; omega), ih.1]
        simp
  refine ⟨?_, ?_, ?_, (hflat _).2⟩
  · intro b
    obtain ⟨h1, h2, h3, h4, h5⟩ := hall b
    refine ⟨h1, by simpa [CosWISS.batchTransform] using h2, h3, h4, ?_⟩
    intro hb
    unfold CosWISS.batchTransform
    rw [h5, if_neg (by omega)]
    simp
  · unfold CosWISS.transform CosWISS.batchTransform
    obtain ⟨h1, h2, h3, h4, h5⟩ := hall (c.nIteratedSums words)
    have hone : (c.batchLoop pi X (c.nIteratedSums words) words 0 []).1.length = 1 := by
      rw [h5]
      split
      · rw [if_neg (by simp; omega)]
      · next hb =>
        have hFpos : 0 < c.freqs.length := by
          unfold CosWISS.nIteratedSums at hb
          exact Nat.pos_of_ne_zero fun h => hb (by rw [h]; simp)
        have hge : words.length ≤ c.nIteratedSums words := by
          unfold CosWISS.nIteratedSums
          exact Nat.le_mul_of_pos_left _ hFpos
        apply Nat.div_eq_of_lt_le
        · simp; omega
        · simp; omega
    generalize c.batchLoop pi X (c.nIteratedSums words) words 0 [] = out at *
    obtain ⟨l, e⟩ := out
    simp only at h2 hone
    obtain ⟨x, rfl⟩ := List.length_eq_one_iff.1 hone
    simp only [List.flatten_cons, List.flatten_nil, List.append_nil, List.nil_append, Nat.zero_add] at h2
    simp only [h2]
  · rw [(hflat _).1]
    unfold CosWISS.nIteratedSums
    ring

/-- C89: the label of iterated sum number `w * len(freqs) + f` names word `w` and frequency `f`. -/
theorem C89_label (fl : R → PStr) (c : CosWISS R) (words : List (SWord R)) (w f : ℕ) (hw : w < words.length)
    (hf : f < c.freqs.length) :
    c.label fl words (w * c.freqs.length + f) = .ok (words[w].name ++ "!".toList ++ fl c.freqs[f] ++ " : ^".toList
      ++ Nat.toDigits 10 c.exponent ++ (if c.total then " : total".toList else [])) := by
  unfold CosWISS.label
  have h0 : 0 < c.freqs.length := by omega
  have h1 : (w * c.freqs.length + f) / c.freqs.length = w := by
    rw [Nat.add_comm, Nat.add_mul_div_right _ _ h0, Nat.div_eq_of_lt hf, Nat.zero_add]
  have h2 : (w * c.freqs.length + f) % c.freqs.length = f := by
    rw [Nat.add_comm, Nat.add_mul_mod_self_right, Nat.mod_eq_of_lt hf]
  rw [if_neg h0.ne', h1, h2, List.getElem?_eq_getElem hw, List.getElem?_eq_getElem hf]

/-- C89: other indices raise. -/
theorem C89_label_range (fl : R → PStr) (c : CosWISS R) (words : List (SWord R)) (i : ℕ)
    (hi : c.nIteratedSums words ≤ i) : ∃ e, c.label fl words i = .error e := by
  unfold CosWISS.label
  by_cases h0 : c.freqs.length = 0
  · exact ⟨_, if_pos h0⟩
  · rw [if_neg h0]
    have : words.length ≤ i / c.freqs.length := by
      rw [Nat.le_div_iff_mul_le (by omega)]
      unfold CosWISS.nIteratedSums at hi
      rw [Nat.mul_comm]; exact hi
    rw [List.getElem?_eq_none this]
    exact ⟨_, rfl⟩

/-! ### Values -/

/-- If word `w` gives, for every frequency and series, the array `K w f Z`, then so does `transform`. -/
theorem transform_of_words (pi : R) (c : CosWISS R) (words : List (SWord R)) (X : Data R) (hne : words ≠ [])
    (K : ℕ → ℕ → Series R → List R)
    (hr : ∀ w (hw : w < words.length), c.wordResult pi X w words[w]
      = .ok ((List.range c.freqs.length).map fun f => X.map (K w f))) :
    ∃ out, c.transform pi words X = .ok out ∧ out.length = c.freqs.length * words.length ∧
      ∀ w < words.length, ∀ f < c.freqs.length, ∀ i (hi : i < X.length),
        (out.getD (w * c.freqs.length + f) []).getD i [] = K w f X[i] := by
  obtain ⟨_, h2, h3, h4⟩ := C89_batches pi c words X
    (fun w => (List.range c.freqs.length).map fun f => X.map (K w f)) (fun w => by simp) hr hne
  refine ⟨_, h2, h3, ?_⟩
  intro w hw f hf i hi
  rw [h4 w hw f hf]
  simp [List.getD_eq_getElem?_getD, hf, hi]

theorem wordResult_plain (pi : R) (c : CosWISS R) (hffn : c.ffnSize = none) (hdrop : c.dropout = none) (X : Data R)
    (w : ℕ) (word : SWord R) (hne : word.els ≠ []) :
    c.wordResult pi X w word = .ok ((List.range c.freqs.length).map fun f => X.map fun Z =>
      coswissSingle pi Z word.els (c.freqs.getD f 0) (getWeightings c.exponent c.total word.els.length)) := by
  unfold CosWISS.wordResult
  rw [hffn, hdrop]
  simp [hne]

/-- C88 for exponents up to `4` (the default is `2`).  For larger exponents see `C88_counterexample`. -/
theorem C88_coswiss_partial [CosLaw R] (pi : R) (c : CosWISS R) (words : List (SWord R)) (X : Data R) (d n : ℕ)
    (hin : CosInput words X d n) (_hf0 : ∀ f ∈ c.freqs, f ≠ 0) (hne : words ≠ []) (hffn : c.ffnSize = none)
    (hdrop : c.dropout = none) (hs : c.exponent ≤ 4) :
    ∃ out, c.transform pi words X = .ok out ∧ out.length = c.freqs.length * words.length ∧
      ∀ w (hw : w < words.length) f (hf : f < c.freqs.length) i (hi : i < X.length),
        (out.getD (w * c.freqs.length + f) []).getD i []
          = tab n (cosSum pi c.freqs[f] n c.exponent c.total X[i] words[w].els (fun _ => [])) := by
  obtain ⟨out, h1, h2, h3⟩ := transform_of_words pi c words X hne (fun w f Z =>
      coswissSingle pi Z (words.getD w ⟨[], 0, [], none⟩).els (c.freqs.getD f 0)
        (getWeightings c.exponent c.total (words.getD w ⟨[], 0, [], none⟩).els.length)) (by
    intro w hw
    rw [wordResult_plain pi c hffn hdrop X w _ (hin.letters _ (List.getElem_mem hw))]
    simp [List.getD_eq_getElem?_getD, hw])
  refine ⟨out, h1, h2, ?_⟩
  intro w hw f hf i hi
  rw [h3 w hw f hf i hi]
  have hZ := hin.data X[i] (List.getElem_mem hi)
  have hgw : words.getD w ⟨[], 0, [], none⟩ = words[w] := by simp [List.getD_eq_getElem?_getD, hw]
  have hgf : c.freqs.getD f 0 = c.freqs[f] := by simp [List.getD_eq_getElem?_getD, hf]
  rw [hgw, hgf, coswissSingle_eq_leaky, leaky_main pi _ hs c.total hZ.2
    (List.length_pos_iff.1 (by rw [hZ.1]; exact hin.dims))
    (hin.letters _ (List.getElem_mem hw))
    (fun el hel => by unfold Fits; rw [hZ.1]; exact hin.fits _ (List.getElem_mem hw) el hel)]
  simp

/-! ### Dropout -/

/-- After a successful fit with dropout: the dropped index sets of every word, frequency and letter are
`int(dropout * N)` distinct time points. -/
theorem fit_drops (g : Rng R) (hg : g.Valid) (c c' : CosWISS R) (words : List (SWord R)) (X0 : Data R) (q : R)
    (hdrop : c.dropout = some q) (hfit : c.fit g words X0 = .ok c') :
    ∃ drops, c'.drops = some drops ∧ drops.length = words.length ∧ c'.freqs = c.freqs ∧ c'.exponent = c.exponent ∧
      c'.total = c.total ∧ c'.ffnSize = c.ffnSize ∧ c'.dropout = c.dropout ∧
      ∀ w (hw : w < words.length) f, f < c.freqs.length → ∀ k < words[w].els.length,
        let D := ((drops.getD w []).getD f []).getD k []
        (D.length : ℤ) = pyInt (q * (shape2 X0 : R)) ∧ D.Nodup ∧ ∀ t ∈ D, t < shape2 X0 := by
  unfold CosWISS.fit at hfit
  rw [hdrop] at hfit
  simp only at hfit
  set L := (words.map fun w => w.els.length).foldr max 0 with hL
  rcases hd : cosDrops g words.length c.freqs.length L (shape2 X0) (pyInt (q * (shape2 X0 : R))) with e | drops
  · rw [hd] at hfit; cases hfit
  · rw [hd] at hfit
    cases hfit
    unfold cosDrops at hd
    split at hd
    · next hcond =>
      cases hd
      refine ⟨_, rfl, by simp, rfl, rfl, rfl, rfl, hdrop.symm, ?_⟩
      intro w hw f hf k hk
      have hkL : k < L := by
        have : ∀ l : List (SWord R), ∀ x ∈ l, x.els.length ≤ (l.map fun w => w.els.length).foldr max 0 := by
          intro l
          induction l with
          | nil => simp
          | cons a as ih =>
            intro x hx
            rw [List.map_cons, List.foldr_cons]
            rcases List.mem_cons.1 hx with rfl | hx
            · exact le_max_left _ _
            · exact (ih x hx).trans (le_max_right _ _)
        exact lt_of_lt_of_le hk (this words _ (List.getElem_mem hw))
      have hr : 0 ≤ pyInt (q * (shape2 X0 : R)) ∧ pyInt (q * (shape2 X0 : R)) ≤ (shape2 X0 : ℤ) := by
        rcases hcond with h | h | h | h
        · omega
        · omega
        · omega
        · exact h
      have hget : ∀ (W F L : ℕ) (h : ℕ → ℕ → ℕ → List ℕ) (w f k : ℕ), w < W → f < F → k < L →
          ((((List.range W).map fun w => (List.range F).map fun f => (List.range L).map fun k => h w f k).getD w
            []).getD f []).getD k [] = h w f k := by
        intro W F L h w f k hw hf hk
        simp [List.getD_eq_getElem?_getD, hw, hf, hk]
      intro D
      have hD : D = g.choice ((w * c.freqs.length + f) * L + k) (shape2 X0) (pyInt (q * (shape2 X0 : R))).toNat :=
        hget words.length c.freqs.length L _ w f k hw hf hkL
      rw [hD]
      have hle : (pyInt (q * (shape2 X0 : R))).toNat ≤ shape2 X0 := by omega
      refine ⟨?_, hg.choice_nodup _ _ _ hle, hg.choice_lt _ _ _ hle⟩
      rw [hg.choice_length _ _ _ hle]
      omega
    · cases hd

theorem wordResult_leaky (pi : R) (c : CosWISS R) (hffn : c.ffnSize = none) (q : R) (hdrop : c.dropout = some q)
    (drops : List (List (List (List ℕ)))) (hdr : c.drops = some drops) (X : Data R)
    (w : ℕ) (hw : w < drops.length) (word : SWord R) (hne : word.els ≠ []) :
    c.wordResult pi X w word = .ok ((List.range c.freqs.length).map fun f => X.map fun Z =>
      leakyCoswissSingle pi Z word.els (c.freqs.getD f 0) (getWeightings c.exponent c.total word.els.length)
        ((drops.getD w []).getD f [])) := by
  unfold CosWISS.wordResult
  rw [hffn, hdrop, hdr]
  simp [hne, List.getElem?_eq_getElem hw, List.getD_eq_getElem?_getD]

/-- A series with one dimension for every letter of the word: the value of the letter, and zero at the dropped times. -/
def maskedLetters (Z : Series R) (word : List (List ℤ)) (dropped : ℕ → List ℕ) (n : ℕ) : Series R :=
  tab word.length fun j => tab n fun t => if t ∈ dropped j then 0 else monomial Z (word.getD j []) t

/-- The word `[1][2]…[p]`, one dimension per letter. -/
def separateLetters (p : ℕ) : List (List ℤ) := tab p fun j => tab p fun d => if d = j then 1 else 0

theorem leaky_masked (pi f : R) {Z : List (List R)} {n : ℕ} (hZ : Rect Z n) (hne : Z ≠ []) {word : List (List ℤ)}
    (hw : word ≠ []) (hfit : ∀ el ∈ word, Fits Z el) (wts D : List (List ℕ)) :
    leakyCoswissSingle pi Z word f wts D
      = coswissSingle pi (maskedLetters Z word (D.getD · []) n) (separateLetters word.length) f wts := by
  rw [coswissSingle_eq_leaky, leakyCoswissSingle_eq pi f hZ hne hfit,
    leakyCoswissSingle_eq pi f (n := n) (by
      intro x hx
      simp only [maskedLetters, mem_tab] at hx
      obtain ⟨j, _, rfl⟩ := hx
      simp) (by
      intro h
      have := congrArg List.length h
      simp [maskedLetters] at this
      exact hw this) (by
      intro el hel
      simp only [separateLetters, mem_tab] at hel
      obtain ⟨j, _, rfl⟩ := hel
      simp [Fits, maskedLetters])]
  apply tab_congr; intro t ht
  congr 1
  apply List.map_congr_left
  intro wt _
  have hl : (separateLetters word.length).length = word.length := by simp [separateLetters]
  rw [hl]
  congr 2
  apply incSum_congr
  intro k hk u hu
  unfold cosTerm
  have hm : monomial (maskedLetters Z word (D.getD · []) n) ((separateLetters word.length).getD k []) u
      = if u ∈ D.getD k [] then 0 else monomial Z (word.getD k []) u := by
    unfold separateLetters
    rw [tab_getD _ _ _ _ hk]
    unfold monomial
    rw [tab_length, Finset.prod_eq_single k]
    · rw [tab_getD _ _ _ _ hk, if_pos rfl, zpow_one]
      unfold entry maskedLetters
      rw [tab_getD _ _ _ _ hk, tab_getD _ _ _ _ (by omega)]
      rfl
    · intro d hd hdk
      rw [tab_getD _ _ _ _ (Finset.mem_range.1 hd), if_neg hdk, zpow_zero]
    · intro h; exact absurd (Finset.mem_range.2 hk) h
  rw [hm]
  by_cases h : u ∈ D.getD k []
  · simp only [h, if_true]; simp
  · simp only [h, if_false]; simp

/-- C90, for every exponent: after a successful fit with dropout, every iterated sum is the cosine-weighted iterated sum
(without dropout) of the masked letters; the dropped sets consist of `int(dropout * N)` distinct time points. -/
theorem C90_masked (pi : R) (g : Rng R) (hg : g.Valid) (c c' : CosWISS R) (words : List (SWord R)) (X0 X : Data R)
    (d n : ℕ) (q : R) (hin : CosInput words X d n) (_hf0 : ∀ f ∈ c.freqs, f ≠ 0) (hne : words ≠ [])
    (hffn : c.ffnSize = none) (hdrop : c.dropout = some q) (hfit : c.fit g words X0 = .ok c') :
    ∃ (D : ℕ → ℕ → ℕ → List ℕ) (out : Data R), c'.transform pi words X = .ok out ∧
      out.length = c.freqs.length * words.length ∧
      ∀ w (hw : w < words.length) f (hf : f < c.freqs.length),
        (∀ k < words[w].els.length, ((D w f k).length : ℤ) = pyInt (q * (shape2 X0 : R)) ∧ (D w f k).Nodup ∧
          ∀ t ∈ D w f k, t < shape2 X0) ∧
        ∀ i (hi : i < X.length),
          (out.getD (w * c.freqs.length + f) []).getD i []
            = coswissSingle pi (maskedLetters X[i] words[w].els (D w f) n) (separateLetters words[w].els.length)
                c.freqs[f] (getWeightings c.exponent c.total words[w].els.length) := by
  obtain ⟨drops, e1, e2, e3, e4, e5, e6, e7, e8⟩ := fit_drops g hg c c' words X0 q hdrop hfit
  obtain ⟨out, h1, h2, h3⟩ := transform_of_words pi c' words X hne (fun w f Z =>
      leakyCoswissSingle pi Z (words.getD w ⟨[], 0, [], none⟩).els (c'.freqs.getD f 0)
        (getWeightings c'.exponent c'.total (words.getD w ⟨[], 0, [], none⟩).els.length)
        ((drops.getD w []).getD f [])) (by
    intro w hw
    rw [wordResult_leaky pi c' (e6.trans hffn) q (e7.trans hdrop) drops e1 X w (by omega) _
      (hin.letters _ (List.getElem_mem hw))]
    simp [List.getD_eq_getElem?_getD, hw])
  rw [e3] at h2 h3
  refine ⟨fun w f k => ((drops.getD w []).getD f []).getD k [], out, h1, h2, ?_⟩
  intro w hw f hf
  refine ⟨e8 w hw f hf, ?_⟩
  intro i hi
  rw [h3 w hw f hf i hi]
  have hZ := hin.data X[i] (List.getElem_mem hi)
  have hgw : words.getD w ⟨[], 0, [], none⟩ = words[w] := by simp [List.getD_eq_getElem?_getD, hw]
  have hgf : c.freqs.getD f 0 = c.freqs[f] := by simp [List.getD_eq_getElem?_getD, hf]
  rw [hgw, hgf, e4, e5]
  exact leaky_masked pi _ hZ.2 (List.length_pos_iff.1 (by rw [hZ.1]; exact hin.dims))
    (hin.letters _ (List.getElem_mem hw))
    (fun el hel => by unfold Fits; rw [hZ.1]; exact hin.fits _ (List.getElem_mem hw) el hel) _ _

/-- C90 for exponents up to `4`: the sum runs over the index tuples whose `j`-th index is not in the `j`-th dropped set. -/
theorem C90_dropout [CosLaw R] (pi : R) (g : Rng R) (hg : g.Valid) (c c' : CosWISS R) (words : List (SWord R))
    (X0 X : Data R) (d n : ℕ) (q : R) (hin : CosInput words X d n) (_hf0 : ∀ f ∈ c.freqs, f ≠ 0) (hne : words ≠ [])
    (hffn : c.ffnSize = none) (hdrop : c.dropout = some q) (hs : c.exponent ≤ 4) (hfit : c.fit g words X0 = .ok c') :
    ∃ (D : ℕ → ℕ → ℕ → List ℕ) (out : Data R), c'.transform pi words X = .ok out ∧
      out.length = c.freqs.length * words.length ∧
      ∀ w (hw : w < words.length) f (hf : f < c.freqs.length),
        (∀ k < words[w].els.length, ((D w f k).length : ℤ) = pyInt (q * (shape2 X0 : R)) ∧ (D w f k).Nodup ∧
          ∀ t ∈ D w f k, t < shape2 X0) ∧
        ∀ i (hi : i < X.length),
          (out.getD (w * c.freqs.length + f) []).getD i []
            = tab n (cosSum pi c.freqs[f] n c.exponent c.total X[i] words[w].els (D w f)) := by
  obtain ⟨drops, e1, e2, e3, e4, e5, e6, e7, e8⟩ := fit_drops g hg c c' words X0 q hdrop hfit
  obtain ⟨out, h1, h2, h3⟩ := transform_of_words pi c' words X hne (fun w f Z =>
      leakyCoswissSingle pi Z (words.getD w ⟨[], 0, [], none⟩).els (c'.freqs.getD f 0)
        (getWeightings c'.exponent c'.total (words.getD w ⟨[], 0, [], none⟩).els.length)
        ((drops.getD w []).getD f [])) (by
    intro w hw
    rw [wordResult_leaky pi c' (e6.trans hffn) q (e7.trans hdrop) drops e1 X w (by omega) _
      (hin.letters _ (List.getElem_mem hw))]
    simp [List.getD_eq_getElem?_getD, hw])
  rw [e3] at h2 h3
  refine ⟨fun w f k => ((drops.getD w []).getD f []).getD k [], out, h1, h2, ?_⟩
  intro w hw f hf
  refine ⟨e8 w hw f hf, ?_⟩
  intro i hi
  rw [h3 w hw f hf i hi]
  have hZ := hin.data X[i] (List.getElem_mem hi)
  have hgw : words.getD w ⟨[], 0, [], none⟩ = words[w] := by simp [List.getD_eq_getElem?_getD, hw]
  have hgf : c.freqs.getD f 0 = c.freqs[f] := by simp [List.getD_eq_getElem?_getD, hf]
  rw [hgw, hgf, e4, e5]
  exact leaky_main pi _ hs c.total hZ.2 (List.length_pos_iff.1 (by rw [hZ.1]; exact hin.dims))
    (hin.letters _ (List.getElem_mem hw))
    (fun el hel => by unfold Fits; rw [hZ.1]; exact hin.fits _ (List.getElem_mem hw) el hel) _

/-! ### The random network -/

/-- `∑_h C[d,h] * relu(∑_e A[h,e] * x_e(t) + b_h)`. -/
def netValue (net : CosNet R) (Z : Series R) (e t : ℕ) : R :=
  ∑ h ∈ Finset.range (min net.A.length net.b.length), ((net.C.getD e []).getD h 0) *
    max 0 ((∑ j ∈ Finset.range Z.length, ((net.A.getD h []).getD j 0) * entry Z j t) + net.b.getD h 0)

private theorem dotp_eq (a b : List R) (k : ℕ) (hb : b.length = k) (ha : a.length = k) :
    dotp a b = ∑ j ∈ Finset.range k, a.getD j 0 * b.getD j 0 := by
  unfold dotp
  rw [tab_of_list a 0, tab_of_list b 0, ha, hb, zipWith_tab, tab, sum_map_range]
  apply Finset.sum_congr rfl
  intro j hj
  have := Finset.mem_range.1 hj
  rw [tab_getD _ _ _ _ this, tab_getD _ _ _ _ this]

theorem relu_eq [IsStrictOrderedRing R] (v : R) : relu v = max 0 v := by
  unfold relu
  split
  · next h => rw [max_eq_right h.le]
  · next h => rw [max_eq_left (not_lt.1 h)]

/-- The matrices of the network fit the series. -/
structure CosNet.Fits (net : CosNet R) (d : ℕ) : Prop where
  A : ∀ r ∈ net.A, r.length = d
  b : net.b.length = net.A.length
  C : ∀ r ∈ net.C, r.length = net.A.length
  out : net.C.length = d

theorem cosFfn_eq [IsStrictOrderedRing R] (net : CosNet R) (Z : Series R) (n : ℕ) (hZ : Rect Z n) (hne : Z ≠ [])
    (hn : net.Fits Z.length) :
    cosFfn net.A net.b net.C Z = tab Z.length fun e => tab n fun t => netValue net Z e t := by
  unfold cosFfn
  rw [ncols_eq hZ hne]
  have hY : (List.zipWith (fun (r : List R) (c : R) => (List.range n).map fun t => dotp r (column Z t) + c) net.A net.b).map
      (fun y => y.map relu) = tab net.A.length fun h => tab n fun t => relu ((∑ j ∈ Finset.range Z.length,
        ((net.A.getD h []).getD j 0) * entry Z j t) + net.b.getD h 0) := by
    apply eq_tab
    · simp [hn.b]
    · intro h hh
      simp only [List.length_map, List.length_zipWith, hn.b, min_self] at hh
      simp only [List.getElem_map, List.getElem_zipWith, List.map_map]
      show tab n _ = _
      apply tab_congr
      intro t ht
      simp only [Function.comp]
      have hA : net.A.getD h [] = net.A[h] := by simp [List.getD_eq_getElem?_getD, hh]
      have hb : net.b.getD h 0 = net.b[h]'(by rw [hn.b]; exact hh) := by
        simp [List.getD_eq_getElem?_getD, hn.b, hh]
      rw [dotp_eq _ _ Z.length (by simp [column]) (hn.A _ (List.getElem_mem hh)), hA, hb]
      congr 2
      apply Finset.sum_congr rfl
      intro j hj
      have := Finset.mem_range.1 hj
      simp [column, entry, List.getD_eq_getElem?_getD, this]
  simp only
  rw [hY]
  apply eq_tab
  · simp [hn.out]
  · intro e he
    simp only [List.length_map] at he
    simp only [List.getElem_map]
    show tab n _ = _
    apply tab_congr
    intro t ht
    have hC : net.C.getD e [] = net.C[e] := by simp [List.getD_eq_getElem?_getD, he]
    rw [dotp_eq _ _ net.A.length (by simp [column]) (hn.C _ (List.getElem_mem he))]
    unfold netValue
    rw [hn.b, min_self, hC]
    apply Finset.sum_congr rfl
    intro h hh
    have hh := Finset.mem_range.1 hh
    congr 1
    unfold column
    rw [map_tab, tab_getD _ _ _ _ hh, tab_getD _ _ _ _ ht, relu_eq]

theorem cosNets_fits (g : Rng R) (W F d D w f : ℕ) (hw : w < W) (hf : f < F) :
    (((cosNets g W F d D).getD w []).getD f ⟨[], [], []⟩).Fits D := by
  have : ((cosNets g W F d D).getD w []).getD f ⟨[], [], []⟩
      = { A := (List.range d).map fun i => (List.range D).map fun j => g.unit 0 (((w * F + f) * d + i) * D + j)
          b := (List.range d).map fun i => g.unit 1 ((w * F + f) * d + i)
          C := (List.range D).map fun i => (List.range d).map fun j => g.unit 2 (((w * F + f) * D + i) * d + j) } := by
    simp [cosNets, List.getD_eq_getElem?_getD, hw, hf]
  rw [this]
  refine ⟨?_, by simp, ?_, by simp⟩
  · intro r hr
    obtain ⟨i, _, rfl⟩ := List.mem_map.1 hr
    simp
  · intro r hr
    obtain ⟨i, _, rfl⟩ := List.mem_map.1 hr
    simp

/-- With `ffn_size` the series is first transformed by the random two-layer network of the word and frequency; exponents
up to `4`. -/
theorem C88_network_partial [IsStrictOrderedRing R] [CosLaw R] (pi : R) (g : Rng R) (c c' : CosWISS R)
    (words : List (SWord R)) (X0 X : Data R) (d n h : ℕ) (hin : CosInput words X d n) (_hf0 : ∀ f ∈ c.freqs, f ≠ 0)
    (hne : words ≠ []) (hffn : c.ffnSize = some h) (hs : c.exponent ≤ 4) (hd : shape1 X0 = d)
    (hfit : c.fit g words X0 = .ok c') :
    ∃ (net : ℕ → ℕ → CosNet R) (out : Data R), c'.transform pi words X = .ok out ∧
      out.length = c.freqs.length * words.length ∧
      ∀ w (hw : w < words.length) f (hf : f < c.freqs.length), (net w f).Fits d ∧
        ∀ i (hi : i < X.length),
          (out.getD (w * c.freqs.length + f) []).getD i []
            = tab n (cosSum pi c.freqs[f] n c.exponent c.total
                (tab d fun e => tab n fun t => netValue (net w f) X[i] e t) words[w].els (fun _ => [])) := by
  have hc' : c'.net = some (cosNets g words.length c.freqs.length h d) ∧ c'.freqs = c.freqs ∧ c'.exponent = c.exponent ∧
      c'.total = c.total ∧ c'.ffnSize = some h := by
    unfold CosWISS.fit at hfit
    rw [hffn, hd] at hfit
    simp only at hfit
    cases hq : c.dropout with
    | none => rw [hq] at hfit; cases hfit; exact ⟨rfl, rfl, rfl, rfl, by first | exact hffn | rfl⟩
    | some q =>
      rw [hq] at hfit
      simp only at hfit
      rcases hdr : cosDrops g words.length c.freqs.length ((words.map fun w => w.els.length).foldr max 0) (shape2 X0)
        (pyInt (q * (shape2 X0 : R))) with e | drops
      · rw [hdr] at hfit; cases hfit
      · rw [hdr] at hfit; cases hfit; exact ⟨rfl, rfl, rfl, rfl, by first | exact hffn | rfl⟩
  obtain ⟨e1, e3, e4, e5, e6⟩ := hc'
  let net : ℕ → ℕ → CosNet R := fun w f =>
    ((cosNets g words.length c.freqs.length h d).getD w []).getD f ⟨[], [], []⟩
  obtain ⟨out, h1, h2, h3⟩ := transform_of_words pi c' words X hne (fun w f Z =>
      coswissSingle pi (cosFfn (net w f).A (net w f).b (net w f).C Z) (words.getD w ⟨[], 0, [], none⟩).els
        (c'.freqs.getD f 0) (getWeightings c'.exponent c'.total (words.getD w ⟨[], 0, [], none⟩).els.length)) (by
    intro w hw
    have hl := hin.letters _ (List.getElem_mem hw)
    have hrow : (cosNets g words.length c.freqs.length h d)[w]?
        = some ((cosNets g words.length c.freqs.length h d).getD w []) := by
      have : w < (cosNets g words.length c.freqs.length h d).length := by simpa [cosNets] using hw
      simp [List.getD_eq_getElem?_getD, List.getElem?_eq_getElem this]
    unfold CosWISS.wordResult
    rw [e6, e1]
    simp only [hrow, hl, false_and, if_false]
    simp [net, List.getD_eq_getElem?_getD, hw])
  rw [e3] at h2 h3
  refine ⟨net, out, h1, h2, ?_⟩
  intro w hw f hf
  have hfits := cosNets_fits g words.length c.freqs.length h d w f hw hf
  refine ⟨hfits, ?_⟩
  intro i hi
  rw [h3 w hw f hf i hi]
  have hZ := hin.data X[i] (List.getElem_mem hi)
  have hgw : words.getD w ⟨[], 0, [], none⟩ = words[w] := by simp [List.getD_eq_getElem?_getD, hw]
  have hgf : c.freqs.getD f 0 = c.freqs[f] := by simp [List.getD_eq_getElem?_getD, hf]
  have hZne : X[i] ≠ [] := List.length_pos_iff.1 (by rw [hZ.1]; exact hin.dims)
  rw [hgw, hgf, e4, e5, cosFfn_eq (net w f) X[i] n hZ.2 hZne (by rw [hZ.1]; exact hfits), hZ.1,
    coswissSingle_eq_leaky]
  rw [leaky_main pi _ hs c.total (n := n) (by
      intro x hx
      obtain ⟨j, _, rfl⟩ := mem_tab.1 hx
      simp) (by rw [Ne, tab_eq_nil]; have := hin.dims; omega)
    (hin.letters _ (List.getElem_mem hw))
    (fun el hel => by unfold Fits; rw [tab_length]; exact hin.fits _ (List.getElem_mem hw) el hel)]
  simp

/-! ### The exponent five -/

private theorem cosW5 : (phases Real.pi (1 / 2 : ℝ) 2).map NpMath.cos = [1, 1] := by
  have h : ∀ x : ℝ, NpMath.cos x = Real.cos x := fun _ => rfl
  have : Real.pi / (2⁻¹ * (2 - 1)) = 2 * Real.pi := by norm_num; ring
  simp [phases, List.range_succ, h, this]

private theorem sinW5 : (phases Real.pi (1 / 2 : ℝ) 2).map NpMath.sin = [0, 0] := by
  have h : ∀ x : ℝ, NpMath.sin x = Real.sin x := fun _ => rfl
  have : Real.pi / (2⁻¹ * (2 - 1)) = 2 * Real.pi := by norm_num; ring
  simp [phases, List.range_succ, h, this]

/-- C88 is false for exponent `5`: for the series `1, 1`, the word `[1][1]` and the frequency `1/2`, the code returns `3`
at the last time step, but the sum has the single tuple `(0, 1)` with value `cos(2 pi) ** 5 = 1`.  (Only the first digit of
the binomial coefficient `10` is used, and the following digits are taken for exponents.) -/
theorem C88_counterexample :
    ∃ out : Data ℝ, ({ freqs := [1 / 2], exponent := 5 } : CosWISS ℝ).transform Real.pi [⟨[[1], [1]], 1, [], none⟩] [[[1, 1]]]
      = .ok out ∧ ((out.getD 0 []).getD 0 []).getD 1 0 = 3 ∧
      cosSum Real.pi (1 / 2) 2 5 false [[1, 1]] [[1], [1]] (fun _ => []) 1 = 1 := by
  have hw : getWeightings 5 false 2 = [[1, 5, 0, 5, 0], [5, 4, 1, 4, 1], [1, 0, 3, 0, 3], [1, 0, 2, 0, 2], [5, 1, 4, 1, 4],
      [1, 0, 5, 0, 5]] := by decide +kernel
  refine ⟨[[coswissSingle Real.pi [[1, 1]] [[1], [1]] (1 / 2) (getWeightings 5 false 2)]], ?_, ?_, ?_⟩
  · simp [CosWISS.transform, CosWISS.batchTransform, CosWISS.batchLoop, CosWISS.wordResult, CosWISS.nIteratedSums]
  · rw [hw]
    have hc : ncols ([[1, 1]] : List (List ℝ)) = 2 := rfl
    unfold coswissSingle
    rw [hc, cosW5, sinW5]
    norm_num [-ones_eq, -zeros_eq, -List.drop_one, ones, zeros, List.replicate, cosRow, enumFold, mulTrig, lettersMul, letterMul, cumsum, cumsumFrom, vmul, vadd, roll1z, roll1, ncols, row,
      Function.iterate_succ]
  · unfold cosSum
    have hset : (incTuples 2 2).filter (fun i => ∀ j : Fin 2, i j ∉ ([] : List ℕ)) = {![0, 1]} := by
      ext i
      simp only [Finset.mem_filter, mem_incTuples, List.not_mem_nil, not_false_eq_true, implies_true, and_true,
        Finset.mem_singleton]
      constructor
      · rintro ⟨h1, h2⟩
        have h01 := h2 (show (0 : Fin 2) < 1 by decide)
        have := h1 0; have := h1 1
        funext j
        fin_cases j
        · show i 0 = 0; omega
        · show i 1 = 1; omega
      · rintro rfl
        refine ⟨fun j => by fin_cases j <;> simp, ?_⟩
        intro a b hab
        fin_cases a <;> fin_cases b <;> simp_all
    show ∑ i ∈ (incTuples 2 2).filter (fun i => ∀ j : Fin 2, i j ∉ ([] : List ℕ)), _ = _
    rw [hset, Finset.sum_singleton]
    have h : ∀ x : ℝ, NpMath.cos x = Real.cos x := fun _ => rfl
    have h2 : Real.pi * ((1 : ℕ) - (0 : ℕ) : ℝ) / (1 / 2 * ((2 : ℕ) - 1)) = 2 * Real.pi := by norm_num; ring
    have hcw : cosWeight Real.pi (1 / 2 : ℝ) 2 5 0 1 = 1 := by
      unfold cosWeight; rw [h2, h, Real.cos_two_pi, one_pow]
    rw [one_div] at hcw
    simp [cosPenalty, Fin.prod_univ_two, nextIdx, hcw, monomial, entry]

/-- Non-vacuity: two words, two frequencies, two dimensions over the reals. -/
example : CosInput (R := ℝ) [⟨[[1, 0], [0, 2]], 2, [], none⟩, ⟨[[0, 1]], 2, [], none⟩] [[[1, 2, 3], [4, 5, 7]]] 2 3 :=
  ⟨by intro Z hZ; simp only [List.mem_singleton] at hZ; subst hZ; simp [Rect], by norm_num, by norm_num,
    by simp, by simp⟩

/-- Non-vacuity: fitting with dropout `1/2` on three time steps succeeds and drops one time point per letter. -/
example : ((CosWISS.fit lowRng { freqs := [1, 2], dropout := some (1 / 2) } [⟨[[1], [1]], 1, [], none⟩]
    [[[(1 : ℚ), 2, 3]]]).toOption.map fun c' => c'.drops) = some (some [[[[0], [0]], [[0], [0]]]]) := by
  decide +kernel

/-- Non-vacuity: fitting with a hidden layer of size two. -/
example : ∃ c', CosWISS.fit lowRng { freqs := [1, 2], ffnSize := some 2 } [⟨[[1], [1]], 1, [], none⟩]
    [[[(1 : ℚ), 2, 3]]] = .ok c' := ⟨_, rfl⟩

end Fruits
