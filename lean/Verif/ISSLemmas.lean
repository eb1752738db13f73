import Verif.ISS
import Verif.KernelClosed

/-! # The ISS object returns the concatenation of the per-word rows -/

namespace Fruits
variable {R : Type} [Field R] [LinearOrder R] [FloorRing R]

/-- Rows computed for word number `i`. -/
def ISSConf.wordRows (expf : R → R) (c : ISSConf R) (X : Data R) (i : ℕ) (word : IWord R) : Data R :=
  swapAxes (rowsOf c.semiring word (c.depth i))
    (iteratedSums expf c.semiring X word (c.depth i) c.weighting)

/-- Concatenated rows of the words `ws`, the first having number `i`. -/
def ISSConf.blockRows (expf : R → R) (c : ISSConf R) (X : Data R) : ℕ → List (IWord R) → Data R
  | _, [] => []
  | i, w :: ws => c.wordRows expf X i w ++ c.blockRows expf X (i + 1) ws

/-- Arctic argmax is only usable with simple words in EXTENDED mode. -/
def ISSConf.Usable {R : Type} (c : ISSConf R) : Prop :=
  c.semiring = .arcticArgmax → c.mode = .extended ∧ ∀ w ∈ c.words, ∃ s, w = .simple s

@[simp] theorem swapAxes_length {R : Type} (m : ℕ) (A : Data R) : (swapAxes m A).length = m := by
  simp [swapAxes]

theorem rowsOf_eq_nWord {R : Type} {c : ISSConf R} (h : c.Usable) {w : IWord R} (hw : w ∈ c.words)
    (i : ℕ) : rowsOf c.semiring w (c.depth i) = c.nWord i w := by
  unfold rowsOf ISSConf.nWord
  cases hs : c.semiring <;> simp_all [ISSConf.Usable]
  obtain ⟨s, rfl⟩ := h.2 w hw
  rfl

theorem wordRows_length {expf : R → R} {c : ISSConf R} (h : c.Usable) {w : IWord R}
    (hw : w ∈ c.words) (X : Data R) (i : ℕ) :
    (c.wordRows expf X i w).length = c.nWord i w := by
  rw [ISSConf.wordRows, swapAxes_length, rowsOf_eq_nWord h hw]

/-- Sum of `nWord` over a block. -/
def ISSConf.blockCount {R : Type} (c : ISSConf R) : ℕ → List (IWord R) → ℕ
  | _, [] => 0
  | i, w :: ws => c.nWord i w + c.blockCount (i + 1) ws

theorem blockRows_length {expf : R → R} {c : ISSConf R} (h : c.Usable) (X : Data R) (i : ℕ)
    (ws : List (IWord R)) (hws : ∀ w ∈ ws, w ∈ c.words) :
    (c.blockRows expf X i ws).length = c.blockCount i ws := by
  induction ws generalizing i with
  | nil => rfl
  | cons w ws ih =>
    rw [ISSConf.blockRows, ISSConf.blockCount, List.length_append,
      wordRows_length h (hws w (by simp)), ih _ fun w hw => hws w (by simp [hw])]

theorem batchLoop_eq {expf : R → R} {c : ISSConf R} (h : c.Usable) (X : Data R)
    (ws : List (IWord R)) (hws : ∀ w ∈ ws, w ∈ c.words) (i index : ℕ) (pre rest : Data R)
    (hp : pre.length = index) (hr : rest.length = c.blockCount i ws) :
    c.batchLoop expf X ws i index (pre ++ rest) = .ok (pre ++ c.blockRows expf X i ws) := by
  induction ws generalizing i index pre rest with
  | nil =>
    rw [ISSConf.blockCount, List.length_eq_zero_iff] at hr
    simp [ISSConf.batchLoop, ISSConf.blockRows, hr]
  | cons w ws ih =>
    rw [ISSConf.blockCount] at hr
    rw [ISSConf.batchLoop, ISSConf.blockRows]
    have hl := wordRows_length (expf := expf) h (hws w (by simp)) X i
    have hset : setRows (pre ++ rest) index (c.nWord i w) (c.wordRows expf X i w)
        = .ok ((pre ++ c.wordRows expf X i w) ++ rest.drop (c.nWord i w)) := by
      unfold setRows
      rw [if_pos hl]
      congr 1
      subst hp
      simp [List.drop_append]
    have := ih (fun w hw => hws w (by simp [hw])) (i + 1) (index + c.nWord i w)
      (pre ++ c.wordRows expf X i w) (rest.drop (c.nWord i w)) (by simp [hl, hp]) (by simp [hr])
    simp only [ISSConf.wordRows] at hset this ⊢
    simp only [hset, bind, Except.bind]
    rw [this]
    simp

theorem nBatch_eq {R : Type} {c : ISSConf R} (h : c.Usable) (i b : ℕ) (hb : i + b ≤ c.words.length) :
    c.nBatch i b = .ok (c.blockCount i ((c.words.drop i).take b)) := by
  have hlen : ((c.words.drop i).take b).length = b := by simp; omega
  generalize hws : (c.words.drop i).take b = ws at hlen
  unfold ISSConf.nBatch
  cases hs : c.semiring with
  | arcticArgmax =>
    rw [(h hs).1]
    simp only [hws]
    congr 1
    clear hws hlen hb
    induction ws generalizing i with
    | nil => rfl
    | cons w ws ih =>
      rw [List.map_cons, List.sum_cons, ISSConf.blockCount, ih (i + 1)]
      simp [ISSConf.nWord, hs]
  | _ =>
    cases hm : c.mode with
    | single =>
      simp only
      congr 1
      subst hlen
      clear hws hb
      induction ws generalizing i with
      | nil => rfl
      | cons w ws ih =>
        rw [ISSConf.blockCount, ← ih]
        simp [ISSConf.nWord, hs, ISSConf.depth, hm, Nat.add_comm]
    | extended =>
      simp only
      congr 1
      subst hlen
      clear hws hb
      unfold planCountRange
      induction ws generalizing i with
      | nil => rfl
      | cons w ws ih =>
        rw [ISSConf.blockCount, ← ih, List.length_cons, List.range'_succ, List.map_cons,
          List.sum_cons]
        simp [ISSConf.nWord, hs, ISSConf.depth, hm]

theorem batch_eq (expf : R → R) {c : ISSConf R} (h : c.Usable) (X : Data R) (i b : ℕ)
    (hb : i + b ≤ c.words.length) :
    c.batch expf X i b = .ok (c.blockRows expf X i ((c.words.drop i).take b)) := by
  have hws : ∀ w ∈ (c.words.drop i).take b, w ∈ c.words :=
    fun w hw => List.mem_of_mem_drop (List.mem_of_mem_take hw)
  unfold ISSConf.batch
  rw [nBatch_eq h i b hb]
  have := batchLoop_eq (expf := expf) h X _ hws i 0 [] (List.replicate
    (c.blockCount i ((c.words.drop i).take b)) (X.map fun Z => zeros (ncols Z))) rfl
    (by simp)
  simpa [bind, Except.bind] using this

theorem transform_eq (expf : R → R) {c : ISSConf R} (h : c.Usable) (hne : c.words ≠ [])
    (X : Data R) : c.transform expf X = .ok (c.blockRows expf X 0 c.words) := by
  unfold ISSConf.transform
  rw [if_neg (by simpa using hne), batch_eq expf h X 0 _ (by simp)]
  simp

theorem blockRows_append (expf : R → R) (c : ISSConf R) (X : Data R) (i : ℕ)
    (us ws : List (IWord R)) :
    c.blockRows expf X i (us ++ ws)
      = c.blockRows expf X i us ++ c.blockRows expf X (i + us.length) ws := by
  induction us generalizing i with
  | nil => simp [ISSConf.blockRows]
  | cons u us ih =>
    rw [List.cons_append, ISSConf.blockRows, ISSConf.blockRows, ih, List.append_assoc]
    simp [Nat.add_assoc, Nat.add_comm 1]

theorem calc_eq (expf : R → R) {c : ISSConf R} (h : c.Usable) (X : Data R) (fuel i b : ℕ)
    (hb : 0 < b) (hi : i ≤ c.words.length) (hf : c.words.length - i ≤ fuel) :
    ∃ bs, c.calc expf X fuel i b = .ok (bs, true) ∧
      bs.flatten = c.blockRows expf X i (c.words.drop i) ∧
      bs.length = (c.words.length - i + b - 1) / b := by
  induction fuel generalizing i b with
  | zero =>
    have : i = c.words.length := by omega
    subst this
    refine ⟨[], by simp [ISSConf.calc], ?_, ?_⟩
    · simp [ISSConf.blockRows]
    · simp only [Nat.sub_self, zero_add, List.length_nil]
      exact (Nat.div_eq_of_lt (by omega)).symm
  | succ fuel ih =>
    rw [ISSConf.calc]
    by_cases hlt : i < c.words.length
    · rw [if_pos hlt]
      by_cases hbig : i + b > c.words.length
      · simp only [hbig, if_true]
        rw [batch_eq expf h X i _ (by omega)]
        obtain ⟨bs, e, hfl, hlen⟩ := ih (i + (c.words.length - i)) (c.words.length - i) (by omega)
          (by omega) (by omega)
        refine ⟨c.blockRows expf X i ((c.words.drop i).take (c.words.length - i)) :: bs, ?_, ?_, ?_⟩
        · simp only [bind, Except.bind, e]; rfl
        · have : i + (c.words.length - i) = c.words.length := by omega
          rw [List.flatten_cons, hfl, this]
          rw [show (c.words.drop i).take (c.words.length - i) = c.words.drop i by
            apply List.take_of_length_le; simp]
          simp [ISSConf.blockRows]
        · have h1 : bs.length = 0 := by
            rw [hlen, Nat.div_eq_zero_iff]; omega
          rw [List.length_cons, h1]
          symm
          rw [Nat.div_eq_iff (by omega)]
          constructor <;> omega
      · simp only [hbig, if_false]
        rw [batch_eq expf h X i _ (by omega)]
        obtain ⟨bs, e, hfl, hlen⟩ := ih (i + b) b hb (by omega) (by omega)
        refine ⟨c.blockRows expf X i ((c.words.drop i).take b) :: bs, ?_, ?_, ?_⟩
        · simp only [bind, Except.bind, e]; rfl
        · rw [List.flatten_cons, hfl]
          conv_rhs => rw [← List.take_append_drop b (c.words.drop i), blockRows_append]
          congr 1
          rw [List.drop_drop]
          congr 1
          simp; omega
        · rw [List.length_cons, hlen]
          have : c.words.length - i + b - 1 = (c.words.length - (i + b) + b - 1) + b := by omega
          rw [this, Nat.add_div_right _ hb]
    · have : i = c.words.length := by omega
      subst this
      rw [if_neg hlt]
      refine ⟨[], rfl, ?_, ?_⟩
      · simp [ISSConf.blockRows]
      · simp only [Nat.sub_self, zero_add, List.length_nil]
        exact (Nat.div_eq_of_lt (by omega)).symm

end Fruits
