import Verif.Props.Words2
import Verif.Objects

/-! # Properties of words: copies, alpha, iteration (C31-C33) -/

namespace Fruits
set_option linter.unusedSectionVars false
variable {R : Type}

/-! ### Objects with disjoint cells do not influence each other -/

section objects
variable {C A : Type} [Inhabited C]

/-- The object only refers to existing cells, and to each of them once. -/
structure Obj.Valid (h : List C) (o : Obj A) : Prop where
  lt : ∀ a ∈ o.addrs, a < h.length
  nodup : o.addrs.Nodup

theorem writeAll_length (h : List C) (as : List ℕ) (cs : List C) : (writeAll h as cs).length = h.length := by
  induction as generalizing h cs with
  | nil => simp [writeAll]
  | cons a as ih =>
    cases cs with
    | nil => rfl
    | cons c cs => rw [writeAll, ih, List.length_set]

theorem writeAll_other (h : List C) (as : List ℕ) (cs : List C) (b : ℕ) (hb : b ∉ as) :
    (writeAll h as cs).getD b default = h.getD b default := by
  induction as generalizing h cs with
  | nil => simp [writeAll]
  | cons a as ih =>
    simp only [List.mem_cons, not_or] at hb
    cases cs with
    | nil => rfl
    | cons c cs =>
      rw [writeAll, ih _ _ hb.2]
      simp [List.getD_eq_getElem?_getD, List.getElem?_set_ne (Ne.symm hb.1)]

theorem writeAll_self (h : List C) (as : List ℕ) (cs : List C) (hlt : ∀ a ∈ as, a < h.length) (hnd : as.Nodup)
    (hl : cs.length = as.length) : as.map (fun a => (writeAll h as cs).getD a default) = cs := by
  induction as generalizing h cs with
  | nil => simp at hl; simp [hl]
  | cons a as ih =>
    cases cs with
    | nil => simp at hl
    | cons c cs =>
      rw [List.nodup_cons] at hnd
      rw [List.map_cons, writeAll, ih (h.set a c) cs (fun b hb => by simpa using hlt b (by simp [hb])) hnd.2
        (by simpa using hl), writeAll_other _ _ _ _ hnd.1]
      have := hlt a (by simp)
      simp [List.getD_eq_getElem?_getD, List.getElem?_set_self this]

/-- Operations never lose cells. -/
def Growing (op : List C × A → List C × A) : Prop := ∀ s, s.1.length ≤ (op s).1.length

theorem run_view {h : List C} {o : Obj A} (hv : o.Valid h) {op : List C × A → List C × A} (hop : Growing op) :
    (o.run h op).2.view (o.run h op).1 = op (o.view h) ∧ (o.run h op).2.Valid (o.run h op).1 ∧
      h.length ≤ (o.run h op).1.length ∧
      (∀ a ∈ (o.run h op).2.addrs, a ∈ o.addrs ∨ h.length ≤ a) := by
  have hg := hop (o.view h)
  have hvl : (o.view h).1.length = o.addrs.length := by simp [Obj.view]
  rw [hvl] at hg
  set r := op (o.view h) with hr
  have hlen : (writeAll h o.addrs (r.1.take o.addrs.length)).length = h.length := writeAll_length _ _ _
  refine ⟨?_, ⟨?_, ?_⟩, ?_, ?_⟩
  · simp only [Obj.run, Obj.view, ← hr]
    refine Prod.ext ?_ rfl
    simp only [List.map_append]
    have h1 : o.addrs.map (fun a => (writeAll h o.addrs (r.1.take o.addrs.length) ++ r.1.drop o.addrs.length).getD a
        default) = r.1.take o.addrs.length := by
      have := writeAll_self h o.addrs (r.1.take o.addrs.length) hv.lt hv.nodup (by simp; omega)
      refine Eq.trans ?_ this
      apply List.map_congr_left
      intro a ha
      have := hv.lt a ha
      simp [List.getD_eq_getElem?_getD, List.getElem?_append_left (show a < _ by rw [hlen]; exact this)]
    have h2 : (List.range' h.length (r.1.length - o.addrs.length)).map (fun a =>
        (writeAll h o.addrs (r.1.take o.addrs.length) ++ r.1.drop o.addrs.length).getD a default)
        = r.1.drop o.addrs.length := by
      apply List.ext_getElem
      · simp
      · intro i h1 h2
        simp only [List.getElem_map, List.getElem_range', List.getD_eq_getElem?_getD]
        rw [List.getElem?_append_right (by rw [hlen]; omega), hlen]
        rw [show h.length + 1 * i - h.length = i by omega, List.getElem?_eq_getElem h2]
        rfl
    change List.map _ o.addrs ++ List.map _ (List.range' h.length (r.1.length - o.addrs.length)) = r.1
    have h3 := congrArg₂ (· ++ ·) h1 h2
    simp only [List.take_append_drop] at h3
    exact h3
  · intro a ha
    simp only [Obj.run, List.mem_append, List.length_append, hlen, List.length_drop, ← hr] at ha ⊢
    rcases ha with ha | ha
    · have := hv.lt a ha; omega
    · rw [List.mem_range'_1] at ha; omega
  · simp only [Obj.run]
    rw [List.nodup_append']
    refine ⟨hv.nodup, List.nodup_range' (step := 1), ?_⟩
    intro a ha hb
    rw [List.mem_range'_1] at hb
    have := hv.lt a ha; omega
  · simp only [Obj.run, List.length_append, ← hr, hlen]; omega
  · intro a ha
    simp only [Obj.run, List.mem_append] at ha
    rcases ha with ha | ha
    · exact Or.inl ha
    · rw [List.mem_range'_1] at ha; exact Or.inr ha.1

theorem run_other {A' : Type} {h : List C} {o : Obj A} {p : Obj A'} (hp : p.Valid h) (hd : ∀ a ∈ p.addrs, a ∉ o.addrs)
    (op : List C × A → List C × A) : p.view (o.run h op).1 = p.view h ∧ p.Valid (o.run h op).1 := by
  have hlen : (writeAll h o.addrs ((op (o.view h)).1.take o.addrs.length)).length = h.length := writeAll_length _ _ _
  constructor
  · simp only [Obj.view]
    refine Prod.ext ?_ rfl
    apply List.map_congr_left
    intro a ha
    simp only [Obj.run]
    have hlt := hp.lt a ha
    rw [List.getD_eq_getElem?_getD, List.getElem?_append_left (by rw [hlen]; exact hlt),
      ← List.getD_eq_getElem?_getD, writeAll_other _ _ _ _ (hd a ha)]
  · refine ⟨fun a ha => ?_, hp.nodup⟩
    have := hp.lt a ha
    simp only [Obj.run, List.length_append, hlen]; omega

/-- Runs a history of operations on two objects (`true`: the first, `false`: the second). -/
def runBoth (h : List C) (o p : Obj A) : List (Bool × (List C × A → List C × A)) → List C × Obj A × Obj A
  | [] => (h, o, p)
  | (true, op) :: ops => runBoth (o.run h op).1 (o.run h op).2 p ops
  | (false, op) :: ops => runBoth (p.run h op).1 o (p.run h op).2 ops

/-- The operations of a history that concern one object, applied to a value. -/
def runAlone (who : Bool) (s : List C × A) : List (Bool × (List C × A → List C × A)) → List C × A
  | [] => s
  | (b, op) :: ops => runAlone who (if b = who then op s else s) ops

theorem runBoth_independent {h : List C} {o p : Obj A} (ho : o.Valid h) (hp : p.Valid h)
    (hd : ∀ a ∈ o.addrs, a ∉ p.addrs) (ops : List (Bool × (List C × A → List C × A)))
    (hops : ∀ op ∈ ops, Growing op.2) :
    (runBoth h o p ops).2.1.view (runBoth h o p ops).1 = runAlone true (o.view h) ops ∧
    (runBoth h o p ops).2.2.view (runBoth h o p ops).1 = runAlone false (p.view h) ops := by
  induction ops generalizing h o p with
  | nil => exact ⟨rfl, rfl⟩
  | cons bop ops ih =>
    obtain ⟨b, op⟩ := bop
    have hg := hops (b, op) (by simp)
    have hops' := fun q hq => hops q (List.mem_cons_of_mem _ hq)
    cases b with
    | true =>
      obtain ⟨h1, h2, h3, h4⟩ := run_view ho hg
      obtain ⟨h5, h6⟩ := run_other hp (fun a ha hb => hd a hb ha) op
      have := ih h2 h6 (fun a ha hb => by
        rcases h4 a ha with h | h
        · exact hd a h hb
        · have := hp.lt a hb; omega) hops'
      simp only [runBoth, runAlone] at this ⊢
      rw [this.1, this.2, h1, h5]
      simp
    | false =>
      obtain ⟨h1, h2, h3, h4⟩ := run_view hp hg
      obtain ⟨h5, h6⟩ := run_other ho hd op
      have := ih h6 h2 (fun a ha hb => by
        rcases h4 a hb with h | h
        · exact hd a ha h
        · have := ho.lt a ha; omega) hops'
      simp only [runBoth, runAlone] at this ⊢
      rw [this.1, this.2, h1, h5]
      simp

theorem copy_spec {h : List C} {o : Obj A} (ho : o.Valid h) (attrs : A) :
    (o.copy h attrs).2.view (o.copy h attrs).1 = ((o.view h).1, attrs) ∧
    o.view (o.copy h attrs).1 = o.view h ∧ o.Valid (o.copy h attrs).1 ∧
    (o.copy h attrs).2.Valid (o.copy h attrs).1 ∧ ∀ a ∈ o.addrs, a ∉ (o.copy h attrs).2.addrs := by
  have hvl : (o.view h).1.length = o.addrs.length := by simp [Obj.view]
  refine ⟨?_, ?_, ?_, ?_, ?_⟩
  · refine Prod.ext ?_ rfl
    simp only [Obj.copy, Obj.view]
    apply List.ext_getElem
    · simp
    · intro i h1 h2
      simp only [List.getElem_map, List.getElem_range', List.getD_eq_getElem?_getD]
      rw [List.getElem?_append_right (by omega), show h.length + 1 * i - h.length = i by omega]
      simp at h1
      simp [h1]
  · refine Prod.ext ?_ rfl
    simp only [Obj.copy, Obj.view]
    apply List.map_congr_left
    intro a ha
    rw [List.getD_eq_getElem?_getD, List.getElem?_append_left (ho.lt a ha), ← List.getD_eq_getElem?_getD]
  · refine ⟨fun a ha => ?_, ho.nodup⟩
    have := ho.lt a ha
    simp only [Obj.copy, List.length_append]; omega
  · refine ⟨fun a ha => ?_, List.nodup_range' (step := 1)⟩
    simp only [Obj.copy, List.mem_range'_1, List.length_append, hvl] at ha ⊢
    omega
  · intro a ha hb
    simp only [Obj.copy, List.mem_range'_1] at hb
    have := ho.lt a ha; omega

end objects

/-! ### C31 for `Word` -/

instance : Inhabited (ELetter R) := ⟨ELetter.empty⟩

/-- Operations on a general word that a user can perform afterwards. -/
inductive WordOp (R : Type)
  /-- `word.multiply(s)` -/
  | multiplyStr (s : PStr)
  /-- `word.multiply(el)` with a new extended letter -/
  | multiplyEl (el : ELetter R)
  /-- appending a letter to the `i`-th extended letter of the word -/
  | appendAt (i : ℕ) (name : PStr) (dim : ℤ)
  /-- `word.alpha = a` -/
  | setAlpha (a : List R)

/-- The extended letters parsed from a string before the first one that raises (word.py 94-97). -/
def parsedEls (reg : Registry R) : List PStr → List (ELetter R)
  | [] => []
  | s :: ss => match ELetter.parse reg (s.drop 1) with
    | .ok el => el :: parsedEls reg ss
    | .error _ => []

/-- Effect of an operation on contents and alpha, word.py 78-97 and letters.py 41-53 (a failing operation raises and
has only the effects before the failure). -/
def WordOp.step (reg : Registry R) (op : WordOp R) (s : List (ELetter R) × Option (List R)) :
    List (ELetter R) × Option (List R) :=
  match op with
  | .multiplyStr t => (s.1 ++ parsedEls reg (psplit ']' t).dropLast, s.2)
  | .multiplyEl el => (s.1 ++ [el], s.2)
  | .appendAt i n d => match s.1[i]? with
    | none => s
    | some el => match el.append reg n d with
      | .ok el' => (s.1.set i el', s.2)
      | .error _ => s
  | .setAlpha a => if a.length = s.1.length then (s.1, some a) else s

theorem WordOp.growing (reg : Registry R) (op : WordOp R) : Growing (op.step reg) := by
  intro s
  cases op with
  | multiplyStr t => simp [WordOp.step]
  | multiplyEl el => simp [WordOp.step]
  | appendAt i n d =>
    simp only [WordOp.step]
    split
    · exact le_rfl
    · split <;> simp
  | setAlpha a => simp only [WordOp.step]; split <;> exact le_rfl

/-- A history of operations on two words, as operations on objects. -/
def wordOps (reg : Registry R) (ops : List (Bool × WordOp R)) :
    List (Bool × (List (ELetter R) × Option (List R) → List (ELetter R) × Option (List R))) :=
  ops.map fun p => (p.1, p.2.step reg)

/-- **C31 for `Word` (partial: alpha is lost).** `Word.copy()` (word.py 99-102) has the same letters and string as the
original, and for every later history of operations on the original and the copy both evolve as if the other did not
exist. Missing: the copy's alpha, see `C31_alpha_counterexample`. -/
theorem C31_word_copy_partial (reg : Registry R) (h : List (ELetter R)) (o : Obj (Option (List R))) (ho : o.Valid h)
    (ops : List (Bool × WordOp R)) :
    let hc := o.copy h none
    (hc.2.view hc.1).1 = (o.view h).1 ∧
    GWord.str ⟨(hc.2.view hc.1).1, none⟩ = GWord.str ⟨(o.view h).1, o.attrs⟩ ∧
    (runBoth hc.1 o hc.2 (wordOps reg ops)).2.1.view (runBoth hc.1 o hc.2 (wordOps reg ops)).1
      = runAlone true (o.view h) (wordOps reg ops) ∧
    (runBoth hc.1 o hc.2 (wordOps reg ops)).2.2.view (runBoth hc.1 o hc.2 (wordOps reg ops)).1
      = runAlone false ((o.view h).1, none) (wordOps reg ops) := by
  intro hc
  obtain ⟨h1, h2, h3, h4, h5⟩ := copy_spec ho (none : Option (List R))
  have hind := runBoth_independent h3 h4 h5 (wordOps reg ops) (by
    intro op hop
    obtain ⟨p, _, rfl⟩ := List.mem_map.1 hop
    exact WordOp.growing reg p.2)
  refine ⟨by rw [h1], by rw [h1]; rfl, ?_, ?_⟩
  · rw [hind.1, h2]
  · rw [hind.2, h1]

/-- Non-vacuity of `C31_word_copy_partial`: a word with two extended letters on a heap with three. -/
example (el : ELetter ℚ) : (⟨[2, 0], some [1, 2]⟩ : Obj (Option (List ℚ))).Valid [el, el, el] :=
  ⟨by simp, by decide⟩

/-- The alpha of a copied `Word` is not the original's. -/
theorem C31_alpha_counterexample :
    ∃ (h : List (ELetter ℚ)) (o : Obj (Option (List ℚ))), o.Valid h ∧
      ((o.copy h none).2.view (o.copy h none).1).2 ≠ (o.view h).2 :=
  ⟨[ELetter.empty], ⟨[0], some [2]⟩, ⟨by decide, by decide⟩, by decide⟩

/-! ### C31 for `SimpleWord` -/

/-- What `multiply` does for a string of the grammar (any letters). -/
theorem multiply_general {order : List ℤ → List ℤ} (w : SWord R) (ws : List (List Tok)) (hwf : WellFormed ws) :
    SWord.multiply order w (wordStr ws) =
      ((values ws).mapM (countLetters (max w.maxDim (maxLetter (values ws))) order)).bind fun new =>
        .ok ⟨w.els.map (· ++ List.replicate (max w.maxDim (maxLetter (values ws)) - w.maxDim) 0) ++ new,
          max w.maxDim (maxLetter (values ws)), w.name ++ wordStr ws, w.alpha⟩ := by
  have hm : simpleWordRe.rmatch (wordStr ws) = true := (rmatch_iff _).2 ⟨ws, hwf, rfl⟩
  unfold SWord.multiply
  rw [if_pos hm]
  simp only [scan_words, ok_bind]
  have hv : ws.map (·.map Tok.value) = values ws := rfl
  rw [hv]
  by_cases h : maxLetter (values ws) > w.maxDim
  · simp only [if_pos h, max_eq_right (le_of_lt h)]
    cases (values ws).mapM (countLetters (maxLetter (values ws)) order) <;> rfl
  · have h' : maxLetter (values ws) ≤ w.maxDim := not_lt.1 h
    simp only [if_neg h, max_eq_left h', Nat.sub_self, List.replicate_zero, List.append_nil, List.map_id']
    cases (values ws).mapM (countLetters w.maxDim order) <;> rfl

theorem mapM_count {order : List ℤ → List ℤ} (ho : SetOrder order) {m : ℕ} (hm : 0 < m) (vs : List (List ℤ))
    (hle : ∀ el ∈ vs, ∀ l ∈ el, l.natAbs ≤ m) :
    ∃ new, vs.mapM (countLetters m order) = .ok new ∧ new.length = vs.length ∧ ∀ r ∈ new, r.length = m := by
  induction vs with
  | nil => exact ⟨[], rfl, rfl, by simp⟩
  | cons el vs ih =>
    obtain ⟨v, hv, hl, hr⟩ := ih fun e he => hle e (by simp [he])
    obtain ⟨u, hu, hul⟩ := countLetters_ok hm ho (hle el (by simp))
    refine ⟨u :: v, by rw [List.mapM_cons, hu, hv]; rfl, by simp [hl], ?_⟩
    intro r hr'
    rcases List.mem_cons.1 hr' with rfl | h
    · exact hul
    · exact hr r h

/-- A word whose name is a string of the grammar, as every constructed word is. -/
structure Named (w : SWord R) : Prop where
  named : ∃ ws : List (List Tok), WellFormed ws ∧ w.name = wordStr ws ∧ w.maxDim = maxLetter (values ws) ∧
    w.els.length = ws.length
  dim : 0 < w.maxDim
  rows : ∀ r ∈ w.els, r.length = w.maxDim

theorem named_multiply {order : List ℤ → List ℤ} (ho : SetOrder order) {w : SWord R} (hw : Named w) {s : PStr} {w' : SWord R}
    (h : w.multiply order s = .ok w') : Named w' ∧ w'.alpha = w.alpha ∧ w.els.length < w'.els.length := by
  by_cases hg : ∃ ws : List (List Tok), WellFormed ws ∧ s = wordStr ws
  swap
  · rw [← rmatch_iff] at hg
    simp [SWord.multiply, hg] at h
  obtain ⟨vs, hvs, rfl⟩ := hg
  obtain ⟨⟨ws, hws, hname, hmax, hlen⟩, hdim, hrows⟩ := hw
  rw [multiply_general w vs hvs] at h
  obtain ⟨new, hnew, hnl, hnr⟩ := mapM_count ho (m := max w.maxDim (maxLetter (values vs))) (by omega) (values vs)
    (fun el hel l hl => le_trans (le_maxLetter hel hl) (le_max_right _ _))
  rw [hnew] at h
  simp only [Except.bind, Except.ok.injEq] at h
  subst h
  have hvl : new.length = vs.length := by rw [hnl]; simp [values]
  have hvpos : 0 < vs.length := List.length_pos_iff.2 hvs.1
  refine ⟨⟨⟨ws ++ vs, ⟨by simp [hws.1], fun el hel => (List.mem_append.1 hel).elim (hws.2 el) (hvs.2 el)⟩, ?_, ?_, ?_⟩,
    by simp; omega, ?_⟩, rfl, by simp; omega⟩
  · simp [hname, wordStr_append]
  · rw [hmax]
    simp only [values, List.map_append, maxLetter_append]
  · simp [hlen, hvl]
  · intro r hr
    simp only [List.mem_append] at hr
    rcases hr with hr | hr
    · obtain ⟨r', hr', rfl⟩ := List.mem_map.1 hr
      have := hrows r' hr'
      simp [this]
    · exact hnr r hr

theorem named_mk {order : List ℤ → List ℤ} (ho : SetOrder order) {s : PStr} {w : SWord R}
    (h : SWord.mk' R order s = .ok w) : Named w ∧ w.alpha = none ∧ 0 < w.els.length := by
  obtain ⟨ws, hwf, rfl, el, hel, t, ht, h0⟩ := (C23_accepts (R := R) order ho s).1.1 ⟨w, h⟩
  have hpos : 0 < maxLetter (values ws) := by
    have := le_maxLetter (els := values ws) (List.mem_map.2 ⟨el, hel, rfl⟩)
      (List.mem_map.2 ⟨t, ht, rfl⟩ : t.value ∈ el.map Tok.value)
    omega
  unfold SWord.mk' at h
  rw [multiply_general _ ws hwf] at h
  obtain ⟨new, hnew, hnl, hnr⟩ := mapM_count ho hpos (values ws) (fun el hel l hl => le_maxLetter hel hl)
  simp only [Nat.zero_max, hnew, Except.bind, List.map_nil, List.nil_append, Except.ok.injEq] at h
  subst h
  have hvl : new.length = ws.length := by rw [hnl]; simp [values]
  refine ⟨⟨⟨ws, hwf, rfl, rfl, hvl⟩, hpos, hnr⟩, rfl, ?_⟩
  have := List.length_pos_iff.2 hwf.1
  simp only; omega

/-- Operations on a simple word. -/
inductive SWordOp (R : Type)
  | multiply (s : PStr)
  | setAlpha (a : List R)

/-- A failing operation raises and leaves the word as it is. -/
def SWordOp.step (order : List ℤ → List ℤ) (op : SWordOp R) (w : SWord R) : SWord R :=
  match op with
  | .multiply s => match w.multiply order s with | .ok w' => w' | .error _ => w
  | .setAlpha a => match w.setAlpha a with | .ok w' => w' | .error _ => w

/-- A simple word made by the constructor and any history of `multiply` and alpha assignments. -/
inductive SReachable (order : List ℤ → List ℤ) : SWord R → Prop
  | mk {s w} : SWord.mk' R order s = .ok w → SReachable order w
  | step {w} (op : SWordOp R) : SReachable order w → SReachable order (op.step order w)

theorem named_setAlpha {w w' : SWord R} {a : List R} (hw : Named w) (h : w.setAlpha a = .ok w') :
    Named w' ∧ w'.alpha = some a ∧ a.length = w.els.length ∧ w'.els = w.els ∧ w'.name = w.name ∧ w'.maxDim = w.maxDim := by
  unfold SWord.setAlpha at h
  split at h
  · cases h
  · next hl =>
    cases h
    exact ⟨⟨hw.named, hw.dim, hw.rows⟩, rfl, not_not.1 hl, rfl, rfl, rfl⟩

theorem reachable_named {order : List ℤ → List ℤ} (ho : SetOrder order) {w : SWord R} (h : SReachable order w) :
    Named w := by
  induction h with
  | mk h => exact (named_mk ho h).1
  | @step w op _ ih =>
    cases op with
    | multiply s =>
      simp only [SWordOp.step]
      cases hm : w.multiply order s with
      | ok w' => exact (named_multiply ho ih hm).1
      | error e => exact ih
    | setAlpha a =>
      simp only [SWordOp.step]
      cases hm : w.setAlpha a with
      | ok w' => exact (named_setAlpha ih hm).1
      | error e => exact ih

/-- **C31 for `SimpleWord` (partial: alpha is lost).** The copy of every reachable simple word succeeds and has the same
extended letters, dimension and string. Its extended letters are new lists, so `runBoth_independent` applies as for
`Word`. -/
theorem C31_simple_copy_partial (order : List ℤ → List ℤ) (ho : SetOrder order) (w : SWord R)
    (h : SReachable order w) :
    ∃ c, w.copy order = .ok c ∧ c.els = w.els ∧ c.maxDim = w.maxDim ∧ c.name = w.name ∧ c.eqv w = true ∧
      c.alpha = none := by
  have hn := reachable_named ho h
  obtain ⟨⟨ws, hwf, hname, hmax, hlen⟩, hdim, -⟩ := hn
  unfold SWord.copy SWord.mk'
  rw [hname, multiply_general _ ws hwf]
  obtain ⟨new, hnew, hnl, hnr⟩ := mapM_count ho (m := max 0 (maxLetter (values ws))) (by omega) (values ws)
    (fun el hel l hl => le_trans (le_maxLetter hel hl) (le_max_right _ _))
  simp only [hnew, Except.bind, ok_bind]
  exact ⟨_, rfl, rfl, by simp [hmax], by simp, by simp [SWord.eqv], rfl⟩

/-- The operations on a simple word on the level of its lists (`el.append(0)` changes them in place) and attributes. -/
def SWordOp.cellStep (order : List ℤ → List ℤ) (op : SWordOp R)
    (s : List (List ℤ) × (ℕ × PStr × Option (List R))) : List (List ℤ) × (ℕ × PStr × Option (List R)) :=
  let w := op.step order ⟨s.1, s.2.1, s.2.2.1, s.2.2.2⟩
  (w.els, w.maxDim, w.name, w.alpha)

theorem SWordOp.growing (order : List ℤ → List ℤ) (op : SWordOp R) : Growing (op.cellStep order) := by
  intro s
  unfold SWordOp.cellStep
  cases op with
  | setAlpha a =>
    simp only [SWordOp.step, SWord.setAlpha]
    split
    · next w' h =>
      split at h
      · cases h
      · cases h; exact le_rfl
    · exact le_rfl
  | multiply t =>
    simp only [SWordOp.step]
    split
    · next w' h =>
      by_cases hg : ∃ ws : List (List Tok), WellFormed ws ∧ t = wordStr ws
      · obtain ⟨vs, hvs, rfl⟩ := hg
        rw [multiply_general _ vs hvs] at h
        cases hmm : (values vs).mapM (countLetters (max s.2.1 (maxLetter (values vs))) order) with
        | error e => simp only [hmm, Except.bind] at h; cases h
        | ok new =>
          simp only [hmm, Except.bind, Except.ok.injEq] at h
          subst h
          simp
      · rw [← rmatch_iff] at hg
        simp [SWord.multiply, hg] at h
    · exact le_rfl

/-- **C31 for `SimpleWord` (independence).** Every history of operations on a simple word and its copy lets both evolve
as if the other did not exist. -/
theorem C31_simple_independent (order : List ℤ → List ℤ) (h : List (List ℤ))
    (o : Obj (ℕ × PStr × Option (List R))) (ho : o.Valid h) (ops : List (Bool × SWordOp R)) :
    let hc := o.copy h (o.attrs.1, o.attrs.2.1, none)
    let fin := runBoth hc.1 o hc.2 (ops.map fun p => (p.1, p.2.cellStep order))
    fin.2.1.view fin.1 = runAlone true (o.view h) (ops.map fun p => (p.1, p.2.cellStep order)) ∧
    fin.2.2.view fin.1 = runAlone false ((o.view h).1, (o.attrs.1, o.attrs.2.1, none))
      (ops.map fun p => (p.1, p.2.cellStep order)) := by
  intro hc fin
  obtain ⟨h1, h2, h3, h4, h5⟩ := copy_spec ho (o.attrs.1, o.attrs.2.1, (none : Option (List R)))
  have hind := runBoth_independent h3 h4 h5 (ops.map fun p => (p.1, p.2.cellStep order)) (by
    intro op hop
    obtain ⟨p, _, rfl⟩ := List.mem_map.1 hop
    exact SWordOp.growing order p.2)
  exact ⟨by rw [hind.1, h2], by rw [hind.2, h1]⟩

/-- The copy of a simple word with alpha `[3]` has alpha `[1]`. -/
theorem C31_simple_alpha_counterexample :
    (do let w ← SWord.mk' ℚ List.dedup "[12]".toList
        let v ← w.setAlpha [3]
        let c ← v.copy List.dedup
        pure (v.getAlpha, c.getAlpha)).toOption = some ([3], [1]) := by decide +kernel

/-! ### C32 -/

/-- Whether alpha is stale after `op`: a successful `multiply` makes a set alpha stale, a successful assignment makes it
fresh, a failed operation changes nothing. -/
def staleStep (order : List ℤ → List ℤ) (w : SWord R) (stale : Bool) : SWordOp R → Bool
  | .multiply s => match w.multiply order s with | .ok _ => stale || w.alpha.isSome | .error _ => stale
  | .setAlpha a => match w.setAlpha a with | .ok _ => false | .error _ => stale

/-- Runs a history on a simple word, remembering whether a successful `multiply` happened after the last successful
alpha assignment (`false` while alpha was never set). -/
def runAlpha (order : List ℤ → List ℤ) (w : SWord R) (stale : Bool) : List (SWordOp R) → SWord R × Bool
  | [] => (w, stale)
  | op :: ops => runAlpha order (op.step order w) (staleStep order w stale op) ops

/-- The invariant behind C32. -/
def AlphaInv (w : SWord R) (stale : Bool) : Prop :=
  (w.alpha = none → stale = false) ∧
    ∀ a, w.alpha = some a → if stale then a.length < w.els.length else a.length = w.els.length

theorem alphaInv_step [One R] (order : List ℤ → List ℤ) (ho : SetOrder order) (w : SWord R) (stale : Bool)
    (hn : Named w) (hi : AlphaInv w stale) (op : SWordOp R) :
    Named (op.step order w) ∧ AlphaInv (op.step order w) (staleStep order w stale op) := by
  cases op with
  | multiply s =>
    unfold SWordOp.step staleStep
    rcases hm : w.multiply order s with e | w'
    · simp only [hm]; exact ⟨hn, hi⟩
    · simp only [hm]
      obtain ⟨h1, h2, h3⟩ := named_multiply ho hn hm
      refine ⟨h1, ?_, ?_⟩
      · intro h; rw [h2] at h; rw [hi.1 h, h]; rfl
      · intro a h
        rw [h2] at h
        have := hi.2 a h
        simp only [h, Option.isSome_some, Bool.or_true, if_true]
        split at this <;> omega
  | setAlpha a =>
    unfold SWordOp.step staleStep
    rcases hm : w.setAlpha a with e | w'
    · simp only [hm]; exact ⟨hn, hi⟩
    · simp only [hm]
      obtain ⟨h1, h2, h3, h4, _⟩ := named_setAlpha hn hm
      refine ⟨h1, fun _ => rfl, ?_⟩
      intro b hb
      rw [h2] at hb
      cases hb
      simp [h3, h4]

/-- **C32 (partial).** After any history of `multiply` and alpha assignments (failing ones included) `word.alpha` has
`len(word)` entries if and only if no successful `multiply` came after the last successful alpha assignment. The full
property fails otherwise, see `C32_counterexample`. -/
theorem C32_alpha_length_partial [One R] (order : List ℤ → List ℤ) (ho : SetOrder order) (s : PStr) (w : SWord R)
    (h : SWord.mk' R order s = .ok w) (ops : List (SWordOp R)) :
    let r := runAlpha order w false ops
    (r.1.getAlpha.length = r.1.els.length ↔ r.2 = false) := by
  obtain ⟨hn, ha, -⟩ := named_mk ho h
  have key : ∀ (ops : List (SWordOp R)) (w : SWord R) (stale : Bool), Named w → AlphaInv w stale →
      AlphaInv (runAlpha order w stale ops).1 (runAlpha order w stale ops).2 := by
    intro ops
    induction ops with
    | nil => intro w stale _ h; exact h
    | cons op ops ih =>
      intro w stale hn hst
      obtain ⟨h1, h2⟩ := alphaInv_step order ho w stale hn hst op
      exact ih _ _ h1 h2
  have := key ops w false hn ⟨fun _ => rfl, fun a h => by rw [ha] at h; cases h⟩
  intro r
  change AlphaInv r.1 r.2 at this
  unfold SWord.getAlpha
  cases hal : r.1.alpha with
  | none => simp [this.1 hal]
  | some a =>
    have h2 := this.2 a hal
    cases hr : r.2 with
    | false => rw [hr] at h2; simpa using h2
    | true =>
      rw [hr, if_pos rfl] at h2
      have hne : a.length ≠ r.1.els.length := h2.ne
      simp [hne]

/-- C32 fails in general: `w = SimpleWord("[1]"); w.alpha = [2]; w.multiply("[1]")` has two extended letters and one
alpha. -/
theorem C32_counterexample :
    (do let w ← SWord.mk' ℚ List.dedup "[1]".toList
        let v ← w.setAlpha [2]
        let u ← v.multiply List.dedup "[1]".toList
        pure (u.els.length, u.getAlpha.length)).toOption = some (2, 1) := by decide +kernel

/-! ### C33 -/

theorem loop_from {α : Type} (body : α → Cursor α → Cursor α) (hb : ∀ x c, body x c = c) (items : List α) (k fuel : ℕ)
    (hf : items.length - k ≤ fuel) :
    Cursor.loop body fuel ⟨items, (k : ℤ) - 1⟩
      = (items.drop k, ⟨items, max ((k : ℤ) - 1) ((items.length : ℤ) - 1)⟩) := by
  induction fuel generalizing k with
  | zero =>
    rw [Cursor.loop, List.drop_eq_nil_of_le (by omega)]
    congr 2; omega
  | succ fuel ih =>
    rw [Cursor.loop]
    by_cases hk : k < items.length
    · have hnext : (⟨items, (k : ℤ) - 1⟩ : Cursor α).next = some (items[k], ⟨items, (k : ℤ)⟩) := by
        unfold Cursor.next
        rw [if_pos (by simp only; omega)]
        simp only [sub_add_cancel, Int.toNat_natCast, List.getElem?_eq_getElem hk]
      simp only [hnext, hb]
      have := ih (k + 1) (by omega)
      push_cast at this
      rw [show (k : ℤ) + 1 - 1 = k by ring] at this
      rw [this, List.drop_eq_getElem_cons hk]
      refine Prod.ext rfl ?_
      simp only [Cursor.mk.injEq, true_and]
      omega
    · have hnext : (⟨items, (k : ℤ) - 1⟩ : Cursor α).next = none := by
        unfold Cursor.next
        rw [if_neg (by simp only; omega)]
      simp only [hnext]
      rw [List.drop_eq_nil_of_le (by omega)]
      refine Prod.ext rfl ?_
      simp only [Cursor.mk.injEq, true_and]
      omega

/-- **C33 (partial: loops over the same object are not nested).** A `for` loop visits all elements in order, whatever
loops over the object were run or abandoned before. -/
theorem C33_iteration_partial {α : Type} (c : Cursor α) (history : List ℕ) (fuel : ℕ) (hf : c.items.length ≤ fuel) :
    (Cursor.forIn (fun _ c => c) fuel (history.foldl (fun c k => c.abandoned k) c)).1 = c.items := by
  have hitems : ∀ (k : ℕ) (c : Cursor α), (Cursor.loop (fun _ c => c) k c).2.items = c.items := by
    intro k
    induction k with
    | zero => intro c; rfl
    | succ k ih =>
      intro c
      rw [Cursor.loop]
      cases h : c.next with
      | none => rfl
      | some p =>
        simp only
        rw [ih]
        unfold Cursor.next at h
        split at h
        · split at h
          · cases h; rfl
          · cases h
        · cases h
  have hhist : (history.foldl (fun c k => c.abandoned k) c).items = c.items := by
    induction history generalizing c with
    | nil => rfl
    | cons k ks ih =>
      rw [List.foldl_cons]
      have h1 : (c.abandoned k).items = c.items := by
        unfold Cursor.abandoned
        rw [hitems]; rfl
      rw [ih _ (by rw [h1]; exact hf), h1]
  unfold Cursor.forIn Cursor.iter
  rw [hhist]
  have := loop_from (fun (_ : α) c => c) (fun _ _ => rfl) c.items 0 fuel (by omega)
  simp only [Nat.cast_zero, zero_sub, List.drop_zero] at this
  rw [this]

/-- Nested loops over the same object: the outer loop ends after its first element, for every object with at least one
element. So C33 fails as soon as there are two. -/
theorem C33_nested_counterexample {α : Type} (x : α) (xs : List α) (fuel : ℕ) (hf : xs.length + 1 ≤ fuel) (i : ℤ) :
    (Cursor.forIn (fun _ c => (Cursor.forIn (fun _ c => c) fuel c).2) fuel ⟨x :: xs, i⟩).1 = [x] := by
  obtain ⟨f, rfl⟩ : ∃ f, fuel = f + 1 := ⟨fuel - 1, by omega⟩
  unfold Cursor.forIn Cursor.iter
  rw [Cursor.loop]
  have hnext : (⟨x :: xs, -1⟩ : Cursor α).next = some (x, ⟨x :: xs, 0⟩) := by
    unfold Cursor.next
    rw [if_pos (by simp only [List.length_cons]; push_cast; omega)]
    rfl
  simp only [hnext]
  have := loop_from (fun (_ : α) c => c) (fun _ _ => rfl) (x :: xs) 0 (f + 1) (by simpa using hf)
  simp only [Nat.cast_zero, zero_sub] at this
  rw [this]
  cases f with
  | zero => rfl
  | succ f =>
    rw [Cursor.loop]
    have hn2 : (⟨x :: xs, max (-1) (((x :: xs).length : ℤ) - 1)⟩ : Cursor α).next = none := by
      unfold Cursor.next
      rw [if_neg]
      simp only [List.length_cons]; push_cast; omega
    simp only [hn2]

/-- Non-vacuity of C33: a word of three letters, iterated after an abandoned loop; and the nested case. -/
example : (Cursor.forIn (fun _ c => c) 5 ((⟨[1, 2, 3], -1⟩ : Cursor ℕ).abandoned 2)).1 = [1, 2, 3] := by decide

end Fruits
