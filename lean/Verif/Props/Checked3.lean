import Verif.Props.Checked2
import Verif.Props.Cos2

/-! # No access of the compiled functions of CosWISS leaves their arrays -/

set_option linter.unusedSectionVars false

namespace Fruits
variable {R : Type} [Field R] [LinearOrder R] [IsStrictOrderedRing R] [FloorRing R]

theorem mulTrigE_ok {sinW cosW : List R} {n : ℕ} (hs : sinW.length = n) (hc : cosW.length = n) (a b : ℕ) {t : List R} (ht : t.length = n) :
    mulTrigE sinW cosW a b t = .ok (mulTrig sinW cosW a b t) ∧ (mulTrig sinW cosW a b t).length = n := by
  unfold mulTrigE mulTrig
  have h1 := iter_length (· * ·) sinW a t (ht.trans hs.symm)
  rw [repeatE_ok _ _ _ _ (ht.trans hs.symm), ok_bind, repeatE_ok _ _ _ _ (h1.trans (hs.trans hc.symm))]
  exact ⟨rfl, (iter_length (· * ·) cosW b _ (h1.trans (hs.trans hc.symm))).trans hc⟩

theorem zeroAtE_ok {n : ℕ} {t : List R} (ht : t.length = n) {idx : List ℕ} (hi : ∀ i ∈ idx, i < n) :
    zeroAtE t idx = .ok (zeroAt t idx) ∧ (zeroAt t idx).length = n := by
  unfold zeroAtE zeroAt
  refine ⟨foldlM_ok _ _ (fun s : List R => s.length = n) _ _ ht fun i h s hs => ⟨writeAt_ok (by rw [hs]; exact hi i h) _, by simpa using hs⟩,
    foldl_inv _ (fun s : List R => s.length = n) _ _ ht fun i h s hs => by simpa using hs⟩

/-- What the loops of `_coswiss_single` need. -/
structure CosArgs (Z : List (List R)) (word : List (List ℤ)) (n : ℕ) : Prop where
  rect : Rect Z n
  ne : Z ≠ []
  pos : 0 < n
  letters : ∀ el ∈ word, ∀ d, el.getD d 0 ≠ 0 → d < Z.length

/-- The dropped indices of each extended letter exist. -/
def DropsFit (drop : Option (List (List ℕ))) (L n : ℕ) : Prop := ∀ d, drop = some d → L ≤ d.length ∧ ∀ idx ∈ d, ∀ i ∈ idx, i < n

/-- `tmp[dropout[k]] = 0` without checks. -/
def dropM (drop : Option (List (List ℕ))) (k : ℕ) (tmp : List R) : List R :=
  match drop with
  | none => tmp
  | some d => zeroAt tmp (d.getD k [])

/-- The row of both kernels. -/
def rowM [NpMath R] (Z : List (List R)) (word : List (List ℤ)) (sinW cosW : List R) (drop : Option (List (List ℕ))) (wt : List ℕ) : List R :=
  match drop with
  | none => cosRow Z word sinW cosW wt
  | some d => leakyRow Z word sinW cosW d wt

/-- The body of the loop over the extended letters. -/
def cosStepM (Z : List (List R)) (sinW cosW : List R) (drop : Option (List (List ℕ))) (wt : List ℕ) (k : ℕ) (el : List ℤ) (tmp : List R) : List R :=
  cumsum (dropM drop k (mulTrig sinW cosW (wt.getD (2 * k + 1) 0) (wt.getD (2 * k + 2) 0) (lettersMul Z el (if k > 0 then roll1z tmp else tmp))))

theorem rowM_eq [NpMath R] (Z : List (List R)) (word : List (List ℤ)) (sinW cosW : List R) (drop : Option (List (List ℕ))) (wt : List ℕ) :
    rowM Z word sinW cosW drop wt = if wt.length = 2 * word.length + 3
      then mulTrig sinW cosW (wt.getD (2 * word.length + 1) 0) (wt.getD (2 * word.length + 2) 0)
        (enumFold (cosStepM Z sinW cosW drop wt) 0 word (ones (ncols Z)))
      else enumFold (cosStepM Z sinW cosW drop wt) 0 word (ones (ncols Z)) := by
  cases drop <;> rfl

theorem dropE_ok {drop : Option (List (List ℕ))} {L n k : ℕ} (hd : DropsFit drop L n) (hk : k < L) {t : List R} (ht : t.length = n) :
    dropE drop k t = .ok (dropM drop k t) ∧ (dropM drop k t).length = n := by
  cases drop with
  | none => exact ⟨rfl, ht⟩
  | some d =>
    obtain ⟨h1, h2⟩ := hd d rfl
    have := zeroAtE_ok ht (idx := d.getD k []) (fun i hi => h2 _ (by
      rw [List.getD_eq_getElem?_getD, List.getElem?_eq_getElem (by omega)]; exact List.getElem_mem _) i hi)
    refine ⟨?_, this.2⟩
    unfold dropE
    dsimp only
    rw [readAt_ok (by omega) ([] : List ℕ), ok_bind]
    exact this.1

theorem cosRowE_ok [NpMath R] {Z : List (List R)} {word : List (List ℤ)} {n : ℕ} (h : CosArgs Z word n) {sinW cosW : List R} (hs : sinW.length = n)
    (hc : cosW.length = n) {drop : Option (List (List ℕ))} (hd : DropsFit drop word.length n) {wt : List ℕ} (hw : 2 * word.length + 1 ≤ wt.length) :
    cosRowE Z word sinW cosW drop wt = .ok (rowM Z word sinW cosW drop wt) ∧ (rowM Z word sinW cosW drop wt).length = n := by
  have hnc := ncols_eq h.rect h.ne
  have step : ∀ j (hj : j < word.length) (s : List R), s.length = n →
      cosStepE Z sinW cosW drop wt (0 + j) word[j] s = .ok (cosStepM Z sinW cosW drop wt (0 + j) word[j] s) ∧
      (cosStepM Z sinW cosW drop wt (0 + j) word[j] s).length = n := by
    intro j hj s hsn
    have h1 : (if 0 + j > 0 then rollE s else .ok s) = .ok (if 0 + j > 0 then roll1z s else s) := by
      split
      · exact rollE_ok (hsn ▸ h.pos)
      · rfl
    have h2 : (if 0 + j > 0 then roll1z s else s).length = n := by
      split
      · simp [roll1z, roll1, hsn]
      · exact hsn
    obtain ⟨h3, h4⟩ := lettersMulE_ok h.rect (h.letters _ (List.getElem_mem hj)) h2
    obtain ⟨h5, h6⟩ := mulTrigE_ok hs hc (wt.getD (2 * (0 + j) + 1) 0) (wt.getD (2 * (0 + j) + 2) 0) h4
    obtain ⟨h7, h8⟩ := dropE_ok hd (show 0 + j < word.length by omega) h6
    unfold cosStepE
    rw [h1, ok_bind, h3, ok_bind, readAt_ok (by omega) 0, ok_bind, readAt_ok (by omega) 0, ok_bind, h5, ok_bind, h7, ok_bind]
    exact ⟨rfl, by simpa [cosStepM] using h8⟩
  have h0 : (ones (ncols Z) : List R).length = n := by rw [hnc]; simp [ones]
  have hfold := enumFoldE_ok _ _ (fun _ (s : List R) => s.length = n) 0 word _ h0 step
  have hlen : (enumFold (cosStepM Z sinW cosW drop wt) 0 word (ones (ncols Z))).length = n :=
    enumFold_inv _ (fun _ (s : List R) => s.length = n) 0 word _ h0 fun j hj s hs => (step j hj s hs).2
  unfold cosRowE
  rw [rowM_eq, hfold, ok_bind]
  split_ifs with hl
  · rw [readAt_ok (by omega) 0, ok_bind, readAt_ok (by omega) 0, ok_bind]
    exact mulTrigE_ok hs hc _ _ hlen
  · exact ⟨rfl, hlen⟩

theorem weightings_length (s : ℕ) (total : Bool) {len : ℕ} (hl : 0 < len) : ∀ wt ∈ getWeightings s total len, 2 * len + 1 ≤ wt.length := by
  intro wt hwt
  unfold getWeightings at hwt
  obtain ⟨comb, hc, rfl⟩ := List.mem_map.1 hwt
  have h1 := productRepeat_length _ _ comb hc
  have h2 := (weightRow_eq comb).1
  have h3 : comb.length + 1 = (if total = true then len + 1 else len) := by split_ifs at h1 ⊢ <;> omega
  rw [h3] at h2
  rw [h2]
  split_ifs at h1 <;> omega

/-- Both kernels without checks. -/
def singleM [NpMath R] (pi : R) (Z : List (List R)) (word : List (List ℤ)) (freq : R) (wts : List (List ℕ)) (drop : Option (List (List ℕ))) : List R :=
  match drop with
  | none => coswissSingle pi Z word freq wts
  | some d => leakyCoswissSingle pi Z word freq wts d

theorem coswissSingleE_ok [NpMath R] (pi : R) {Z : List (List R)} {word : List (List ℤ)} {n : ℕ} (h : CosArgs Z word n) (freq : R) {wts : List (List ℕ)}
    (hw : ∀ wt ∈ wts, 2 * word.length + 1 ≤ wt.length) {drop : Option (List (List ℕ))} (hd : DropsFit drop word.length n) :
    coswissSingleE pi Z word freq wts drop = .ok (singleM pi Z word freq wts drop) := by
  have hnc := ncols_eq h.rect h.ne
  have hs : ((phases pi freq (ncols Z)).map NpMath.sin).length = n := by simp [phases, hnc]
  have hc : ((phases pi freq (ncols Z)).map NpMath.cos).length = n := by simp [phases, hnc]
  have key : ∀ wt ∈ wts, ∀ s : List R, s.length = n → _ ∧ _ := fun wt hwt s hsn => by
    obtain ⟨h1, h2⟩ := cosRowE_ok h hs hc hd (hw wt hwt)
    exact And.intro (show (do
      let tmp ← cosRowE Z word ((phases pi freq (ncols Z)).map NpMath.sin) ((phases pi freq (ncols Z)).map NpMath.cos) drop wt
      let c ← readAt wt 0
      opE (· + ·) s (tmp.map fun v => (c : R) * v)) = .ok (vadd s ((rowM Z word ((phases pi freq (ncols Z)).map NpMath.sin)
        ((phases pi freq (ncols Z)).map NpMath.cos) drop wt).map fun v => ((wt.getD 0 0 : ℕ) : R) * v)) by
          rw [h1, ok_bind, readAt_ok (by have := hw wt hwt; omega) 0, ok_bind, opE_add (by simp [hsn, h2])])
      (show (vadd s ((rowM Z word ((phases pi freq (ncols Z)).map NpMath.sin) ((phases pi freq (ncols Z)).map NpMath.cos) drop wt).map
        fun v => ((wt.getD 0 0 : ℕ) : R) * v)).length = n by simp [vadd, hsn, h2])
  unfold coswissSingleE
  rw [foldlM_ok _ _ (fun s : List R => s.length = n) _ _ (by simp [zeros, hnc]) key]
  cases drop <;> rfl

theorem zipWith_getD {α β γ : Type} (f : α → β → γ) (a : List α) (b : List β) (da : α) (db : β) (h : b.length = a.length) :
    List.zipWith f a b = (List.range a.length).map fun i => f (a.getD i da) (b.getD i db) := by
  apply List.ext_getElem
  · simp [h]
  · intro i h1 h2
    simp only [List.length_map, List.length_range] at h2
    simp [h, h2]

theorem map_getD_range {α β : Type} (f : α → β) (a : List α) (da : α) : a.map f = (List.range a.length).map fun i => f (a.getD i da) := by
  apply List.ext_getElem
  · simp
  · intro i h1 h2
    simp only [List.length_map, List.length_range] at h2
    simp [h2]

theorem column_ok {Z : List (List R)} {n t : ℕ} (hZ : Rect Z n) (ht : t < n) : Z.mapM (fun z => readAt z t) = .ok (column Z t) :=
  mapM_ok_map fun z hz => readAt_ok (by rw [hZ z hz]; exact ht) 0

theorem cosFfnE_ok {A C Z : List (List R)} {b : List R} {D n : ℕ} (hZ : Rect Z n) (hD : Z.length = D) (hpos : 0 < D) (hA : Rect A D) (hb : b.length = A.length)
    (hC : Rect C A.length) : cosFfnE A b C Z = .ok (cosFfn A b C Z) ∧ Rect (cosFfn A b C Z) n ∧ (cosFfn A b C Z).length = C.length := by
  have hnc : ncols Z = n := ncols_eq hZ (by rintro rfl; simp at hD; omega)
  have hY : Rect ((List.zipWith (fun (r : List R) (c : R) => (List.range n).map fun t => dotp r (column Z t) + c) A b).map fun y => y.map relu) n := by
    intro x hx
    obtain ⟨y, hy, rfl⟩ := List.mem_map.1 hx
    rw [zipWith_getD _ A b [] 0 hb] at hy
    obtain ⟨i, _, rfl⟩ := List.mem_map.1 hy
    simp
  refine ⟨?_, ?_, by simp [cosFfn]⟩
  · unfold cosFfnE cosFfn
    dsimp only
    rw [hnc, mapM_ok_map (g := fun d => (List.range n).map fun t => dotp (A.getD d []) (column Z t) + b.getD d 0), ok_bind,
      ← zipWith_getD (fun (r : List R) (c : R) => (List.range n).map fun t => dotp r (column Z t) + c) A b [] 0 hb, map_getD_range _ C []]
    · refine mapM_ok_map fun d hd => mapM_ok_map fun t ht => ?_
      have hd := List.mem_range.1 hd
      rw [column_ok hY (List.mem_range.1 ht), ok_bind, readRow_ok hd, ok_bind]
      refine if_pos ?_
      rw [row_len hC hd]
      simp [column, hb]
    · refine fun d hd => mapM_ok_map fun t ht => ?_
      have hd := List.mem_range.1 hd
      rw [column_ok hZ (List.mem_range.1 ht), ok_bind, readRow_ok hd, ok_bind, dotE, if_pos (by rw [row_len hA hd]; simp [column, hD]), ok_bind,
        readAt_ok (by omega) 0, ok_bind]
      rfl
  · intro x hx
    unfold cosFfn at hx
    obtain ⟨y, hy, rfl⟩ := List.mem_map.1 hx
    simp [hnc]

theorem le_foldr_max (l : List ℕ) : ∀ x ∈ l, x ≤ l.foldr max 0 := by
  induction l with
  | nil => simp
  | cons a l ih =>
    intro x hx
    rcases List.mem_cons.1 hx with rfl | hx
    · exact le_max_left _ _
    · exact (ih x hx).trans (le_max_right _ _)

/-- The hypotheses of C151: `c'` is the object `c` fitted on `X`; `Y` has the dimensions of `X`, all letters refer to them, and with dropout `Y` is at
least as long as `X`. -/
structure CosCall (g : Rng R) (c c' : CosWISS R) (words : List (SWord R)) (X Y : Data R) (m m' D n n' : ℕ) : Prop where
  valid : g.Valid
  train : HasShape X m D n
  data : HasShape Y m' D n'
  someTrain : 0 < m
  dims : 0 < D
  time : 0 < n'
  fit : c.fit g words X = .ok c'
  letters : ∀ w ∈ words, ∀ el ∈ w.els, ∀ d, el.getD d 0 ≠ 0 → d < D
  longer : c.dropout ≠ none → c.ffnSize = none → n ≤ n'

theorem cosFit_eq {g : Rng R} {c c' : CosWISS R} {words : List (SWord R)} {X : Data R} {m D n : ℕ} (hX : HasShape X m D n) (hm : 0 < m) (hD : 0 < D)
    (h : c.fit g words X = .ok c') : c'.freqs = c.freqs ∧ c'.exponent = c.exponent ∧ c'.total = c.total ∧ c'.ffnSize = c.ffnSize ∧ c'.dropout = c.dropout ∧
      (∀ d, c.ffnSize = some d → c'.net = some (cosNets g words.length c.freqs.length d D)) ∧
      ∀ d, c.dropout = some d → ∃ drops, c'.drops = some drops ∧ cosDrops g words.length c.freqs.length
        ((words.map fun w => w.els.length).foldr max 0) n (pyInt (d * (n : R))) = .ok drops := by
  unfold CosWISS.fit at h
  simp only [hX.shape1_eq hm, hX.shape2_eq hm hD] at h
  cases hd : c.dropout with
  | none =>
    simp only [hd, pure, Except.pure, Except.ok.injEq] at h
    subst h
    exact ⟨rfl, rfl, rfl, rfl, rfl, fun d e => by simp [e], by simp⟩
  | some d =>
    simp only [hd] at h
    cases hc : cosDrops g words.length c.freqs.length ((words.map fun w => w.els.length).foldr max 0) n (pyInt (d * (n : R))) with
    | error e => rw [hc] at h; cases h
    | ok drops =>
      rw [hc, ok_bind] at h
      simp only [pure, Except.pure, Except.ok.injEq] at h
      subst h
      exact ⟨rfl, rfl, rfl, rfl, rfl, fun d e => by simp [e], fun d' e => ⟨drops, rfl, by cases e; exact hc⟩⟩

theorem wordResultE_ok [NpMath R] (pi : R) {g : Rng R} {c c' : CosWISS R} {words : List (SWord R)} {X Y : Data R} {m m' D n n' : ℕ}
    (h : CosCall g c c' words X Y m m' D n n') {w : ℕ} (hw : w < words.length) : c'.wordResultE pi Y w words[w] = c'.wordResult pi Y w words[w] := by
  obtain ⟨e1, e2, e3, e4, e5, hnet, hdrop⟩ := cosFit_eq h.train h.someTrain h.dims h.fit
  have hlet := h.letters _ (List.getElem_mem hw)
  have hmax : (words[w]).els.length ≤ (words.map fun w => w.els.length).foldr max 0 :=
    le_foldr_max _ _ (List.mem_map.2 ⟨_, List.getElem_mem hw, rfl⟩)
  unfold CosWISS.wordResultE CosWISS.wordResult
  generalize words[w] = word at hlet hmax ⊢
  dsimp only
  by_cases h0 : word.els = [] ∧ c'.total = false
  · rw [if_pos h0, if_pos h0]
  rw [if_neg h0, if_neg h0]
  have hargs : ∀ Z ∈ Y, CosArgs Z word.els n' := fun Z hZ => by
    obtain ⟨h1, h2⟩ := h.data.2 Z hZ
    refine ⟨h2, ?_, h.time, fun el hel d hd => by rw [h1]; exact hlet el hel d hd⟩
    rintro rfl
    simp at h1
    have := h.dims
    omega
  rw [e1, e2, e3, e4, e5]
  cases hf : c.ffnSize with
  | some k =>
    rw [hnet k hf]
    dsimp only
    rw [show (cosNets g words.length c.freqs.length k D)[w]? = some (((cosNets g words.length c.freqs.length k D)).getD w []) by
      simp [cosNets, hw]]
    dsimp only
    by_cases h1 : word.els = []
    · rw [if_pos h1, if_pos h1]
    rw [if_neg h1, if_neg h1]
    refine mapM_ok_map fun f hf' => mapM_ok_map fun Z hZ => ?_
    have hf' := List.mem_range.1 hf'
    have hrow : f < ((cosNets g words.length c.freqs.length k D).getD w []).length := by simp [cosNets, hw, hf']
    rw [readAt_ok hrow ⟨[], [], []⟩, ok_bind]
    obtain ⟨i, hi⟩ : ∃ i, ((cosNets g words.length c.freqs.length k D).getD w []).getD f ⟨[], [], []⟩ = i := ⟨_, rfl⟩
    have hi' := hi
    simp only [cosNets, hw, hf', List.getD_eq_getElem?_getD, List.getElem?_map, List.getElem?_range, Option.map_some, Option.getD_some] at hi'
    obtain ⟨z1, z2⟩ := h.data.2 Z hZ
    obtain ⟨q1, q2, q3⟩ := cosFfnE_ok (A := i.A) (b := i.b) (C := i.C) z2 z1 h.dims (by
        intro r hr; rw [← hi'] at hr; obtain ⟨_, _, rfl⟩ := List.mem_map.1 hr; simp) (by rw [← hi']; simp) (by
        intro r hr; rw [← hi'] at hr ⊢; obtain ⟨_, _, rfl⟩ := List.mem_map.1 hr; simp)
    have hCl : i.C.length = D := by rw [← hi']; simp
    rw [hi, q1, ok_bind, readAt_ok hf' 0, ok_bind]
    refine coswissSingleE_ok pi ⟨q2, ?_, h.time, fun el hel d hd => ?_⟩ _ (weightings_length _ _ (List.length_pos_iff.2 h1)) (fun d hd => by cases hd)
    · intro hnil
      rw [hnil] at q3
      simp only [List.length_nil] at q3
      have := h.dims
      omega
    · rw [q3, hCl]
      exact hlet el hel d hd
  | none =>
    cases hd : c.dropout with
    | none =>
      dsimp only
      by_cases h1 : word.els = []
      · rw [if_pos h1, if_pos h1]
      rw [if_neg h1, if_neg h1]
      refine mapM_ok_map fun f hf' => mapM_ok_map fun Z hZ => ?_
      rw [readAt_ok (List.mem_range.1 hf') 0, ok_bind]
      exact coswissSingleE_ok pi (hargs Z hZ) _ (weightings_length _ _ (List.length_pos_iff.2 h1)) (fun d hd => by cases hd)
    | some r =>
      obtain ⟨drops, h2, h3⟩ := hdrop r hd
      rw [h2]
      dsimp only
      have hrate : words.length = 0 ∨ c.freqs.length = 0 ∨ (words.map fun w => w.els.length).foldr max 0 = 0 ∨
          (0 ≤ pyInt (r * (n : R)) ∧ pyInt (r * (n : R)) ≤ (n : ℤ)) := by
        by_contra hcon
        rw [cosDrops, if_neg hcon] at h3
        cases h3
      rw [cosDrops, if_pos hrate] at h3
      injection h3 with h3
      have hrow : drops[w]? = some ((List.range c.freqs.length).map fun f => (List.range ((words.map fun w => w.els.length).foldr max 0)).map fun k =>
          g.choice ((w * c.freqs.length + f) * ((words.map fun w => w.els.length).foldr max 0) + k) n (pyInt (r * (n : R))).toNat) := by
        rw [← h3]
        simp [hw]
      rw [hrow]
      dsimp only
      by_cases h1 : word.els = []
      · rw [if_pos h1, if_pos h1]
      rw [if_neg h1, if_neg h1]
      have hpos := List.length_pos_iff.2 h1
      refine mapM_ok_map fun f hf' => mapM_ok_map fun Z hZ => ?_
      have hf' := List.mem_range.1 hf'
      rw [readAt_ok hf' 0, ok_bind, readAt_ok (by simpa using hf') ([] : List (List ℕ)), ok_bind]
      refine coswissSingleE_ok pi (hargs Z hZ) _ (weightings_length _ _ hpos) (fun d hdd => ?_)
      cases hdd
      have hrate' : (pyInt (r * (n : R))).toNat ≤ n := by omega
      have hlong := h.longer (by simp [hd]) hf
      simp only [List.getD_eq_getElem?_getD, List.getElem?_map, List.getElem?_range hf', Option.map_some, Option.getD_some]
      refine ⟨by simpa using hmax, fun idx hidx i hi => ?_⟩
      obtain ⟨k, _, rfl⟩ := List.mem_map.1 hidx
      exact (h.valid.choice_lt _ _ _ hrate' i hi).trans_le hlong

theorem cosBatchLoopE_ok [NpMath R] (pi : R) {g : Rng R} {c c' : CosWISS R} {words : List (SWord R)} {X Y : Data R} {m m' D n n' : ℕ}
    (h : CosCall g c c' words X Y m m' D n n') (b : ℕ) : ∀ (ws : List (SWord R)) (w : ℕ) (results : List (Data R)), ws = words.drop w →
    c'.batchLoopE pi Y b ws w results = c'.batchLoop pi Y b ws w results
  | [], _, _, _ => rfl
  | word :: ws, w, results, hws => by
    have hw : w < words.length := by
      by_contra hcon
      rw [List.drop_of_length_le (by omega)] at hws
      cases hws
    rw [List.drop_eq_getElem_cons hw] at hws
    injection hws with h1 h2
    unfold CosWISS.batchLoopE CosWISS.batchLoop
    rw [h1, wordResultE_ok pi h hw]
    cases c'.wordResult pi Y w words[w] with
    | error e => rfl
    | ok r =>
      dsimp only
      rw [cosBatchLoopE_ok pi h b ws (w + 1) _ h2, cosBatchLoopE_ok pi h b ws (w + 1) _ h2]

/-- C151 (partial: false for letters beyond the dimensions, and with dropout for data shorter than those of `fit`, `Demo.C151_false`).  A fitted `CosWISS` (plain,
with a network or with dropout; with or without total weighting), on data with the dimensions of the training data, for all random draws: the version that
checks each access yields the same arrays, and stops with the same exception, as the version that does not. -/
theorem C151_coswiss_partial [NpMath R] (pi : R) {g : Rng R} {c c' : CosWISS R} {words : List (SWord R)} {X Y : Data R} {m m' D n n' : ℕ}
    (h : CosCall g c c' words X Y m m' D n n') (b : ℕ) : c'.batchTransformE pi words Y b = c'.batchTransform pi words Y b :=
  cosBatchLoopE_ok pi h b words 0 [] (by simp)

namespace Demo.Memory2

local instance : NpMath ℚ := ⟨id, id, fun a _ => a, id, id⟩

/-- Two dimensions, four time steps. -/
def X : Data ℚ := [[[1, 2, 3, 4], [5, 6, 7, 8]]]
/-- One dimension. -/
def X1 : Data ℚ := [[[1, 2, 3, 4]]]
/-- Two dimensions, two time steps. -/
def X2 : Data ℚ := [[[1, 2], [5, 6]]]

theorem shapes : HasShape X 1 2 4 ∧ HasShape X1 1 1 4 ∧ HasShape X2 1 2 2 := by unfold HasShape; decide

/-- `RIN(out_dim=1)` and `RIN(kernel=[[1]])`. -/
def rin : RIN ℚ := { outDim := 1 }
def rinConst : RIN ℚ := { constKernel := some [[1]] }

/-- The hypotheses of `C150_rin_partial` hold for a fit that succeeds. -/
example : ∃ p', RIN.fit lowRng 5 rin X = .ok (some p') ∧ p'.transformE X2 = p'.transform X2 ∧ (p'.transform X2).isOk = true := by
  refine ⟨_, rfl, C150_rin_partial (p := rin) (fuel := 5) lowRng_valid shapes.1 (by decide) (by decide) (fun k hk => by cases hk) rfl shapes.2.2 (by decide) le_rfl, rfl⟩

/-- `JLD(2)`. -/
def jld : JLD ℚ := { d := .int 2 }

example : ∃ p', JLD.fit lowRng jld X = .ok p' ∧ p'.transformE X2 = p'.transform X2 ∧ (p'.transform X2).isOk = true := by
  refine ⟨_, rfl, C150_jld_partial (p := jld) lowRng_valid shapes.1 (by decide) rfl shapes.2.2 (by decide) (by decide) le_rfl, rfl⟩

example : ∃ p, MAV.new (.int 2 : IntOrFloat ℚ) = .ok p ∧ (p.fit X).transformE X1 = .ok [[[0, 3 / 2, 5 / 2, 7 / 2]]] := ⟨_, rfl, by decide +kernel⟩

/-- The property without the hypotheses is false: `RIN` and `JLD`, fitted on two dimensions, return arrays on data with one dimension although their kernels
read outside `X`; so does `RIN` with a kernel that has fewer rows than the data have dimensions. -/
theorem _root_.Fruits.Demo.C150_false :
    (((RIN.fit lowRng 5 rin X).bind fun o => (o.getD rin).transformE X1) = .error .indexError ∧
      ((RIN.fit lowRng 5 rin X).bind fun o => (o.getD rin).transform X1).isOk = true) ∧
    (((JLD.fit lowRng jld X).bind fun p => p.transformE X1) = .error .indexError ∧
      ((JLD.fit lowRng jld X).bind fun p => p.transform X1).isOk = true) ∧
    (((RIN.fit lowRng 5 rinConst X).bind fun o => (o.getD rin).transformE X) = .error .indexError ∧
      ((RIN.fit lowRng 5 rinConst X).bind fun o => (o.getD rin).transform X).isOk = true) := by
  decide +kernel

/-- `SimpleWord("[1][12]")` and `SimpleWord("[3]")`. -/
def word : SWord ℚ := ⟨[[1, 0], [1, 1]], 2, "[1][12]".toList, none⟩
def beyond : SWord ℚ := ⟨[[0, 0, 1]], 3, "[3]".toList, none⟩

theorem built : SWord.mk' ℚ List.dedup "[1][12]".toList = .ok word ∧ SWord.mk' ℚ List.dedup "[3]".toList = .ok beyond := by decide +kernel

def plain : CosWISS ℚ := { freqs := [1, 2] }
def leaky : CosWISS ℚ := { freqs := [1, 2], total := true, dropout := some (3 / 4) }
def net : CosWISS ℚ := { freqs := [1, 2], ffnSize := some 3 }

/-- The hypotheses of `C151_coswiss_partial` hold for each of the three kinds, and the call yields an array. -/
example : ∀ c ∈ [plain, leaky, net], ∃ c', CosCall lowRng c c' [word, word] X X 1 1 2 4 4 ∧ (c'.batchTransform 3 [word, word] X 2).1.length = 1 := by
  have key : ∀ c : CosWISS ℚ, ((c.fit lowRng [word, word] X).toOption.map fun c' => (c'.batchTransform 3 [word, word] X 2).1.length) = some 1 →
      ∃ c', CosCall lowRng c c' [word, word] X X 1 1 2 4 4 ∧ (c'.batchTransform 3 [word, word] X 2).1.length = 1 := fun c h0 => by
    obtain ⟨c', h, h'⟩ := Option.map_eq_some_iff.1 h0
    have h : c.fit lowRng [word, word] X = .ok c' := by
      cases hc : c.fit lowRng [word, word] X with
      | error e => rw [hc] at h; cases h
      | ok a => rw [hc] at h; cases h; rfl
    refine ⟨c', ⟨lowRng_valid, shapes.1, shapes.1, by decide, by decide, by decide, h, ?_, fun _ _ => le_rfl⟩, h'⟩
    intro w hw el hel d hd
    have hl : el.length = 2 := by
      simp only [List.mem_cons, List.not_mem_nil, or_false, or_self] at hw
      subst hw
      simp only [word, List.mem_cons, List.not_mem_nil, or_false] at hel
      rcases hel with rfl | rfl <;> rfl
    by_contra hcon
    exact hd (by simp [List.getD, List.getElem?_eq_none (show el.length ≤ d by omega)])
  intro c hc
  simp only [List.mem_cons, List.not_mem_nil, or_false] at hc
  rcases hc with rfl | rfl | rfl
  · exact key _ (by decide +kernel)
  · exact key _ (by decide +kernel)
  · exact key _ (by decide +kernel)

/-- The property without the hypotheses is false: a word with a letter beyond the dimensions of the data makes the kernel read outside `X`; with dropout,
fitted on series of length four, the kernel writes outside `tmp` on series of length two.  Both calls yield an array. -/
theorem _root_.Fruits.Demo.C151_false :
    ((plain.batchTransformE 3 [beyond] X 2).2 = some .indexError ∧ (plain.batchTransform 3 [beyond] X 2).1.length = 1) ∧
    ((leaky.fit lowRng [word] X).toOption.map fun c => ((c.batchTransformE 3 [word] X2 2).2, (c.batchTransform 3 [word] X2 2).1.length)) =
      some (some .indexError, 1) := by
  decide +kernel

end Demo.Memory2

end Fruits
