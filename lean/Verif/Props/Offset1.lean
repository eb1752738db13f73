import Verif.Props.Units2
import Verif.Props.Stability

/-! # C168: adding constants to the dimensions of the series, part 1: preparateurs

Specification: two data sets differ by *offsets* if they have the same form and every row (a dimension of a series) of the second one is the row of
the first one plus a constant; the constants of different rows may differ.  They differ by *offsets of the series* if the rows of one series have the
same constant. -/

namespace Fruits
set_option linter.unusedSectionVars false

variable {R : Type} [Field R] [LinearOrder R] [IsStrictOrderedRing R] [FloorRing R]

/-- The second row is the first one plus a constant. -/
def RowOffset (x x' : List R) : Prop := ∃ b, x' = x.map (· + b)

/-- The second data set is the first one with a constant added to every row. -/
def Offsets (X X' : Data R) : Prop := List.Forall₂ (List.Forall₂ RowOffset) X X'

/-- The second data set is the first one with a constant added to every series. -/
def SeriesOffsets (X X' : Data R) : Prop := List.Forall₂ (fun s s' => ∃ b : R, s' = s.map fun x => x.map (· + b)) X X'

/-- The same exception, or values that are related. -/
inductive Outcome {α : Type} (Q : α → α → Prop) : Except Err α → Except Err α → Prop
  | error (e : Err) : Outcome Q (.error e) (.error e)
  | ok {a a' : α} (h : Q a a') : Outcome Q (.ok a) (.ok a')

theorem Outcome.of_eq {α : Type} {Q : α → α → Prop} (hQ : ∀ a, Q a a) {r r' : Except Err α} (h : r' = r) : Outcome Q r r' := by
  subst h
  cases r' with
  | error e => exact .error e
  | ok a => exact .ok (hQ a)

theorem Outcome.of_map {α : Type} {Q : α → α → Prop} {φ : α → α} (hQ : ∀ a, Q a (φ a)) {r r' : Except Err α} (h : r' = r.map φ) : Outcome Q r r' := by
  subst h
  cases r with
  | error e => exact .error e
  | ok a => exact .ok (hQ a)

theorem Outcome.mono {α : Type} {Q Q' : α → α → Prop} (h : ∀ a a', Q a a' → Q' a a') {r r' : Except Err α} (hr : Outcome Q r r') : Outcome Q' r r' := by
  cases hr with
  | error e => exact .error e
  | ok hq => exact .ok (h _ _ hq)

theorem outcome_mapM {α β γ : Type} {A : α → β → Prop} {Q : γ → γ → Prop} {f : α → Except Err γ} {g : β → Except Err γ}
    (h : ∀ a b, A a b → Outcome Q (f a) (g b)) {l : List α} {l' : List β} (hl : List.Forall₂ A l l') :
    Outcome (List.Forall₂ Q) (l.mapM f) (l'.mapM g) := by
  induction hl with
  | nil => exact .ok .nil
  | @cons a b l l' hab _ ih =>
    rw [List.mapM_cons, List.mapM_cons]
    have h1 := h a b hab
    generalize f a = r, g b = r' at h1
    cases h1 with
    | error e => exact .error e
    | ok hq =>
      simp only [ok_bind]
      generalize l.mapM f = r, l'.mapM g = r' at ih
      cases ih with
      | error e => exact .error e
      | ok hq' => exact .ok (.cons hq hq')

theorem mapM_eq_of {α β γ : Type} {A : α → β → Prop} {f : α → Except Err γ} {g : β → Except Err γ} (h : ∀ a b, A a b → g b = f a)
    {l : List α} {l' : List β} (hl : List.Forall₂ A l l') : l'.mapM g = l.mapM f := by
  induction hl with
  | nil => rfl
  | cons hab _ ih => rw [List.mapM_cons, List.mapM_cons, h _ _ hab, ih]

theorem map_eq_of {α β γ : Type} {A : α → β → Prop} {f : α → γ} {g : β → γ} (h : ∀ a b, A a b → g b = f a)
    {l : List α} {l' : List β} (hl : List.Forall₂ A l l') : l'.map g = l.map f := by
  induction hl with
  | nil => rfl
  | cons hab _ ih => rw [List.map_cons, List.map_cons, h _ _ hab, ih]

theorem RowOffset.refl (x : List R) : RowOffset x x := ⟨0, by simp⟩

theorem RowOffset.length {x x' : List R} (h : RowOffset x x') : x'.length = x.length := by
  obtain ⟨b, rfl⟩ := h; simp

theorem Offsets.refl (X : Data R) : Offsets X X := List.forall₂_same.2 fun _ _ => List.forall₂_same.2 fun _ _ => RowOffset.refl _

theorem SeriesOffsets.offsets {X X' : Data R} (h : SeriesOffsets X X') : Offsets X X' := by
  refine h.imp fun s s' ⟨b, hb⟩ => ?_
  subst hb
  rw [List.forall₂_map_right_iff]
  exact List.forall₂_same.2 fun x _ => ⟨b, rfl⟩

theorem Offsets.length {X X' : Data R} (h : Offsets X X') : X'.length = X.length := h.length_eq.symm

theorem forall₂_getD_nil {α : Type} {Q : List α → List α → Prop} (h0 : Q [] []) {l l' : List (List α)} (h : List.Forall₂ Q l l') (i : ℕ) :
    Q (l.getD i []) (l'.getD i []) := by
  induction h generalizing i with
  | nil => simpa using h0
  | cons hab _ ih => cases i with
    | zero => simpa using hab
    | succ i => simpa using ih i

theorem Offsets.getD {X X' : Data R} (h : Offsets X X') (i : ℕ) : List.Forall₂ RowOffset (X.getD i []) (X'.getD i []) :=
  forall₂_getD_nil .nil h i

theorem Offsets.row {s s' : Series R} (h : List.Forall₂ RowOffset s s') (j : ℕ) : RowOffset (s.getD j []) (s'.getD j []) :=
  forall₂_getD_nil ⟨0, rfl⟩ h j

theorem Offsets.shape1 {X X' : Data R} (h : Offsets X X') : shape1 X' = shape1 X := by
  unfold Fruits.shape1; exact (h.getD 0).length_eq.symm

theorem Offsets.shape2 {X X' : Data R} (h : Offsets X X') : shape2 X' = shape2 X := by
  unfold Fruits.shape2; exact (Offsets.row (h.getD 0) 0).length

/-! ### Removers -/

theorem increments1_off (k : ℤ) (x : List R) (b : R) : increments1 k (x.map (· + b)) = increments1 k x := by
  unfold increments1
  simp only [slcFrom_map, slcTo_map, List.length_map]
  have : vsub ((slcFrom x k).map (· + b)) ((slcTo x (-k)).map (· + b)) = vsub (slcFrom x k) (slcTo x (-k)) := by
    have h := zipWith_map_map (f := (· + b)) (g := (· + b)) (h := id) (op := fun a c : R => a - c) (op' := fun a c : R => a - c)
      (fun a c => by simp) (slcFrom x k) (slcTo x (-k))
    rw [List.map_id] at h
    exact h
  rw [this]

theorem INC.loop_off {p : INC R} (hz : p.zeroPadding = true) (n : ℕ) (x x' : List R) : ∀ (k : ℕ) (out : List R), p.loop n x' k out = p.loop n x k out
  | 0, _ => rfl
  | k + 1, out => by
    unfold INC.loop
    cases increments1 (p.shift.eval n) out with
    | error e => rfl
    | ok y =>
      simp only [ok_bind, hz, if_true, pure_bind]
      exact INC.loop_off hz n x x' k y

theorem INC.transform_off {p : INC R} (hz : p.zeroPadding = true) (hd : 0 < p.depth) {X X' : Data R} (h : Offsets X X') :
    p.transform X' = p.transform X := by
  unfold INC.transform mapRowsM
  rw [h.shape2]
  refine mapM_eq_of (fun s s' hs => mapM_eq_of (fun x x' hx => ?_) hs) h
  obtain ⟨b, rfl⟩ := hx
  rw [INC.loop_off hz (Fruits.shape2 X) x (x.map (· + b))]
  obtain ⟨k, hk⟩ := Nat.exists_eq_succ_of_ne_zero hd.ne'
  rw [hk, INC.loop, INC.loop, increments1_off]

theorem mean_off {x : List R} (hx : x ≠ []) (b : R) : mean (x.map (· + b)) = mean x + b := by
  have hl : (x.length : R) ≠ 0 := by
    have : x.length ≠ 0 := by simpa using hx
    exact_mod_cast this
  have hs : ∀ y : List R, (y.map (· + b)).sum = y.sum + y.length * b := by
    intro y
    induction y with
    | nil => simp
    | cons a y ih => simp only [List.map_cons, List.sum_cons, ih, List.length_cons]; push_cast; ring
  unfold mean
  rw [hs, List.length_map]
  field_simp

theorem centered_off (x : List R) (b : R) : (x.map (· + b)).map (fun v => v - mean (x.map (· + b))) = x.map fun v => v - mean x := by
  by_cases hx : x = []
  · subst hx; rfl
  · rw [mean_off hx, List.map_map]
    exact List.map_congr_left fun v _ => by simp

theorem variance_off (x : List R) (b : R) : variance (x.map (· + b)) = variance x := by
  by_cases hx : x = []
  · subst hx; rfl
  · unfold variance
    rw [mean_off hx, List.map_map]
    congr 1
    exact List.map_congr_left fun v _ => by simp

theorem STD.transform_off [NpMath R] {p : STD R} (hp : p.separately = true) {X X' : Data R} (h : Offsets X X') : p.transform X' = p.transform X := by
  unfold STD.transform
  rw [if_pos hp, if_pos hp]
  have hm : ∀ {α β γ : Type} (f : α → β) (g : α → γ) (op : α → β × γ → α) (l : List α),
      List.zipWith op l (List.zip (l.map f) (l.map g)) = l.map fun a => op a (f a, g a) := by
    intro α β γ f g op l
    induction l with
    | nil => rfl
    | cons a l ih => simp [ih]
  have key : ∀ (sd : List R → R), (∀ x b, sd (x.map (· + b)) = sd x) →
      List.zipWith (fun s (q : List R × List R) => List.zipWith (fun x (c : R × R) => x.map fun v => (v - c.1) / (c.2 + p.eps)) s (List.zip q.1 q.2))
        X' (List.zip (X'.map fun s => s.map mean) (X'.map fun s => s.map sd)) =
      List.zipWith (fun s (q : List R × List R) => List.zipWith (fun x (c : R × R) => x.map fun v => (v - c.1) / (c.2 + p.eps)) s (List.zip q.1 q.2))
        X (List.zip (X.map fun s => s.map mean) (X.map fun s => s.map sd)) := by
    intro sd hsd
    rw [hm, hm]
    refine map_eq_of (fun s s' hs => ?_) h
    dsimp only
    rw [hm, hm]
    refine map_eq_of (fun x x' hx => ?_) hs
    obtain ⟨b, rfl⟩ := hx
    have h1 : ∀ (y : List R) (c : R), (y.map fun v => (v - mean y) / (c + p.eps)) = (y.map fun v => v - mean y).map (· / (c + p.eps)) := by
      intro y c; rw [List.map_map]; rfl
    dsimp only
    rw [h1, h1, centered_off, hsd]
  cases hv : p.var
  · simp only [Bool.false_eq_true, if_false]
    rw [key (fun _ => 1) (fun _ _ => rfl)]
  · simp only [if_true]
    rw [key npStd (fun x b => by unfold npStd; rw [variance_off])]

theorem FFN.transform_off {p : FFN R} (hp : p.center = true) {X X' : Data R} (h : Offsets X X') : p.transform X' = p.transform X := by
  unfold FFN.transform
  cases p.fitted with
  | none => rfl
  | some st =>
    obtain ⟨w1, b, w2⟩ := st
    dsimp only
    rw [h.shape2]
    refine mapM_eq_of (fun s s' hs => ?_) h
    unfold FFN.series
    rw [← hs.length_eq]
    have : (s'.map fun x => x.map fun v => v - mean x) = s.map fun x => x.map fun v => v - mean x :=
      map_eq_of (fun x x' hx => by obtain ⟨b, rfl⟩ := hx; exact centered_off x b) hs
    simp only [hp, if_true, this]

theorem FFN.fit_off (g : Rng R) (p : FFN R) {X X' : Data R} (h : Offsets X X') : p.fit g X' = p.fit g X := by
  unfold FFN.fit
  rw [h.shape1]

/-! ### NRM -/

theorem foldl_max_off (b : R) : ∀ (x : List R) (a : R), (x.map (· + b)).foldl max (a + b) = x.foldl max a + b
  | [], a => rfl
  | c :: x, a => by
    rw [List.map_cons, List.foldl_cons, List.foldl_cons, max_add_add_right, foldl_max_off b x]

theorem foldl_min_off (b : R) : ∀ (x : List R) (a : R), (x.map (· + b)).foldl min (a + b) = x.foldl min a + b
  | [], a => rfl
  | c :: x, a => by
    rw [List.map_cons, List.foldl_cons, List.foldl_cons, min_add_add_right, foldl_min_off b x]

theorem maxE_off (x : List R) (b : R) : maxE (x.map (· + b)) = (maxE x).map (· + b) := by
  unfold maxE listMax
  cases x with
  | nil => rfl
  | cons a x => simp only [List.map_cons, Except.map, foldl_max_off]

theorem minE_off (x : List R) (b : R) : minE (x.map (· + b)) = (minE x).map (· + b) := by
  unfold minE listMin
  cases x with
  | nil => rfl
  | cons a x => simp only [List.map_cons, Except.map, foldl_min_off]

/-- Values that are computed for all objects of a list: they fail for both lists, or are known together with the objects. -/
theorem mapM_attach {β : Type} (f f' : β → Except Err R) (b : β → R) (h : ∀ t, f' t = (f t).map (· + b t)) : ∀ l : List β,
    (∃ e, l.mapM f = .error e ∧ l.mapM f' = .error e) ∨
      ∃ c : List (β × R), l = c.map (·.1) ∧ l.mapM f = .ok (c.map (·.2)) ∧ l.mapM f' = .ok (c.map fun q => q.2 + b q.1)
  | [] => Or.inr ⟨[], rfl, rfl, rfl⟩
  | t :: l => by
    rw [List.mapM_cons, List.mapM_cons, h]
    rcases hf : f t with e | v
    · exact Or.inl ⟨e, rfl, rfl⟩
    · simp only [Except.map, ok_bind]
      rcases mapM_attach f f' b h l with ⟨e, h1, h2⟩ | ⟨c, h1, h2, h3⟩
      · exact Or.inl ⟨e, by rw [h1]; rfl, by rw [h2]; rfl⟩
      · exact Or.inr ⟨(t, v) :: c, by rw [h1]; rfl, by rw [h2]; rfl, by rw [h3]; rfl⟩

theorem forall₂_attach {α : Type} (sh : R → α → α) {l l' : List α} (h : List.Forall₂ (fun a a' => ∃ b, a' = sh b a) l l') :
    ∃ c : List (α × R), l = c.map (·.1) ∧ l' = c.map fun t => sh t.2 t.1 := by
  induction h with
  | nil => exact ⟨[], rfl, rfl⟩
  | @cons a a' l l' hab _ ih =>
    obtain ⟨b, hb⟩ := hab
    obtain ⟨c, h1, h2⟩ := ih
    exact ⟨(a, b) :: c, by rw [h1]; rfl, by rw [hb, h2]; rfl⟩

/-- The part that `NRM` with both values of `scale_dim` has in common. -/
def nrmCore {α : Type} (lo hi : α → Except Err R) (nf : R → R → α → α) (zf : α → α) (l : List α) : Except Err (List α) := do
  let mins ← l.mapM lo
  let maxs ← l.mapM hi
  let mask := List.zipWith (fun a b : R => decide (a ≠ b)) mins maxs
  let vals := List.zipWith (fun x (c : R × R) => nf c.1 c.2 x) (compress mask l) (List.zip (compress mask mins) (compress mask maxs))
  pure (scatter mask (l.map zf) vals)

theorem nrmCore_off {α : Type} {lo hi : α → Except Err R} {nf : R → R → α → α} {zf : α → α} (sh : R → α → α)
    (hlo : ∀ a b, lo (sh b a) = (lo a).map (· + b)) (hhi : ∀ a b, hi (sh b a) = (hi a).map (· + b))
    (hnf : ∀ a b u v, nf (u + b) (v + b) (sh b a) = nf u v a) (hzf : ∀ a b, zf (sh b a) = zf a)
    {l l' : List α} (h : List.Forall₂ (fun a a' => ∃ b, a' = sh b a) l l') : nrmCore lo hi nf zf l' = nrmCore lo hi nf zf l := by
  obtain ⟨c, h1, h2⟩ := forall₂_attach sh h
  subst h1; subst h2
  have hm : ∀ {γ δ ε : Type} (f : γ → Except Err ε) (g : δ → γ) (l : List δ), (l.map g).mapM f = l.mapM fun d => f (g d) := by
    intro γ δ ε f g l
    induction l with
    | nil => rfl
    | cons d l ih => simp only [List.map_cons, List.mapM_cons, ih]
  unfold nrmCore
  simp only [hm, hlo, hhi]
  rcases mapM_attach (fun d : α × R => lo d.1) (fun d => (lo d.1).map (· + d.2)) (·.2) (fun _ => rfl) c with ⟨e, e1, e2⟩ | ⟨c2, e1, e2, e3⟩
  · rw [e1, e2]; rfl
  rw [e2, e3]
  simp only [ok_bind]
  subst e1
  simp only [hm]
  rcases mapM_attach (fun d : (α × R) × R => hi d.1.1) (fun d => (hi d.1.1).map (· + d.1.2)) (·.1.2) (fun _ => rfl) c2 with ⟨e, e1, e2⟩ | ⟨c3, e1, e2, e3⟩
  · rw [e1, e2]; rfl
  rw [e2, e3]
  simp only [ok_bind]
  subst e1
  simp only [List.map_map]
  have hz : ∀ {δ ε ζ η : Type} (op : ε → ζ → η) (f : δ → ε) (g : δ → ζ) (l : List δ), List.zipWith op (l.map f) (l.map g) = l.map fun d => op (f d) (g d) := by
    intro δ ε ζ η op f g l
    induction l with
    | nil => rfl
    | cons d l ih => simp [ih]
  simp only [List.zip, compress_map, hz, Function.comp_def, hnf, hzf, add_left_inj, ne_eq]

theorem NRM.perDim_core (X : Data R) : NRM.perDim X =
    (nrmCore minE maxE (fun lo hi x => x.map fun v => (v - lo) / (hi - lo)) (fun x => x.map fun _ => 0) X.flatten).map
      (NRM.perDim.regroup (X.map List.length)) := by
  unfold NRM.perDim nrmCore
  dsimp only
  cases X.flatten.mapM minE with
  | error e => rfl
  | ok a => cases X.flatten.mapM maxE with
    | error e => rfl
    | ok b => rfl

theorem NRM.perDim_off {X X' : Data R} (h : Offsets X X') : NRM.perDim X' = NRM.perDim X := by
  rw [NRM.perDim_core, NRM.perDim_core, nrmCore_off (fun (b : R) (x : List R) => x.map (fun v => v + b)) (fun a b => minE_off a b) (fun a b => maxE_off a b)
    (fun a b u v => ?_) (fun a b => ?_) (forall₂_flatten h)]
  · congr 2
    exact map_eq_of (fun s s' hs => hs.length_eq.symm) h
  · rw [List.map_map]
    exact List.map_congr_left fun y _ => by simp
  · rw [List.map_map]; rfl

theorem NRM.perSeries_off {X X' : Data R} (h : SeriesOffsets X X') : NRM.perSeries X' = NRM.perSeries X := by
  have e : ∀ X : Data R, NRM.perSeries X = nrmCore (fun s => do let r ← s.mapM minE; minE r) (fun s => do let r ← s.mapM maxE; maxE r)
    (fun lo hi (s : Series R) => s.map fun x => x.map fun v => (v - lo) / (hi - lo)) (fun s => s.map fun x => x.map fun _ => 0) X := fun X => rfl
  rw [e, e]
  refine nrmCore_off (fun (b : R) (s : Series R) => s.map fun x : List R => x.map (fun v => v + b)) (fun a b => ?_) (fun a b => ?_) (fun a b u v => ?_) (fun a b => ?_) h
  · rw [mapM_map_out (f := fun x : List R => x.map (· + b)) (h := (· + b)) a fun x _ => minE_off x b]
    cases a.mapM minE with
    | error e => rfl
    | ok r => exact minE_off r b
  · rw [mapM_map_out (f := fun x : List R => x.map (· + b)) (h := (· + b)) a fun x _ => maxE_off x b]
    cases a.mapM maxE with
    | error e => rfl
    | ok r => exact maxE_off r b
  · rw [List.map_map]
    refine List.map_congr_left fun x _ => ?_
    simp only [Function.comp_apply, List.map_map]
    exact List.map_congr_left fun y _ => by simp
  · rw [List.map_map]
    refine List.map_congr_left fun x _ => ?_
    simp only [Function.comp_apply, List.map_map]
    rfl

/-! ### Keepers -/

theorem CTS.row_off (shift : ℤ) (x : List R) (b : R) : CTS.row false shift (x.map (· + b)) = (CTS.row false shift x).map (List.map (· + b)) := by
  unfold CTS.row
  simp only [Bool.false_eq_true, if_false, slcFrom_map, List.length_map, setSlc_map]
  cases setSlc x 0 (pyClip x.length (-shift)) (slcFrom x shift) with
  | error e => rfl
  | ok y =>
    simp only [Except.map, ok_bind, slcFrom_map, List.length_map, setSlc_map]

theorem CTS.transform_off {p : CTS R} (hp : p.pseudo = false) {X X' : Data R} (h : Offsets X X') : Outcome Offsets (p.transform X) (p.transform X') := by
  unfold CTS.transform mapRowsM
  rw [h.shape2, hp]
  refine outcome_mapM (fun s s' hs => outcome_mapM (fun x x' hx => ?_) hs) h
  obtain ⟨b, rfl⟩ := hx
  exact Outcome.of_map (fun y => ⟨b, rfl⟩) (CTS.row_off _ x b)

theorem CTS.transform_soff {p : CTS R} (hp : p.pseudo = false) {X X' : Data R} (h : SeriesOffsets X X') :
    Outcome SeriesOffsets (p.transform X) (p.transform X') := by
  unfold CTS.transform mapRowsM
  rw [h.offsets.shape2, hp]
  refine outcome_mapM (fun s s' hs => ?_) h
  obtain ⟨b, rfl⟩ := hs
  exact Outcome.of_map (φ := fun s : Series R => s.map fun x : List R => x.map (fun v => v + b)) (fun y => ⟨b, rfl⟩) (mapM_map_out s fun x _ => CTS.row_off _ x b)

theorem LAG.rows_off (x : List R) (b : R) : LAG.rows (x.map (· + b)) = (LAG.rows x).map (List.map (List.map (· + b))) := by
  by_cases hx : x.length = 0
  · unfold LAG.rows
    rw [List.length_map, if_pos hx, if_pos hx]; rfl
  · rw [tab_of_list x 0, map_tab, lag_rows _ (by omega), lag_rows _ (by omega)]
    simp only [Except.map, List.map_cons, List.map_nil, map_tab]

theorem LAG.series_off (s : Series R) (b : R) : ((s.map fun x => x.map (· + b)).mapM LAG.rows >>= fun rs => .ok rs.flatten) =
    ((s.mapM LAG.rows >>= fun rs => .ok rs.flatten) : Except Err (Series R)).map (List.map (List.map (· + b))) := by
  rw [mapM_map_out s fun x _ => LAG.rows_off x b]
  cases s.mapM LAG.rows with
  | error e => rfl
  | ok rs => simp only [Except.map, ok_bind, List.map_flatten]

theorem LAG.transform_soff {X X' : Data R} (h : SeriesOffsets X X') : Outcome SeriesOffsets (LAG.transform X) (LAG.transform X') := by
  unfold LAG.transform
  refine outcome_mapM (fun s s' hs => ?_) h
  obtain ⟨b, rfl⟩ := hs
  exact Outcome.of_map (φ := fun s : Series R => s.map fun x : List R => x.map (fun v => v + b)) (fun y => ⟨b, rfl⟩) (LAG.series_off s b)

theorem LAG.transform_off {X X' : Data R} (h : Offsets X X') : Outcome Offsets (LAG.transform X) (LAG.transform X') := by
  unfold LAG.transform
  refine outcome_mapM (fun s s' hs => ?_) h
  have := outcome_mapM (Q := List.Forall₂ RowOffset) (f := LAG.rows) (g := LAG.rows) (fun x x' hx => by
    obtain ⟨b, rfl⟩ := hx
    refine Outcome.of_map (φ := List.map (List.map (· + b))) (fun rs => ?_) (LAG.rows_off x b)
    rw [List.forall₂_map_right_iff]
    exact List.forall₂_same.2 fun y _ => ⟨b, rfl⟩) hs
  generalize s.mapM LAG.rows = r, s'.mapM LAG.rows = r' at this
  cases this with
  | error e => exact .error e
  | ok hq => exact .ok (forall₂_flatten hq)

theorem selectDims_off (dims : List ℤ) {X X' : Data R} (h : Offsets X X') : Outcome Offsets (selectDims dims X) (selectDims dims X') := by
  unfold selectDims
  refine outcome_mapM (fun s s' hs => ?_) h
  refine outcome_mapM (A := Eq) (fun k k' hk => ?_) (List.forall₂_same.2 fun _ _ => rfl)
  subst hk
  rw [← hs.length_eq]
  cases normIdx s.length k with
  | error e => exact .error e
  | ok j => exact .ok (Offsets.row hs j)

theorem deleteDims_off (dims : List ℤ) {X X' : Data R} (h : Offsets X X') : Outcome Offsets (deleteDims dims X) (deleteDims dims X') := by
  unfold deleteDims
  refine outcome_mapM (fun s s' hs => ?_) h
  rw [← hs.length_eq]
  cases dims.mapM (normIdx s.length) with
  | error e => exact .error e
  | ok js =>
    refine .ok ?_
    have : ∀ (s s' : Series R) (k : ℕ), List.Forall₂ RowOffset s s' →
        List.Forall₂ RowOffset (((s.zipIdx k).filter fun e => decide (e.2 ∉ js)).map (·.1)) (((s'.zipIdx k).filter fun e => decide (e.2 ∉ js)).map (·.1)) := by
      intro s s' k hs
      induction hs generalizing k with
      | nil => exact .nil
      | @cons x x' s s' hx _ ih =>
        simp only [List.zipIdx_cons, List.filter_cons]
        by_cases hk : k ∉ js
        · simp only [hk, not_false_eq_true, decide_true, if_true, List.map_cons]
          exact .cons hx (ih (k + 1))
        · simp only [hk, decide_false, Bool.false_eq_true, if_false]
          exact ih (k + 1)
    exact this s s' 0 hs

theorem zipWith_append_off {A A' B B' : Data R} (h : Offsets A A') (h2 : Offsets B B') : Offsets (List.zipWith (· ++ ·) A B) (List.zipWith (· ++ ·) A' B') := by
  induction h generalizing B B' with
  | nil => exact List.Forall₂.nil
  | cons hs _ ih => cases h2 with
    | nil => exact List.Forall₂.nil
    | cons hs2 h2 => exact .cons (List.rel_append hs hs2) (ih h2)

theorem concatDims_off {A A' B B' : Data R} (h : Offsets A A') (h2 : Offsets B B') : Outcome Offsets (concatDims A B) (concatDims A' B') := by
  unfold concatDims
  rw [h.length, h2.length, h.shape1, h2.shape1, h.shape2, h2.shape2]
  split
  · exact .ok (zipWith_append_off h h2)
  · exact .error _

theorem appendDims_off {X X' Y Y' : Data R} (h : Offsets X X') (h2 : Offsets Y Y') : Outcome Offsets (appendDims X Y) (appendDims X' Y') := by
  unfold appendDims
  rw [h.length, h2.length, h.shape2, h2.shape2]
  by_cases e1 : X.length = Y.length
  · rw [if_pos e1, if_pos e1]
    by_cases e2 : shape2 Y = shape2 X
    · rw [if_pos e2, if_pos e2]; exact .ok (zipWith_append_off h h2)
    · rw [if_neg e2, if_neg e2]
      by_cases e3 : shape2 Y = 1
      · rw [if_pos e3, if_pos e3]
        refine .ok ?_
        clear e1 e2 e3
        generalize shape2 X = n
        induction h generalizing Y Y' with
        | nil => exact List.Forall₂.nil
        | cons hs _ ih => cases h2 with
          | nil => exact List.Forall₂.nil
          | cons hs2 h2 =>
            refine .cons (List.rel_append hs ?_) (ih h2)
            rw [List.forall₂_map_left_iff, List.forall₂_map_right_iff]
            refine hs2.imp fun y y' hy => ?_
            obtain ⟨b, rfl⟩ := hy
            cases y with
            | nil => exact ⟨0, by simp⟩
            | cons v y => exact ⟨b, by simp⟩
      · rw [if_neg e3, if_neg e3]; exact .error _
  · rw [if_neg e1, if_neg e1]; exact .error _

/-! ### All preparateurs -/

/-- The preparateurs whose result does not depend on offsets of the rows: increments (with zeros in front), standardization of the rows, scaling of
the rows to `[0, 1]` and the random network that centers its input. -/
def Prep.RemovesOffset : Prep R → Prop
  | .inc p => p.zeroPadding = true ∧ 0 < p.depth
  | .std p => p.separately = true
  | .nrm scaleDim => scaleDim = false
  | .ffn p => p.center = true
  | _ => False

/-- The preparateurs for which data that differ by offsets give results that differ by offsets (or not at all): lead-lag, the shift in time with the
last value repeated, `NEW` and `DIM` of such preparateurs or of those of `RemovesOffset`. -/
def Prep.KeepsOffset : Prep R → Prop
  | .lag => True
  | .cts p => p.pseudo = false
  | .new none => True
  | .new (some p) => p.KeepsOffset ∨ p.RemovesOffset
  | .dim p _ => p.KeepsOffset ∨ p.RemovesOffset
  | _ => False

/-- **C168 (preparateurs).** The result of these preparateurs does not depend on offsets. -/
theorem C168_removes [NpMath R] (T : FloatText R) (p : Prep R) (hp : p.RemovesOffset) {X X' : Data R} (h : Offsets X X') (C C' : Data R) :
    p.transformC T C' X' = p.transformC T C X := by
  cases p with
  | inc p => exact INC.transform_off hp.1 hp.2 h
  | std p => exact STD.transform_off hp h
  | nrm b =>
    change b = false at hp
    subst hp
    exact NRM.perDim_off h
  | ffn p => exact FFN.transform_off hp h
  | _ => exact hp.elim

/-- **C168 (preparateurs).** These preparateurs keep offsets. -/
theorem C168_keeps [NpMath R] (T : FloatText R) : ∀ (p : Prep R), p.KeepsOffset → ∀ {X X' : Data R}, Offsets X X' → ∀ (C C' : Data R),
    Outcome Offsets (p.transformC T C X) (p.transformC T C' X')
  | .lag, _, X, X', h, C, C' => LAG.transform_off h
  | .cts p, hp, X, X', h, C, C' => CTS.transform_off hp h
  | .new none, _, X, X', h, C, C' => by
    refine .ok ?_
    rw [Offsets, List.forall₂_map_left_iff, List.forall₂_map_right_iff]
    exact h.imp fun s s' hs => List.rel_append hs hs
  | .new (some p), hp, X, X', h, C, C' => by
    simp only [Prep.transformC]
    have h1 : Outcome Offsets (p.transformC T X X) (p.transformC T X' X') := by
      rcases hp with hp | hp
      · exact C168_keeps T p hp h X X'
      · exact Outcome.of_eq Offsets.refl (C168_removes T p hp h X X')
    generalize p.transformC T X X = r, p.transformC T X' X' = r' at h1
    cases h1 with
    | error e => exact .error e
    | ok hq => exact appendDims_off h hq
  | .dim p dims, hp, X, X', h, C, C' => by
    simp only [Prep.transformC]
    have hs := selectDims_off dims h
    generalize selectDims dims X = r, selectDims dims X' = r' at hs
    cases hs with
    | error e => exact .error e
    | @ok sub sub' hsub =>
      simp only [ok_bind]
      have h1 : Outcome Offsets (p.transformC T sub sub) (p.transformC T sub' sub') := by
        rcases hp with hp | hp
        · exact C168_keeps T p hp hsub sub sub'
        · exact Outcome.of_eq Offsets.refl (C168_removes T p hp hsub sub sub')
      generalize p.transformC T sub sub = r, p.transformC T sub' sub' = r' at h1
      cases h1 with
      | error e => exact .error e
      | ok hq =>
        simp only [ok_bind]
        have hd := deleteDims_off dims h
        generalize deleteDims dims X = r, deleteDims dims X' = r' at hd
        cases hd with
        | error e => exact .error e
        | ok hd => exact concatDims_off hd hq

/-- The preparateurs that remove offsets of whole series: also `NRM(scale_dim=True)`. -/
def Prep.RemovesSeriesOffset : Prep R → Prop
  | .nrm _ => True
  | p => p.RemovesOffset

/-- The preparateurs that keep offsets of whole series. -/
def Prep.KeepsSeriesOffset : Prep R → Prop
  | .lag => True
  | .cts p => p.pseudo = false
  | .new none => True
  | _ => False

theorem C168_removes_series [NpMath R] (T : FloatText R) (p : Prep R) (hp : p.RemovesSeriesOffset) {X X' : Data R} (h : SeriesOffsets X X') (C C' : Data R) :
    p.transformC T C' X' = p.transformC T C X := by
  cases p with
  | nrm b => cases b with
    | false => exact NRM.perDim_off h.offsets
    | true => exact NRM.perSeries_off h
  | inc p => exact C168_removes T (.inc p) hp h.offsets C C'
  | std p => exact C168_removes T (.std p) hp h.offsets C C'
  | ffn p => exact C168_removes T (.ffn p) hp h.offsets C C'
  | _ => exact hp.elim

theorem C168_keeps_series [NpMath R] (T : FloatText R) (p : Prep R) (hp : p.KeepsSeriesOffset) {X X' : Data R} (h : SeriesOffsets X X') (C C' : Data R) :
    Outcome SeriesOffsets (p.transformC T C X) (p.transformC T C' X') := by
  cases p with
  | lag => exact LAG.transform_soff h
  | cts p => exact CTS.transform_soff hp h
  | new p => cases p with
    | none =>
      refine .ok ?_
      rw [SeriesOffsets, List.forall₂_map_left_iff, List.forall₂_map_right_iff]
      refine h.imp fun s s' ⟨b, hb⟩ => ⟨b, ?_⟩
      subst hb
      simp
    | some p => exact hp.elim
  | _ => exact hp.elim

/-- **C168 (preparateurs).** What these preparateurs learn does not depend on offsets. -/
theorem C168_fit [NpMath R] (g : Rng R) (fuel : ℕ) : ∀ (p : Prep R), p.KeepsOffset ∨ p.RemovesOffset → ∀ {X X' : Data R}, Offsets X X' →
    p.fit g fuel X' = p.fit g fuel X
  | .inc _, _, X, X', h => rfl
  | .nrm _, _, X, X', h => rfl
  | .lag, _, X, X', h => rfl
  | .cts _, _, X, X', h => rfl
  | .std p, hp, X, X', h => by
    have hs : p.separately = true := hp.elim False.elim id
    simp only [Prep.fit, STD.fit, hs, if_true]
  | .ffn p, _, X, X', h => by simp only [Prep.fit, FFN.fit_off g p h]
  | .new none, _, X, X', h => rfl
  | .new (some p), hp, X, X', h => by
    simp only [Prep.fit]
    rw [C168_fit g fuel p (hp.elim id False.elim) h]
  | .dim p dims, hp, X, X', h => by
    simp only [Prep.fit]
    have hs := selectDims_off dims h
    generalize selectDims dims X = r, selectDims dims X' = r' at hs
    cases hs with
    | error e => rfl
    | ok hsub =>
      simp only [ok_bind]
      rw [C168_fit g fuel p (hp.elim id False.elim) hsub]
  | .mav _, hp, _, _, _ | .rin _, hp, _, _, _ | .rdw _, hp, _, _, _ | .jld _, hp, _, _, _ | .spe _, hp, _, _, _ | .rpe _, hp, _, _, _ => (hp.elim False.elim False.elim : False).elim
  | .qtc _, hp, _, _, _ | .func _, hp, _, _, _ | .dil _, hp, _, _, _ | .win _, hp, _, _, _ | .dot _, hp, _, _, _ | .pdd _, hp, _, _, _ => (hp.elim False.elim False.elim : False).elim

end Fruits
