import Verif.Props.MissingPrep1

/-! # C171: missing values and preparateurs, part 2: soundness -/

namespace Fruits
set_option linter.unusedSectionVars false
open Mv

variable {R : Type} [Field R] [LinearOrder R] [IsStrictOrderedRing R] [FloorRing R]

/-! ## Specification -/

/-- A preparateur with its settings and its fitted state, the state without missing values: in the model of `Verif.Prep` and in that of
`Verif.MissingPrep`. -/
inductive KnownPrep : Prep R → MPrep R → Prop
  | inc (p : INC R) : KnownPrep (.inc p) (.inc p)
  | std (p : STD R) : KnownPrep (.std p) (.std ⟨p.separately, p.var, p.eps, p.fitted.map fun c => (.num c.1, .num c.2)⟩)
  | nrm (sd : Bool) : KnownPrep (.nrm sd) (.nrm sd)
  | mav (p : MAV R) : KnownPrep (.mav p) (.mav p)
  | lag : KnownPrep .lag .lag
  | cts (p : CTS R) : KnownPrep (.cts p) (.cts p)
  | qtc (p : QTC R) : KnownPrep (.qtc p) (.qtc ⟨p.q, p.lower, p.bound, p.quantile.map .num⟩)
  | dil (p : DIL R) : KnownPrep (.dil p) (.dil p)
  | win (p : WIN R) : KnownPrep (.win p) (.win p)
  | dot (p : DOT R) : KnownPrep (.dot p) (.dot p)
  | pdd (p : PDD R) : KnownPrep (.pdd p) (.pdd p)
  | dim {p : Prep R} {q : MPrep R} (h : KnownPrep p q) (dims : List ℤ) : KnownPrep (.dim p dims) (.dim q dims)
  | dup : KnownPrep (.new none) .dup
  | new {p : Prep R} {q : MPrep R} (h : KnownPrep p q) : KnownPrep (.new (some p)) (.new q)

/-- The preparateur does not use the window filter `WIN`. -/
def Mv.MPrep.NoWin : MPrep R → Prop
  | .win _ => False
  | .dim p _ => p.NoWin
  | .new p => p.NoWin
  | _ => True

/-! ## Proof -/

theorem nrmCore_eq {α : Type} {lo hi : α → Except Err R} (hlo : ∀ x e, lo x = .error e → e = .valueError) (hhi : ∀ x e, hi x = .error e → e = .valueError)
    (nf : R → R → α → α) (zf : α → α) (l : List α) :
    nrmCore lo hi nf zf l = l.mapM (fun x => (do
      let a ← lo x
      let c ← hi x
      pure (if a ≠ c then nf a c x else zf x) : Except Err α)) := by
  have hE : ∀ (f : α → Except Err R), (∀ x e, f x = .error e → e = .valueError) → ∀ (l : List α) e, l.mapM f = .error e → e = .valueError := by
    intro f hf l
    induction l with
    | nil => intro e h; cases h
    | cons x l ih =>
      intro e h
      rw [List.mapM_cons] at h
      rcases hx : f x with e' | a
      · rw [hx] at h; cases h; exact hf x _ hx
      · rw [hx, ok_bind] at h
        rcases hl : l.mapM f with e' | as
        · rw [hl] at h; cases h; exact ih _ hl
        · rw [hl] at h; cases h
  induction l with
  | nil => rfl
  | cons x l ih =>
    rw [List.mapM_cons, ← ih]
    unfold nrmCore
    rw [List.mapM_cons, List.mapM_cons]
    rcases hx : lo x with e | a
    · rfl
    rw [ok_bind, ok_bind]
    rcases hy : hi x with e | c
    · have := hhi x e hy
      subst this
      rcases h1 : l.mapM lo with e' | as
      · rw [hE lo hlo l e' h1]; rfl
      · rfl
    rw [ok_bind]
    rcases h1 : l.mapM lo with e' | as
    · rfl
    rcases h2 : l.mapM hi with e' | cs
    · rfl
    simp only [ok_bind, pure_bind, List.zipWith_cons_cons, compress_cons, List.map_cons]
    by_cases hac : a = c
    · simp [hac, scatter]
    · simp [hac, scatter]

theorem regroup_mapM {α β : Type} (f : α → Except Err β) (X : List (List α)) :
    (X.flatten.mapM f).map (NRM.perDim.regroup (X.map List.length)) = X.mapM fun s => s.mapM f := by
  induction X with
  | nil => rfl
  | cons s X ih =>
    rw [List.mapM_cons, ← ih, List.flatten_cons, List.mapM_append]
    rcases h1 : s.mapM f with e | u
    · rfl
    rw [ok_bind, ok_bind]
    rcases h2 : X.flatten.mapM f with e | v
    · rfl
    rw [ok_bind]
    have hl : u.length = s.length := (mapM_ok_iff.1 h1).length_eq.symm
    simp only [Except.map, ok_bind, pure, Except.pure, List.map_cons, NRM.perDim.regroup]
    rw [List.take_left' hl, List.drop_left' hl]

theorem minE_error {x : List R} {e : Err} (h : Fruits.minE x = .error e) : e = .valueError := by
  unfold Fruits.minE at h
  split at h <;> cases h
  rfl

theorem maxE_error {x : List R} {e : Err} (h : Fruits.maxE x = .error e) : e = .valueError := by
  unfold Fruits.maxE at h
  split at h <;> cases h
  rfl

theorem blockE_error {f : List R → Except Err R} (hf : ∀ x e, f x = .error e → e = .valueError) (s : Series R) {e : Err}
    (h : (s.mapM f >>= f) = .error e) : e = .valueError := by
  rcases hs : s.mapM f with e' | r
  · rw [hs] at h
    cases h
    induction s with
    | nil => cases hs
    | cons x s ih =>
      rw [List.mapM_cons] at hs
      rcases hx : f x with e' | a
      · rw [hx] at hs; cases hs; exact hf x _ hx
      · rw [hx, ok_bind] at hs
        rcases hl : s.mapM f with e' | as
        · rw [hl] at hs; cases hs; exact ih hl
        · rw [hl] at hs; cases hs
  · rw [hs, ok_bind] at h
    exact hf _ _ h

theorem perDim_rows (X : Data R) : NRM.perDim X = mapRowsM (fun x => do
    let lo ← Fruits.minE x
    let hi ← Fruits.maxE x
    pure (if lo ≠ hi then x.map (fun v => (v - lo) / (hi - lo)) else x.map fun _ => 0)) X := by
  rw [NRM.perDim_core, nrmCore_eq (fun x e => minE_error) (fun x e => maxE_error), regroup_mapM]
  rfl

theorem perSeries_rows (X : Data R) : NRM.perSeries X = X.mapM (fun s => (do
    let lo ← s.mapM Fruits.minE >>= Fruits.minE
    let hi ← s.mapM Fruits.maxE >>= Fruits.maxE
    pure (if lo ≠ hi then s.map (fun x => x.map (fun v => (v - lo) / (hi - lo))) else s.map fun x => x.map fun _ => 0) : Except Err (Series R))) := by
  have := nrmCore_eq (lo := fun s : Series R => s.mapM Fruits.minE >>= Fruits.minE) (hi := fun s : Series R => s.mapM Fruits.maxE >>= Fruits.maxE)
    (fun s e => blockE_error (fun _ _ => minE_error) s) (fun s e => blockE_error (fun _ _ => maxE_error) s)
    (fun lo hi s => s.map (fun x => x.map (fun v => (v - lo) / (hi - lo)))) (fun s => s.map fun x => x.map fun _ => 0) X
  rw [← this]
  rfl

section transform
variable {b : Prop}

theorem rel_mapRows {f : List (Mv R) → List (Mv R)} {g : List R → List R} (hf : ∀ {x y}, RowOf b x y → RowOf b (f x) (g y)) {X : Data (Mv R)} {Y : Data R}
    (h : DataOf b X Y) : DataOf b (mapRows f X) (mapRows g Y) :=
  rel_map (Q := SeriesOf b) (Q' := SeriesOf b) (fun _ _ hs => rel_map (Q := RowOf b) (Q' := RowOf b) (fun _ _ hx => hf hx) hs) h

theorem rel_mapEntries {f : Mv R → Mv R} {g : R → R} (hf : ∀ {x y}, Entry b x y → Entry b (f x) (g y)) {X : Data (Mv R)} {Y : Data R}
    (h : DataOf b X Y) : DataOf b (mapEntries f X) (mapEntries g Y) :=
  rel_mapRows (fun hx => rel_map (Q := Entry b) (Q' := Entry b) (fun _ _ hx => hf hx) hx) h

theorem rel_mapRowsM {f : List (Mv R) → Except Err (List (Mv R))} {g : List R → Except Err (List R)} (hf : ∀ {x y}, RowOf b x y → Both (RowOf b) (f x) (g y))
    {X : Data (Mv R)} {Y : Data R} (h : DataOf b X Y) : Both (DataOf b) (mapRowsM f X) (mapRowsM g Y) :=
  Both.mapM (A := SeriesOf b) (Q := SeriesOf b) (fun _ _ hs => Both.mapM (A := RowOf b) (Q := RowOf b) (fun _ _ hx => hf hx) hs) h

theorem rel_nrm (sd : Bool) {X : Data (Mv R)} {Y : Data R} (h : DataOf b X Y) : Both (DataOf b) (nrmTransform sd X) (NRM.transform sd Y) := by
  unfold nrmTransform NRM.transform
  have key : ∀ {lo hi : Mv R} {lo' hi' : R}, Entry b lo lo' → Entry b hi hi' → ∀ {x : List (Mv R)} {y : List R}, RowOf b x y →
      RowOf b (x.map (nrmEntry lo hi)) (if lo' ≠ hi' then y.map (fun v => (v - lo') / (hi' - lo')) else y.map fun _ => 0) := by
    intro lo hi lo' hi' h1 h2 x y hxy
    by_cases hc : lo' ≠ hi'
    · rw [if_pos hc]
      refine rel_map (fun u v huv => ?_) hxy
      have := rel_nrmEntry h1 h2 huv
      rwa [if_pos hc] at this
    · rw [if_neg hc]
      refine rel_map (fun u v huv => ?_) hxy
      have := rel_nrmEntry h1 h2 huv
      rwa [if_neg hc] at this
  cases sd with
  | false =>
    simp only [Bool.false_eq_true, if_false]
    rw [perDim_rows]
    refine Both.mapM (fun s r hs => Both.mapM (fun x y hx => ?_) hs) h
    exact (rel_minE hx).bind fun lo lo' h1 => (rel_maxE hx).bind fun hi hi' h2 => .ok (key h1 h2 hx)
  | true =>
    simp only [if_true]
    rw [perSeries_rows]
    refine Both.mapM (fun s r hs => ?_) h
    have e1 : Both (Entry b) (s.mapM Mv.minE >>= Mv.minE) (r.mapM Fruits.minE >>= Fruits.minE) :=
      (Both.mapM (fun _ _ => rel_minE) hs).bind fun _ _ => rel_minE
    have e2 : Both (Entry b) (s.mapM Mv.maxE >>= Mv.maxE) (r.mapM Fruits.maxE >>= Fruits.maxE) :=
      (Both.mapM (fun _ _ => rel_maxE) hs).bind fun _ _ => rel_maxE
    have goal : Both (SeriesOf b) ((s.mapM Mv.minE >>= Mv.minE) >>= fun lo => (s.mapM Mv.maxE >>= Mv.maxE) >>= fun hi => pure (s.map fun x => x.map (nrmEntry lo hi)))
        (do
          let lo ← r.mapM Fruits.minE >>= Fruits.minE
          let hi ← r.mapM Fruits.maxE >>= Fruits.maxE
          pure (if lo ≠ hi then r.map (fun x => x.map (fun v => (v - lo) / (hi - lo))) else r.map fun x => x.map fun _ => 0)) := by
      refine e1.bind fun lo lo' h1 => e2.bind fun hi hi' h2 => .ok ?_
      have : (if lo' ≠ hi' then r.map (fun x => x.map (fun v => (v - lo') / (hi' - lo'))) else r.map fun x => x.map fun _ => 0) =
          r.map fun y => if lo' ≠ hi' then y.map (fun v => (v - lo') / (hi' - lo')) else y.map fun _ => 0 := by
        by_cases hc : lo' ≠ hi'
        · simp only [if_pos hc]
        · simp only [if_neg hc]
      rw [this]
      exact rel_map (Q := RowOf b) (Q' := RowOf b) (fun _ _ hx => key h1 h2 hx) hs
    simpa only [bind_assoc] using goal

theorem zipWith_zip_maps {α β γ δ : Type} (F : α → β × γ → δ) (f : α → β) (g : α → γ) (l : List α) :
    List.zipWith F l (List.zip (l.map f) (l.map g)) = l.map fun x => F x (f x, g x) := by
  induction l with
  | nil => rfl
  | cons x l ih => simp only [List.map_cons, List.zip_cons_cons, List.zipWith_cons_cons, ih]

theorem std_rows [NpMath R] (p : STD R) (hp : p.separately = true) (Y : Data R) :
    p.transform Y = .ok (mapRows (fun x => x.map fun v => (v - Fruits.mean x) / ((if p.var then Fruits.npStd x else 1) + p.eps)) Y) := by
  unfold STD.transform
  rw [if_pos hp]
  dsimp only
  have : (if p.var then Y.map (fun s => s.map Fruits.npStd) else Y.map fun s => s.map fun _ => (1 : R)) =
      Y.map fun s => s.map fun x => if p.var then Fruits.npStd x else 1 := by
    cases p.var <;> rfl
  rw [this, zipWith_zip_maps]
  congr 1
  unfold mapRows
  refine List.map_congr_left fun s _ => ?_
  rw [zipWith_zip_maps]

theorem rel_std [NpMath R] (p : STD R) {X : Data (Mv R)} {Y : Data R} (h : DataOf b X Y) :
    Both (DataOf b) (MSTD.transform ⟨p.separately, p.var, p.eps, p.fitted.map fun c => (.num c.1, .num c.2)⟩ X) (p.transform Y) := by
  cases hp : p.separately with
  | true =>
    rw [std_rows p hp]
    unfold MSTD.transform
    rw [if_pos rfl]
    refine .ok (rel_map (fun s r hs => rel_map (fun x y hx => rel_map (fun u v huv => ?_) hx) hs) h)
    refine entry_lift₂ (entry_lift₂ huv (rel_mean hx)) (entry_lift₂ ?_ (entry_num _))
    cases p.var
    · exact entry_num 1
    · exact rel_npStd hx
  | false =>
    unfold MSTD.transform STD.transform
    rw [hp, if_neg (by simp), if_neg (by simp)]
    rcases p.fitted with _ | ⟨mu, sd⟩
    · exact .error _
    · refine .ok (rel_map (fun s r hs => rel_map (fun x y hx => rel_map (fun u v huv => ?_) hx) hs) h)
      exact entry_lift₂ (entry_lift₂ huv (entry_num _)) (entry_num _)

theorem rel_qtc (p : QTC R) {X : Data (Mv R)} {Y : Data R} (h : DataOf b X Y) :
    Both (DataOf b) (MQTC.transform ⟨p.q, p.lower, p.bound, p.quantile.map .num⟩ X) (p.transform Y) := by
  unfold MQTC.transform QTC.transform
  rcases p.quantile with _ | c
  · exact .error _
  dsimp only [Option.map_some]
  have hb : (p.bound.map Mv.num).getD (Mv.num c) = Mv.num (p.bound.getD c) := by cases p.bound <;> rfl
  rw [hb]
  cases p.lower with
  | true =>
    refine .ok (rel_map (fun s r hs => rel_map (fun x y hx => rel_map (fun u v huv => ?_) hx) hs) h)
    rcases huv with rfl | ⟨hb, rfl⟩
    · by_cases hc : v < c
      · rw [if_pos hc, if_pos (by simpa [Mv.lt] using hc)]; exact entry_num _
      · rw [if_neg hc, if_neg (by simpa [Mv.lt] using hc)]; exact entry_num _
    · exact .inr ⟨hb, rfl⟩
  | false =>
    refine .ok (rel_map (fun s r hs => rel_map (fun x y hx => rel_map (fun u v huv => ?_) hx) hs) h)
    rcases huv with rfl | ⟨hb, rfl⟩
    · by_cases hc : v > c
      · rw [if_pos hc, if_pos (by simpa [Mv.lt] using hc)]; exact entry_num _
      · rw [if_neg hc, if_neg (by simpa [Mv.lt] using hc)]; exact entry_num _
    · exact .inr ⟨hb, rfl⟩

theorem dataOf_known (hb : ¬ b) {X : Data (Mv R)} {Y : Data R} (h : DataOf b X Y) : X = knownData Y := by
  have key : ∀ {α β : Type} {Q : α → β → Prop} {f : β → α}, (∀ a c, Q a c → a = f c) → ∀ {x : List α} {y : List β}, List.Forall₂ Q x y → x = y.map f := by
    intro α β Q f hf x y hxy
    induction hxy with
    | nil => rfl
    | cons h _ ih => rw [List.map_cons, ← hf _ _ h, ← ih]
  exact key (fun s r hs => key (fun x y hx => key (fun u v huv => huv.resolve_right fun hc => hb hc.1) hx) hs) h

theorem known_dataOf (Y : Data R) : DataOf b (knownData Y) Y := by
  have key : ∀ {α β : Type} {Q : α → β → Prop} {f : β → α}, (∀ c, Q (f c) c) → ∀ y : List β, List.Forall₂ Q (y.map f) y := by
    intro α β Q f hf y
    induction y with
    | nil => exact .nil
    | cons c y ih => exact .cons (hf c) ih
  exact key (key (key entry_num)) Y

theorem rel_win (T : FloatText R) (hT : T.Lawful) (hb : ¬ b) (p : WIN R) {C X : Data (Mv R)} {D Y : Data R} (hC : DataOf b C D) (hX : DataOf b X Y) :
    Both (DataOf b) (winTransform C p X) (p.transform T D Y) := by
  have hq : ∀ q : R, Mv.coqs C q = Fruits.coqs T D q "L2".toList := by
    intro q
    rw [dataOf_known hb hC]
    unfold Mv.coqs
    rw [normSum_known, show ("L2".toList : PStr) = Norm.str .L2 from rfl, coqs_normSum T hT]
    cases normSum .L2 D with
    | error e => rfl
    | ok s =>
      simp only [Except.map, ok_bind, pure, Except.pure, known, List.map_map]
      congr 1
      refine List.map_congr_left fun x _ => ?_
      exact coquantile1_nums q x
  unfold winTransform WIN.transform
  rw [hq, hq]
  rcases Fruits.coqs T D p.start "L2".toList with e | u
  · exact .error _
  rcases Fruits.coqs T D p.stop "L2".toList with e | v
  · exact .error _
  rw [ok_bind, ok_bind, ok_bind, ok_bind, hX.length_eq]
  refine Both.mapM (A := fun i j => i = j) (fun i j hij => ?_) (List.forall₂_refl _)
  subst hij
  rcases u[i]? with _ | a
  · exact .error _
  rcases v[i]? with _ | c
  · exact .error _
  exact Both.mapM (fun x y hx => rel_winRow a c hx) (rel_getD hX (a := []) (b := []) .nil i)

theorem rel_select {α β : Type} {Q : List α → List β → Prop} (h0 : Q [] []) (dims : List ℤ) {X : Data α} {Y : Data β} (h : List.Forall₂ (List.Forall₂ Q) X Y) :
    Both (List.Forall₂ (List.Forall₂ Q)) (selectDims dims X) (selectDims dims Y) := by
  unfold selectDims
  refine Both.mapM (fun s r hs => Both.mapM (A := fun i j => i = j) (fun i j hij => ?_) (List.forall₂_refl _)) h
  subst hij
  rw [hs.length_eq]
  dsimp only
  rcases normIdx r.length i with e | j
  · exact .error _
  · exact .ok (rel_getD hs h0 j)

theorem rel_delete {α β : Type} {Q : List α → List β → Prop} (dims : List ℤ) {X : Data α} {Y : Data β} (h : List.Forall₂ (List.Forall₂ Q) X Y) :
    Both (List.Forall₂ (List.Forall₂ Q)) (deleteDims dims X) (deleteDims dims Y) := by
  unfold deleteDims
  refine Both.mapM (fun s r hs => ?_) h
  rw [hs.length_eq]
  rcases dims.mapM (normIdx r.length) with e | js
  · exact .error _
  refine .ok ?_
  have key : ∀ (k : ℕ), List.Forall₂ Q (((s.zipIdx k).filter fun e => decide (e.2 ∉ js)).map (·.1)) (((r.zipIdx k).filter fun e => decide (e.2 ∉ js)).map (·.1)) := by
    induction hs with
    | nil => intro k; exact .nil
    | cons h _ ih =>
      intro k
      rw [List.zipIdx_cons, List.zipIdx_cons, List.filter_cons, List.filter_cons]
      by_cases hk : k ∉ js
      · simp only [hk, not_false_eq_true, decide_true, if_true, List.map_cons]
        exact .cons h (ih _)
      · simp only [hk, decide_false, Bool.false_eq_true, if_false]
        exact ih _
  exact key 0

theorem rel_shape1 {α β : Type} {Q : List α → List β → Prop} {X : Data α} {Y : Data β} (h : List.Forall₂ (List.Forall₂ Q) X Y) : shape1 X = shape1 Y :=
  (rel_getD h (a := []) (b := []) .nil 0).length_eq

theorem rel_concat {A B : Data (Mv R)} {A' B' : Data R} (h : DataOf b A A') (h' : DataOf b B B') : Both (DataOf b) (concatDims A B) (concatDims A' B') := by
  unfold concatDims
  rw [h.length_eq, h'.length_eq, rel_shape1 h, rel_shape1 h', rel_shape2 h, rel_shape2 h']
  by_cases hc : A'.length = B'.length ∧ (shape1 A' = 0 ∨ shape1 B' = 0 ∨ shape2 A' = shape2 B')
  · rw [if_pos hc, if_pos hc]
    exact .ok (rel_zipWith (fun _ _ _ _ h1 h2 => rel_append h1 h2) h h')
  · rw [if_neg hc, if_neg hc]; exact .error _

theorem rel_appendDims {A B : Data (Mv R)} {A' B' : Data R} (h : DataOf b A A') (h' : DataOf b B B') : Both (DataOf b) (appendDims A B) (appendDims A' B') := by
  unfold appendDims
  rw [h.length_eq, h'.length_eq, rel_shape2 h, rel_shape2 h']
  by_cases h1 : A'.length = B'.length
  swap
  · rw [if_neg h1, if_neg h1]; exact .error _
  rw [if_pos h1, if_pos h1]
  by_cases h2 : shape2 B' = shape2 A'
  · rw [if_pos h2, if_pos h2]
    exact .ok (rel_zipWith (fun _ _ _ _ h1 h2 => rel_append h1 h2) h h')
  rw [if_neg h2, if_neg h2]
  by_cases h3 : shape2 B' = 1
  · rw [if_pos h3, if_pos h3]
    exact .ok (rel_zipWith (Q := SeriesOf b) (Q' := SeriesOf b) (Q'' := SeriesOf b) (fun _ _ _ _ g1 g2 => rel_append g1 (rel_map (Q := RowOf b) (Q' := RowOf b)
      (fun x y hxy => rel_replicate (rel_getD hxy entry_zero 0) _) g2)) h h')
  · rw [if_neg h3, if_neg h3]; exact .error _

/-- The two models run in parallel. -/
theorem rel_transform [NpMath R] (T : FloatText R) (hT : T.Lawful) {p : Prep R} {q : MPrep R} (hk : KnownPrep p q) :
    (b → q.NoWin) → ∀ {C X : Data (Mv R)} {D Y : Data R}, DataOf b C D → DataOf b X Y → Both (DataOf b) (q.transformC C X) (p.transformC T D Y) := by
  induction hk with
  | inc p =>
    intro _ C X D Y _ h
    simp only [MPrep.transformC, Prep.transformC, INC.transform, rel_shape2 h]
    exact rel_mapRowsM (fun hx => rel_incLoop p _ hx _ hx) h
  | std p => intro _ C X D Y _ h; exact rel_std p h
  | nrm sd => intro _ C X D Y _ h; exact rel_nrm sd h
  | mav p =>
    intro _ C X D Y _ h
    simp only [MPrep.transformC, Prep.transformC, MAV.transform]
    rcases p.w with _ | w
    · exact .error _
    · exact .ok (rel_mapRows (rel_mavRow w) h)
  | lag =>
    intro _ C X D Y _ h
    simp only [MPrep.transformC, Prep.transformC, LAG.transform]
    refine Both.mapM (fun s r hs => ?_) h
    exact (Both.mapM (A := RowOf b) (Q := SeriesOf b) (fun x y hx => rel_lagRows hx) hs).bind fun _ _ h1 => .ok (forall₂_flatten h1)
  | cts p =>
    intro _ C X D Y _ h
    simp only [MPrep.transformC, Prep.transformC, CTS.transform, rel_shape2 h]
    exact rel_mapRowsM (fun hx => rel_ctsRow _ _ hx) h
  | qtc p => intro _ C X D Y _ h; exact rel_qtc p h
  | dil p =>
    intro _ C X D Y _ h
    simp only [MPrep.transformC, Prep.transformC, DIL.transform]
    rcases p.fitted with _ | ⟨a, l⟩
    · exact .error _
    · exact .ok (rel_mapRows (rel_dilRow a l) h)
  | win p =>
    intro hw C X D Y hC h
    exact rel_win T hT (fun hb => hw hb) p hC h
  | dot p =>
    intro _ C X D Y _ h
    simp only [MPrep.transformC, Prep.transformC, DOT.transform]
    rcases p.fitted with _ | ⟨a, l⟩
    · exact .error _
    · exact rel_mapRowsM (fun hx => rel_dotRow a l hx) h
  | pdd p =>
    intro _ C X D Y _ h
    simp only [MPrep.transformC, Prep.transformC, PDD.transform]
    rcases p.fitted with _ | ⟨a, l⟩
    · exact .error _
    · exact .ok (rel_mapRows (rel_pddRow a l) h)
  | dim _ dims ih =>
    intro hw C X D Y _ h
    simp only [MPrep.transformC, Prep.transformC]
    refine (rel_select (Q := RowOf b) .nil dims h).bind fun u v h1 => ?_
    refine (ih hw h1 h1).bind fun u v h2 => ?_
    exact (rel_delete (Q := RowOf b) dims h).bind fun _ _ h3 => rel_concat h3 h2
  | dup =>
    intro _ C X D Y _ h
    exact .ok (rel_map (Q := SeriesOf b) (Q' := SeriesOf b) (fun s r hs => rel_append hs hs) h)
  | new _ ih =>
    intro hw C X D Y _ h
    simp only [MPrep.transformC, Prep.transformC]
    exact (ih hw h h).bind fun _ _ h2 => rel_appendDims h h2

end transform

end Fruits
