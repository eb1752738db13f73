import Verif.MissingPrep
import Verif.Props.MissingSieve1
import Verif.Props.Offset1

/-! # C171: missing values and preparateurs, part 1: rows with and without missing values -/

namespace Fruits
set_option linter.unusedSectionVars false
open Mv

variable {R : Type} [Field R] [LinearOrder R] [IsStrictOrderedRing R] [FloorRing R]

/-! ## Specification -/

/-- The entry `a` is the number `y`, or (if `b` holds) it is missing. -/
def Entry (b : Prop) (a : Mv R) (y : R) : Prop := a = .num y ∨ b ∧ a = .nan

/-- Outcomes of two calls: the same exception, or results related by `Q`. -/
inductive Both {α β : Type} (Q : α → β → Prop) : Except Err α → Except Err β → Prop
  | error (e : Err) : Both Q (.error e) (.error e)
  | ok {a : α} {b : β} (h : Q a b) : Both Q (.ok a) (.ok b)

/-- The row `x` is the row `y`, with missing values if `b` holds. -/
abbrev RowOf (b : Prop) (x : List (Mv R)) (y : List R) : Prop := List.Forall₂ (Entry b) x y
/-- The series `s` is the series `r`, with missing values if `b` holds. -/
abbrev SeriesOf (b : Prop) (s : Series (Mv R)) (r : Series R) : Prop := List.Forall₂ (RowOf b) s r
/-- The dataset `X` is the dataset `Y`, with missing values if `b` holds. -/
abbrev DataOf (b : Prop) (X : Data (Mv R)) (Y : Data R) : Prop := List.Forall₂ (SeriesOf b) X Y

/-! ## Proof -/

theorem Both.bind {α β γ δ : Type} {Q : α → β → Prop} {Q' : γ → δ → Prop} {x : Except Err α} {y : Except Err β} {f : α → Except Err γ} {g : β → Except Err δ}
    (h : Both Q x y) (hf : ∀ a b, Q a b → Both Q' (f a) (g b)) : Both Q' (x >>= f) (y >>= g) := by
  cases h with
  | error e => exact .error e
  | ok h => exact hf _ _ h

theorem Both.mapM {α β γ δ : Type} {A : α → β → Prop} {Q : γ → δ → Prop} {f : α → Except Err γ} {g : β → Except Err δ}
    (h : ∀ a b, A a b → Both Q (f a) (g b)) {l : List α} {l' : List β} (hl : List.Forall₂ A l l') : Both (List.Forall₂ Q) (l.mapM f) (l'.mapM g) := by
  induction hl with
  | nil => exact .ok .nil
  | cons hab _ ih =>
    rw [List.mapM_cons, List.mapM_cons]
    exact (h _ _ hab).bind fun _ _ h1 => ih.bind fun _ _ h2 => .ok (.cons h1 h2)

section rows
variable {α β : Type} {Q : α → β → Prop}

theorem rel_take {x : List α} {y : List β} (h : List.Forall₂ Q x y) (k : ℕ) : List.Forall₂ Q (x.take k) (y.take k) := List.forall₂_take k h

theorem rel_drop {x : List α} {y : List β} (h : List.Forall₂ Q x y) (k : ℕ) : List.Forall₂ Q (x.drop k) (y.drop k) := List.forall₂_drop k h

theorem rel_append {x x' : List α} {y y' : List β} (h : List.Forall₂ Q x y) (h' : List.Forall₂ Q x' y') : List.Forall₂ Q (x ++ x') (y ++ y') :=
  List.rel_append h h'

theorem rel_replicate {a : α} {b : β} (h : Q a b) : ∀ n : ℕ, List.Forall₂ Q (List.replicate n a) (List.replicate n b)
  | 0 => .nil
  | n + 1 => .cons h (rel_replicate h n)

theorem rel_slcFrom {x : List α} {y : List β} (h : List.Forall₂ Q x y) (k : ℤ) : List.Forall₂ Q (slcFrom x k) (slcFrom y k) := by
  unfold slcFrom; rw [h.length_eq]; exact rel_drop h _

theorem rel_slcTo {x : List α} {y : List β} (h : List.Forall₂ Q x y) (k : ℤ) : List.Forall₂ Q (slcTo x k) (slcTo y k) := by
  unfold slcTo; rw [h.length_eq]; exact rel_take h _

theorem rel_slc {x : List α} {y : List β} (h : List.Forall₂ Q x y) (a b : ℤ) : List.Forall₂ Q (slc x a b) (slc y a b) := by
  unfold slc; rw [h.length_eq]; exact rel_drop (rel_take h _) _

theorem rel_setSlc {x v : List α} {y u : List β} (h : List.Forall₂ Q x y) (a b : ℕ) (hv : List.Forall₂ Q v u) :
    Both (List.Forall₂ Q) (setSlc x a b v) (setSlc y a b u) := by
  unfold setSlc
  rw [hv.length_eq]
  by_cases hl : u.length = b - a
  · rw [if_pos hl, if_pos hl]
    exact .ok (rel_append (rel_append (rel_take h _) hv) (rel_drop h _))
  rw [if_neg hl, if_neg hl]
  cases hv with
  | nil => exact .error _
  | cons h1 h2 =>
    cases h2 with
    | nil => exact .ok (rel_append (rel_append (rel_take h _) (rel_replicate h1 _)) (rel_drop h _))
    | cons _ _ => exact .error _

theorem rel_fillSlc {x : List α} {y : List β} (h : List.Forall₂ Q x y) (a b : ℕ) {c : α} {c' : β} (hc : Q c c') :
    List.Forall₂ Q (fillSlc x a b c) (fillSlc y a b c') := by
  unfold fillSlc
  exact rel_append (rel_append (rel_take h _) (rel_replicate hc _)) (rel_drop h _)

theorem rel_map {γ δ : Type} {Q' : γ → δ → Prop} {f : α → γ} {g : β → δ} (hf : ∀ a b, Q a b → Q' (f a) (g b)) {x : List α} {y : List β}
    (h : List.Forall₂ Q x y) : List.Forall₂ Q' (x.map f) (y.map g) := by
  induction h with
  | nil => exact .nil
  | cons h _ ih => exact .cons (hf _ _ h) ih

theorem rel_mapIdx {γ δ : Type} {Q' : γ → δ → Prop} {x : List α} {y : List β} (h : List.Forall₂ Q x y) :
    ∀ {f : ℕ → α → γ} {g : ℕ → β → δ}, (∀ t a b, Q a b → Q' (f t a) (g t b)) → List.Forall₂ Q' (x.mapIdx f) (y.mapIdx g) := by
  induction h with
  | nil => intro f g _; exact .nil
  | cons h _ ih =>
    intro f g hf
    rw [List.mapIdx_cons, List.mapIdx_cons]
    exact .cons (hf _ _ _ h) (ih fun t a b hab => hf _ _ _ hab)

theorem rel_getD {x : List α} {y : List β} (h : List.Forall₂ Q x y) {a : α} {b : β} (hab : Q a b) (i : ℕ) : Q (x.getD i a) (y.getD i b) := by
  induction h generalizing i with
  | nil => exact hab
  | cons h _ ih => cases i with
    | zero => exact h
    | succ i => exact ih i

theorem rel_set {x : List α} {y : List β} (h : List.Forall₂ Q x y) {a : α} {b : β} (hab : Q a b) (i : ℕ) : List.Forall₂ Q (x.set i a) (y.set i b) := by
  induction h generalizing i with
  | nil => exact .nil
  | cons h h' ih => cases i with
    | zero => exact .cons hab h'
    | succ i => exact .cons h (ih i)

theorem rel_zipWith {γ δ ε ζ : Type} {Q' : γ → δ → Prop} {Q'' : ε → ζ → Prop} {f : α → γ → ε} {g : β → δ → ζ}
    (hf : ∀ a b c d, Q a b → Q' c d → Q'' (f a c) (g b d)) {x : List α} {y : List β} (h : List.Forall₂ Q x y) :
    ∀ {u : List γ} {v : List δ}, List.Forall₂ Q' u v → List.Forall₂ Q'' (List.zipWith f x u) (List.zipWith g y v) := by
  induction h with
  | nil => intro u v _; exact .nil
  | cons h _ ih =>
    intro u v hu
    cases hu with
    | nil => exact .nil
    | cons h' hu => exact .cons (hf _ _ _ _ h h') (ih hu)

theorem rel_setStride {x v : List α} {y u : List β} (h : List.Forall₂ Q x y) (a k : ℕ) (hv : List.Forall₂ Q v u) :
    Both (List.Forall₂ Q) (setStride x a k v) (setStride y a k u) := by
  unfold setStride
  rw [hv.length_eq, h.length_eq]
  by_cases hl : u.length = (y.length - a + (k - 1)) / k
  · rw [if_pos hl, if_pos hl]
    refine .ok (rel_mapIdx h fun t p q hpq => ?_)
    by_cases hc : a ≤ t ∧ (t - a) % k = 0
    · rw [if_pos hc, if_pos hc]; exact rel_getD hv hpq _
    · rw [if_neg hc, if_neg hc]; exact hpq
  · rw [if_neg hl, if_neg hl]; exact .error _

theorem rel_shape2 {X : Data α} {Y : Data β} (h : List.Forall₂ (List.Forall₂ (List.Forall₂ Q)) X Y) : shape2 X = shape2 Y := by
  unfold shape2
  have h1 := rel_getD (Q := List.Forall₂ (List.Forall₂ Q)) h (a := []) (b := []) .nil 0
  exact (rel_getD (Q := List.Forall₂ Q) h1 (a := []) (b := []) .nil 0).length_eq

end rows

section entries
variable {b : Prop}

theorem entry_num (y : R) : Entry b (.num y) y := .inl rfl

theorem entry_zero : Entry b (0 : Mv R) 0 := .inl rfl

theorem entry_lift₂ {op : R → R → R} {a a' : Mv R} {y y' : R} (h : Entry b a y) (h' : Entry b a' y') : Entry b (lift₂ op a a') (op y y') := by
  rcases h with rfl | ⟨hb, rfl⟩
  · rcases h' with rfl | ⟨hb, rfl⟩
    · exact .inl rfl
    · exact .inr ⟨hb, rfl⟩
  · exact .inr ⟨hb, by cases a' <;> rfl⟩

theorem entry_lift {f : R → R} {a : Mv R} {y : R} (h : Entry b a y) : Entry b (lift f a) (f y) := by
  rcases h with rfl | ⟨hb, rfl⟩
  · exact .inl rfl
  · exact .inr ⟨hb, rfl⟩

theorem rel_zeros (n : ℕ) : RowOf b (zeros n : List (Mv R)) (zeros n) := rel_replicate entry_zero n

theorem rel_sum {x : List (Mv R)} {y : List R} (h : RowOf b x y) : Entry b x.sum y.sum := by
  induction h with
  | nil => exact entry_zero
  | cons h _ ih =>
    rw [List.sum_cons, List.sum_cons]
    exact entry_lift₂ h ih

theorem rel_increments1 (k : ℤ) {x : List (Mv R)} {y : List R} (h : RowOf b x y) : Both (RowOf b) (increments1 k x) (increments1 k y) := by
  unfold increments1
  dsimp only
  have h1 := rel_slcFrom h k
  have h2 := rel_slcTo h (-k)
  rw [h1.length_eq, h2.length_eq, h.length_eq]
  by_cases hl : (slcFrom y k).length = (slcTo y (-k)).length
  · rw [if_pos hl, if_pos hl]
    exact rel_setSlc (rel_zeros _) _ _ (rel_zipWith (fun _ _ _ _ => entry_lift₂) h1 h2)
  · rw [if_neg hl, if_neg hl]; exact .error _

theorem rel_incLoop (p : INC R) (n : ℕ) {x : List (Mv R)} {y : List R} (h : RowOf b x y) :
    ∀ (k : ℕ) {o : List (Mv R)} {o' : List R}, RowOf b o o' → Both (RowOf b) (p.loop n x k o) (p.loop n y k o')
  | 0, _, _, ho => .ok ho
  | k + 1, o, o', ho => by
    unfold INC.loop
    refine (rel_increments1 _ ho).bind fun u v huv => ?_
    cases hz : p.zeroPadding with
    | true => exact rel_incLoop p n h k huv
    | false =>
      simp only [Bool.false_eq_true, if_false]
      refine Both.bind (Q := RowOf b) ?_ fun u v huv => rel_incLoop p n h k huv
      unfold Shift.restore
      cases p.shift with
      | int k =>
        dsimp only
        rw [huv.length_eq]
        exact rel_setSlc huv _ _ (rel_slcTo h k)
      | float f => exact .error _
      | call f => exact .error _

theorem rel_mavRow (w : ℕ) {x : List (Mv R)} {y : List R} (h : RowOf b x y) : RowOf b (MAV.row w x) (MAV.row w y) := by
  unfold MAV.row
  rw [h.length_eq]
  have key : ∀ (l : List ℕ) {u : List (Mv R)} {v : List R}, RowOf b u v →
      RowOf b (l.foldl (fun res (k : ℕ) => res.set (k - 1) ((slc x ((k : ℤ) - w) k).sum / (w : Mv R))) u)
        (l.foldl (fun res (k : ℕ) => res.set (k - 1) ((slc y ((k : ℤ) - w) k).sum / (w : R))) v) := by
    intro l
    induction l with
    | nil => intro u v h; exact h
    | cons k l ih =>
      intro u v huv
      rw [List.foldl_cons, List.foldl_cons]
      exact ih (rel_set huv (entry_lift₂ (rel_sum (rel_slc h _ _)) (entry_num _)) _)
  exact key _ (rel_zeros _)

theorem rel_lagRows {x : List (Mv R)} {y : List R} (h : RowOf b x y) : Both (SeriesOf b) (LAG.rows x) (LAG.rows y) := by
  unfold LAG.rows
  rw [h.length_eq]
  by_cases hl : y.length = 0
  · rw [if_pos hl, if_pos hl]; exact .error _
  rw [if_neg hl, if_neg hl]
  dsimp only
  refine (rel_setStride (rel_zeros _) 0 2 h).bind fun u v h1 => ?_
  refine (rel_setStride h1 1 2 (rel_slcFrom h 1)).bind fun u v h2 => ?_
  refine (rel_setStride (rel_zeros _) 0 2 h).bind fun u v h3 => ?_
  refine (rel_setStride h3 1 2 (rel_slcTo h (-1))).bind fun u v h4 => ?_
  exact .ok (.cons h2 (.cons h4 .nil))

theorem rel_ctsRow (ps : Bool) (k : ℤ) {x : List (Mv R)} {y : List R} (h : RowOf b x y) : Both (RowOf b) (CTS.row ps k x) (CTS.row ps k y) := by
  unfold CTS.row
  rw [h.length_eq]
  cases ps with
  | true => exact .ok (rel_fillSlc h _ _ entry_zero)
  | false =>
    simp only [Bool.false_eq_true, if_false]
    refine (rel_setSlc h _ _ (rel_slcFrom h k)).bind fun u v h1 => ?_
    rw [h1.length_eq]
    exact rel_setSlc h1 _ _ (rel_slcFrom h1 _)

theorem rel_fillFold {ι : Type} (f g : ι → ℕ → ℕ) (l : List ι) {x : List (Mv R)} {y : List R} (h : RowOf b x y) :
    RowOf b (l.foldl (fun z e => fillSlc z (f e z.length) (g e z.length) 0) x) (l.foldl (fun z e => fillSlc z (f e z.length) (g e z.length) 0) y) := by
  induction l generalizing x y with
  | nil => exact h
  | cons e l ih =>
    rw [List.foldl_cons, List.foldl_cons]
    refine ih ?_
    rw [h.length_eq]
    exact rel_fillSlc h _ _ entry_zero

theorem rel_dilRow (a l : List ℕ) {x : List (Mv R)} {y : List R} (h : RowOf b x y) : RowOf b (DIL.row a l x) (DIL.row a l y) :=
  rel_fillFold (fun (e : ℕ × ℕ) n => pyClip n (e.1 : ℤ)) (fun e n => pyClip n ((e.1 + l.getD e.2 0 : ℕ) : ℤ)) a.zipIdx h

theorem rel_pddRow (a : List ℤ) (w : ℤ) {x : List (Mv R)} {y : List R} (h : RowOf b x y) : RowOf b (PDD.row a w x) (PDD.row a w y) :=
  rel_fillFold (fun (i : ℤ) n => pyClip n i) (fun i n => pyClip n (i + w)) a h

theorem rel_dotRow (n k : ℤ) {x : List (Mv R)} {y : List R} (h : RowOf b x y) : Both (RowOf b) (DOT.row n k x) (DOT.row n k y) := by
  unfold DOT.row
  rw [h.length_eq]
  by_cases hn : n ≤ 0
  · rw [if_pos hn, if_pos hn]; exact .error _
  rw [if_neg hn, if_neg hn]
  refine .ok (rel_mapIdx h fun t p q hpq => ?_)
  by_cases hc : pyClip y.length k ≤ t ∧ (t - pyClip y.length k) % n.toNat = 0
  · rw [if_pos hc, if_pos hc]; exact hpq
  · rw [if_neg hc, if_neg hc]; exact entry_zero

theorem rel_winRow (u v : ℕ) {x : List (Mv R)} {y : List R} (h : RowOf b x y) : Both (RowOf b) (WIN.row u v x) (WIN.row u v y) := by
  unfold WIN.row
  rw [h.length_eq]
  exact rel_setSlc (rel_zeros _) _ _ (rel_slc h _ _)

theorem rel_mean {x : List (Mv R)} {y : List R} (h : RowOf b x y) : Entry b (Mv.mean x) (Fruits.mean y) := by
  unfold Mv.mean Fruits.mean
  rw [h.length_eq]
  exact entry_lift₂ (rel_sum h) (entry_num _)

theorem rel_npStd [NpMath R] {x : List (Mv R)} {y : List R} (h : RowOf b x y) : Entry b (Mv.npStd x) (Fruits.npStd y) := by
  unfold Mv.npStd Fruits.npStd variance
  refine entry_lift (rel_mean (rel_map (fun u v huv => ?_) h))
  have := entry_lift₂ (op := fun a b => a - b) huv (rel_mean h)
  exact entry_lift₂ this this

theorem rel_entries {X : Data (Mv R)} {Y : Data R} (h : DataOf b X Y) : RowOf b X.flatten.flatten (entries Y) :=
  forall₂_flatten (forall₂_flatten h)

theorem rel_foldl {op : R → R → R} {x : List (Mv R)} {y : List R} (h : RowOf b x y) {a : Mv R} {c : R} (ha : Entry b a c) :
    Entry b (x.foldl (lift₂ op) a) (y.foldl op c) := by
  induction h generalizing a c with
  | nil => exact ha
  | cons h _ ih => exact ih (entry_lift₂ ha h)

theorem rel_minE {x : List (Mv R)} {y : List R} (h : RowOf b x y) : Both (Entry b) (Mv.minE x) (Fruits.minE y) := by
  cases h with
  | nil => exact .error _
  | cons h h' => exact .ok (rel_foldl h' h)

theorem rel_maxE {x : List (Mv R)} {y : List R} (h : RowOf b x y) : Both (Entry b) (Mv.maxE x) (Fruits.maxE y) := by
  cases h with
  | nil => exact .error _
  | cons h h' => exact .ok (rel_foldl h' h)

theorem rel_nrmEntry {lo hi v : Mv R} {lo' hi' v' : R} (h1 : Entry b lo lo') (h2 : Entry b hi hi') (h3 : Entry b v v') :
    Entry b (nrmEntry lo hi v) (if lo' ≠ hi' then (v' - lo') / (hi' - lo') else 0) := by
  rcases h1 with rfl | ⟨hb, rfl⟩
  · rcases h2 with rfl | ⟨hb, rfl⟩
    · unfold nrmEntry
      dsimp only
      by_cases hc : lo' ≠ hi'
      · rw [if_pos hc, if_pos hc]
        exact entry_lift₂ (entry_lift₂ h3 (entry_num _)) (entry_num _)
      · rw [if_neg hc, if_neg hc]; exact entry_zero
    · refine .inr ⟨hb, ?_⟩
      show lift₂ _ (lift₂ _ v _) (lift₂ _ nan _) = nan
      cases v <;> rfl
  · refine .inr ⟨hb, ?_⟩
    cases hi <;> cases v <;> rfl

end entries

end Fruits
