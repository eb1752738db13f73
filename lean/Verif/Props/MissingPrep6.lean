import Verif.Props.MissingPrep4

/-!
# C171: the window filter on series whose first dimension has no gap
-/

namespace Fruits
set_option linter.unusedSectionVars false
open Mv
variable {R : Type} [Field R] [LinearOrder R] [IsStrictOrderedRing R] [FloorRing R]

/-- The first dimensions of the series of `C` have no missing values. -/
def FirstKnown (C : Data (Mv R)) : Prop := ∀ s ∈ C, nan ∉ s.getD 0 []

/-! ## Proof -/

theorem rowOf_nums {b : Prop} {x : List (Mv R)} {y : List R} (h : RowOf b x y) (hx : nan ∉ x) : x = nums y := by
  unfold RowOf at h
  induction h with
  | nil => rfl
  | @cons u v x y h _ ih =>
    rw [nums, List.map_cons]
    rcases h with rfl | ⟨_, rfl⟩
    · congr 1; exact ih fun hn => hx (List.mem_cons_of_mem _ hn)
    · exact absurd (List.mem_cons_self ..) hx

theorem mapM_congr_rel {α β γ : Type} {Q : α → β → Prop} {f : α → Except Err γ} {g : β → Except Err γ} {x : List α} {y : List β} (h : List.Forall₂ Q x y)
    (hfg : ∀ a ∈ x, ∀ c, Q a c → f a = g c) : x.mapM f = y.mapM g := by
  induction h with
  | nil => rfl
  | cons h _ ih =>
    rw [List.mapM_cons, List.mapM_cons, hfg _ (List.mem_cons_self ..) _ h, ih fun a ha c => hfg a (List.mem_cons_of_mem _ ha) c]

theorem normSum_first {nm : Norm} {C : Data (Mv R)} {D : Data R} (hC : DataOf True C D) (hf : FirstKnown C) :
    Mv.normSum nm C = Mv.normSum nm (knownData D) := by
  unfold Mv.normSum knownData
  rw [List.mapM_map]
  refine mapM_congr_rel hC fun s hs r hr => ?_
  have h0 : RowOf True (s.getD 0 []) (r.getD 0 []) := rel_getD hr (a := []) (b := []) .nil 0
  rw [rowOf_nums h0 (hf s hs), Function.comp_apply, known_getD]

/-- **C171.** `WIN` on data whose first dimensions (the ones the window is computed from) have no missing values: gaps in the other dimensions stay gaps, all
other entries have the values they have for the completed data, and the same exceptions are raised. -/
theorem C171_win [NpMath R] (T : FloatText R) (hT : T.Lawful) (p : WIN R) {C X : Data (Mv R)} {D Y : Data R} (hC : DataOf True C D) (hf : FirstKnown C)
    (hX : DataOf True X Y) : Both (DataOf True) ((MPrep.win p).transformC C X) ((Prep.win p).transformC T D Y) := by
  have hq : ∀ q : R, Mv.coqs C q = Fruits.coqs T D q "L2".toList := by
    intro q
    unfold Mv.coqs
    rw [normSum_first hC hf, normSum_known, show ("L2".toList : PStr) = Norm.str .L2 from rfl, coqs_normSum T hT]
    cases normSum .L2 D with
    | error e => rfl
    | ok s =>
      simp only [Except.map, ok_bind, pure, Except.pure, known, List.map_map]
      congr 1
      refine List.map_congr_left fun x _ => ?_
      exact coquantile1_nums q x
  change Both (DataOf True) (winTransform C p X) (p.transform T D Y)
  unfold winTransform WIN.transform
  rw [hq, hq]
  rcases Fruits.coqs T D p.start "L2".toList with e | u
  · exact .error _
  rcases Fruits.coqs T D p.stop "L2".toList with e | v
  · exact .error _
  rw [ok_bind, ok_bind, ok_bind, ok_bind, hX.length_eq]
  refine Both.mapM (A := fun i j => i = j) (fun i j hij => ?_) (List.forall₂_refl _)
  subst hij
  rcases u[i]? with _ | a
  · exact .error _
  rcases v[i]? with _ | c
  · exact .error _
  exact Both.mapM (fun x y hx => rel_winRow a c hx) (rel_getD hX (a := []) (b := []) .nil i)

/-- Non-vacuity of `C171_win`: a series with a gap in its second dimension, and what the window from 0 to 0.9 leaves. -/
example : let X : Data (Mv ℚ) := [[[.num 1, .num 2, .num 4], [.num 3, .nan, .num 5]]]
    FirstKnown X ∧ DataOf True X [[[1, 2, 4], [3, 7, 5]]] ∧ (winTransform X ⟨0, 9 / 10⟩ X).toOption = some [[[.num 1, .num 2, .num 0], [.num 3, .nan, .num 0]]] := by
  refine ⟨by unfold FirstKnown; decide, ?_, by decide +kernel⟩
  exact .cons (.cons (.cons (.inl rfl) (.cons (.inl rfl) (.cons (.inl rfl) .nil)))
    (.cons (.cons (.inl rfl) (.cons (.inr ⟨trivial, rfl⟩) (.cons (.inl rfl) .nil))) .nil)) .nil

end Fruits
