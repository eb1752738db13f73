import Verif.Checked3
import Verif.Props.Checked3
import Verif.Props.Total2

/-! # No access of the compiled functions of sieves and cache leaves their arrays -/

set_option linter.unusedSectionVars false

namespace Fruits
variable {R : Type} [Field R] [LinearOrder R] [IsStrictOrderedRing R] [FloorRing R]

theorem foldlM_eq {α σ : Type} (f g : σ → α → Except Err σ) (Inv : σ → Prop) : ∀ (l : List α) (s : σ), Inv s →
    (∀ a ∈ l, ∀ s, Inv s → f s a = g s a ∧ ∀ s', g s a = .ok s' → Inv s') → l.foldlM f s = l.foldlM g s
  | [], _, _, _ => rfl
  | a :: l, s, h0, hs => by
    obtain ⟨h1, h2⟩ := hs a (by simp) s h0
    rw [List.foldlM_cons, List.foldlM_cons, h1]
    cases hg : g s a with
    | error e => rfl
    | ok s' => rw [ok_bind, ok_bind, foldlM_eq f g Inv l s' (h2 s' hg) fun b hb => hs b (by simp [hb])]

theorem fillGridE_eq {J K : ℕ} {v u : ℕ → ℕ → Except Err R} (h : ∀ j < J, ∀ k < K, v j k = u j k) : fillGridE J K v = fillGrid J K u := by
  unfold fillGridE fillGrid
  refine foldlM_eq _ _ (fun s : List R => s.length = J * K) _ _ (by simp [zeros]) fun e he s hs => ?_
  simp only [List.mem_flatMap, List.mem_map, List.mem_range] at he
  obtain ⟨j, hj, k, hk, rfl⟩ := he
  dsimp only
  rw [h j hj k hk]
  have hlt : j * K + k < J * K := by
    calc j * K + k < j * K + K := by omega
      _ = (j + 1) * K := by ring
      _ ≤ J * K := Nat.mul_le_mul_right _ hj
  cases u j k with
  | error e => exact ⟨rfl, fun s' h => by cases h⟩
  | ok y =>
    rw [ok_bind, ok_bind, writeAt_ok (by omega)]
    exact ⟨rfl, fun s' h => by cases h; simpa using hs⟩

theorem backendRowE_eq (op : SegOp R) (cuts : List ℤ) (qs : List (QVal R)) (x : List R) : backendRowE op cuts qs x = backendRow op cuts qs x := by
  unfold backendRowE backendRow
  split_ifs with h
  · rfl
  refine fillGridE_eq fun j hj k hk => ?_
  rw [readAt_ok (by omega) 0, ok_bind, readAt_ok (by omega) 0, ok_bind, readAt_ok (by omega) ⊥, ok_bind, readAt_ok (by omega) ⊥, ok_bind]

theorem backendE_eq (op : SegOp R) {cuts : List (List ℤ)} (qs : List (QVal R)) {X : List (List R)} (h : X.length ≤ cuts.length) :
    backendE op cuts qs X = backend op cuts qs X := by
  unfold backendE backend
  refine mapM_congr_mem fun i hi => ?_
  have hi := List.mem_range.1 hi
  rw [readAt_ok (by omega) ([] : List ℤ), ok_bind, readAt_ok hi ([] : List R), ok_bind, backendRowE_eq]

theorem cuts_length {T : FloatText R} {C : Data R} {p : Seg R} {m n : ℕ} {cuts : List (List ℤ)} (h : p.cuts T C m n = .ok cuts) : cuts.length = m := by
  unfold Seg.cuts at h
  cases hc : p.cut.mapM (p.cutColumn T C m n) with
  | error e => rw [hc] at h; cases h
  | ok cols =>
    rw [hc, ok_bind] at h
    injection h with h
    rw [← h]
    simp

theorem bind_congr {α β : Type} {x : Except Err α} {f g : α → Except Err β} (h : ∀ a, x = .ok a → f a = g a) : (x >>= f) = (x >>= g) := by
  cases x with
  | error e => rfl
  | ok a => exact h a rfl

/-- C152.  The compiled functions of all segment sieves and increment sieves stay within their arrays, for all arguments, all quantiles (fitted or not) and
all data: the version that checks each access returns the same array, or raises the same exception, as the version that does not. -/
theorem C152_sieves (T : FloatText R) (C : Data R) (p : Seg R) (X : List (List R)) :
    (∀ k, p.transformE T C k X = p.transform T C k X) ∧ ∀ k inc, p.incTransformE T C k inc X = p.incTransform T C k inc X := by
  constructor
  · intro k
    cases k <;> unfold Seg.transformE Seg.transform
    · exact bind_congr fun qs _ => bind_congr fun cuts hc => backendE_eq _ _ (cuts_length hc).ge
    · exact bind_congr fun qs _ => bind_congr fun cuts hc => backendE_eq _ _ (cuts_length hc).ge
    · rfl
    all_goals
      refine bind_congr fun qs _ => bind_congr fun cuts hc => bind_congr fun X2 h2 => backendE_eq _ _ ?_
      rw [cuts_length hc, ((mapM_ok_iff).1 h2).length_eq]
  · intro k inc
    exact bind_congr fun qs _ => bind_congr fun A _ => bind_congr fun cuts hc => backendE_eq _ _ (cuts_length hc).ge

/-- Each series has a dimension and a time step. -/
def Filled (X : Data R) : Prop := ∀ s ∈ X, ∃ r s', s = r :: s' ∧ r ≠ []

theorem normSumE_eq (nm : Norm) {X : Data R} (h : ∀ s ∈ X, s ≠ []) : normSumE nm X = normSum nm X := by
  refine mapM_congr_mem fun s hs => ?_
  rw [readAt_ok (List.length_pos_iff.2 (h s hs)) ([] : List R), ok_bind]

/-- C152.  The compiled functions of the cache stay within their arrays, for all keys and all data with at
least one dimension and one time step (without time steps: `Demo.C152_empty`). -/
theorem C152_cache (T : FloatText R) (ty : CacheType) (key : PStr) {X : Data R} (h : Filled X) : computeKeyE T ty key X = computeKey T ty key X := by
  have hne : ∀ s ∈ X, s ≠ [] := fun s hs => by
    obtain ⟨r, s', e, -⟩ := h s hs
    simp [e]
  unfold computeKeyE computeKey
  cases ty with
  | iss =>
    dsimp only
    cases normOf key with
    | none => rfl
    | some nm =>
      dsimp only
      rw [normSumE_eq nm hne]
  | coquantile =>
    dsimp only
    generalize psplit ':' key = l
    rcases l with _ | ⟨c, _ | ⟨norm, _ | ⟨_, _⟩⟩⟩
    · rfl
    · rfl
    · dsimp only
      cases normOf norm with
      | none => rfl
      | some nm =>
        dsimp only
        rw [normSumE_eq nm hne]
        refine bind_congr fun S hS => ?_
        cases T.ofText c with
        | none => rfl
        | some q =>
          dsimp only
          rw [mapM_ok_map (g := coquantile1 q), ok_bind]
          intro x hx
          obtain ⟨s, hs, hsx⟩ := forall₂_right_mem ((mapM_ok_iff).1 hS) x hx
          obtain ⟨r, s', rfl, hr⟩ := h s hs
          have hl : x.length = r.length := by
            cases hi : increments1 1 ((r :: s').getD 0 []) with
            | error e => rw [hi] at hsx; cases hsx
            | ok y =>
              rw [hi, ok_bind] at hsx
              injection hsx with hsx
              rw [← hsx]
              have := increments1_length hi
              simpa using this
          have hpos : 0 < x.length := by rw [hl]; exact List.length_pos_iff.2 hr
          unfold coquantile1E coquantile1
          rw [if_neg (by omega), readAt_ok (by omega) 0, ok_bind]
          rfl
    · rfl

namespace Demo.Memory3

/-- Two rows. -/
def X : List (List ℚ) := [[1, 3, 2], [4, 4, 5]]

/-- `CUR(cut=[2, -1], q=[-1, 0, 1])`: an array, from both versions. -/
def seg : Seg ℚ := { cut := [.int 2, .int (-1)], q := [-1, 0, 1] }

/-- Any conversion. -/
def T : FloatText ℚ := ⟨fun _ => "0.5".toList, fun _ => some (1 / 2)⟩

example : seg.transformE T [] .cur X = .ok [[0, 4, 9, 0], [0, 0, 0, 1]] ∧ seg.transform T [] .cur X = .ok [[0, 4, 9, 0], [0, 0, 0, 1]] := by decide +kernel

/-- The hypothesis of `C152_cache` holds for data that give coquantiles. -/
example : Filled ([[[1, 3, 2]], [[4, 4, 5]]] : Data ℚ) ∧ (computeKey T .coquantile "0.5:L1".toList ([[[1, 3, 2]], [[4, 4, 5]]] : Data ℚ)).isOk = true :=
  ⟨fun s hs => by
    simp only [List.mem_cons, List.not_mem_nil, or_false] at hs
    rcases hs with rfl | rfl
    · exact ⟨_, _, rfl, by decide⟩
    · exact ⟨_, _, rfl, by decide⟩, by decide +kernel⟩

/-- Outside the claim, for series without time steps: a value is returned although the kernel reads outside its array. -/
theorem _root_.Fruits.Demo.C152_empty : computeKeyE T .coquantile "0.5:L1".toList ([[[]]] : Data ℚ) = .error .indexError ∧
    (computeKey T .coquantile "0.5:L1".toList ([[[]]] : Data ℚ)).isOk = true := ⟨rfl, by decide +kernel⟩

end Demo.Memory3

end Fruits
