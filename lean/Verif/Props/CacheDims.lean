import Verif.Props.CacheProps

/-! # C35: caches of one- and two-dimensional arrays -/

namespace Fruits
set_option linter.unusedSectionVars false

variable {R : Type} [Field R] [LinearOrder R] [IsStrictOrderedRing R] [FloorRing R]

theorem cache_two_shape {x : List (List R)} {n : ℕ} (hx : ∀ r ∈ x, r.length = n) : HasShape (x.map fun r => [r]) x.length 1 n := by
  refine ⟨by simp, fun s hs => ?_⟩
  obtain ⟨r, hr, rfl⟩ := List.mem_map.1 hs
  exact ⟨rfl, fun r' hr' => by rw [List.mem_singleton.1 hr']; exact hx r hr⟩

theorem cache_two_at {x : List (List R)} (i : ℕ) : at3 (x.map fun r => [r]) i 0 = fun t => (x.getD i []).getD t 0 := by
  funext t
  unfold at3
  congr 1
  simp only [List.getD_eq_getElem?_getD, List.getElem?_map]
  cases x[i]? <;> rfl

/-- **C35 (two-dimensional input).** In the cache of a two-dimensional array every row is a series: the coquantile of a row is that of its values. -/
theorem C35_coquantile_two (T : FloatText R) (hT : T.Lawful) (x : List (List R)) {n : ℕ} (hx : ∀ r ∈ x, r.length = n) (hn : 0 < n) (hist : List (Req R))
    (q : R) (nm : Norm) (Y : Option (NdArr R)) :
    (((Cache.new (some (.d2 x))).after T hist).get T .coquantile (T.toText q ++ ':' :: nm.text) Y).1
      = .ok (.idx ((List.range x.length).map fun i => coqSpec nm (fun t => (x.getD i []).getD t 0) n q)) := by
  have h := C35_coquantile T hT (x.map fun r => [r]) (cache_two_shape hx) Nat.one_pos hn hist q nm Y
  simp only [cache_two_at] at h
  exact h

/-- **C35 (two-dimensional input).** The variations of the rows. -/
theorem C35_iss_two (T : FloatText R) (x : List (List R)) {n : ℕ} (hx : ∀ r ∈ x, r.length = n) (hist : List (Req R)) (nm : Norm) (Y : Option (NdArr R)) :
    (((Cache.new (some (.d2 x))).after T hist).get T .iss nm.text Y).1
      = .ok (.sums ((List.range x.length).map fun i => (List.range n).map fun t => variation nm (fun t => (x.getD i []).getD t 0) t)) := by
  have h := C35_iss T (x.map fun r => [r]) (cache_two_shape hx) Nat.one_pos hist nm Y
  simp only [cache_two_at] at h
  exact h

/-- **C35 (one-dimensional input).** A one-dimensional array is one series. -/
theorem C35_iss_one (T : FloatText R) (x : List R) (hist : List (Req R)) (nm : Norm) (Y : Option (NdArr R)) :
    (((Cache.new (some (.d1 x))).after T hist).get T .iss nm.text Y).1
      = .ok (.sums [(List.range x.length).map fun t => variation nm (fun t => x.getD t 0) t]) :=
  C35_iss_two T [x] (by simp) hist nm Y

/-- **C35 (data given with the request).** A cache without data answers from the array of the request, read as above. -/
theorem C35_given (T : FloatText R) (x : List (List R)) {n : ℕ} (hx : ∀ r ∈ x, r.length = n) (nm : Norm) :
    ((Cache.new none).get T .iss nm.text (some (.d2 x))).1
      = .ok (.sums ((List.range x.length).map fun i => (List.range n).map fun t => variation nm (fun t => (x.getD i []).getD t 0) t)) := by
  rw [← C35_iss_two T x hx [] nm none]
  show (Cache.fill T _ _ _ _).1 = (Cache.fill T _ _ _ _).1
  unfold Cache.fill
  rcases computeKey T .iss nm.text (NdArr.toData (.d2 x)) with _ | (_ | _) <;> rfl

/-- Non-vacuity: two series given as a two-dimensional array. -/
example : (match ((Cache.new (some (.d2 [[1, 3, 2], [0, 0, 5]]))).get noText .iss "L1".toList none).1 with
    | .ok (.sums s) => some s
    | _ => none) = some [[0, 2, 3], [0, 0, (5 : ℚ)]] := by decide +kernel

end Fruits
