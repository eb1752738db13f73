import Verif.CorbTools
import Verif.Props.Fruit7

/-! # `split_index` and the labels of prepared data (properties C125, C126) -/

namespace Fruits
set_option linter.unusedSectionVars false
variable {R P I W S V : Type} [Field R] [LinearOrder R] [FloorRing R]

/-! ### Loops with a countdown -/

/-- Counting down along a list ends at the element with that number. -/
def scan {β : Type} (l : List β) (i : ℤ) : β ⊕ ℤ :=
  if 0 ≤ i then (match l[i.toNat]? with | some b => .inl b | none => .inr (i - l.length)) else .inr (i - l.length)

theorem scan_append {β : Type} (l l' : List β) (i : ℤ) :
    scan (l ++ l') i = match scan l i with | .inl b => .inl b | .inr i => scan l' i := by
  unfold scan
  by_cases h0 : 0 ≤ i
  · by_cases h1 : i.toNat < l.length
    · simp [h0, List.getElem?_append_left h1, List.getElem?_eq_getElem h1]
    · have h2 : l.length ≤ i.toNat := by omega
      have h3 : (i - (l.length : ℤ)).toNat = i.toNat - l.length := by omega
      have h4 : (0:ℤ) ≤ i - l.length := by omega
      simp only [h0, if_true, List.getElem?_append_right h2, List.getElem?_eq_none h2, h4, h3]
      rcases l'[i.toNat - l.length]? with _ | b
      · simp; omega
      · rfl
  · have h4 : ¬ (0:ℤ) ≤ i - l.length := by omega
    simp only [h0, if_false, h4, List.length_append]
    simp; omega

theorem forReturn_scan {α β : Type} {body : α → ℤ → Except Err (β ⊕ ℤ)} {g : α → List β} : ∀ (as : List α),
    (∀ a ∈ as, ∀ i, body a i = .ok (scan (g a) i)) → ∀ i, forReturn body as i = .ok (scan (as.flatMap g) i)
  | [], _, i => by simp [forReturn, scan]
  | a :: as, h, i => by
    rw [forReturn, h a (by simp), ok_bind, List.flatMap_cons, scan_append]
    rcases scan (g a) i with b | i'
    · rfl
    · exact forReturn_scan as (fun a ha => h a (by simp [ha])) i'

theorem countDown_scan (p : List ℕ) (i : ℤ) : countDown p i = .ok (scan [p] i) := by
  unfold countDown scan
  by_cases h : i = 0
  · subst h; simp
  · rw [if_neg h]
    by_cases h0 : 0 ≤ i
    · have : 1 ≤ i.toNat := by omega
      simp [h0, List.getElem?_eq_none (l := [p]) (by simpa using this)]
    · simp [h0]

/-! ### C126 -/

/-- All lists `k :: p` for `k < n` and `p` in `g k`, ordered. -/
def consAll (n : ℕ) (g : ℕ → List (List ℕ)) : List (List ℕ) := (List.range n).flatMap fun k => (g k).map (k :: ·)

theorem consAll_sorted {n : ℕ} {g : ℕ → List (List ℕ)} (h : ∀ k < n, (g k).Pairwise (· < ·)) : (consAll n g).Pairwise (· < ·) := by
  unfold consAll
  rw [List.pairwise_flatMap]
  refine ⟨fun k hk => ?_, ?_⟩
  · rw [List.pairwise_map]
    exact (h k (List.mem_range.1 hk)).imp fun hab => by rw [List.cons_lt_cons_iff]; exact Or.inr ⟨rfl, hab⟩
  · refine List.pairwise_lt_range.imp ?_
    intro a b hab x hx y hy
    obtain ⟨x', _, rfl⟩ := List.mem_map.1 hx
    obtain ⟨y', _, rfl⟩ := List.mem_map.1 hy
    rw [List.cons_lt_cons_iff]; exact Or.inl hab

theorem mem_consAll {n : ℕ} {g : ℕ → List (List ℕ)} {p : List ℕ} : p ∈ consAll n g ↔ ∃ k p', p = k :: p' ∧ k < n ∧ p' ∈ g k := by
  simp only [consAll, List.mem_flatMap, List.mem_range, List.mem_map]
  constructor
  · rintro ⟨k, hk, p', hp', rfl⟩; exact ⟨k, p', rfl, hk, hp'⟩
  · rintro ⟨k, p', rfl, hk, hp'⟩; exact ⟨k, hk, p', hp', rfl⟩


theorem zipIdx_consAll (l : List ℕ) (g : ℕ → List (List ℕ)) :
    (l.zipIdx.flatMap fun p => (g p.1).map (p.2 :: ·)) = consAll l.length fun i => g (l.getD i 0) := by
  have : l.zipIdx = (List.range l.length).map fun i => (l.getD i 0, i) := by
    apply List.ext_getElem
    · simp
    · intro i h1 h2
      have h3 : i < l.length := by simpa using h1
      simp [h3]
  rw [this, List.flatMap_map]; rfl

theorem wordRange_eq {K : Sem R P I W S V} {w : World R P I W S} {s n : ℕ} (hiss : (w.slice s).iss ≠ []) (h : sliceCount K w s = .ok n) :
    wordRange K w s = .ok (List.range n) := by
  unfold sliceCount at h
  unfold wordRange
  rcases hm : ((w.slice s).iss.mapM fun a => K.issCount (w.issAt a).1 (w.issAt a).2) with e | ns
  · rw [hm] at h; simp at h
  rw [hm, ok_bind] at h
  have hn : ns.prod = n := Except.ok.inj h
  rw [ok_bind, if_neg, hn]
  intro h0
  have := mapM_length hm
  rw [h0] at this
  exact hiss (List.length_eq_zero_iff.1 this.symm)

/-- The places of a fruit at the level `features`: slice, iterated sum, sieve, feature. -/
def featurePaths (K : Sem R P I W S V) (w : World R P I W S) (f : ℕ) (cnt : ℕ → ℕ) : List (List ℕ) :=
  consAll (w.fruit f).slices.length fun i => consAll (cnt ((w.fruit f).slices.getD i 0)) fun _ =>
    consAll (w.slice ((w.fruit f).slices.getD i 0)).sieves.length fun j =>
      consAll (K.sieveN (w.sieve ((w.slice ((w.fruit f).slices.getD i 0)).sieves.getD j 0))).toNat fun _ => [[]]

theorem consAll_map (n : ℕ) (g : ℕ → List (List ℕ)) (k : ℕ) : (consAll n g).map (k :: ·) = (List.range n).flatMap fun j => (g j).map fun p => k :: j :: p := by
  simp [consAll, List.map_flatMap, Function.comp_def]

theorem splitIndex_of_scan {K : Sem R P I W S V} {w : World R P I W S} {f : ℕ} {level : Level} {ps : List (List ℕ)}
    (h : ∀ i : ℤ, splitIndex K w f i level = match scan ps i with | .inl p => .ok p | .inr _ => .error .valueError) :
    (∀ (c : ℕ) (hc : c < ps.length), splitIndex K w f (c : ℤ) level = .ok ps[c]) ∧
    ∀ c : ℤ, c < 0 ∨ (ps.length : ℤ) ≤ c → splitIndex K w f c level = .error .valueError := by
  refine ⟨fun c hc => ?_, fun c hc => ?_⟩
  · rw [h, scan]
    simp [hc]
  · rw [h, scan]
    rcases hc with hc | hc
    · rw [if_neg (by omega)]
    · rw [if_pos (by omega), List.getElem?_eq_none (by omega)]

theorem splitIndex_features {K : Sem R P I W S V} {w : World R P I W S} {f : ℕ} {cnt : ℕ → ℕ}
    (hiss : ∀ s ∈ (w.fruit f).slices, (w.slice s).iss ≠ []) (hcnt : ∀ s ∈ (w.fruit f).slices, sliceCount K w s = .ok (cnt s)) (i : ℤ) :
    splitIndex K w f i .features = match scan (featurePaths K w f cnt) i with | .inl p => .ok p | .inr _ => .error .valueError := by
  have inner : ∀ (si wi sj a : ℕ) (i : ℤ), forReturn (fun feature index => countDown [si, wi, sj, feature] index) (List.range (K.sieveN (w.sieve a)).toNat) i =
      .ok (scan ((consAll (K.sieveN (w.sieve a)).toNat fun _ => [[]]).map fun p => si :: wi :: sj :: p) i) := by
    intro si wi sj a i
    rw [forReturn_scan (g := fun q => [[si, wi, sj, q]]) _ (fun a _ i => countDown_scan _ i)]
    congr 2
    simp [consAll, List.map_flatMap]
  have sieves : ∀ (si wi s : ℕ) (i : ℤ), forReturn (fun sieve index =>
      forReturn (fun feature index => countDown [si, wi, sieve.2, feature] index) (List.range (K.sieveN (w.sieve sieve.1)).toNat) index)
      (w.slice s).sieves.zipIdx i =
      .ok (scan ((consAll (w.slice s).sieves.length fun j => consAll (K.sieveN (w.sieve ((w.slice s).sieves.getD j 0))).toNat fun _ => [[]]).map
        fun p => si :: wi :: p) i) := by
    intro si wi s i
    rw [forReturn_scan _ (fun sv _ i => inner si wi sv.2 sv.1 i), ← zipIdx_consAll _ fun a => consAll (K.sieveN (w.sieve a)).toNat fun _ => [[]]]
    simp [List.map_flatMap, Function.comp_def]
  have words : ∀ (si s n : ℕ) (i : ℤ), forReturn (fun word index => forReturn (fun sieve index =>
      forReturn (fun feature index => countDown [si, word, sieve.2, feature] index) (List.range (K.sieveN (w.sieve sieve.1)).toNat) index)
      (w.slice s).sieves.zipIdx index) (List.range n) i =
      .ok (scan ((consAll n fun _ => consAll (w.slice s).sieves.length fun j =>
        consAll (K.sieveN (w.sieve ((w.slice s).sieves.getD j 0))).toNat fun _ => [[]]).map fun p => si :: p) i) := by
    intro si s n i
    rw [forReturn_scan _ (fun wi _ i => sieves si wi s i), consAll_map]
  unfold splitIndex
  simp only
  rw [forReturn_scan (g := fun slc : ℕ × ℕ => (consAll (cnt slc.1) fun _ => consAll (w.slice slc.1).sieves.length fun j =>
      consAll (K.sieveN (w.sieve ((w.slice slc.1).sieves.getD j 0))).toNat fun _ => [[]]).map fun p => slc.2 :: p)]
  · rw [ok_bind, zipIdx_consAll _ fun s => consAll (cnt s) fun _ => consAll (w.slice s).sieves.length fun j =>
      consAll (K.sieveN (w.sieve ((w.slice s).sieves.getD j 0))).toNat fun _ => [[]]]
    rfl
  · intro slc hslc i
    have hs : slc.1 ∈ (w.fruit f).slices := by
      have := List.mem_map_of_mem (f := Prod.fst) hslc
      simpa using this
    rw [wordRange_eq (hiss _ hs) (hcnt _ hs), ok_bind, words]

/-- The places of a fruit at the level `iterated sums`: slice and iterated sum. -/
def itemPaths (w : World R P I W S) (f : ℕ) (cnt : ℕ → ℕ) : List (List ℕ) :=
  consAll (w.fruit f).slices.length fun i => consAll (cnt ((w.fruit f).slices.getD i 0)) fun _ => [[]]

theorem splitIndex_iterated {K : Sem R P I W S V} {w : World R P I W S} {f : ℕ} {cnt : ℕ → ℕ}
    (hiss : ∀ s ∈ (w.fruit f).slices, (w.slice s).iss ≠ []) (hcnt : ∀ s ∈ (w.fruit f).slices, sliceCount K w s = .ok (cnt s)) (i : ℤ) :
    splitIndex K w f i .iterated = match scan (itemPaths w f cnt) i with | .inl p => .ok p | .inr _ => .error .valueError := by
  have words : ∀ (si n : ℕ) (i : ℤ), forReturn (fun word index => countDown [si, word] index) (List.range n) i =
      .ok (scan ((consAll n fun _ => [[]]).map fun p => si :: p) i) := by
    intro si n i
    rw [forReturn_scan (g := fun wi => [[si, wi]]) _ (fun wi _ i => countDown_scan _ i), consAll_map]
    simp
  unfold splitIndex
  simp only
  rw [forReturn_scan (g := fun slc : ℕ × ℕ => (consAll (cnt slc.1) fun _ => [[]]).map fun p => slc.2 :: p)]
  · rw [ok_bind, zipIdx_consAll _ fun s => consAll (cnt s) fun _ => [[]]]
    rfl
  · intro slc hslc i
    have hs : slc.1 ∈ (w.fruit f).slices := by
      have := List.mem_map_of_mem (f := Prod.fst) hslc
      simpa using this
    rw [wordRange_eq (hiss _ hs) (hcnt _ hs), ok_bind, words]

theorem splitIndex_prepared {K : Sem R P I W S V} {w : World R P I W S} {f : ℕ} (i : ℤ) :
    splitIndex K w f i .prepared =
      match scan ((List.range (w.fruit f).slices.length).map fun k => [k]) i with | .inl p => .ok p | .inr _ => .error .valueError := by
  unfold splitIndex
  simp only
  rw [forReturn_scan (g := fun k => [[k]]) _ (fun k _ i => countDown_scan _ i), ok_bind]
  have : ((List.range (w.fruit f).slices.length).flatMap fun k => [[k]]) = (List.range (w.fruit f).slices.length).map fun k => [k] := by
    simp [List.flatMap_def]
    induction List.range (w.fruit f).slices.length with
    | nil => rfl
    | cons a l ih => simp [ih]
  rw [this]
  rfl

/-- **C126** at the level `features`.  For a fruit whose slices have an ISS, let `ps` be the list of all places `(slice, iterated sum, sieve, feature)` of
the fruit in lexicographic order.  `split_index(fruit, c)` is the `c`-th of them, and `ValueError` for a negative index or behind
the last one. -/
theorem C126_features {K : Sem R P I W S V} {w : World R P I W S} {f : ℕ} {cnt : ℕ → ℕ}
    (hiss : ∀ s ∈ (w.fruit f).slices, (w.slice s).iss ≠ []) (hcnt : ∀ s ∈ (w.fruit f).slices, sliceCount K w s = .ok (cnt s)) :
    ∃ ps : List (List ℕ), ps.Pairwise (· < ·) ∧
      (∀ p, p ∈ ps ↔ ∃ i j k q, p = [i, j, k, q] ∧ ∃ s v, (w.fruit f).slices[i]? = some s ∧ j < cnt s ∧ (w.slice s).sieves[k]? = some v ∧
        (q : ℤ) < K.sieveN (w.sieve v)) ∧
      (∀ (c : ℕ) (hc : c < ps.length), splitIndex K w f (c : ℤ) .features = .ok ps[c]) ∧
      ∀ c : ℤ, c < 0 ∨ (ps.length : ℤ) ≤ c → splitIndex K w f c .features = .error .valueError := by
  refine ⟨featurePaths K w f cnt, ?_, ?_, splitIndex_of_scan (splitIndex_features hiss hcnt)⟩
  · exact consAll_sorted fun _ _ => consAll_sorted fun _ _ => consAll_sorted fun _ _ => consAll_sorted fun _ _ => by simp
  · intro p
    simp only [featurePaths, mem_consAll, List.mem_singleton]
    constructor
    · rintro ⟨i, _, rfl, hi, j, _, rfl, hj, k, _, rfl, hk, q, _, rfl, hq, rfl⟩
      refine ⟨i, j, k, q, rfl, (w.fruit f).slices[i], (w.slice ((w.fruit f).slices[i])).sieves.getD k 0, by simp [hi], ?_, ?_, ?_⟩
      · simpa [hi] using hj
      · have hk : k < (w.slice ((w.fruit f).slices[i])).sieves.length := by simpa [hi] using hk
        simp [hk]
      · have hq : q < (K.sieveN (w.sieve ((w.slice ((w.fruit f).slices[i])).sieves.getD k 0))).toNat := by simpa [hi] using hq
        omega
    · rintro ⟨i, j, k, q, rfl, s, v, hs, hj, hv, hq⟩
      have h1 : (w.fruit f).slices.getD i 0 = s := by simp [hs]
      have h2 : (w.slice s).sieves.getD k 0 = v := by simp [hv]
      refine ⟨i, _, rfl, (List.getElem?_eq_some_iff.1 hs).1, j, _, rfl, by rw [h1]; exact hj, k, _, rfl, ?_, q, _, rfl, ?_, rfl⟩
      · rw [h1]; exact (List.getElem?_eq_some_iff.1 hv).1
      · rw [h1, h2]; omega

/-- **C126** at the level `iterated sums`. -/
theorem C126_iterated_sums {K : Sem R P I W S V} {w : World R P I W S} {f : ℕ} {cnt : ℕ → ℕ}
    (hiss : ∀ s ∈ (w.fruit f).slices, (w.slice s).iss ≠ []) (hcnt : ∀ s ∈ (w.fruit f).slices, sliceCount K w s = .ok (cnt s)) :
    ∃ ps : List (List ℕ), ps.Pairwise (· < ·) ∧
      (∀ p, p ∈ ps ↔ ∃ i j, p = [i, j] ∧ ∃ s, (w.fruit f).slices[i]? = some s ∧ j < cnt s) ∧
      (∀ (c : ℕ) (hc : c < ps.length), splitIndex K w f (c : ℤ) .iterated = .ok ps[c]) ∧
      ∀ c : ℤ, c < 0 ∨ (ps.length : ℤ) ≤ c → splitIndex K w f c .iterated = .error .valueError := by
  refine ⟨itemPaths w f cnt, ?_, ?_, splitIndex_of_scan (splitIndex_iterated hiss hcnt)⟩
  · exact consAll_sorted fun _ _ => consAll_sorted fun _ _ => by simp
  · intro p
    simp only [itemPaths, mem_consAll, List.mem_singleton]
    constructor
    · rintro ⟨i, _, rfl, hi, j, _, rfl, hj, rfl⟩
      exact ⟨i, j, rfl, (w.fruit f).slices[i], by simp [hi], by simpa [hi] using hj⟩
    · rintro ⟨i, j, rfl, s, hs, hj⟩
      have h1 : (w.fruit f).slices.getD i 0 = s := by simp [hs]
      exact ⟨i, _, rfl, (List.getElem?_eq_some_iff.1 hs).1, j, _, rfl, by rw [h1]; exact hj, rfl⟩

/-- **C126** at the level `prepared`: the index is the number of the slice. -/
theorem C126_prepared {K : Sem R P I W S V} {w : World R P I W S} {f : ℕ} :
    (∀ c : ℕ, c < (w.fruit f).slices.length → splitIndex K w f (c : ℤ) .prepared = .ok [c]) ∧
    ∀ c : ℤ, c < 0 ∨ ((w.fruit f).slices.length : ℤ) ≤ c → splitIndex K w f c .prepared = .error .valueError := by
  have h := splitIndex_of_scan (splitIndex_prepared (K := K) (w := w) (f := f))
  refine ⟨fun c hc => ?_, fun c hc => h.2 c (by simpa using hc)⟩
  have := h.1 c (by simpa using hc)
  simpa using this

/-- The places at the level `features` and the columns of `transform` (C73) correspond: the slice, the iterated sum (by its number
among those of the slice), the sieve and the feature are the same. -/
theorem featurePaths_columns {K : Sem R P I W S V} {w : World R P I W S} {f : ℕ} {cnt : ℕ → ℕ}
    (hcnt : ∀ s ∈ (w.fruit f).slices, sliceCount K w s = .ok (cnt s)) {cols : List Col} (hcols : columns K w f = .ok cols) :
    List.Forall₂ (fun p c => ∃ i j, p = [i, j, c.sieve, c.feature] ∧ (w.fruit f).slices[i]? = some c.slice ∧
      ∃ ns, sliceCounts K w c.slice = .ok ns ∧ (tuples ns)[j]? = some c.tuple) (featurePaths K w f cnt) cols := by
  unfold columns at hcols
  rcases hm : (w.fruit f).slices.mapM (sliceColumns K w) with e | css
  · rw [hm] at hcols; simp at hcols
  rw [hm, ok_bind] at hcols
  have hcols : css.flatten = cols := Except.ok.inj hcols
  rw [← hcols, featurePaths, ← zipIdx_consAll _ fun s => consAll (cnt s) fun _ => consAll (w.slice s).sieves.length fun j =>
      consAll (K.sieveN (w.sieve ((w.slice s).sieves.getD j 0))).toNat fun _ => [[]]]
  have key : ∀ (ss : List ℕ) (o : ℕ) (css : List (List Col)), (∀ s ∈ ss, sliceCount K w s = .ok (cnt s)) →
      (∀ k s, ss[k]? = some s → (w.fruit f).slices[o + k]? = some s) → ss.mapM (sliceColumns K w) = .ok css →
      List.Forall₂ (fun p c => ∃ i j, p = [i, j, c.sieve, c.feature] ∧ (w.fruit f).slices[i]? = some c.slice ∧
        ∃ ns, sliceCounts K w c.slice = .ok ns ∧ (tuples ns)[j]? = some c.tuple)
        ((ss.zipIdx o).flatMap fun p => (consAll (cnt p.1) fun _ => consAll (w.slice p.1).sieves.length fun j =>
          consAll (K.sieveN (w.sieve ((w.slice p.1).sieves.getD j 0))).toNat fun _ => [[]]).map (p.2 :: ·)) css.flatten := by
    intro ss
    induction ss with
    | nil =>
      intro o css _ _ h
      simp only [List.mapM_nil] at h
      cases h
      simp
    | cons s ss ih =>
      intro o css hc ho h
      obtain ⟨cs, css', h1, h2, rfl⟩ := mapM_cons_ok h
      rw [List.zipIdx_cons, List.flatMap_cons, List.flatten_cons]
      refine List.rel_append ?_ (ih (o + 1) css' (fun t ht => hc t (by simp [ht])) (fun k t hk => ?_) h2)
      · unfold sliceColumns at h1
        rcases hns : sliceCounts K w s with e | ns
        · rw [hns] at h1; simp at h1
        rw [hns, ok_bind] at h1
        have h1 := Except.ok.inj h1
        have hprod : ns.prod = cnt s := by
          have := hc s (by simp)
          unfold sliceCounts at hns
          rw [mapM_map] at hns
          unfold sliceCount at this
          rw [hns] at this
          exact Except.ok.inj this
        have hslice : (w.fruit f).slices[o]? = some s := by simpa using ho 0 s (by simp)
        rw [← h1, consAll_map, ← hprod, ← tuples_length]
        have htup : tuples ns = (List.range (tuples ns).length).map fun j => (tuples ns).getD j [] := by
          apply List.ext_getElem
          · simp
          · intro j h1 h2; simp [h1]
        conv => arg 3; rw [htup, List.flatMap_map]
        rw [List.flatMap_def, List.flatMap_def]
        refine List.rel_flatten ?_
        rw [List.forall₂_map_left_iff, List.forall₂_map_right_iff, List.forall₂_same]
        intro j hj
        have hj : j < (tuples ns).length := List.mem_range.1 hj
        rw [consAll, List.map_flatMap, List.flatMap_def, List.flatMap_def]
        refine List.rel_flatten ?_
        rw [List.forall₂_map_left_iff, List.forall₂_map_right_iff, List.forall₂_same]
        intro k hk
        rw [List.map_map, consAll, List.map_flatMap]
        have : ((List.range (K.sieveN (w.sieve ((w.slice s).sieves.getD k 0))).toNat).flatMap fun q =>
            (([[]] : List (List ℕ)).map (q :: ·)).map ((fun p => o :: j :: p) ∘ fun x => k :: x)) =
            (List.range (K.sieveN (w.sieve ((w.slice s).sieves.getD k 0))).toNat).map fun q => [o, j, k, q] := by
          simp [List.flatMap_def]
          induction List.range (K.sieveN (w.sieve ((w.slice s).sieves[k]?.getD 0))).toNat with
          | nil => rfl
          | cons a l ih => simp [ih]
        rw [this, List.forall₂_map_left_iff, List.forall₂_map_right_iff, List.forall₂_same]
        intro q _
        exact ⟨o, j, rfl, hslice, ns, hns, by simp [hj]⟩
      · have := ho (k + 1) t (by simpa using hk)
        rw [show o + 1 + k = o + (k + 1) by omega]; exact this
  exact key _ 0 css hcnt (fun k s h => by simpa using h) hm

end Fruits
