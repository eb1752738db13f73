import Verif.WordLemmas
import Mathlib.Combinatorics.Enumerative.Composition
import Mathlib.Data.List.Perm.Basic

/-! # The enumeration behind `of_weight` -/

namespace Fruits
set_option linter.unusedSectionVars false

/-! ### Partitions -/

theorem mem_partitionsAux (fuel n start : ℕ) (hs : 1 ≤ start) (hn : start ≤ n) (hf : n ≤ fuel) (p : List ℕ) :
    p ∈ partitionsAux fuel n start ↔ p ≠ [] ∧ p.Pairwise (· ≤ ·) ∧ p.sum = n ∧ ∀ x ∈ p, start ≤ x := by
  induction fuel generalizing n start p with
  | zero => omega
  | succ fuel ih =>
    rw [partitionsAux, List.mem_cons, List.mem_flatMap]
    constructor
    · rintro (rfl | ⟨i, hi, hp⟩)
      · simpa using hn
      · rw [List.mem_range'_1] at hi
        obtain ⟨q, hq, rfl⟩ := List.mem_map.1 hp
        obtain ⟨h1, h2, h3, h4⟩ := (ih (n - i) i (by omega) (by omega) (by omega) q).1 hq
        refine ⟨by simp, List.pairwise_cons.2 ⟨h4, h2⟩, by rw [List.sum_cons, h3]; omega, ?_⟩
        intro x hx
        rcases List.mem_cons.1 hx with rfl | hx
        · omega
        · have := h4 x hx; omega
    · rintro ⟨h1, h2, h3, h4⟩
      cases p with
      | nil => exact absurd rfl h1
      | cons i q =>
        rw [List.pairwise_cons] at h2
        rw [List.sum_cons] at h3
        have hi := h4 i (by simp)
        cases q with
        | nil => left; simp at h3; simp [h3]
        | cons y q =>
          right
          have hy := h2.1 y (by simp)
          have : y ≤ (y :: q).sum := by rw [List.sum_cons]; omega
          refine ⟨i, by rw [List.mem_range'_1]; omega, List.mem_map.2 ⟨y :: q, ?_, rfl⟩⟩
          exact (ih (n - i) i (by omega) (by omega) (by omega) _).2 ⟨by simp, h2.2, by omega, h2.1⟩

theorem nodup_partitionsAux (fuel n start : ℕ) (hs : 1 ≤ start) (hn : start ≤ n) (hf : n ≤ fuel) :
    (partitionsAux fuel n start).Nodup := by
  induction fuel generalizing n start with
  | zero => omega
  | succ fuel ih =>
    rw [partitionsAux, List.nodup_cons]
    constructor
    · intro h
      obtain ⟨i, hi, hp⟩ := List.mem_flatMap.1 h
      rw [List.mem_range'_1] at hi
      obtain ⟨q, hq, h2⟩ := List.mem_map.1 hp
      have := ((mem_partitionsAux fuel (n - i) i (by omega) (by omega) (by omega) q).1 hq).1
      simp at h2
      exact this h2.2
    · rw [List.nodup_flatMap]
      constructor
      · intro i hi
        rw [List.mem_range'_1] at hi
        exact (ih (n - i) i (by omega) (by omega) (by omega)).map (fun a b h => by simpa using h)
      · refine (List.nodup_range' (step := 1)).pairwise_of_forall_ne ?_
        intro i hi j hj hij q h1 h2
        obtain ⟨a, _, rfl⟩ := List.mem_map.1 h1
        obtain ⟨b, _, h3⟩ := List.mem_map.1 h2
        simp at h3
        exact hij h3.1.symm

/-- The lists of positive numbers with sum `w`, as enumerated by `of_weight`. -/
def compositions (permSet : List ℕ → List (List ℕ)) (w : ℕ) : List (List ℕ) :=
  (partitionsOf w).flatMap permSet

/-- `set(itertools.permutations(p))` in some order. -/
def PermOrder (permSet : List ℕ → List (List ℕ)) : Prop := ∀ p, (permSet p).Perm p.permutations.dedup

theorem mem_permSet {permSet : List ℕ → List (List ℕ)} (h : PermOrder permSet) (p q : List ℕ) :
    q ∈ permSet p ↔ q.Perm p := by
  rw [(h p).mem_iff]; simp

theorem nodup_permSet {permSet : List ℕ → List (List ℕ)} (h : PermOrder permSet) (p : List ℕ) :
    (permSet p).Nodup := (h p).nodup_iff.2 (List.nodup_dedup _)

theorem mem_compositions {permSet : List ℕ → List (List ℕ)} (h : PermOrder permSet) {w : ℕ} (hw : 1 ≤ w)
    (c : List ℕ) : c ∈ compositions permSet w ↔ c.sum = w ∧ ∀ x ∈ c, 1 ≤ x := by
  unfold compositions
  rw [List.mem_flatMap]
  constructor
  · rintro ⟨p, hp, hc⟩
    rw [mem_permSet h] at hc
    obtain ⟨_, _, h3, h4⟩ := (mem_partitionsAux w w 1 le_rfl hw le_rfl p).1 hp
    exact ⟨by rw [hc.sum_eq, h3], fun x hx => h4 x (hc.mem_iff.1 hx)⟩
  · rintro ⟨h1, h2⟩
    refine ⟨c.mergeSort, ?_, (mem_permSet h _ _).2 (List.mergeSort_perm c _).symm⟩
    refine (mem_partitionsAux w w 1 le_rfl hw le_rfl _).2 ⟨?_, ?_, ?_, ?_⟩
    · intro h0
      have := (List.mergeSort_perm c (fun a b => decide (a ≤ b))).symm
      rw [h0] at this
      have := this.eq_nil
      subst this
      simp at h1; omega
    · have := List.pairwise_mergeSort (le := fun a b : ℕ => decide (a ≤ b)) (by intros; simp_all; omega)
        (by intros; simp; omega) c
      simpa using this
    · rw [(List.mergeSort_perm c _).sum_eq, h1]
    · intro x hx
      exact h2 x ((List.mergeSort_perm c _).mem_iff.1 hx)

theorem nodup_compositions {permSet : List ℕ → List (List ℕ)} (h : PermOrder permSet) {w : ℕ} (hw : 1 ≤ w) :
    (compositions permSet w).Nodup := by
  unfold compositions
  rw [List.nodup_flatMap]
  refine ⟨fun p _ => nodup_permSet h p, ?_⟩
  refine (nodup_partitionsAux w w 1 le_rfl hw le_rfl).pairwise_of_forall_ne ?_
  intro p hp q hq hpq c h1 h2
  rw [mem_permSet h] at h1 h2
  apply hpq
  have hp' := (mem_partitionsAux w w 1 le_rfl hw le_rfl p).1 hp
  have hq' := (mem_partitionsAux w w 1 le_rfl hw le_rfl q).1 hq
  exact List.Perm.eq_of_pairwise (fun a b _ _ h1 h2 => le_antisymm h1 h2) hp'.2.1 hq'.2.1 (h1.symm.trans h2)

/-! ### Combinations with replacement -/

theorem mem_combsRepl (xs : List ℕ) (hx : xs.Pairwise (· < ·)) (w : ℕ) (l : List ℕ) :
    l ∈ combsRepl xs w ↔ l.length = w ∧ l.Pairwise (· ≤ ·) ∧ ∀ a ∈ l, a ∈ xs := by
  induction xs generalizing w l with
  | nil =>
    cases w with
    | zero => simp only [combsRepl, List.mem_singleton]; constructor
              · rintro rfl; simp
              · rintro ⟨h, -⟩; exact List.length_eq_zero_iff.1 h
    | succ w =>
      simp only [combsRepl, List.not_mem_nil, false_iff]
      rintro ⟨h1, -, h3⟩
      cases l with
      | nil => simp at h1
      | cons a l => exact h3 a (by simp)
  | cons x xs ihx =>
    rw [List.pairwise_cons] at hx
    induction w generalizing l with
    | zero => simp only [combsRepl, List.mem_singleton]; constructor
              · rintro rfl; simp
              · rintro ⟨h, -⟩; exact List.length_eq_zero_iff.1 h
    | succ w ih =>
      rw [combsRepl, List.mem_append, List.mem_map, ihx hx.2]
      constructor
      · rintro (⟨q, hq, rfl⟩ | ⟨h1, h2, h3⟩)
        · obtain ⟨h1, h2, h3⟩ := (ih q).1 hq
          refine ⟨by simp [h1], List.pairwise_cons.2 ⟨?_, h2⟩, ?_⟩
          · intro a ha
            rcases List.mem_cons.1 (h3 a ha) with rfl | h
            · exact le_rfl
            · exact le_of_lt (hx.1 a h)
          · intro a ha
            rcases List.mem_cons.1 ha with rfl | ha
            · simp
            · exact h3 a ha
        · exact ⟨h1, h2, fun a ha => List.mem_cons_of_mem _ (h3 a ha)⟩
      · rintro ⟨h1, h2, h3⟩
        cases l with
        | nil => simp at h1
        | cons a l =>
          rw [List.pairwise_cons] at h2
          rcases List.mem_cons.1 (h3 a (by simp)) with rfl | ha
          · left
            refine ⟨l, (ih l).2 ⟨by simpa using h1, h2.2, fun b hb => h3 b (by simp [hb])⟩, rfl⟩
          · right
            refine ⟨h1, List.pairwise_cons.2 h2, ?_⟩
            intro b hb
            rcases List.mem_cons.1 (h3 b hb) with rfl | h
            · rcases List.mem_cons.1 hb with rfl | hb
              · exact ha
              · have := h2.1 b hb
                have := hx.1 a ha
                omega
            · exact h

theorem nodup_combsRepl (xs : List ℕ) (hx : xs.Pairwise (· < ·)) (w : ℕ) : (combsRepl xs w).Nodup := by
  induction xs generalizing w with
  | nil => cases w <;> simp [combsRepl]
  | cons x xs ihx =>
    have hx' := hx
    rw [List.pairwise_cons] at hx
    induction w with
    | zero => simp [combsRepl]
    | succ w ih =>
      rw [combsRepl, List.nodup_append']
      refine ⟨ih.map (fun a b h => by simpa using h), ihx hx.2 _, ?_⟩
      intro l h1 h2
      obtain ⟨q, _, rfl⟩ := List.mem_map.1 h1
      have := ((mem_combsRepl xs hx.2 _ _).1 h2).2.2 x (by simp)
      exact absurd (hx.1 x this) (lt_irrefl x)

/-! ### Products -/

theorem mem_cartesian {α : Type} (ls : List (List α)) (l : List α) :
    l ∈ cartesian ls ↔ List.Forall₂ (fun a s => a ∈ s) l ls := by
  induction ls generalizing l with
  | nil => simp [cartesian]
  | cons s ls ih =>
    rw [cartesian, List.mem_flatMap]
    constructor
    · rintro ⟨x, hx, h⟩
      obtain ⟨q, hq, rfl⟩ := List.mem_map.1 h
      exact List.Forall₂.cons hx ((ih q).1 hq)
    · intro h
      cases h with
      | cons h1 h2 => exact ⟨_, h1, List.mem_map.2 ⟨_, (ih _).2 h2, rfl⟩⟩

theorem nodup_cartesian {α : Type} (ls : List (List α)) (h : ∀ s ∈ ls, s.Nodup) : (cartesian ls).Nodup := by
  induction ls with
  | nil => simp [cartesian]
  | cons s ls ih =>
    rw [cartesian, List.nodup_flatMap]
    constructor
    · intro x _
      exact (ih fun t ht => h t (by simp [ht])).map (fun a b h => by simpa using h)
    · refine (h s (by simp)).pairwise_of_forall_ne ?_
      intro x _ y _ hxy l h1 h2
      obtain ⟨a, _, rfl⟩ := List.mem_map.1 h1
      obtain ⟨b, _, h3⟩ := List.mem_map.1 h2
      simp at h3
      exact hxy h3.1.symm

theorem cartesian_map {α β : Type} (f : α → β) (ls : List (List α)) :
    cartesian (ls.map (List.map f)) = (cartesian ls).map (List.map f) := by
  induction ls with
  | nil => rfl
  | cons s ls ih =>
    simp only [List.map_cons, cartesian, ih, List.map_flatMap, List.flatMap_map, List.map_map]
    rfl

/-! ### The numeric words -/

/-- The words enumerated by `of_weight`, as lists of lists of dimensions. -/
def numWords (permSet : List ℕ → List (List ℕ)) (w dim : ℕ) : List (List (List ℕ)) :=
  (compositions permSet w).flatMap fun c => cartesian (c.map fun k => combsRepl (List.range' 1 dim) k)

theorem range'_sorted (s n : ℕ) : (List.range' s n).Pairwise (· < ·) := List.pairwise_lt_range'

theorem forall₂_map_right' {α β γ : Type} {r : α → γ → Prop} {f : β → γ} {l : List α} {c : List β} :
    List.Forall₂ r l (c.map f) ↔ List.Forall₂ (fun a b => r a (f b)) l c := by
  rw [List.forall₂_map_right_iff]

theorem mem_numWords {permSet : List ℕ → List (List ℕ)} (h : PermOrder permSet) {w : ℕ} (hw : 1 ≤ w) (dim : ℕ)
    (ns : List (List ℕ)) :
    ns ∈ numWords permSet w dim ↔
      (ns.map List.length).sum = w ∧ ∀ el ∈ ns, el ≠ [] ∧ el.Pairwise (· ≤ ·) ∧ ∀ a ∈ el, 1 ≤ a ∧ a ≤ dim := by
  unfold numWords
  rw [List.mem_flatMap]
  have key : ∀ c : List ℕ, ns ∈ cartesian (c.map fun k => combsRepl (List.range' 1 dim) k) ↔
      c = ns.map List.length ∧ ∀ el ∈ ns, el.Pairwise (· ≤ ·) ∧ ∀ a ∈ el, 1 ≤ a ∧ a ≤ dim := by
    intro c
    rw [mem_cartesian, forall₂_map_right']
    constructor
    · intro hf
      induction hf with
      | nil => simp
      | @cons a k l c h1 _ ih =>
        rw [mem_combsRepl _ (range'_sorted 1 dim)] at h1
        refine ⟨by simp [ih.1, h1.1], ?_⟩
        intro el hel
        rcases List.mem_cons.1 hel with rfl | hel
        · refine ⟨h1.2.1, fun x hx => ?_⟩
          have := h1.2.2 x hx
          rw [List.mem_range'_1] at this; omega
        · exact ih.2 el hel
    · rintro ⟨rfl, h2⟩
      induction ns with
      | nil => simp
      | cons a l ih =>
        refine List.Forall₂.cons ?_ (ih fun el hel => h2 el (by simp [hel]))
        rw [mem_combsRepl _ (range'_sorted 1 dim)]
        have := h2 a (by simp)
        refine ⟨rfl, this.1, fun x hx => ?_⟩
        have := this.2 x hx
        rw [List.mem_range'_1]; omega
  constructor
  · rintro ⟨c, hc, hns⟩
    obtain ⟨rfl, h2⟩ := (key c).1 hns
    obtain ⟨h3, h4⟩ := (mem_compositions h hw _).1 hc
    refine ⟨h3, fun el hel => ⟨?_, h2 el hel⟩⟩
    have := h4 el.length (List.mem_map.2 ⟨el, hel, rfl⟩)
    intro h0; simp [h0] at this
  · rintro ⟨h1, h2⟩
    refine ⟨ns.map List.length, (mem_compositions h hw _).2 ⟨h1, ?_⟩, (key _).2 ⟨rfl, fun el hel => (h2 el hel).2⟩⟩
    intro x hx
    obtain ⟨el, hel, rfl⟩ := List.mem_map.1 hx
    exact List.length_pos_iff.2 (h2 el hel).1

theorem nodup_numWords {permSet : List ℕ → List (List ℕ)} (h : PermOrder permSet) {w : ℕ} (hw : 1 ≤ w) (dim : ℕ) :
    (numWords permSet w dim).Nodup := by
  unfold numWords
  rw [List.nodup_flatMap]
  constructor
  · intro c _
    apply nodup_cartesian
    intro s hs
    obtain ⟨k, _, rfl⟩ := List.mem_map.1 hs
    exact nodup_combsRepl _ (range'_sorted 1 dim) k
  · refine (nodup_compositions h hw).pairwise_of_forall_ne ?_
    intro c _ c' _ hcc ns h1 h2
    apply hcc
    clear hcc
    have key : ∀ ns : List (List ℕ), ∀ c : List ℕ, ns ∈ cartesian (c.map fun k => combsRepl (List.range' 1 dim) k) →
        c = ns.map List.length := by
      intro ns c hc
      rw [mem_cartesian, forall₂_map_right'] at hc
      induction hc with
      | nil => simp
      | @cons a k l c h1 _ ih =>
        rw [mem_combsRepl _ (range'_sorted 1 dim)] at h1
        simp [h1.1, ih]
    rw [key ns c h1, key ns c' h2]

/-- The token for a positive number as `of_weight` writes it. -/
def numTok (n : ℕ) : Tok :=
  match (showNat n).map (fun c => ((digitV c).getD 0 : ℕ)) with
  | [] => .plain false 0
  | [d] => .plain false (Fin.ofNat 10 d)
  | d :: ds => .paren false (Fin.ofNat 10 d) (ds.map (Fin.ofNat 10))

theorem numTok_spec (n : ℕ) : (numTok n).str = showLetter n ∧ (numTok n).value = n := by
  obtain ⟨ds, h1, h2, h3, h4, _⟩ := showNat_eq n
  have hds : (showNat n).map (fun c => ((digitV c).getD 0 : ℕ)) = ds := by
    rw [h1, List.map_map]
    conv_rhs => rw [← List.map_id ds]
    apply List.map_congr_left
    intro d hd
    simp [digitV_digitC d (h3 d hd)]
  have hmap : ∀ es : List ℕ, (∀ e ∈ es, e < 10) → es.map (fun e => ((Fin.ofNat 10 e : Fin 10) : ℕ)) = es := by
    intro es hes
    conv_rhs => rw [← List.map_id es]
    apply List.map_congr_left
    intro e he
    simp [Nat.mod_eq_of_lt (hes e he)]
  unfold numTok showLetter
  rw [hds, h1]
  match ds, h2, h3, h4 with
  | [d], _, h3, h4 =>
    have := hmap [d] h3
    simp only [List.map_cons, List.map_nil, List.cons.injEq, and_true] at this
    simp only [List.foldl_cons, List.foldl_nil, Nat.mul_zero, Nat.zero_add] at h4
    have hd : n < 10 := h4 ▸ h3 d (by simp)
    subst h4
    simp [Tok.str, Tok.value, minusStr, signed, Nat.mod_eq_of_lt hd]
  | d :: e :: ds, _, h3, h4 =>
    have hm := hmap (d :: e :: ds) h3
    constructor
    · have : (d :: e :: ds).map digitC
          = ((d :: e :: ds).map (fun e => ((Fin.ofNat 10 e : Fin 10) : ℕ))).map digitC := by rw [hm]
      rw [this]
      simp [Tok.str, minusStr]
    · rw [← h4]
      conv_rhs => rw [← hm]
      simp [Tok.value, signed, decVal, List.foldl_map]

/-- The word in tokens. -/
def numToks (ns : List (List ℕ)) : List (List Tok) := ns.map (·.map numTok)

theorem ofWeightStrings_eq (permSet : List ℕ → List (List ℕ)) {w : ℕ} (hw : 1 ≤ w) (dim : ℕ) :
    ofWeightStrings permSet w dim = .ok ((numWords permSet w dim).map fun ns => wordStr (numToks ns)) := by
  unfold ofWeightStrings numWords compositions
  rw [if_neg (by omega)]
  congr 1
  rw [List.flatMap_assoc, List.map_flatMap]
  congr 1
  funext p
  rw [List.map_flatMap]
  congr 1
  funext c
  have : (c.map fun weight => extLettersByWeight weight dim)
      = (c.map fun k => combsRepl (List.range' 1 dim) k).map
          (List.map fun el => '[' :: (el.flatMap showLetter ++ [']'])) := by
    rw [List.map_map]; rfl
  rw [this, cartesian_map, List.map_map]
  apply List.map_congr_left
  intro ns _
  simp only [Function.comp_apply, wordStr, numToks, render, List.map_map, List.flatMap]
  congr 1
  apply List.map_congr_left
  intro el _
  simp only [Function.comp_apply, List.cons_append]
  congr 3
  rw [List.map_map]
  congr 2
  funext n
  exact (numTok_spec n).1.symm

theorem numToks_value (ns : List (List ℕ)) :
    (numToks ns).map (·.map Tok.value) = ns.map (·.map fun n : ℕ => (n : ℤ)) := by
  unfold numToks
  rw [List.map_map]
  apply List.map_congr_left
  intro el _
  simp only [Function.comp_apply, List.map_map]
  apply List.map_congr_left
  intro n _
  exact (numTok_spec n).2

/-! ### Number of compositions -/

theorem length_compositions {permSet : List ℕ → List (List ℕ)} (h : PermOrder permSet) {w : ℕ} (hw : 1 ≤ w) :
    (compositions permSet w).length = 2 ^ (w - 1) := by
  rw [← composition_card, ← List.toFinset_card_of_nodup (nodup_compositions h hw), ← Finset.card_univ]
  apply Finset.card_bij' (i := fun c hc => (⟨c, fun {i} hi => ?_, ?_⟩ : Composition w))
    (j := fun (c : Composition w) _ => c.blocks)
  · intro a ha; simp
  · intro a ha; rfl
  · intro c _; rfl
  · intro c _
    rw [List.mem_toFinset, mem_compositions h hw]
    exact ⟨c.blocks_sum, fun x hx => c.blocks_pos hx⟩
  · exact ((mem_compositions h hw c).1 (List.mem_toFinset.1 hc)).2 i hi
  · exact ((mem_compositions h hw c).1 (List.mem_toFinset.1 hc)).1

theorem combsRepl_one (k : ℕ) : combsRepl [1] k = [List.replicate k 1] := by
  induction k with
  | zero => simp [combsRepl]
  | succ k ih => simp [combsRepl, ih, List.replicate_succ]

theorem cartesian_length_one {α : Type} (ls : List (List α)) (h : ∀ s ∈ ls, s.length = 1) :
    (cartesian ls).length = 1 := by
  induction ls with
  | nil => rfl
  | cons s ls ih =>
    have h1 := h s (by simp)
    obtain ⟨x, rfl⟩ := List.length_eq_one_iff.1 h1
    simpa [cartesian] using ih fun t ht => h t (by simp [ht])

theorem length_numWords_one {permSet : List ℕ → List (List ℕ)} (h : PermOrder permSet) {w : ℕ} (hw : 1 ≤ w) :
    (numWords permSet w 1).length = 2 ^ (w - 1) := by
  unfold numWords
  rw [List.length_flatMap, ← length_compositions h hw]
  have : ((compositions permSet w).map fun c =>
      (cartesian (c.map fun k => combsRepl (List.range' 1 1) k)).length)
      = (compositions permSet w).map fun _ => 1 := by
    apply List.map_congr_left
    intro c _
    apply cartesian_length_one
    intro s hs
    obtain ⟨k, _, rfl⟩ := List.mem_map.1 hs
    rw [show List.range' 1 1 = [1] from rfl, combsRepl_one]; rfl
  rw [this]
  simp

end Fruits
