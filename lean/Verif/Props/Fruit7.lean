import Verif.Props.Fruit6
import Mathlib.Tactic.FieldSimp
import Mathlib.Algebra.Order.Floor.Semifield

/-! # Labels of features (property C75) -/

namespace Fruits
set_option linter.unusedSectionVars false

variable {R P I W S V : Type} [Field R] [LinearOrder R] [FloorRing R]

/-! ### Specification -/

/-- The label of a preparateur, as it appears in the label of a feature: up to the first parenthesis with `verbose=1`. -/
def shortPrep (K : Sem R P I W S V) (verbose1 : Bool) (p : P) : PStr :=
  if verbose1 then beforeSep "(".toList (K.prepLabel p) else K.prepLabel p

/-- The label of an iterated sum, as it appears in the label of a feature: up to the first ` : ` with `verbose=1`. -/
def shortWord (K : Sem R P I W S V) (verbose1 : Bool) (i : I × W) (k : ℕ) : Except Err PStr := do
  let l ← K.issLabel i.1 i.2 k
  pure (if verbose1 then beforeSep " : ".toList l else l)

/-- The labels of the preparateurs of a slice, joined by ` -> ` and followed by ` | `; nothing if there are none. -/
def prepPart (K : Sem R P I W S V) (w : World R P I W S) (verbose1 : Bool) (s : ℕ) : PStr :=
  if (w.slice s).preps = [] then []
  else List.intercalate " -> ".toList ((w.slice s).preps.map fun a => shortPrep K verbose1 (w.prep a)) ++ " | ".toList

/-- The labels of the iterated sums with the numbers in `tuple`, joined by ` -> `. -/
def wordPart (K : Sem R P I W S V) (w : World R P I W S) (verbose1 : Bool) (s : ℕ) (tuple : List ℕ) : Except Err PStr := do
  let ls ← (List.zip ((w.slice s).iss.map w.issAt) tuple).mapM fun p => shortWord K verbose1 p.1 p.2
  pure (List.intercalate " -> ".toList ls)

/-- The label of a column: preparateurs, iterated sums and the sieve with its feature. -/
def colLabel (K : Sem R P I W S V) (w : World R P I W S) (verbose1 : Bool) (c : Col) : Except Err PStr := do
  let l ← wordPart K w verbose1 c.slice c.tuple
  match (w.slice c.slice).sieves[c.sieve]? with
  | none => .error .indexError
  | some a => do
    let t ← K.sieveLabel (w.sieve a) c.feature
    pure (prepPart K w verbose1 c.slice ++ l ++ " | ".toList ++ t)

/-! ### Strings -/

theorem arrows_intercalate : ∀ (ls : List PStr), ls ≠ [] →
    arrows ls = List.intercalate " -> ".toList ls ++ " -> ".toList
  | [], h => absurd rfl h
  | [a], _ => by simp [arrows, List.intercalate]
  | a :: b :: ls, _ => by
    have ih := arrows_intercalate (b :: ls) (by simp)
    have : arrows (a :: b :: ls) = a ++ " -> ".toList ++ arrows (b :: ls) := by simp [arrows]
    rw [this, ih]
    simp [List.intercalate]

theorem dropArrow_append (x : PStr) : dropArrow (x ++ " -> ".toList) = x := by
  have : (" -> ".toList).length = 4 := rfl
  rw [dropArrow, List.length_append, this, Nat.add_sub_cancel, List.take_left]

theorem append_arrow_ne (x : PStr) : x ++ " -> ".toList ≠ [] := by
  have : " -> ".toList ≠ [] := by decide
  intro h
  exact this (List.append_eq_nil_iff.1 h).2

theorem barred_arrows (ls : List PStr) (h : ls ≠ []) (pre : PStr) :
    barred (pre ++ arrows ls) = pre ++ List.intercalate " -> ".toList ls ++ " | ".toList := by
  rw [arrows_intercalate ls h, ← List.append_assoc, barred, if_neg (append_arrow_ne _), dropArrow_append]

theorem barred_preps (K : Sem R P I W S V) (w : World R P I W S) (v : Bool) (s : ℕ) :
    barred (arrows ((w.slice s).preps.map fun a => prepText K v (w.prep a))) = prepPart K w v s := by
  unfold prepPart
  by_cases h : (w.slice s).preps = []
  · rw [if_pos h, h]; rfl
  · rw [if_neg h]
    have := barred_arrows ((w.slice s).preps.map fun a => prepText K v (w.prep a)) (by simpa using h) []
    rw [List.nil_append, List.nil_append] at this
    exact this

/-! ### Numbers -/

theorem floor_qmod (j n r : ℕ) (hr : 0 < r) : ⌊qmod (j : ℚ) (n : ℚ) / (r : ℚ)⌋.toNat = j % n / r := by
  have h1 : qmod (j : ℚ) (n : ℚ) = ((j % n : ℕ) : ℚ) := by
    unfold qmod
    have h2 : ⌊(j : ℚ) / (n : ℚ)⌋ = ((j / n : ℕ) : ℤ) := by
      rw [Rat.floor_natCast_div_natCast]; push_cast; rfl
    rw [h2]
    have h3 : (j : ℚ) = ((n * (j / n) + j % n : ℕ) : ℚ) := by rw [Nat.div_add_mod]
    have h4 : (((j / n : ℕ) : ℤ) : ℚ) = ((j / n : ℕ) : ℚ) := by norm_cast
    rw [h4]
    conv_lhs => rw [h3]
    push_cast; ring
  rw [h1]
  rw [Rat.floor_natCast_div_natCast]
  norm_cast

theorem flatMap_getElem_const {α β : Type} {f : α → List β} {M : ℕ} : ∀ (l : List α), (∀ a ∈ l, (f a).length = M) → ∀ i,
    (l.flatMap f)[i]? = (l[i / M]?).bind fun a => (f a)[i % M]?
  | [], _, i => by simp
  | a :: l, h, i => by
    rw [List.flatMap_cons]
    have ha := h a (by simp)
    by_cases hi : i < M
    · rw [List.getElem?_append_left (by omega), Nat.div_eq_of_lt hi, Nat.mod_eq_of_lt hi]
      simp
    · rw [List.getElem?_append_right (by omega), ha]
      rw [flatMap_getElem_const l (fun b hb => h b (by simp [hb])) (i - M)]
      rcases Nat.eq_zero_or_pos M with h0 | h0
      · subst h0
        have e : ∀ b ∈ a :: l, f b = [] := fun b hb => List.length_eq_zero_iff.1 (h b hb)
        simp only [Nat.div_zero, Nat.mod_zero, List.getElem?_cons_zero, Option.bind_some]
        rw [e a (by simp)]
        rcases hl : l[0]? with _ | b
        · rfl
        · simp [e b (by simp [List.mem_of_getElem? hl])]
      · have h1 : i / M = (i - M) / M + 1 := by
          rw [Nat.div_eq_sub_div h0 (by omega)]
        have h2 : i % M = (i - M) % M := Nat.mod_eq_sub_mod (by omega)
        rw [h1, h2]; rfl

theorem tuples_getElem (c : ℕ) (ns : List ℕ) (j : ℕ) :
    (tuples (c :: ns))[j]? = if j / ns.prod < c then (tuples ns)[j % ns.prod]?.map fun t => (j / ns.prod) :: t else none := by
  rw [tuples, flatMap_getElem_const (M := ns.prod) _ (by simp [tuples_length])]
  by_cases h : j / ns.prod < c
  · rw [if_pos h, List.getElem?_range h]; simp
  · rw [if_neg h, List.getElem?_eq_none (by simpa using h)]; rfl

theorem tuples_len_of : ∀ {ns t : List ℕ}, t ∈ tuples ns → t.length = ns.length
  | [], t, h => by simp [tuples] at h; rw [h]
  | c :: ns, t, h => by
    simp only [tuples, List.mem_flatMap, List.mem_map] at h
    obtain ⟨k, _, t', ht', rfl⟩ := h
    simp [tuples_len_of ht']

/-! ### The labels of the iterated sums -/

theorem mapM_cons_ok {α β : Type} {g : α → Except Err β} {a : α} {l : List α} {r : List β} (h : (a :: l).mapM g = .ok r) :
    ∃ b bs, g a = .ok b ∧ l.mapM g = .ok bs ∧ r = b :: bs := by
  rw [mapM_ok_iff] at h
  rcases h with _ | ⟨h1, h2⟩
  exact ⟨_, _, h1, by rw [mapM_ok_iff]; exact h2, rfl⟩

theorem issTexts_spec (K : Sem R P I W S V) (v : Bool) (j : ℕ) : ∀ (is : List (I × W)) (ns : List ℕ),
    (is.mapM fun i => K.issCount i.1 i.2) = .ok ns → 0 < ns.prod → ∀ t, (tuples ns)[j % ns.prod]? = some t →
    issTexts K v (j : ℚ) is (ns.prod : ℚ) = (List.zip is t).mapM fun p => shortWord K v p.1 p.2
  | [], ns, h, _, t, ht => by
    simp only [List.mapM_nil] at h
    cases h
    rfl
  | i :: is, ns, h, hpos, t, ht => by
    obtain ⟨c, ns', hc, hns', rfl⟩ := mapM_cons_ok h
    rw [List.prod_cons] at hpos ht
    have hcpos : 0 < c := Nat.pos_of_mul_pos_right hpos
    have hrpos : 0 < ns'.prod := Nat.pos_of_mul_pos_left hpos
    have hlt : j % (c * ns'.prod) / ns'.prod < c := by
      rw [Nat.div_lt_iff_lt_mul hrpos]; exact Nat.mod_lt _ hpos
    rw [tuples_getElem, if_pos hlt, Nat.mod_mul_left_mod] at ht
    rcases ht' : (tuples ns')[j % ns'.prod]? with _ | t'
    · rw [ht'] at ht; simp at ht
    rw [ht', Option.map_some, Option.some.injEq] at ht
    subst ht
    have ih := issTexts_spec K v j is ns' hns' hrpos t' ht'
    have hq : ((c :: ns').prod : ℚ) / (c : ℚ) = (ns'.prod : ℚ) := by
      have : (c : ℚ) ≠ 0 := by exact_mod_cast hcpos.ne'
      rw [List.prod_cons]; push_cast; field_simp
    have hne : ¬ (((c :: ns').prod : ℕ) : ℚ) = 0 := by
      rw [List.prod_cons]; exact_mod_cast hpos.ne'
    rw [issTexts, hc, ok_bind, if_neg (by rintro (h | h); exact hne h; exact hcpos.ne' h), hq, ih,
      floor_qmod j _ _ hrpos, List.prod_cons, List.zip_cons_cons, List.mapM_cons]
    unfold shortWord
    rcases K.issLabel i.1 i.2 (j % (c * ns'.prod) / ns'.prod) with e | l
    · rfl
    · rfl

/-! ### The labels of the sieves -/

/-- The sieves and features of one iterated sum. -/
def blockOf (N : List ℤ) : List (ℕ × ℕ) :=
  (List.range N.length).flatMap fun j => (List.range (N.getD j 0).toNat).map fun q => (j, q)

theorem blockOf_cons (n : ℤ) (N : List ℤ) : blockOf (n :: N) =
    ((List.range n.toNat).map fun q => (0, q)) ++ (blockOf N).map fun p => (p.1 + 1, p.2) := by
  simp [blockOf, List.range_succ_eq_map, List.flatMap_map, List.map_flatMap, Function.comp_def]

theorem sieveText_spec (K : Sem R P I W S V) : ∀ (svs : List S), (∀ v ∈ svs, 0 ≤ K.sieveN v) → ∀ (q : ℕ) (p : ℕ × ℕ),
    (blockOf (svs.map K.sieveN))[q]? = some p →
    ∃ v, svs[p.1]? = some v ∧ sieveText K svs (q : ℤ) = K.sieveLabel v p.2
  | [], _, q, p, h => by simp [blockOf] at h
  | v :: svs, hpos, q, p, h => by
    rw [List.map_cons, blockOf_cons] at h
    have hv := hpos v (by simp)
    rw [sieveText]
    by_cases hq : q < (K.sieveN v).toNat
    · rw [List.getElem?_append_left (by simpa using hq), List.getElem?_map, List.getElem?_range hq] at h
      simp only [Option.map_some, Option.some.injEq] at h
      subst h
      exact ⟨v, rfl, by rw [if_pos (by omega)]; simp⟩
    · rw [List.getElem?_append_right (by simpa using hq), List.getElem?_map] at h
      simp only [List.length_map, List.length_range, Option.map_eq_some_iff] at h
      obtain ⟨p', hp', rfl⟩ := h
      obtain ⟨u, h1, h2⟩ := sieveText_spec K svs (fun x hx => hpos x (by simp [hx])) _ p' hp'
      refine ⟨u, by simpa using h1, ?_⟩
      rw [if_neg (by omega), ← h2]
      congr 1; omega

theorem blockOf_length (N : List ℤ) : (blockOf N).length = (N.map Int.toNat).sum := by
  induction N with
  | nil => rfl
  | cons n N ih => rw [blockOf_cons, List.length_append, List.length_map, List.length_map, ih]; simp

/-! ### Slices -/

/-- The columns of a slice in terms of `blockOf`. -/
theorem sliceColumns_eq {K : Sem R P I W S V} {w : World R P I W S} {s : ℕ} {cols : List Col} (h : sliceColumns K w s = .ok cols) :
    ∃ ns, sliceCounts K w s = .ok ns ∧ cols = (tuples ns).flatMap fun t =>
      (blockOf (((w.slice s).sieves.map w.sieve).map K.sieveN)).map fun p => (⟨s, t, p.1, p.2⟩ : Col) := by
  unfold sliceColumns at h
  rcases hns : sliceCounts K w s with e | ns
  · rw [hns] at h; simp at h
  rw [hns, ok_bind] at h
  refine ⟨ns, rfl, ?_⟩
  rw [← Except.ok.inj h]
  apply List.flatMap_congr
  intro t _
  rw [blockOf, List.map_flatMap]
  simp only [List.length_map, List.map_map]
  apply List.flatMap_congr
  intro j hj
  rw [List.mem_range] at hj
  simp [List.getElem?_eq_getElem hj, Function.comp_def]

theorem columns_total {K : Sem R P I W S V} {w : World R P I W S} {s : ℕ}
    (hpos : ∀ a ∈ (w.slice s).sieves, 0 ≤ K.sieveN (w.sieve a)) :
    sieveTotal K w s = ((blockOf (((w.slice s).sieves.map w.sieve).map K.sieveN)).length : ℤ) := by
  unfold sieveTotal
  rw [sum_toNat (by intro x hx; obtain ⟨a, ha, rfl⟩ := List.mem_map.1 hx; exact hpos a ha), blockOf_length]
  simp [List.map_map, Function.comp_def]

theorem sliceLabel_spec {K : Sem R P I W S V} {w : World R P I W S} {s : ℕ} (hiss : (w.slice s).iss ≠ [])
    (hpos : ∀ a ∈ (w.slice s).sieves, 0 ≤ K.sieveN (w.sieve a)) (v : Bool) {cols : List Col}
    (h : sliceColumns K w s = .ok cols) :
    sliceN K w s = .ok (cols.length : ℤ) ∧
    ∀ (c : ℕ) (col : Col), cols[c]? = some col → sliceLabel K w v .features s (c : ℤ) = colLabel K w v col := by
  obtain ⟨ns, hns, hcols⟩ := sliceColumns_eq h
  set blk := blockOf (((w.slice s).sieves.map w.sieve).map K.sieveN) with hblk
  have htot := columns_total hpos (K := K) (w := w) (s := s)
  rw [← hblk] at htot
  have hcount : sliceCount K w s = .ok ns.prod := by
    unfold sliceCounts at hns
    rw [mapM_map] at hns
    unfold sliceCount
    rw [hns]; rfl
  have hlen : cols.length = ns.prod * blk.length := by
    rw [hcols, List.length_flatMap]
    simp [tuples_length]
  refine ⟨?_, ?_⟩
  · unfold sliceN
    rw [hcount, ok_bind, htot, hlen]
    show Except.ok _ = _
    rw [Except.ok.injEq]
    push_cast; ring
  intro c col hc
  rw [hcols, flatMap_getElem_const (M := blk.length) _ (by simp)] at hc
  rcases ht : (tuples ns)[c / blk.length]? with _ | t
  · rw [ht] at hc; simp at hc
  rw [ht, Option.bind_some, List.getElem?_map] at hc
  rcases hp : blk[c % blk.length]? with _ | p
  · rw [hp] at hc; simp at hc
  rw [hp, Option.map_some, Option.some.injEq] at hc
  subst hc
  have hblen : 0 < blk.length := by
    have := (List.getElem?_eq_some_iff.1 hp).1
    omega
  obtain ⟨u, hu1, hu2⟩ := sieveText_spec K ((w.slice s).sieves.map w.sieve)
    (by intro x hx; obtain ⟨a, ha, rfl⟩ := List.mem_map.1 hx; exact hpos a ha) _ p hp
  have htl : c / blk.length < ns.prod := by
    have := (List.getElem?_eq_some_iff.1 ht).1
    rwa [tuples_length] at this
  have hd : Int.fdiv (c : ℤ) (sieveTotal K w s) = ((c / blk.length : ℕ) : ℤ) := by
    rw [htot, Int.fdiv_eq_ediv_of_nonneg _ (by omega)]; norm_cast
  have hm : Int.fmod (c : ℤ) (sieveTotal K w s) = ((c % blk.length : ℕ) : ℤ) := by
    rw [htot, Int.fmod_eq_emod_of_nonneg _ (by omega)]; norm_cast
  have hne : ((w.slice s).iss.map w.issAt) ≠ [] := by simpa using hiss
  show (if sieveTotal K w s = 0 then _ else _) = _
  rw [if_neg (by rw [htot]; omega), hd, hm, hu2]
  have hcn := hns
  unfold sliceCounts at hcn
  have htexts := issTexts_spec K v (c / blk.length) _ ns hcn (Nat.zero_lt_of_lt htl) t (by rw [Nat.mod_eq_of_lt htl]; exact ht)
  unfold itsumText
  rw [hcount, ok_bind, Int.cast_natCast, htexts]
  unfold colLabel wordPart
  simp only
  rcases hz : ((List.zip ((w.slice s).iss.map w.issAt) t).mapM fun p => shortWord K v p.1 p.2) with e | ls
  · simp only [hz, bind, Except.bind]
  have hlsne : ls ≠ [] := by
    have hl := mapM_length hz
    intro h0
    rw [h0] at hl
    have h1 := tuples_len_of (List.mem_of_getElem? ht)
    have h2 := mapM_length hcn
    have h3 : 0 < ((w.slice s).iss.map w.issAt).length := List.length_pos_of_ne_nil hne
    rw [List.length_zip] at hl
    simp only [List.length_nil] at hl
    omega
  simp only [hz, pure, Except.pure, bind, Except.bind]
  rw [List.getElem?_map] at hu1
  rcases ha : (w.slice s).sieves[p.1]? with _ | a
  · rw [ha] at hu1; simp at hu1
  rw [ha, Option.map_some, Option.some.injEq] at hu1
  subst hu1
  simp only
  rw [barred_preps, barred_arrows ls hlsne]

theorem mapM_map_ok {α β γ : Type} {f : α → Except Err β} {g : α → Except Err γ} {q : β → γ} : ∀ {l : List α} {r : List β},
    l.mapM f = .ok r → (∀ a ∈ l, ∀ b, f a = .ok b → g a = .ok (q b)) → l.mapM g = .ok (r.map q)
  | [], r, h, _ => by simp only [List.mapM_nil] at h; cases h; rfl
  | a :: l, r, h, hg => by
    obtain ⟨b, bs, h1, h2, rfl⟩ := mapM_cons_ok h
    rw [List.mapM_cons, hg a (by simp) b h1, mapM_map_ok h2 (fun x hx => hg x (by simp [hx]))]
    rfl

theorem labelLoop_spec {K : Sem R P I W S V} {w : World R P I W S} (v : Bool) : ∀ (ss : List ℕ) (css : List (List Col)),
    (∀ s ∈ ss, (w.slice s).iss ≠ []) → (∀ s ∈ ss, ∀ a ∈ (w.slice s).sieves, 0 ≤ K.sieveN (w.sieve a)) →
    ss.mapM (sliceColumns K w) = .ok css → ∀ c : ℕ,
    labelLoop K w v .features ss (c : ℤ) = match css.flatten[c]? with
      | some col => colLabel K w v col
      | none => .error .indexError
  | [], css, _, _, h, c => by
    simp only [List.mapM_nil] at h
    cases h
    rw [labelLoop, if_pos (by omega)]
    simp
  | s :: ss, css, hiss, hpos, h, c => by
    obtain ⟨cols, css', h1, h2, rfl⟩ := mapM_cons_ok h
    obtain ⟨hN, hl⟩ := sliceLabel_spec (hiss s (by simp)) (hpos s (by simp)) v h1
    have ih := labelLoop_spec v ss css' (fun t ht => hiss t (by simp [ht])) (fun t ht => hpos t (by simp [ht])) h2
    rw [labelLoop, if_pos (by omega), List.flatten_cons]
    show (do let total ← sliceN K w s; _) = _
    rw [hN, ok_bind]
    by_cases hc : c < cols.length
    · rw [if_pos (by omega), List.getElem?_append_left hc, List.getElem?_eq_getElem hc]
      exact hl c _ (List.getElem?_eq_getElem hc)
    · rw [if_neg (by omega), List.getElem?_append_right (by omega), ← ih (c - cols.length)]
      congr 1; omega

/-! ### C75 -/

/-- In a slice that counts as fitted there is an ISS, after any history. -/
def IssInv (w : World R P I W S) : Prop := ∀ s < w.nSlice, (w.slice s).fitted = true → (w.slice s).iss ≠ []

theorem IssInv.micro {K : Sem R P I W S V} {B : Ref → Prop} {l : Touch} {w w' : World R P I W S} (h : Micro K B l w w')
    (hi : IssInv w) : IssInv w' := by
  intro s hs'
  have old : s < w.nSlice ∨ (s = w.nSlice ∧ w'.slice = w.newSlice.slice) := by
    cases h with
    | newSlice =>
      have : s < w.nSlice + 1 := hs'
      rcases Nat.lt_or_ge s w.nSlice with h | h
      · exact Or.inl h
      · exact Or.inr ⟨by omega, rfl⟩
    | _ => exact Or.inl hs'
  rcases old with hs | ⟨rfl, hn⟩
  swap
  · rw [hn]; intro hf; simp [World.newSlice, World.setSlice] at hf
  have upd : ∀ (t : ℕ) (o : SliceObj R S), (t = s → o.fitted = true → o.iss ≠ []) →
      (Function.update w.slice t o s).fitted = true → (Function.update w.slice t o s).iss ≠ [] := by
    intro t o ho
    by_cases hts : s = t
    · subst hts; simpa using ho rfl
    · rw [Function.update_of_ne hts]; exact hi s hs
  cases h with
  | newSlice => exact upd _ _ fun h => by omega
  | addPrep _ t a => exact upd _ _ fun _ h => by simp at h
  | addIss _ t a => exact upd _ _ fun _ h => by simp at h
  | addSieve _ t a => exact upd _ _ fun _ h => by simp at h
  | clearPreps _ t => exact upd _ _ fun _ h => by simp at h
  | clearIss _ t => exact upd _ _ fun _ h => by simp at h
  | clearSieves _ t => exact upd _ _ fun _ h => by simp at h
  | setSample _ t k => exact upd _ _ fun h => by subst h; exact hi t hs
  | fitDone _ t _ hne => exact upd _ _ fun _ _ => hne
  | fitExt _ t _ _ _ _ _ hne => exact upd _ _ fun _ _ => hne
  | _ => exact hi s hs

theorem IssInv.hist {K : Sem R P I W S V} {ρ : ℕ → Rng R} {w₀ w : World R P I W S} {ops : List (Op R P I W S)}
    (h : Hist K ρ w₀ ops w) (h0 : w₀.Empty) : IssInv w :=
  h.invariant (fun _ _ _ _ hm _ hi => IssInv.micro hm hi) (World.WF.empty h0) (fun s hs => by
    obtain ⟨_, _, _, _, h5, _⟩ := h0; omega)

/-- **C75**, for any fruit whose slices have an ISS.  `columns` lists the slice, the numbers of the iterated sums, the sieve
and the feature of every column (property C73); `Fruit.label(c)` is the label of column `c` built from them, `IndexError` is
raised behind the last column and `RuntimeError` for a negative index. -/
theorem C75_label {K : Sem R P I W S V} {w : World R P I W S} {f : ℕ} (hiss : ∀ s ∈ (w.fruit f).slices, (w.slice s).iss ≠ [])
    (hpos : ∀ s ∈ (w.fruit f).slices, ∀ a ∈ (w.slice s).sieves, 0 ≤ K.sieveN (w.sieve a)) {cols : List Col}
    (hcols : columns K w f = .ok cols) (verbose1 : Bool) :
    (∀ (c : ℕ) (h : c < cols.length), fruitLabel K w verbose1 .features f (c : ℤ) = colLabel K w verbose1 cols[c]) ∧
    (∀ c : ℕ, cols.length ≤ c → fruitLabel K w verbose1 .features f (c : ℤ) = .error .indexError) ∧
    ∀ c : ℤ, c < 0 → fruitLabel K w verbose1 .features f c = .error .runtimeError := by
  unfold columns at hcols
  rcases hm : (w.fruit f).slices.mapM (sliceColumns K w) with e | css
  · rw [hm] at hcols; simp at hcols
  rw [hm, ok_bind] at hcols
  have hcols : css.flatten = cols := Except.ok.inj hcols
  have hspec := labelLoop_spec verbose1 _ css hiss hpos hm
  rw [hcols] at hspec
  refine ⟨fun c h => ?_, fun c h => ?_, fun c h => ?_⟩
  · rw [fruitLabel, hspec c, List.getElem?_eq_getElem h]
  · rw [fruitLabel, hspec c, List.getElem?_eq_none h]
  · rw [fruitLabel]
    unfold labelLoop
    rw [if_neg (by omega)]

/-- **C75** for the columns of `transform`: after any history, if `transform` succeeds then `label(c)` names what column `c` of
its result was computed from. -/
theorem C75_label_of_column {K : Sem R P I W S V} (hK : K.KeepsRows) (hC : K.CountsRight) (hN : K.KeepsN) {ρ : ℕ → Rng R}
    {w₀ w : World R P I W S} {ops : List (Op R P I W S)} (hist : Hist K ρ w₀ ops w) (h0 : w₀.Empty) {f : ℕ} (hf : f < w.nFruit)
    (hpos : ∀ s ∈ (w.fruit f).slices, ∀ a ∈ (w.slice s).sieves, 0 ≤ K.sieveN (w.sieve a))
    {n : ℕ} {C X : Data R} (hCX : C.length = X.length) {A : List (List V)} {tr : Trace R V}
    (h : fruitTransform K w n f C X = (.ok A, tr)) (verbose1 : Bool) :
    ∃ cols : List Col, ∀ i < X.length, (A.getD i []).length = cols.length ∧ ∀ (c : ℕ) (hc : c < cols.length),
      (A.getD i [])[c]? = (colValue K w C X i cols[c]).map K.post ∧
      fruitLabel K w verbose1 .features f (c : ℤ) = colLabel K w verbose1 cols[c] := by
  have hwf := hist.wf (World.WF.empty h0)
  have hfit := fruitTransform_fitted h
  obtain ⟨cols, h1, _, _, h4⟩ := C73_layout hK hC hN hist h0 hf hpos hCX h
  have hl := C75_label (fun s hs => IssInv.hist hist h0 s (hwf.slices f hf s hs) (hfit.2 s hs)) hpos h1 verbose1
  refine ⟨cols, fun i hi => ⟨(h4 i hi).1, fun c hc => ⟨?_, hl.1 c hc⟩⟩⟩
  have h5 := congrArg (fun l => l[c]?) (h4 i hi).2
  simp only [List.getElem?_map, List.getElem?_eq_getElem hc, Option.map_some] at h5
  have hc' : c < (A.getD i []).length := by rw [(h4 i hi).1]; exact hc
  rw [List.getElem?_eq_getElem hc'] at h5 ⊢
  simpa using h5

/-! ### Labels of iterated sums -/

/-- The iterated sums of a slice: the slice and the numbers in the chain. -/
def sliceItems (K : Sem R P I W S V) (w : World R P I W S) (s : ℕ) : Except Err (List (ℕ × List ℕ)) := do
  let ns ← sliceCounts K w s
  pure ((tuples ns).map fun t => (s, t))

/-- The iterated sums of a fruit: those of its slices, in order. -/
def items (K : Sem R P I W S V) (w : World R P I W S) (f : ℕ) : Except Err (List (ℕ × List ℕ)) := do
  let css ← (w.fruit f).slices.mapM (sliceItems K w)
  pure css.flatten

/-- The label of an iterated sum: preparateurs and iterated sums. -/
def itemLabel (K : Sem R P I W S V) (w : World R P I W S) (verbose1 : Bool) (c : ℕ × List ℕ) : Except Err PStr := do
  let l ← wordPart K w verbose1 c.1 c.2
  pure (prepPart K w verbose1 c.1 ++ l)

theorem sliceItem_spec {K : Sem R P I W S V} {w : World R P I W S} {s : ℕ} (hiss : (w.slice s).iss ≠ []) (v : Bool)
    {its : List (ℕ × List ℕ)} (h : sliceItems K w s = .ok its) :
    sliceCount K w s = .ok its.length ∧
    ∀ (c : ℕ) (t : ℕ × List ℕ), its[c]? = some t → sliceLabel K w v .iterated s (c : ℤ) = itemLabel K w v t := by
  unfold sliceItems at h
  rcases hns : sliceCounts K w s with e | ns
  · rw [hns] at h; simp at h
  rw [hns, ok_bind] at h
  have h : ((tuples ns).map fun t => (s, t)) = its := Except.ok.inj h
  have hcount : sliceCount K w s = .ok ns.prod := by
    unfold sliceCounts at hns
    rw [mapM_map] at hns
    unfold sliceCount
    rw [hns]; rfl
  refine ⟨by rw [hcount, ← h, List.length_map, tuples_length], fun c p hp => ?_⟩
  rw [← h, List.getElem?_map] at hp
  rcases ht : (tuples ns)[c]? with _ | t
  · rw [ht] at hp; simp at hp
  rw [ht, Option.map_some, Option.some.injEq] at hp
  subst hp
  have htl : c < ns.prod := by
    have := (List.getElem?_eq_some_iff.1 ht).1
    rwa [tuples_length] at this
  have hcn := hns
  unfold sliceCounts at hcn
  have htexts := issTexts_spec K v c _ ns hcn (Nat.zero_lt_of_lt htl) t (by rw [Nat.mod_eq_of_lt htl]; exact ht)
  show (do let t ← itsumText K w v s (c : ℤ); pure (orInput t)) = _
  unfold itsumText
  rw [hcount, ok_bind, Int.cast_natCast, htexts]
  unfold itemLabel wordPart
  simp only
  rcases hz : ((List.zip ((w.slice s).iss.map w.issAt) t).mapM fun p => shortWord K v p.1 p.2) with e | ls
  · simp only [hz, bind, Except.bind]
  have hlsne : ls ≠ [] := by
    have hl := mapM_length hz
    intro h0
    rw [h0] at hl
    have h1 := tuples_len_of (List.mem_of_getElem? ht)
    have h2 := mapM_length hcn
    have h3 : 0 < ((w.slice s).iss.map w.issAt).length := List.length_pos_of_ne_nil (by simpa using hiss)
    rw [List.length_zip] at hl
    simp only [List.length_nil] at hl
    omega
  simp only [hz, pure, Except.pure, bind, Except.bind]
  rw [barred_preps, arrows_intercalate ls hlsne, ← List.append_assoc, orInput, if_neg (append_arrow_ne _), dropArrow_append]

/-- **C75** at the level `"iterated sums"`: `Fruit.label(j, "iterated sums")` names the preparateurs and words of the `j`-th
iterated sum of the fruit; `IndexError` is raised behind the last one. -/
theorem C75_iterated_label {K : Sem R P I W S V} {w : World R P I W S} {f : ℕ}
    (hiss : ∀ s ∈ (w.fruit f).slices, (w.slice s).iss ≠ []) {its : List (ℕ × List ℕ)}
    (hits : items K w f = .ok its) (verbose1 : Bool) :
    (∀ (j : ℕ) (h : j < its.length), fruitLabel K w verbose1 .iterated f (j : ℤ) = itemLabel K w verbose1 its[j]) ∧
    ∀ j : ℕ, its.length ≤ j → fruitLabel K w verbose1 .iterated f (j : ℤ) = .error .indexError := by
  have loop : ∀ (ss : List ℕ) (css : List (List (ℕ × List ℕ))), (∀ s ∈ ss, (w.slice s).iss ≠ []) →
      ss.mapM (sliceItems K w) = .ok css → ∀ c : ℕ,
      labelLoop K w verbose1 .iterated ss (c : ℤ) = match css.flatten[c]? with
        | some t => itemLabel K w verbose1 t
        | none => .error .indexError := by
    intro ss
    induction ss with
    | nil =>
      intro css _ h c
      simp only [List.mapM_nil] at h
      cases h
      rw [labelLoop, if_pos (by omega)]
      simp
    | cons s ss ih =>
      intro css hiss h c
      obtain ⟨cols, css', h1, h2, rfl⟩ := mapM_cons_ok h
      obtain ⟨hN, hl⟩ := sliceItem_spec (hiss s (by simp)) verbose1 h1
      have ih := ih css' (fun t ht => hiss t (by simp [ht])) h2
      rw [labelLoop, if_pos (by omega), List.flatten_cons]
      show (do let total ← (do let n ← sliceCount K w s; pure (n : ℤ)); _) = _
      rw [hN, ok_bind]
      simp only [pure, Except.pure]
      rw [ok_bind]
      by_cases hc : c < cols.length
      · rw [if_pos (by omega), List.getElem?_append_left hc, List.getElem?_eq_getElem hc]
        exact hl c _ (List.getElem?_eq_getElem hc)
      · rw [if_neg (by omega), List.getElem?_append_right (by omega), ← ih (c - cols.length)]
        congr 1; omega
  unfold items at hits
  rcases hm : (w.fruit f).slices.mapM (sliceItems K w) with e | css
  · rw [hm] at hits; simp at hits
  rw [hm, ok_bind] at hits
  have hits : css.flatten = its := Except.ok.inj hits
  have hspec := loop _ css hiss hm
  rw [hits] at hspec
  refine ⟨fun c h => ?_, fun c h => ?_⟩
  · rw [fruitLabel, hspec c, List.getElem?_eq_getElem h]
  · rw [fruitLabel, hspec c, List.getElem?_eq_none h]

end Fruits
