import Verif.CachePlan

/-! # `CachePlan` on well-formed word strings

A well-formed word string is a concatenation `[b₁][b₂]…[b_p]` of bracket-free blocks. -/

namespace Fruits

/-- `[b₁][b₂]…[b_p]`. -/
def render (blocks : List PStr) : PStr := blocks.flatMap (fun b => '[' :: b ++ [']'])

/-- A block without brackets. -/
def BracketFree (b : PStr) : Prop := '[' ∉ b ∧ ']' ∉ b

/-- All blocks are bracket-free. -/
def BlocksOK (bs : List PStr) : Prop := ∀ b ∈ bs, BracketFree b

theorem render_cons (b : PStr) (bs : List PStr) : render (b :: bs) = '[' :: (b ++ ']' :: render bs) := by
  simp [render]

@[simp] theorem render_nil : render [] = [] := rfl

theorem psplit_open_render (b0 : PStr) (h0 : '[' ∉ b0) (bs : List PStr) (h : BlocksOK bs) :
    psplit '[' (b0 ++ render bs) = b0 :: bs.map (· ++ [']']) := by
  induction bs generalizing b0 with
  | nil => simp [psplit_notMem _ _ h0]
  | cons b bs ih =>
    rw [render_cons, psplit_append _ _ _ h0]
    have := ih (b ++ [']']) (by
      have := (h b (by simp)).1
      simp [this]) (fun c hc => h c (by simp [hc]))
    rw [show b ++ ']' :: render bs = (b ++ [']']) ++ render bs by simp, this]
    simp

theorem pjoin_blocks (bs : List PStr) (hne : bs ≠ []) :
    '[' :: pjoin '[' (bs.map (· ++ [']'])) = render bs := by
  induction bs with
  | nil => exact absurd rfl hne
  | cons b bs ih =>
    cases bs with
    | nil => simp [pjoin, render]
    | cons c cs =>
      have := ih (by simp)
      simp only [List.map_cons, pjoin] at this ⊢
      rw [render_cons b, ← this]
      simp

theorem psplit_close_render (bs : List PStr) (h : BlocksOK bs) :
    psplit ']' (render bs) = bs.map ('[' :: ·) ++ [[]] := by
  induction bs with
  | nil => rfl
  | cons b bs ih =>
    rw [render_cons, ← List.cons_append, psplit_append, ih fun c hc => h c (by simp [hc])]
    · simp
    · have := (h b (by simp)).2
      simp [this]

theorem pjoin_close (bs : List PStr) (hne : bs ≠ []) :
    pjoin ']' (bs.map ('[' :: ·)) ++ [']'] = render bs := by
  induction bs with
  | nil => exact absurd rfl hne
  | cons b bs ih =>
    cases bs with
    | nil => simp [pjoin, render]
    | cons c cs =>
      have := ih (by simp)
      simp only [List.map_cons, pjoin] at this ⊢
      rw [render_cons, ← this]
      simp

theorem sep_prefix {a b x y : PStr} {c : Char} (ha : c ∉ a) (hb : c ∉ b)
    (h : a ++ c :: x <+: b ++ c :: y) : a = b ∧ x <+: y := by
  induction a generalizing b with
  | nil =>
    cases b with
    | nil => exact ⟨rfl, by simpa using h⟩
    | cons d b =>
      rw [List.nil_append, List.cons_append, List.cons_prefix_cons] at h
      simp [h.1] at hb
  | cons e a ih =>
    cases b with
    | nil =>
      rw [List.nil_append, List.cons_append, List.cons_prefix_cons] at h
      simp [h.1] at ha
    | cons d b =>
      rw [List.cons_append, List.cons_append, List.cons_prefix_cons] at h
      obtain ⟨h1, h2⟩ := ih (by simp at ha; exact ha.2) (by simp at hb; exact hb.2) h.2
      exact ⟨by rw [h.1, h1], h2⟩

theorem render_prefix {us ws : List PStr} (hu : BlocksOK us) (hw : BlocksOK ws) :
    render us <+: render ws ↔ us <+: ws := by
  induction us generalizing ws with
  | nil => simp
  | cons u us ih =>
    cases ws with
    | nil => simp [render_cons]
    | cons w ws =>
      rw [render_cons, render_cons, List.cons_prefix_cons]
      constructor
      · rintro ⟨_, h⟩
        obtain ⟨h1, h2⟩ := sep_prefix (hu u (by simp)).2 (hw w (by simp)).2 h
        rw [h1, List.cons_prefix_cons]
        exact ⟨rfl, (ih (fun c hc => hu c (by simp [hc])) (fun c hc => hw c (by simp [hc]))).1 h2⟩
      · intro h
        rw [List.cons_prefix_cons] at h
        refine ⟨rfl, ?_⟩
        rw [h.1]
        have := (ih (fun c hc => hu c (by simp [hc])) (fun c hc => hw c (by simp [hc]))).2 h.2
        obtain ⟨t, ht⟩ := this
        exact ⟨t, by simp [← ht]⟩

theorem render_injective {us ws : List PStr} (hu : BlocksOK us) (hw : BlocksOK ws)
    (h : render us = render ws) : us = ws := by
  have h1 := (render_prefix hu hw).1 (h ▸ List.prefix_rfl)
  have h2 := (render_prefix hw hu).1 (h ▸ List.prefix_rfl)
  exact h1.eq_of_length (le_antisymm h1.length_le h2.length_le)

theorem findPrefix_eq_none (strs : List PStr) (pre : PStr) (start cnt : ℕ) :
    findPrefix strs pre start cnt = none
      ↔ ∀ k, start ≤ k → k < start + cnt → pstartswith (strs.getD k []) pre = false := by
  induction cnt generalizing start with
  | zero => simp only [findPrefix, true_iff]; intro k h1 h2; omega
  | succ cnt ih =>
    rw [findPrefix]
    split
    · next h =>
      simp only [reduceCtorEq, false_iff]
      intro hall
      have := hall start le_rfl (by omega)
      rw [h] at this; exact absurd this (by simp)
    · next h =>
      rw [ih]
      constructor
      · intro hall k h1 h2
        rcases Nat.lt_or_ge start k with hk | hk
        · exact hall k (by omega) (by omega)
        · have : k = start := by omega
          subst this; simpa using h
      · intro hall k h1 h2
        exact hall k (by omega) (by omega)

theorem findPrefix_eq_some {strs : List PStr} {pre : PStr} {start cnt k : ℕ}
    (h : findPrefix strs pre start cnt = some k) :
    start ≤ k ∧ k < start + cnt ∧ pstartswith (strs.getD k []) pre = true ∧
      ∀ l, start ≤ l → l < k → pstartswith (strs.getD l []) pre = false := by
  induction cnt generalizing start with
  | zero => simp [findPrefix] at h
  | succ cnt ih =>
    rw [findPrefix] at h
    split at h
    · next hs =>
      simp only [Option.some.injEq] at h
      subst h
      exact ⟨le_rfl, by omega, hs, fun l h1 h2 => by omega⟩
    · next hs =>
      obtain ⟨h1, h2, h3, h4⟩ := ih h
      refine ⟨by omega, by omega, h3, fun l hl1 hl2 => ?_⟩
      rcases Nat.lt_or_ge start l with hk | hk
      · exact h4 l (by omega) hl2
      · have : l = start := by omega
        subst this; simpa using hs

/-- The blocks `q` occur at the beginning of one of the words `0, …, i-1`. -/
def OccursBefore (W : List (List PStr)) (i : ℕ) (q : List PStr) : Prop :=
  ∃ k < i, q <+: W.getD k []

/-- `m` is the length of the longest beginning of `W[i]` that an earlier word begins with. -/
def IsOld (W : List (List PStr)) (i m : ℕ) : Prop :=
  m ≤ (W.getD i []).length ∧ (m = 0 ∨ OccursBefore W i ((W.getD i []).take m)) ∧
    ∀ q, m < q → q ≤ (W.getD i []).length → ¬ OccursBefore W i ((W.getD i []).take q)

theorem getD_map_render (W : List (List PStr)) (k : ℕ) :
    (W.map render).getD k [] = render (W.getD k []) := by
  simp only [List.getD_eq_getElem?_getD, List.getElem?_map]
  cases W[k]? <;> simp

theorem blocksOK_getD {W : List (List PStr)} (hW : ∀ w ∈ W, BlocksOK w) (k : ℕ) :
    BlocksOK (W.getD k []) := by
  rw [List.getD_eq_getElem?_getD]
  rcases h : W[k]? with _ | w
  · intro b hb; simp at hb
  · simpa using hW w (List.mem_of_getElem? h)

theorem startswith_iff {W : List (List PStr)} (hW : ∀ w ∈ W, BlocksOK w) (k : ℕ) {q : List PStr}
    (hq : BlocksOK q) :
    pstartswith ((W.map render).getD k []) (render q) = true ↔ q <+: W.getD k [] := by
  rw [getD_map_render, pstartswith, List.isPrefixOf_iff_prefix,
    render_prefix hq (blocksOK_getD hW k)]

theorem planLoop_spec {W : List (List PStr)} (hW : ∀ w ∈ W, BlocksOK w) (i : ℕ) (fuel j start depth : ℕ)
    (hf : fuel + j = (W.getD i []).length) (hd : fuel ≤ depth) (hstart : start ≤ i)
    (hpre : ∀ k < start, ¬ (W.getD i []).take j <+: W.getD k [])
    (hj : j = 0 ∨ OccursBefore W i ((W.getD i []).take j)) :
    ∃ m, IsOld W i m ∧ j ≤ m ∧
      planLoop (W.map render) i ((W.getD i []).map (· ++ [']'])) fuel j start depth = depth - (m - j) := by
  induction fuel generalizing j start depth with
  | zero =>
    refine ⟨j, ⟨by omega, hj, fun q h1 h2 => by omega⟩, le_rfl, ?_⟩
    simp [planLoop]
  | succ fuel ih =>
    have hok := blocksOK_getD hW i
    have hokq : BlocksOK ((W.getD i []).take (j + 1)) := fun b hb => hok b (List.mem_of_mem_take hb)
    have hjoin : '[' :: pjoin '[' (((W.getD i []).map (· ++ [']'])).take (j + 1))
        = render ((W.getD i []).take (j + 1)) := by
      rw [← List.map_take, pjoin_blocks]
      intro h
      have := congrArg List.length h
      simp only [List.length_take, List.length_nil] at this
      omega
    rw [planLoop, hjoin]
    rcases hfp : findPrefix (W.map render) (render ((W.getD i []).take (j + 1))) start (i - start)
      with _ | k
    · rw [findPrefix_eq_none] at hfp
      refine ⟨j, ⟨by omega, hj, fun q h1 h2 => ?_⟩, le_rfl, by simp⟩
      rintro ⟨k, hk, hpk⟩
      have hle : (W.getD i []).take (j + 1) <+: (W.getD i []).take q :=
        List.take_prefix_take_left (by omega)
      have hp1 := hle.trans hpk
      rcases Nat.lt_or_ge k start with hlt | hge
      · refine hpre k hlt (List.IsPrefix.trans ?_ hp1)
        exact List.take_prefix_take_left (by omega)
      · have := hfp k hge (by omega)
        rw [(startswith_iff hW k hokq).2 hp1] at this
        exact absurd this (by simp)
    · obtain ⟨h1, h2, h3, h4⟩ := findPrefix_eq_some hfp
      have hk : (W.getD i []).take (j + 1) <+: W.getD k [] := (startswith_iff hW k hokq).1 h3
      obtain ⟨m, hm, hjm, hpl⟩ := ih (j + 1) k (depth - 1) (by omega) (by omega) (by omega)
        (by
          intro l hl hlp
          rcases Nat.lt_or_ge l start with hlt | hge
          · refine hpre l hlt (List.IsPrefix.trans ?_ hlp)
            exact List.take_prefix_take_left (by omega)
          · have := h4 l hge hl
            rw [(startswith_iff hW l hokq).2 hlp] at this
            exact absurd this (by simp))
        (Or.inr ⟨k, by omega, hk⟩)
      refine ⟨m, hm, by omega, ?_⟩
      simp only [hpl]; omega

theorem planDepth_spec {W : List (List PStr)} (hW : ∀ w ∈ W, BlocksOK w) (i : ℕ) :
    ∃ m, IsOld W i m ∧ planDepth (W.map render) i = (W.getD i []).length - m := by
  have hs : (psplit '[' ((W.map render).getD i [])).drop 1 = (W.getD i []).map (· ++ [']']) := by
    have := psplit_open_render [] (by simp) (W.getD i []) (blocksOK_getD hW i)
    rw [List.nil_append] at this
    rw [getD_map_render, this]
    rfl
  obtain ⟨m, h1, _, h3⟩ := planLoop_spec hW i (W.getD i []).length 0 0 (W.getD i []).length
    (by simp) le_rfl (Nat.zero_le _) (by intro k hk; omega) (Or.inl rfl)
  refine ⟨m, h1, ?_⟩
  unfold planDepth
  simp only [hs, List.length_map]
  rw [h3]; omega

theorem IsOld.unique {W : List (List PStr)} {i m m' : ℕ} (h : IsOld W i m) (h' : IsOld W i m') :
    m = m' := by
  rcases Nat.lt_trichotomy m m' with hlt | he | hlt
  · exact absurd (h'.2.1.resolve_left (by omega)) (h.2.2 m' hlt h'.1)
  · exact he
  · exact absurd (h.2.1.resolve_left (by omega)) (h'.2.2 m hlt h.1)

/-- An old beginning stays old when shortened. -/
theorem IsOld.le_iff {W : List (List PStr)} {i m q : ℕ} (h : IsOld W i m)
    (hq : q ≤ (W.getD i []).length) (hq0 : 0 < q) :
    q ≤ m ↔ OccursBefore W i ((W.getD i []).take q) := by
  constructor
  · intro hle
    rcases h.2.1 with h0 | ⟨k, hk, hp⟩
    · omega
    · exact ⟨k, hk, (List.take_prefix_take_left hle).trans hp⟩
  · intro ho
    by_contra hlt
    exact h.2.2 q (by omega) hq ho

/-! ### labels -/

/-- The beginnings reported for word `i`: the `planDepth` longest ones, shortest first. -/
def newOnes (W : List (List PStr)) (i : ℕ) : List (List PStr) :=
  tab (planDepth (W.map render) i) (fun r =>
    (W.getD i []).take ((W.getD i []).length - planDepth (W.map render) i + r + 1))

/-- All reported beginnings in order. -/
def reported (W : List (List PStr)) : List (List PStr) :=
  (List.range W.length).flatMap (newOnes W)

theorem planDepth_le {W : List (List PStr)} (hW : ∀ w ∈ W, BlocksOK w) (i : ℕ) :
    planDepth (W.map render) i ≤ (W.getD i []).length := by
  obtain ⟨m, _, h⟩ := planDepth_spec hW i
  omega

theorem mem_newOnes {W : List (List PStr)} (hW : ∀ w ∈ W, BlocksOK w) (i : ℕ) (s : List PStr) :
    s ∈ newOnes W i ↔ s ≠ [] ∧ s <+: W.getD i [] ∧ ¬ OccursBefore W i s := by
  obtain ⟨m, hm, hd⟩ := planDepth_spec hW i
  have hml := hm.1
  rw [newOnes, mem_tab, hd]
  constructor
  · rintro ⟨r, hr, rfl⟩
    rw [show (W.getD i []).length - ((W.getD i []).length - m) + r + 1 = m + r + 1 by omega]
    refine ⟨?_, List.take_prefix _ _, ?_⟩
    · intro h
      have := congrArg List.length h
      simp only [List.length_take, List.length_nil] at this
      omega
    · rw [← hm.le_iff (by omega) (by omega)]; omega
  · rintro ⟨hne, hp, ho⟩
    have hs : s = (W.getD i []).take s.length := List.prefix_iff_eq_take.1 hp
    have hl := hp.length_le
    have hpos : 0 < s.length := List.length_pos_iff.2 hne
    rw [hs, ← hm.le_iff hl hpos] at ho
    refine ⟨s.length - m - 1, by omega, ?_⟩
    rw [show (W.getD i []).length - ((W.getD i []).length - m) + (s.length - m - 1) + 1 = s.length by
      omega]
    exact hs.symm

theorem newOnes_nodup {W : List (List PStr)} (hW : ∀ w ∈ W, BlocksOK w) (i : ℕ) :
    (newOnes W i).Nodup := by
  unfold newOnes tab
  refine List.Nodup.map_on ?_ List.nodup_range
  intro a ha b hb h
  have hle := planDepth_le hW i
  have := congrArg List.length h
  simp only [List.length_take, List.mem_range] at this ha hb
  omega

theorem reported_nodup {W : List (List PStr)} (hW : ∀ w ∈ W, BlocksOK w) : (reported W).Nodup := by
  unfold reported
  rw [List.nodup_flatMap]
  refine ⟨fun i _ => newOnes_nodup hW i, ?_⟩
  refine List.Pairwise.imp ?_ List.pairwise_lt_range
  intro i j hij s hs hs'
  rw [mem_newOnes hW] at hs hs'
  exact hs'.2.2 ⟨i, hij, hs.2.1⟩

theorem mem_reported {W : List (List PStr)} (hW : ∀ w ∈ W, BlocksOK w) (s : List PStr) :
    s ∈ reported W ↔ s ≠ [] ∧ ∃ w ∈ W, s <+: w := by
  unfold reported
  simp only [List.mem_flatMap, List.mem_range, mem_newOnes hW]
  constructor
  · rintro ⟨i, hi, hne, hp, _⟩
    refine ⟨hne, W.getD i [], ?_, hp⟩
    simp [List.getD_eq_getElem?_getD, hi]
  · rintro ⟨hne, w, hw, hp⟩
    obtain ⟨i, hi, rfl⟩ := List.getElem_of_mem hw
    classical
    have hex : ∃ k, k < W.length ∧ s <+: W.getD k [] := ⟨i, hi, by
      simpa [List.getD_eq_getElem?_getD, hi] using hp⟩
    refine ⟨Nat.find hex, (Nat.find_spec hex).1, hne, (Nat.find_spec hex).2, ?_⟩
    rintro ⟨k, hk, hpk⟩
    exact Nat.find_min hex hk ⟨by have := (Nat.find_spec hex).1; omega, hpk⟩

theorem getWordString_spec (ds : List ℕ) (W : List (List PStr)) (hl : ds.length = W.length)
    (hW : ∀ w ∈ W, BlocksOK w) (hd : ∀ i, ds.getD i 0 ≤ (W.getD i []).length) (n : ℕ) :
    getWordString ds (W.map render) n
      = match ((List.range W.length).flatMap (fun i => tab (ds.getD i 0) (fun r =>
          (W.getD i []).take ((W.getD i []).length - ds.getD i 0 + r + 1))))[n]? with
        | some s => .ok (render s)
        | none => .error .indexError := by
  induction W generalizing ds n with
  | nil =>
    cases ds with
    | nil => rfl
    | cons d ds => simp at hl
  | cons w W ih =>
    cases ds with
    | nil => simp at hl
    | cons d ds =>
      have ih' := ih ds (by simpa using hl) (fun w hw => hW w (by simp [hw]))
        (fun i => by simpa using hd (i + 1))
      have h0 : d ≤ w.length := by simpa using hd 0
      rw [List.map_cons, getWordString, List.length_cons, List.range_succ_eq_map, List.flatMap_cons]
      have e : (List.map Nat.succ (List.range W.length)).flatMap (fun i =>
          tab ((d :: ds).getD i 0) (fun r => ((w :: W).getD i []).take
            (((w :: W).getD i []).length - (d :: ds).getD i 0 + r + 1)))
          = (List.range W.length).flatMap (fun i => tab (ds.getD i 0) (fun r =>
            (W.getD i []).take ((W.getD i []).length - ds.getD i 0 + r + 1))) := by
        rw [List.flatMap_map]; simp
      rw [e]
      simp only [List.getD_cons_zero]
      by_cases hn : n < d
      · rw [if_pos (by omega), List.getElem?_append_left (by simpa using hn), tab_getElem?, if_pos hn]
        simp only
        congr 1
        have hok := hW w (by simp)
        rw [psplit_close_render w hok, sliceTo, if_neg (by omega)]
        have hlen : (w.map ('[' :: ·) ++ [[]]).length - (-((n : ℤ) - (d : ℤ))).toNat
            = w.length - d + n + 1 := by simp; omega
        rw [hlen, List.take_append_of_le_length (by simp; omega), ← List.map_take, pjoin_close]
        intro h
        have := congrArg List.length h
        simp only [List.length_take, List.length_nil] at this
        omega
      · rw [if_neg (by omega), List.getElem?_append_right (by simp; omega), tab_length]
        have := ih' (n - d)
        rw [← this]
        congr 1
        omega

theorem plan_label {W : List (List PStr)} (hW : ∀ w ∈ W, BlocksOK w) (n : ℕ) :
    getWordString (cachePlan (W.map render)) (W.map render) n
      = match (reported W)[n]? with
        | some s => .ok (render s)
        | none => .error .indexError := by
  have hg : ∀ i, i < W.length → (cachePlan (W.map render)).getD i 0 = planDepth (W.map render) i := by
    intro i hi
    simp [cachePlan, List.getD_eq_getElem?_getD, hi]
  have hle : ∀ i, (cachePlan (W.map render)).getD i 0 ≤ (W.getD i []).length := by
    intro i
    rcases Nat.lt_or_ge i W.length with hi | hi
    · rw [hg i hi]; exact planDepth_le hW i
    · have : (cachePlan (W.map render)).getD i 0 = 0 := by
        simp [cachePlan, List.getD_eq_getElem?_getD, hi]
      omega
  rw [getWordString_spec _ _ (by simp [cachePlan]) hW hle n]
  have : (List.range W.length).flatMap (fun i => tab ((cachePlan (W.map render)).getD i 0) (fun r =>
          (W.getD i []).take ((W.getD i []).length - (cachePlan (W.map render)).getD i 0 + r + 1)))
      = reported W := by
    unfold reported
    apply List.flatMap_congr
    intro i hi
    rw [hg i (by simpa using hi)]
    rfl
  rw [this]

theorem reported_length (W : List (List PStr)) :
    (reported W).length = planCount (cachePlan (W.map render)) := by
  simp only [reported, planCount, cachePlan, List.length_flatMap, List.length_map]
  congr 1
  apply List.map_congr_left
  intro i _
  simp [newOnes]

end Fruits
