import Verif.Props.Texts1
import Verif.Props.Sieve6
import Verif.Props.Fruit7

/-! # C104: are the labels of features unique? -/

namespace Fruits
set_option linter.unusedSectionVars false

/-! ### Sieves -/

section sieves
variable {R : Type} [Field R] [LinearOrder R] [IsStrictOrderedRing R] [FloorRing R]

/-- What is known about the texts of floats: different floats have different texts, no exclamation mark, no comma, and no float is
printed like an integer. -/
structure NumberText (T : FloatText R) : Prop where
  inj : ∀ a b, T.toText a = T.toText b → a = b
  no_bang : ∀ q, '!' ∉ T.toText q
  no_comma : ∀ q, ',' ∉ T.toText q
  not_int : ∀ q k, T.toText q ≠ showInt k

/-- The features of the sieve differ in what the label shows: segment sieves have pairwise different cuts and pairwise different
intervals of quantiles, `PPV` and `CPV` have at most one feature. -/
def Sieve.Apart : Sieve R → Prop
  | .seg _ p => p.cut.Nodup ∧ (p.q.zip p.q.tail).Nodup
  | .inc _ _ p => p.cut.Nodup ∧ (p.q.zip p.q.tail).Nodup
  | .ppv p => p.nfeatures ≤ 1
  | .cpv p => p.nfeatures ≤ 1
  | .wrapInc s _ _ => s.Apart
  | .wrapInt s => s.Apart

theorem Cut.text_inj {T : FloatText R} (hT : NumberText T) {a b : Cut R} (h : a.text T = b.text T) : a = b := by
  cases a <;> cases b <;> simp only [Cut.text, intText] at h
  · rw [showInt_inj h]
  · exact absurd h.symm (hT.not_int _ _)
  · exact absurd h (hT.not_int _ _)
  · rw [hT.inj _ _ h]

theorem Cut.text_bang {T : FloatText R} (hT : NumberText T) (a : Cut R) : '!' ∉ a.text T := by
  cases a
  · exact showInt_not (by decide) (by decide)
  · exact hT.no_bang _

theorem labelText_inj {T : FloatText R} (hT : NumberText T) {name : PStr} {c c' : Cut R} {a b a' b' : R}
    (h : labelText T name c a b = labelText T name c' a' b') : c = c' ∧ a = a' ∧ b = b' := by
  unfold labelText at h
  have e1 : "![".toList = ['!', '['] := rfl
  have e2 : ", ".toList = [',', ' '] := rfl
  rw [e1, e2] at h
  simp only [List.append_assoc, List.cons_append, List.nil_append] at h
  have h1 := List.append_cancel_left h
  simp only [List.cons.injEq, true_and] at h1
  obtain ⟨h2, h3⟩ := split_at (c := '!') (Cut.text_bang hT c) (Cut.text_bang hT c') h1
  simp only [List.cons.injEq, true_and] at h3
  obtain ⟨h4, h5⟩ := split_at (c := ',') (hT.no_comma a) (hT.no_comma a') h3
  simp only [List.cons.injEq, true_and] at h5
  exact ⟨Cut.text_inj hT h2, hT.inj _ _ h4, hT.inj _ _ (List.append_cancel_right h5)⟩

theorem Seg.label_inj {T : FloatText R} (hT : NumberText T) {p : Seg R} (hc : p.cut.Nodup) (hq : (p.q.zip p.q.tail).Nodup)
    {name : PStr} {i j : ℕ} {t : PStr} (hi : p.label T name i = .ok t) (hj : p.label T name j = .ok t) : i = j := by
  have key : ∀ {i : ℕ}, p.label T name i = .ok t → ∃ c a b, p.cut[i / (p.q.length - 1)]? = some c ∧
      (p.q.zip p.q.tail)[i % (p.q.length - 1)]? = some (a, b) ∧ t = labelText T name c a b := by
    intro i h
    unfold Seg.label at h
    split at h
    · cases h
    simp only at h
    rcases h1 : p.cut[i / (p.q.length - 1)]? with _ | c
    · rw [h1] at h; cases h
    rcases h2 : p.q[i % (p.q.length - 1)]? with _ | a
    · rw [h1, h2] at h; cases h
    rcases h3 : p.q[i % (p.q.length - 1) + 1]? with _ | b
    · rw [h1, h2, h3] at h; cases h
    rw [h1, h2, h3] at h
    refine ⟨c, a, b, rfl, ?_, (Except.ok.inj h).symm⟩
    rw [List.getElem?_zip_eq_some, List.getElem?_tail]
    exact ⟨h2, h3⟩
  obtain ⟨c, a, b, h1, h2, h3⟩ := key hi
  obtain ⟨c', a', b', h1', h2', h3'⟩ := key hj
  obtain ⟨rfl, rfl, rfl⟩ := labelText_inj hT (h3.symm.trans h3')
  have e1 := (List.getElem?_inj (by exact (List.getElem?_eq_some_iff.1 h1).1) hc).1 (h1.trans h1'.symm)
  have e2 := (List.getElem?_inj (by exact (List.getElem?_eq_some_iff.1 h2).1) hq).1 (h2.trans h2'.symm)
  rw [← Nat.div_add_mod i (p.q.length - 1), ← Nat.div_add_mod j (p.q.length - 1), e1, e2]

theorem map_ok_inj {α β : Type} {f : α → β} (hf : Function.Injective f) {a b : Except Err α} {t : β} (ha : a.map f = .ok t)
    (hb : b.map f = .ok t) : ∃ s, a = .ok s ∧ b = .ok s := by
  rcases a with e | a
  · simp [Except.map] at ha
  rcases b with e | b
  · simp [Except.map] at hb
  simp only [Except.map, Except.ok.injEq] at ha hb
  exact ⟨a, rfl, by rw [hf (hb.trans ha.symm)]⟩

/-- C104 for one sieve (what is true of it): if the features of a sieve differ in what the label shows (`Apart`), different features
have different labels. -/
theorem C104_sieve_partial {T : FloatText R} (hT : NumberText T) (pt : Bool → PPV R → PStr) : ∀ {s : Sieve R}, s.Apart →
    ∀ {i j : ℕ} {t : PStr}, (i : ℤ) < s.nfeatures → (j : ℤ) < s.nfeatures → s.label T pt i = .ok t → s.label T pt j = .ok t → i = j
  | .seg k p, ha, i, j, t, _, _, hi, hj => Seg.label_inj hT ha.1 ha.2 hi hj
  | .inc k n p, ha, i, j, t, _, _, hi, hj => by
    simp only [Sieve.label] at hi hj
    rcases h1 : p.label T k.name i with e | l
    · rw [h1] at hi; cases hi
    rcases h2 : p.label T k.name j with e | l'
    · rw [h2] at hj; cases hj
    rw [h1, ok_bind] at hi
    rw [h2, ok_bind] at hj
    have e : l = l' := by
      have := Except.ok.inj (hi.trans hj.symm)
      simp only [List.append_assoc] at this
      have len : ∀ l, (∃ i, p.label T k.name i = .ok l) → (l.take 3).length = 3 := by
        rintro l ⟨i, h⟩
        unfold Seg.label at h
        split at h
        · cases h
        simp only at h
        split at h
        · rw [← Except.ok.inj h]; cases k <;> simp [IncKind.name]
        · cases h
      have h3 := List.append_inj this (by rw [len l ⟨i, h1⟩, len l' ⟨j, h2⟩])
      have h4 := List.append_cancel_left h3.2
      have h5 := List.append_cancel_left h4
      have h6 := List.append_cancel_left h5
      rw [← List.take_append_drop 3 l, ← List.take_append_drop 3 l', h3.1, h6]
    subst e
    exact Seg.label_inj hT ha.1 ha.2 h1 h2
  | .ppv p, ha, i, j, t, hi, hj, _, _ => by simp only [Sieve.Apart, Sieve.nfeatures] at *; omega
  | .cpv p, ha, i, j, t, hi, hj, _, _ => by simp only [Sieve.Apart, Sieve.nfeatures] at *; omega
  | .wrapInc s d k, ha, i, j, t, hi, hj, h1, h2 => by
    rw [(C69_inc_labels T s d k pt _).2.2] at h1 h2
    obtain ⟨l, h3, h4⟩ := map_ok_inj (List.append_right_injective _) h1 h2
    exact C104_sieve_partial hT pt (s := s) ha hi hj h3 h4
  | .wrapInt s, ha, i, j, t, hi, hj, h1, h2 => by
    have e : ∀ i, (Sieve.wrapInt s).label T pt i = (s.label T pt i).map ("INT of ".toList ++ ·) := by
      intro i
      simp only [Sieve.label]
      cases s.label T pt i <;> rfl
    rw [e] at h1 h2
    obtain ⟨l, h3, h4⟩ := map_ok_inj (List.append_right_injective _) h1 h2
    exact C104_sieve_partial hT pt (s := s) ha hi hj h3 h4

/-- C104 fails for `PPV` with more than one quantile: `label(i)` is the text of the whole sieve for every `i`. -/
theorem C104_counterexample (T : FloatText ℚ) :
    let s : Sieve ℚ := .ppv { qc := [(1/4, false), (1/2, false)], sampleSize := 1, segments := false }
    s.nfeatures = 2 ∧ s.label T (PPV.str T) 0 = s.label T (PPV.str T) 1 ∧ ∃ t, s.label T (PPV.str T) 0 = .ok t :=
  ⟨rfl, rfl, _, rfl⟩
end sieves

/-! ### Slices -/

section slices
variable {R P I W S V : Type} [Field R] [LinearOrder R] [FloorRing R]

theorem arrow_inj : ∀ {ls ms : List PStr}, ls.length = ms.length → (∀ l ∈ ls, '>' ∉ l) → (∀ m ∈ ms, '>' ∉ m) →
    List.intercalate " -> ".toList ls = List.intercalate " -> ".toList ms → ls = ms
  | [], [], _, _, _, _ => rfl
  | [], _ :: _, h, _, _, _ => by simp at h
  | _ :: _, [], h, _, _, _ => by simp at h
  | [l], [m], _, _, _, h => by simpa [List.intercalate] using h
  | [_], _ :: _ :: _, h, _, _, _ => by simp at h
  | _ :: _ :: _, [_], h, _, _, _ => by simp at h
  | l :: l' :: ls, m :: m' :: ms, h, hl, hm, he => by
    have e : ∀ (a b : PStr) (cs : List PStr), List.intercalate " -> ".toList (a :: b :: cs) =
        (a ++ [' ', '-']) ++ '>' :: ' ' :: List.intercalate " -> ".toList (b :: cs) := by
      intro a b cs; simp [List.intercalate]
    rw [e, e] at he
    obtain ⟨h1, h2⟩ := split_at (c := '>') (by simp [hl l (by simp)]) (by simp [hm m (by simp)]) he
    simp only [List.cons.injEq, true_and] at h2
    have h3 := arrow_inj (ls := l' :: ls) (ms := m' :: ms) (by simpa using h) (fun x hx => hl x (List.mem_cons_of_mem _ hx))
      (fun x hx => hm x (List.mem_cons_of_mem _ hx)) h2
    rw [List.append_cancel_right h1, h3]

theorem zip_labels_inj (K : Sem R P I W S V) (v : Bool) {is : List (I × W)}
    (hinj : ∀ i ∈ is, ∀ a b l, shortWord K v i a = .ok l → shortWord K v i b = .ok l → a = b) :
    ∀ {t t' : List ℕ} {ls : List PStr}, t.length = is.length → t'.length = is.length →
    ((List.zip is t).mapM fun p => shortWord K v p.1 p.2) = .ok ls →
    ((List.zip is t').mapM fun p => shortWord K v p.1 p.2) = .ok ls → t = t' := by
  induction is with
  | nil => intro t t' ls h h' _ _; simp at h h'; rw [h, h']
  | cons i is ih =>
    intro t t' ls h h' h1 h2
    rcases t with _ | ⟨a, t⟩
    · simp at h
    rcases t' with _ | ⟨b, t'⟩
    · simp at h'
    rw [List.zip_cons_cons] at h1 h2
    obtain ⟨x, xs, h3, h4, rfl⟩ := mapM_cons_ok h1
    obtain ⟨y, ys, h5, h6, h7⟩ := mapM_cons_ok h2
    simp only [List.cons.injEq] at h7
    obtain ⟨rfl, rfl⟩ := h7
    rw [hinj i (by simp) a b x h3 h5,
      ih (fun j hj => hinj j (by simp [hj])) (by simpa using h) (by simpa using h') h4 h6]

theorem tuples_nodup (ns : List ℕ) : (tuples ns).Nodup :=
  List.Nodup.of_map (rank ns) (by rw [rank_tuples]; exact List.nodup_range)

theorem blockOf_nodup (N : List ℤ) : (blockOf N).Nodup := by
  induction N with
  | nil => simp [blockOf]
  | cons n N ih =>
    rw [blockOf_cons, List.nodup_append]
    refine ⟨List.Nodup.map (fun a b h => by simpa using h) List.nodup_range,
      List.Nodup.map (fun a b h => by ext <;> simp_all) ih, ?_⟩
    intro a ha b hb h
    simp only [List.mem_map] at ha hb
    obtain ⟨x, _, rfl⟩ := ha
    obtain ⟨y, _, rfl⟩ := hb
    simp at h

theorem blockOf_lt {N : List ℤ} {p : ℕ × ℕ} (h : p ∈ blockOf N) : ∃ n, N[p.1]? = some n ∧ (p.2 : ℤ) < n := by
  simp only [blockOf, List.mem_flatMap, List.mem_range, List.mem_map] at h
  obtain ⟨j, hj, q, hq, rfl⟩ := h
  refine ⟨N[j], List.getElem?_eq_getElem hj, ?_⟩
  rw [List.getD_eq_getElem?_getD, List.getElem?_eq_getElem hj] at hq
  simp only [Option.getD_some] at hq ⊢
  omega

/-- **C104 (what is true of it).** In a slice whose iterated sums have different labels and whose features of sieves have different
labels (both without the separators `>` and `|` that `label` inserts between them), different features have different labels.
Missing: sieves or words that print alike, such as the features of a `PPV` with several quantiles. -/
theorem C104_slice_partial {K : Sem R P I W S V} {w : World R P I W S} {s : ℕ} (hiss : (w.slice s).iss ≠ [])
    (hpos : ∀ a ∈ (w.slice s).sieves, 0 ≤ K.sieveN (w.sieve a)) (v : Bool) {n : ℤ} (hn : sliceN K w s = .ok n)
    (hw : ∀ i ∈ (w.slice s).iss, ∀ k k' l, shortWord K v (w.issAt i) k = .ok l → shortWord K v (w.issAt i) k' = .ok l → k = k')
    (hsep : ∀ i ∈ (w.slice s).iss, ∀ k l, shortWord K v (w.issAt i) k = .ok l → '>' ∉ l ∧ '|' ∉ l)
    (hs : ∀ j j' a a' : ℕ, (w.slice s).sieves[j]? = some a → (w.slice s).sieves[j']? = some a' → ∀ (q q' : ℕ) (l : PStr),
      (q : ℤ) < K.sieveN (w.sieve a) → (q' : ℤ) < K.sieveN (w.sieve a') →
      K.sieveLabel (w.sieve a) q = .ok l → K.sieveLabel (w.sieve a') q' = .ok l → j = j' ∧ q = q')
    {c c' : ℕ} (hc : (c : ℤ) < n) (hc' : (c' : ℤ) < n) {t : PStr}
    (h : sliceLabel K w v .features s c = .ok t) (h' : sliceLabel K w v .features s c' = .ok t) : c = c' := by
  rcases hcols : sliceColumns K w s with e | cols
  · unfold sliceColumns at hcols
    rcases hns : sliceCounts K w s with e' | ns
    · unfold sliceCounts at hns
      rw [mapM_map] at hns
      unfold sliceN sliceCount at hn
      rw [hns] at hn
      cases hn
    · rw [hns] at hcols
      cases hcols
  obtain ⟨hlen, hlab⟩ := sliceLabel_spec hiss hpos v hcols
  rw [hn, Except.ok.injEq] at hlen
  subst hlen
  obtain ⟨ns, hns, hceq⟩ := sliceColumns_eq hcols
  set blk := blockOf (((w.slice s).sieves.map w.sieve).map K.sieveN) with hblk
  have hnl : ns.length = (w.slice s).iss.length := by
    unfold sliceCounts at hns
    rw [mapM_length hns, List.length_map]
  have key : ∀ c : ℕ, (c : ℤ) < cols.length → sliceLabel K w v .features s c = .ok t →
      ∃ tu p ls a l, (tuples ns)[c / blk.length]? = some tu ∧ blk[c % blk.length]? = some p ∧ tu.length = (w.slice s).iss.length ∧
        ((List.zip ((w.slice s).iss.map w.issAt) tu).mapM fun p => shortWord K v p.1 p.2) = .ok ls ∧
        (w.slice s).sieves[p.1]? = some a ∧ K.sieveLabel (w.sieve a) p.2 = .ok l ∧ (p.2 : ℤ) < K.sieveN (w.sieve a) ∧
        t = prepPart K w v s ++ List.intercalate " -> ".toList ls ++ " | ".toList ++ l := by
    intro c hc h
    have hc0 : c < cols.length := by exact_mod_cast hc
    have hcol := List.getElem?_eq_getElem hc0
    rw [hlab c _ hcol] at h
    generalize cols[c] = col at hcol h
    rw [hceq, flatMap_getElem_const (M := blk.length) _ (by simp)] at hcol
    rcases ht : (tuples ns)[c / blk.length]? with _ | tu
    · rw [ht] at hcol; simp at hcol
    rw [ht, Option.bind_some, List.getElem?_map] at hcol
    rcases hp : blk[c % blk.length]? with _ | p
    · rw [hp] at hcol; simp at hcol
    rw [hp, Option.map_some, Option.some.injEq] at hcol
    subst hcol
    unfold colLabel wordPart at h
    simp only at h
    rcases hz : ((List.zip ((w.slice s).iss.map w.issAt) tu).mapM fun p => shortWord K v p.1 p.2) with e | ls
    · rw [hz] at h; cases h
    rw [hz] at h
    simp only [bind, Except.bind, pure, Except.pure] at h
    rcases ha : (w.slice s).sieves[p.1]? with _ | a
    · rw [ha] at h; cases h
    rw [ha] at h
    simp only at h
    rcases hl : K.sieveLabel (w.sieve a) p.2 with e | l
    · rw [hl] at h; cases h
    rw [hl] at h
    obtain ⟨m, hm1, hm2⟩ := blockOf_lt (List.mem_of_getElem? hp)
    refine ⟨tu, p, ls, a, l, rfl, rfl, ?_, hz, ha, hl, ?_, (Except.ok.inj h).symm⟩
    · rw [tuples_len_of (List.mem_of_getElem? ht), hnl]
    · rw [List.getElem?_map, List.getElem?_map, ha] at hm1
      simp only [Option.map_some, Option.some.injEq] at hm1
      rw [hm1]; exact hm2
  obtain ⟨tu, p, ls, a, l, k1, k2, k3, k4, k5, k6, k7, k8⟩ := key c hc h
  obtain ⟨tu', p', ls', a', l', m1, m2, m3, m4, m5, m6, m7, m8⟩ := key c' hc' h'
  have hls : ∀ {tu : List ℕ} {ls : List PStr},
      ((List.zip ((w.slice s).iss.map w.issAt) tu).mapM fun p => shortWord K v p.1 p.2) = .ok ls →
      ∀ x ∈ ls, '>' ∉ x ∧ '|' ∉ x := by
    intro tu ls h x hx
    obtain ⟨q, hq, hqx⟩ := mapM_mem h x hx
    obtain ⟨i, hi, hi'⟩ := List.mem_map.1 (List.of_mem_zip hq).1
    exact hsep i hi q.2 x (by rw [hi']; exact hqx)
  have hbar : ∀ {ls : List PStr}, (∀ x ∈ ls, '>' ∉ x ∧ '|' ∉ x) → '|' ∉ List.intercalate " -> ".toList ls := by
    intro ls
    induction ls with
    | nil => simp
    | cons x ls ih =>
      intro hx
      rcases ls with _ | ⟨y, ls⟩
      · simpa [List.intercalate] using (hx x (by simp)).2
      · have e : List.intercalate " -> ".toList (x :: y :: ls) = x ++ (" -> ".toList ++ List.intercalate " -> ".toList (y :: ls)) := by
          simp [List.intercalate]
        rw [e, List.mem_append, List.mem_append]
        rintro (h | h | h)
        · exact (hx x (by simp)).2 h
        · exact absurd h (by decide)
        · exact ih (fun z hz => hx z (by simp [hz])) h
  have hteq := k8.symm.trans m8
  have e1 : " | ".toList = [' ', '|', ' '] := rfl
  rw [List.append_assoc, List.append_assoc, List.append_assoc, List.append_assoc] at hteq
  have h1 := List.append_cancel_left hteq
  rw [e1] at h1
  have e2 : ∀ x y : PStr, x ++ ([' ', '|', ' '] ++ y) = (x ++ [' ']) ++ '|' :: ' ' :: y := by intro x y; simp
  rw [e2, e2] at h1
  obtain ⟨h2, h3⟩ := split_at (c := '|')
    (by rw [List.mem_append, not_or]; exact ⟨hbar (hls k4), by decide⟩)
    (by rw [List.mem_append, not_or]; exact ⟨hbar (hls m4), by decide⟩) h1
  simp only [List.cons.injEq, true_and] at h3
  have h4 := List.append_cancel_right h2
  have hlen2 : ls.length = ls'.length := by
    rw [mapM_length k4, mapM_length m4, List.length_zip, List.length_zip, k3, m3]
  have h5 := arrow_inj hlen2 (fun x hx => (hls k4 x hx).1) (fun x hx => (hls m4 x hx).1) h4
  subst h5 h3
  have h6 : tu = tu' := zip_labels_inj K v (is := (w.slice s).iss.map w.issAt)
    (by
      intro i hi
      obtain ⟨i', hi', rfl⟩ := List.mem_map.1 hi
      exact hw i' hi') (by simpa using k3) (by simpa using m3) k4 m4
  obtain ⟨h7, h8⟩ := hs _ _ _ _ k5 m5 _ _ _ k7 m7 k6 m6
  have h9 : p = p' := Prod.ext h7 h8
  subst h6 h9
  have e3 := (List.getElem?_inj (List.getElem?_eq_some_iff.1 k1).1 (tuples_nodup ns)).1 (k1.trans m1.symm)
  have e4 := (List.getElem?_inj (List.getElem?_eq_some_iff.1 k2).1 (blockOf_nodup _)).1 (k2.trans m2.symm)
  rw [← Nat.div_add_mod c blk.length, ← Nat.div_add_mod c' blk.length, e3, e4]
end slices

end Fruits
