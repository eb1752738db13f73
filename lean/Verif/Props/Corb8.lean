import Verif.CorbLoad
import Verif.Props.Corb3
import Mathlib.Data.Finset.Card
import Mathlib.Data.Finset.Dedup

/-! # Loading datasets: class labels, series, cache files (C131 to C135) -/

namespace Fruits
set_option linter.unusedSectionVars false
variable {R L : Type} [Field R] [LinearOrder R] [FloorRing R] [DecidableEq L]

/-! ### C131: class labels -/

theorem collectLabels_append : ∀ (as bs ys : List L), collectLabels ys (as ++ bs) = collectLabels (collectLabels ys as) bs
  | [], _, _ => rfl
  | a :: as, bs, ys => by
    rw [List.cons_append, collectLabels, collectLabels, collectLabels_append]

theorem collectLabels_prefix : ∀ (ls ys : List L), ∃ rest, collectLabels ys ls = ys ++ rest
  | [], ys => ⟨[], by simp [collectLabels]⟩
  | l :: ls, ys => by
    rw [collectLabels]
    obtain ⟨rest, h⟩ := collectLabels_prefix ls (if l ∈ ys then ys else ys ++ [l])
    rw [h]
    split
    · exact ⟨rest, rfl⟩
    · exact ⟨l :: rest, by simp⟩

theorem collectLabels_nodup : ∀ (ls ys : List L), ys.Nodup → (collectLabels ys ls).Nodup
  | [], _, h => h
  | l :: ls, ys, h => by
    rw [collectLabels]
    apply collectLabels_nodup
    split
    · exact h
    · rename_i hl
      exact List.nodup_append.2 ⟨h, by simp, by intro a ha b hb; simp at hb; subst hb; intro e; exact hl (e ▸ ha)⟩

theorem mem_collectLabels {l : L} : ∀ (ls ys : List L), l ∈ collectLabels ys ls ↔ l ∈ ys ∨ l ∈ ls
  | [], _ => by simp [collectLabels]
  | x :: ls, ys => by
    rw [collectLabels, mem_collectLabels ls]
    split
    · rename_i hx
      simp only [List.mem_cons]
      constructor
      · tauto
      · rintro (h | rfl | h)
        · exact .inl h
        · exact .inl hx
        · exact .inr h
    · simp only [List.mem_append, List.mem_cons, List.not_mem_nil, or_false]
      tauto

theorem length_collectLabels (ls : List L) : (collectLabels [] ls).length = ls.toFinset.card := by
  rw [← List.toFinset_card_of_nodup (collectLabels_nodup ls [] .nil)]
  congr 1
  ext l
  simp [mem_collectLabels]

theorem lookupLabel_spec {ys : List L} (h : ys.Nodup) {i : ℕ} {l : L} (hi : ys[i]? = some l) : lookupLabel (labelDict ys) l = .ok (i : ℤ) := by
  have : ((labelDict ys).find? fun p => p.1 = l) = some (l, i) := by
    have hmem : (l, i) ∈ labelDict ys := by
      rw [labelDict, List.mem_reverse, List.mem_zipIdx_iff_getElem?]; exact hi
    rcases hf : ((labelDict ys).find? fun p => p.1 = l) with _ | p
    · have := List.find?_eq_none.1 hf _ hmem
      simp at this
    · have h1 := List.find?_some hf
      have h2 := List.mem_of_find?_eq_some hf
      rw [labelDict, List.mem_reverse, List.mem_zipIdx_iff_getElem?] at h2
      simp only [decide_eq_true_eq] at h1
      rw [h1] at h2
      obtain ⟨a1, a2⟩ := List.getElem?_eq_some_iff.1 h2
      obtain ⟨b1, b2⟩ := List.getElem?_eq_some_iff.1 hi
      have : p.2 = i := (List.Nodup.getElem_inj_iff h).1 (a2.trans b2.symm)
      rw [hf, show p = (l, i) from Prod.ext h1 this]
  rw [lookupLabel, this]

theorem lookupLabel_inj {ys : List L} (h : ys.Nodup) {a b : L} (ha : a ∈ ys) (hb : b ∈ ys) :
    lookupLabel (labelDict ys) a = lookupLabel (labelDict ys) b ↔ a = b := by
  obtain ⟨i, hi⟩ := List.mem_iff_getElem?.1 ha
  obtain ⟨j, hj⟩ := List.mem_iff_getElem?.1 hb
  rw [lookupLabel_spec h hi, lookupLabel_spec h hj]
  constructor
  · intro e
    have : i = j := by exact_mod_cast Except.ok.inj e
    subst this
    exact Option.some.inj (hi.symm.trans hj)
  · rintro rfl
    obtain ⟨a1, a2⟩ := List.getElem?_eq_some_iff.1 hi
    obtain ⟨b1, b2⟩ := List.getElem?_eq_some_iff.1 hj
    rw [(List.Nodup.getElem_inj_iff h).1 (a2.trans b2.symm)]

/-- What `fromRecords` does with the labels. -/
theorem fromRecords_labels {train test : List (Record R L)} {D : Loaded R} (h : fromRecords train test = .ok D) :
    let ys := collectLabels [] ((train ++ test).map Record.label)
    List.Forall₂ (fun r y => lookupLabel (labelDict ys) r.label = .ok y) (train ++ test) (D.ytrain ++ D.ytest) ∧
      D.ytrain.length = train.length ∧ D.ytest.length = test.length := by
  intro ys
  have hys : collectLabels (collectLabels [] (train.map Record.label)) (test.map Record.label) = ys := by
    rw [← collectLabels_append, ← List.map_append]
  unfold fromRecords at h
  dsimp only at h
  rcases h1 : firstShape train with e | s
  · rw [h1] at h; simp at h
  rcases h2 : firstShape test with e | s'
  · rw [h1, h2] at h; simp at h
  rcases h3 : (train.mapM fun r => assignRow s r.series) with e | X1
  · rw [h1, h2, ok_bind, ok_bind, h3] at h; simp at h
  rcases h4 : (test.mapM fun r => assignRow s' r.series) with e | X2
  · rw [h1, h2, ok_bind, ok_bind, h3, ok_bind, h4] at h; simp at h
  rw [h1, h2, ok_bind, ok_bind, h3, ok_bind, h4, ok_bind, hys] at h
  rcases h5 : (train.mapM fun r => lookupLabel (labelDict ys) r.label) with e | y1
  · rw [h5] at h; simp at h
  rcases h6 : (test.mapM fun r => lookupLabel (labelDict ys) r.label) with e | y2
  · rw [h5, h6] at h; simp at h
  rw [h5, h6] at h
  obtain rfl := Except.ok.inj h
  have e5 := (mapM_ok_iff).1 h5
  have e6 := (mapM_ok_iff).1 h6
  exact ⟨List.rel_append e5 e6, e5.length_eq.symm, e6.length_eq.symm⟩

/-- **C131.**  The classes that `load` returns for `.arff` files: one number for each record; two records, of the training set, of the test set or
one of each, get the same number if and only if they have the same label; and the first record with a label (training set first) gets
the number of labels seen before, so the numbers are 0, 1, 2, … in order of appearance. -/
theorem C131_labels {train test : List (Record R L)} {D : Loaded R} (h : fromRecords train test = .ok D) :
    D.ytrain.length = train.length ∧ D.ytest.length = test.length ∧
    (∀ (p q : ℕ) (r s : Record R L) (yp yq : ℤ), (train ++ test)[p]? = some r → (train ++ test)[q]? = some s → (D.ytrain ++ D.ytest)[p]? = some yp →
      (D.ytrain ++ D.ytest)[q]? = some yq → (yp = yq ↔ r.label = s.label)) ∧
    ∀ (p : ℕ) (r : Record R L) (y : ℤ), (train ++ test)[p]? = some r → (D.ytrain ++ D.ytest)[p]? = some y →
      r.label ∉ ((train ++ test).take p).map Record.label → y = ((((train ++ test).take p).map Record.label).toFinset.card : ℤ) := by
  obtain ⟨hrel, h1, h2⟩ := fromRecords_labels h
  set ys := collectLabels [] ((train ++ test).map Record.label) with hys
  have hnd : ys.Nodup := collectLabels_nodup _ _ .nil
  have hmem : ∀ (p : ℕ) (r : Record R L), (train ++ test)[p]? = some r → r.label ∈ ys := by
    intro p r hp
    rw [hys, mem_collectLabels]
    exact .inr (List.mem_map.2 ⟨r, List.mem_of_getElem? hp, rfl⟩)
  have hlook : ∀ (p : ℕ) (r : Record R L) (y : ℤ), (train ++ test)[p]? = some r → (D.ytrain ++ D.ytest)[p]? = some y → lookupLabel (labelDict ys) r.label = .ok y := by
    intro p r y hp hy
    obtain ⟨a1, a2⟩ := List.getElem?_eq_some_iff.1 hp
    obtain ⟨b1, b2⟩ := List.getElem?_eq_some_iff.1 hy
    have := (List.forall₂_iff_get.1 hrel).2 p a1 b1
    simp only [List.get_eq_getElem, a2, b2] at this
    exact this
  refine ⟨h1, h2, ?_, ?_⟩
  · intro p q r s yp yq hp hq hyp hyq
    rw [← lookupLabel_inj hnd (hmem p r hp) (hmem q s hq), hlook p r yp hp hyp, hlook q s yq hq hyq]
    exact ⟨fun e => by rw [e], fun e => Except.ok.inj e⟩
  · intro p r y hp hy hnew
    obtain ⟨a1, a2⟩ := List.getElem?_eq_some_iff.1 hp
    have hsplit : (train ++ test).map Record.label =
        ((train ++ test).take p).map Record.label ++ r.label :: ((train ++ test).drop (p + 1)).map Record.label := by
      rw [← a2, ← List.map_cons (f := Record.label), ← List.drop_eq_getElem_cons, ← List.map_append, List.take_append_drop]
    have hget : ys[(((train ++ test).take p).map Record.label).toFinset.card]? = some r.label := by
      rw [hys, hsplit, collectLabels_append, collectLabels, if_neg (by rw [mem_collectLabels]; simpa using hnew)]
      obtain ⟨rest, hr⟩ := collectLabels_prefix (((train ++ test).drop (p + 1)).map Record.label)
        (collectLabels [] (((train ++ test).take p).map Record.label) ++ [r.label])
      rw [hr, ← length_collectLabels, List.append_assoc, List.getElem?_append_right (by omega)]
      simp
    have := lookupLabel_spec hnd hget
    rw [hlook p r y hp hy] at this
    exact Except.ok.inj this

example : (fromRecords (R := ℚ) [⟨[[.finite 1]], 'b'⟩, ⟨[[.finite 2]], 'a'⟩, ⟨[[.nan]], 'b'⟩] [⟨[[.finite 3]], 'c'⟩, ⟨[[.finite 4]], 'a'⟩]) =
    .ok ⟨[[[.finite 1]], [[.finite 2]], [[.nan]]], [0, 1, 0], [[[.finite 3]], [[.finite 4]]], [2, 1]⟩ := by decide +kernel

/-! ### C132: series of records -/

theorem assignRow_same {d n : ℕ} {Z : List (List (Fl R))} (hd : Z.length = d) (hd0 : 0 < d) (hn : ∀ x ∈ Z, x.length = n) : assignRow (d, n) Z = .ok Z := by
  match Z, hd, hn with
  | [], hd, _ => exact absurd hd (by simp; omega)
  | x :: Z, hd, hn =>
    have hx := hn x (by simp)
    rw [assignRow, if_pos]
    · congr 1
      symm
      refine eq_tab hd fun j hj => ?_
      refine eq_tab (hn _ (List.getElem_mem hj)) fun t ht => ?_
      have hj' : (if (x :: Z).length = 1 then 0 else j) = j := by split <;> omega
      have ht' : (if x.length = 1 then 0 else t) = t := by
        have := hn _ (List.getElem_mem hj)
        split <;> omega
      rw [hj', ht']
      simp only [List.getD_eq_getElem?_getD, List.getElem?_eq_getElem hj, List.getElem?_eq_getElem ht, Option.getD_some]
    · simp only [Bool.and_eq_true, Bool.or_eq_true, decide_eq_true_eq, List.all_eq_true]
      exact ⟨⟨fun y hy => by rw [hn y hy, hx], .inl hd⟩, .inl hx⟩

/-- **C132.**  If all records of the training file have the same shape, and so have those of the test file, `load` returns exactly their series (before
NaNs are replaced). -/
theorem C132_records {train test : List (Record R L)} {d n d' n' : ℕ} (h1 : train ≠ []) (h2 : test ≠ []) (hd : 0 < d) (hd' : 0 < d')
    (ht : ∀ r ∈ train, r.series.length = d ∧ ∀ x ∈ r.series, x.length = n)
    (ht' : ∀ r ∈ test, r.series.length = d' ∧ ∀ x ∈ r.series, x.length = n') :
    ∃ D, fromRecords train test = .ok D ∧ D.Xtrain = train.map Record.series ∧ D.Xtest = test.map Record.series := by
  have shape : ∀ {rs : List (Record R L)} {d n : ℕ}, rs ≠ [] → 0 < d → (∀ r ∈ rs, r.series.length = d ∧ ∀ x ∈ r.series, x.length = n) →
      firstShape rs = .ok (d, n) := by
    intro rs d n h0 hd h
    match rs, h0, h with
    | ⟨[], l⟩ :: _, _, h => have := (h _ List.mem_cons_self).1; simp at this; omega
    | ⟨x :: xs, l⟩ :: rs, _, h =>
      have := h _ (List.mem_cons_self)
      simp only [firstShape]
      rw [this.1, this.2 x (by simp)]
  have rows : ∀ {rs : List (Record R L)} {d n : ℕ}, 0 < d → (∀ r ∈ rs, r.series.length = d ∧ ∀ x ∈ r.series, x.length = n) →
      (rs.mapM fun r => assignRow (d, n) r.series) = .ok (rs.map Record.series) := by
    intro rs d n hd h
    induction rs with
    | nil => rfl
    | cons r rs ih =>
      obtain ⟨a, b⟩ := h r (by simp)
      rw [List.mapM_cons, assignRow_same a hd b, ok_bind, ih fun r hr => h r (by simp [hr])]
      rfl
  have labels : ∀ {ys : List L} {rs : List (Record R L)}, ys.Nodup → (∀ r ∈ rs, r.label ∈ ys) →
      ∃ y, (rs.mapM fun r => lookupLabel (labelDict ys) r.label) = .ok y := by
    intro ys rs hn h
    induction rs with
    | nil => exact ⟨[], rfl⟩
    | cons r rs ih =>
      obtain ⟨y, hy⟩ := ih fun r hr => h r (by simp [hr])
      obtain ⟨i, hi⟩ := List.mem_iff_getElem?.1 (h r (by simp))
      exact ⟨(i : ℤ) :: y, by rw [List.mapM_cons, lookupLabel_spec hn hi, ok_bind, hy]; rfl⟩
  have hys : collectLabels (collectLabels [] (train.map Record.label)) (test.map Record.label) =
      collectLabels [] ((train ++ test).map Record.label) := by rw [← collectLabels_append, ← List.map_append]
  have hnd : (collectLabels [] ((train ++ test).map Record.label)).Nodup := collectLabels_nodup _ _ .nil
  obtain ⟨y, hy⟩ := labels (rs := train) hnd fun r hr => by
    rw [mem_collectLabels]; exact .inr (List.mem_map.2 ⟨r, by simp [hr], rfl⟩)
  obtain ⟨y', hy'⟩ := labels (rs := test) hnd fun r hr => by
    rw [mem_collectLabels]; exact .inr (List.mem_map.2 ⟨r, by simp [hr], rfl⟩)
  refine ⟨⟨train.map Record.series, y, test.map Record.series, y'⟩, ?_, rfl, rfl⟩
  unfold fromRecords
  dsimp only
  rw [shape h1 hd ht, shape h2 hd' ht', ok_bind, ok_bind, rows hd ht, ok_bind, rows hd' ht', ok_bind, hys, hy, ok_bind, hy', ok_bind]
  rfl

/-- Records of other shapes are not always refused: a record with one dimension is repeated silently. -/
theorem C132_repeated : fromRecords (R := ℚ) [⟨[[.finite 1], [.finite 2]], 'a'⟩, ⟨[[.finite 3]], 'a'⟩] [⟨[[.finite 4]], 'a'⟩] =
    .ok ⟨[[[.finite 1], [.finite 2]], [[.finite 3], [.finite 3]]], [0, 0], [[[.finite 4]]], [0]⟩ := by decide +kernel

/-! ### C133: text files -/

theorem pwords_blank : ∀ (b s : PStr), (∀ c ∈ b, isBlank c = true) → pwords (b ++ s) = pwords s
  | [], _, _ => rfl
  | c :: b, s, h => by
    rw [List.cons_append, pwords, if_pos (h c (by simp))]
    exact pwords_blank b s fun c hc => h c (by simp [hc])

theorem pwords_word : ∀ (t s : PStr), t ≠ [] → (∀ c ∈ t, isBlank c = false) → atBlank s = true → pwords (t ++ s) = t :: pwords s
  | [c], s, _, h, hs => by
    rw [List.singleton_append, pwords, if_neg (by simp [h c (by simp)]), if_pos hs]
  | c :: d :: t, s, _, h, hs => by
    have ih := pwords_word (d :: t) s (by simp) (fun x hx => h x (by simp [hx])) hs
    rw [List.cons_append, pwords, if_neg (by simp [h c (by simp)]), if_neg (by simp [atBlank, h d (by simp)]), ih]

/-- A field of a text file: no separators and no comment sign. -/
def TextField (t : PStr) : Prop := t ≠ [] ∧ ∀ c ∈ t, isBlank c = false ∧ c ≠ ',' ∧ c ≠ '#'

/-- A line with the fields separated by commas. -/
def commaLine (ts : List PStr) : PStr := pjoin ',' ts

/-- A line with white space before each field (at least one character between two fields) and at the end. -/
def blankLine (ts : List (PStr × PStr)) (last : PStr) : PStr := (ts.flatMap fun p => p.1 ++ p.2) ++ last

theorem psplit_commaLine : ∀ {ts : List PStr}, ts ≠ [] → (∀ t ∈ ts, ',' ∉ t) → psplit ',' (commaLine ts) = ts
  | [t], _, h => psplit_notMem _ _ (h t (by simp))
  | t :: u :: ts, _, h => by
    rw [commaLine, pjoin, psplit_append _ _ _ (h t (by simp))]
    have := psplit_commaLine (ts := u :: ts) (by simp) fun x hx => h x (by simp [hx])
    rw [commaLine] at this
    rw [this]

theorem pwords_blankLine {last : PStr} (hl : ∀ c ∈ last, isBlank c = true) : ∀ (ts : List (PStr × PStr)),
    (∀ p ∈ ts, (∀ c ∈ p.1, isBlank c = true) ∧ TextField p.2) → (∀ p ∈ ts.drop 1, p.1 ≠ []) → pwords (blankLine ts last) = ts.map Prod.snd
  | [], _, _ => by
    have := pwords_blank last [] hl
    simpa [blankLine, pwords] using this
  | p :: ts, h, hne => by
    have ih := pwords_blankLine hl ts (fun q hq => h q (by simp [hq])) fun q hq => hne q (by
      simp only [List.drop_one, List.tail_cons]; exact List.mem_of_mem_drop hq)
    obtain ⟨h1, h2, h3⟩ := h p (by simp)
    have hb : blankLine (p :: ts) last = p.1 ++ (p.2 ++ blankLine ts last) := by simp [blankLine, List.append_assoc]
    have hs : atBlank (blankLine ts last) = true := by
      match ts, hne, h with
      | [], _, _ =>
        cases last with
        | nil => rfl
        | cons c l => exact hl c (by simp)
      | q :: ts, hne, h =>
        have hq : q.1 ≠ [] := hne q (by simp)
        obtain ⟨c, b, hc⟩ := List.exists_cons_of_ne_nil hq
        have := (h q (by simp)).1 c (by rw [hc]; simp)
        simp [blankLine, hc, atBlank, this]
    rw [hb, pwords_blank _ _ h1, pwords_word _ _ h2 (fun c hc => (h3 c hc).1) hs, ih]
    rfl

/-- The line has the fields `ts`: separated by commas, or by white space. -/
def LineOf (comma : Bool) (line : PStr) (ts : List PStr) : Prop :=
  if comma then line = commaLine ts
  else ∃ (bs : List PStr) (last : PStr), bs.length = ts.length ∧ (∀ b ∈ bs, ∀ c ∈ b, isBlank c = true) ∧ (∀ c ∈ last, isBlank c = true) ∧
    (∀ b ∈ bs.drop 1, b ≠ []) ∧ line = blankLine (bs.zip ts) last

theorem commaLine_chars {ts : List PStr} {c : Char} (h : c ∈ commaLine ts) : c = ',' ∨ ∃ t ∈ ts, c ∈ t := by
  induction ts with
  | nil => simp [commaLine, pjoin] at h
  | cons t ts ih =>
    cases ts with
    | nil => exact .inr ⟨t, by simp, by simpa [commaLine, pjoin] using h⟩
    | cons u ts =>
      rw [commaLine, pjoin, List.mem_append, List.mem_cons] at h
      rcases h with h | h | h
      · exact .inr ⟨t, by simp, h⟩
      · exact .inl h
      · rcases ih h with h | ⟨v, hv, h⟩
        · exact .inl h
        · exact .inr ⟨v, by simp [hv], h⟩

theorem blankLine_chars {bs : List (PStr × PStr)} {last : PStr} {c : Char} (h : c ∈ blankLine bs last) :
    (∃ p ∈ bs, c ∈ p.1 ∨ c ∈ p.2) ∨ c ∈ last := by
  rw [blankLine, List.mem_append, List.mem_flatMap] at h
  rcases h with ⟨p, hp, h⟩ | h
  · exact .inl ⟨p, hp, List.mem_append.1 h⟩
  · exact .inr h

theorem takeWhile_id {p : Char → Bool} {s : PStr} (h : ∀ c ∈ s, p c = true) : s.takeWhile p = s := by
  induction s with
  | nil => rfl
  | cons c s ih => rw [List.takeWhile_cons, if_pos (h c (by simp)), ih fun c hc => h c (by simp [hc])]

/-- The reader finds the fields of a line. -/
theorem LineOf.fields {comma : Bool} {line : PStr} {ts : List PStr} (h : LineOf comma line ts) (hts : ∀ t ∈ ts, TextField t) (hne : ts ≠ []) :
    dropComment line = line ∧ fieldsOf comma line = ts ∧ (comma = true → line ≠ []) ∧ (comma = false → pwords line ≠ []) ∧
      (comma = false → ',' ∉ line) := by
  have hblank : ∀ c : Char, isBlank c = true → c ≠ '#' ∧ c ≠ ',' := by
    intro c hc
    constructor <;> rintro rfl <;> revert hc <;> decide
  cases comma with
  | true =>
    have h : line = commaLine ts := h
    have hchar : ∀ c ∈ line, c ≠ '#' := by
      intro c hc
      rw [h] at hc
      rcases commaLine_chars hc with rfl | ⟨t, ht, hc⟩
      · decide
      · exact ((hts t ht).2 c hc).2.2
    have hf : psplit ',' line = ts := by
      rw [h]
      exact psplit_commaLine hne fun t ht hc => ((hts t ht).2 _ hc).2.1 rfl
    refine ⟨takeWhile_id fun c hc => by simpa using hchar c hc, hf, fun _ h0 => ?_, by simp, by simp⟩
    rw [h0] at hf
    match ts, hf, hts with
    | _, rfl, hts => exact (hts [] (by simp [psplit])).1 rfl
  | false =>
    obtain ⟨bs, last, hlen, hb, hl, hsep, h⟩ := h
    have hin : ∀ p ∈ bs.zip ts, p.1 ∈ bs ∧ p.2 ∈ ts := fun p hp => ⟨(List.of_mem_zip hp).1, (List.of_mem_zip hp).2⟩
    have hchar : ∀ c ∈ line, c ≠ '#' ∧ c ≠ ',' := by
      intro c hc
      rw [h] at hc
      rcases blankLine_chars hc with ⟨p, hp, hc | hc⟩ | hc
      · exact hblank c (hb _ (hin p hp).1 c hc)
      · exact ⟨((hts _ (hin p hp).2).2 c hc).2.2, ((hts _ (hin p hp).2).2 c hc).2.1⟩
      · exact hblank c (hl c hc)
    have hf : pwords line = ts := by
      rw [h, pwords_blankLine hl]
      · rw [List.map_snd_zip (by omega)]
      · exact fun p hp => ⟨fun c hc => hb _ (hin p hp).1 c hc, hts _ (hin p hp).2⟩
      · intro p hp
        refine hsep _ ?_
        revert hp
        cases bs <;> cases ts <;> simp
        exact fun h => (List.of_mem_zip h).1
    refine ⟨takeWhile_id fun c hc => by simpa using (hchar c hc).1, hf, by simp, fun _ => by rw [hf]; exact hne, fun _ hc => (hchar _ hc).2 rfl⟩

theorem readFields_spec {float : PStr → Option (Fl R)} {val : PStr → Fl R} {ts : List PStr} (h : ∀ t ∈ ts, TextField t ∧ float t = some (val t)) :
    ts.mapM (readField float) = .ok (ts.map val) := by
  induction ts with
  | nil => rfl
  | cons t ts ih =>
    rw [List.mapM_cons, readField, (h t (by simp)).2]
    dsimp only
    rw [ok_bind, ih fun t ht => h t (by simp [ht])]
    rfl

/-- The reader finds the numbers of a table. -/
theorem loadtxt_spec {float : PStr → Option (Fl R)} {val : PStr → Fl R} {comma : Bool} {c : ℕ} (hc : 0 < c) {lines : List PStr} {T : List (List PStr)}
    (hT : ∀ r ∈ T, r.length = c ∧ ∀ t ∈ r, TextField t ∧ float t = some (val t)) (h : List.Forall₂ (LineOf comma) lines T) :
    loadtxt float comma lines = .ok (T.map (List.map val)) := by
  have key : ((lines.map dropComment).filter fun l => if comma then l ≠ [] else pwords l ≠ []) = lines ∧
      (lines.mapM fun l => (fieldsOf comma l).mapM (readField float)) = .ok (T.map (List.map val)) := by
    induction h with
    | nil => exact ⟨rfl, rfl⟩
    | cons hl _ ih =>
      rename_i line ts lines T _
      obtain ⟨i1, i2⟩ := ih fun r hr => hT r (by simp [hr])
      obtain ⟨h1, h2⟩ := hT ts (by simp)
      have hne : ts ≠ [] := by rintro rfl; simp at h1; omega
      obtain ⟨f1, f2, f3, f4, _⟩ := hl.fields (fun t ht => (h2 t ht).1) hne
      constructor
      · rw [List.map_cons, List.filter_cons, if_pos, i1, f1]
        rw [f1]
        cases comma with
        | true => simpa using f3 rfl
        | false => simpa using f4 rfl
      · have this := readFields_spec h2
        rw [List.mapM_cons, f2, this, ok_bind, i2]
        rfl
  unfold loadtxt
  rw [key.1, key.2, ok_bind, if_pos]
  rw [List.all_eq_true]
  intro r hr
  obtain ⟨x, hx, rfl⟩ := List.mem_map.1 hr
  have h0 : ((T.map (List.map val)).getD 0 []).length = c := by
    cases T with
    | nil => simp at hx
    | cons y T => simpa using (hT y (by simp)).1
  rw [h0, List.length_map, (hT x hx).1, decide_eq_true_eq]

/-- The separator is found in the first line. -/
theorem comma_detected {float : PStr → Option (Fl R)} {val : PStr → Fl R} {comma : Bool} {c : ℕ} {lines : List PStr} {T : List (List PStr)}
    (hm : 1 ≤ T.length) (hc : 2 ≤ c) (hT : ∀ r ∈ T, r.length = c ∧ ∀ t ∈ r, TextField t ∧ float t = some (val t))
    (h : List.Forall₂ (LineOf comma) lines T) : decide ((',' : Char) ∈ lines.getD 0 []) = comma := by
  cases h with
  | nil => simp at hm
  | cons hl _ =>
    rename_i line ts lines T _
    obtain ⟨h1, h2⟩ := hT ts (by simp)
    have hne : ts ≠ [] := by rintro rfl; simp at h1; omega
    obtain ⟨_, _, _, _, f5⟩ := hl.fields (fun t ht => (h2 t ht).1) hne
    rw [List.getD_cons_zero]
    cases comma with
    | false => simpa using f5 rfl
    | true =>
      have hl : line = commaLine ts := hl
      rw [hl, decide_eq_true_eq]
      match ts, h1 with
      | [], h1 => simp at h1; omega
      | [_], h1 => simp at h1; omega
      | t :: u :: ts, _ => simp [commaLine, pjoin]

/-- **C133**, what holds.  Two text files with at least two series and two columns, separated by commas or by white space: `load` returns for each
line the class (the first number, as an integer) and the series of the other numbers, in one dimension, with NaNs replaced unless they shall be kept. -/
theorem C133_text_partial {float : PStr → Option (Fl R)} {val : PStr → Fl R} (big : R) (keepNan comma : Bool) {lines lines' : List PStr}
    {T T' : List (List PStr)} {c c' : ℕ} (hc : 2 ≤ c) (hc' : 2 ≤ c') (hm : 2 ≤ T.length) (hm' : 2 ≤ T'.length)
    (hT : ∀ r ∈ T, r.length = c ∧ ∀ t ∈ r, TextField t ∧ float t = some (val t))
    (hT' : ∀ r ∈ T', r.length = c' ∧ ∀ t ∈ r, TextField t ∧ float t = some (val t))
    (h : List.Forall₂ (LineOf comma) lines T) (h' : List.Forall₂ (LineOf comma) lines' T') :
    loadUnivariate float big keepNan lines lines' = .ok (Loaded.clean big keepNan
      ⟨T.map fun r => [(r.drop 1).map val], T.map fun r => flTrunc (val (r.getD 0 [])),
        T'.map fun r => [(r.drop 1).map val], T'.map fun r => flTrunc (val (r.getD 0 []))⟩) := by
  have hcomma := comma_detected (by omega) (by omega) hT h
  have table : ∀ {T : List (List PStr)} {c : ℕ}, 2 ≤ c → 2 ≤ T.length → (∀ r ∈ T, r.length = c ∧ ∀ t ∈ r, TextField t ∧ float t = some (val t)) →
      asTable (T.map (List.map val)) = .ok (T.map (List.map val)) := by
    intro T c hc hm hT
    rw [asTable, if_neg]
    rw [List.length_map]
    match T, hm, hT with
    | x :: T, hm, hT =>
      have := (hT x (by simp)).1
      simp only [List.map_cons, List.getD_cons_zero, List.length_map]
      omega
  have head : ∀ {T : List (List PStr)} {c : ℕ}, 2 ≤ c → (∀ r ∈ T, r.length = c ∧ ∀ t ∈ r, TextField t ∧ float t = some (val t)) →
      ((T.map (List.map val)).map fun r => [r.drop 1]) = (T.map fun r => [(r.drop 1).map val]) ∧
      ((T.map (List.map val)).map fun r => flTrunc (r.getD 0 .nan)) = T.map fun r => flTrunc (val (r.getD 0 [])) := by
    intro T c hc hT
    rw [List.map_map, List.map_map]
    refine ⟨List.map_congr_left fun r _ => by simp, List.map_congr_left fun r hr => ?_⟩
    match r, (hT r hr).1 with
    | [], h => simp at h; omega
    | t :: r, _ => rfl
  unfold loadUnivariate
  dsimp only
  rw [hcomma, loadtxt_spec (by omega) hT h, ok_bind, loadtxt_spec (by omega) hT' h', ok_bind, table hc hm hT, ok_bind, table hc' hm' hT', ok_bind,
    (head hc hT).1, (head hc hT).2, (head hc' hT').1, (head hc' hT').2]
  rfl

/-- **C133** is false for a set with one series: `np.loadtxt` returns a vector, and `load` raises an `IndexError`. -/
theorem C133_single_series {float : PStr → Option (Fl R)} {val : PStr → Fl R} (big : R) (keepNan comma : Bool) {line : PStr} {lines' : List PStr}
    {r : List PStr} {T' : List (List PStr)} {c' : ℕ} (hc : 2 ≤ r.length) (hc' : 2 ≤ c')
    (hT : ∀ t ∈ r, TextField t ∧ float t = some (val t)) (hT' : ∀ r ∈ T', r.length = c' ∧ ∀ t ∈ r, TextField t ∧ float t = some (val t))
    (h : LineOf comma line r) (h' : List.Forall₂ (LineOf comma) lines' T') :
    loadUnivariate float big keepNan [line] lines' = .error .indexError := by
  have hT1 : ∀ s ∈ [r], s.length = r.length ∧ ∀ t ∈ s, TextField t ∧ float t = some (val t) := by
    intro s hs
    rw [List.mem_singleton] at hs
    subst hs
    exact ⟨rfl, hT⟩
  have h1 : List.Forall₂ (LineOf comma) [line] [r] := .cons h .nil
  have hcomma := comma_detected (by simp) hc hT1 h1
  unfold loadUnivariate
  dsimp only
  rw [hcomma, loadtxt_spec (by omega) hT1 h1, ok_bind, loadtxt_spec (by omega) hT' h', ok_bind]
  rfl

/-- A class that is written as an integer is returned as this integer. -/
theorem flTrunc_int [IsStrictOrderedRing R] (k : ℤ) : flTrunc (.finite (k : R)) = k := by
  show (if (0 : R) ≤ (k : R) then ⌊(k : R)⌋ else ⌈(k : R)⌉) = k
  split
  · exact Int.floor_intCast k
  · exact Int.ceil_intCast k

/-- A reader of one-digit numbers and `nan` for the examples. -/
def digitFloat (t : PStr) : Option (Fl ℚ) :=
  if t = "nan".toList then some .nan else match t with
    | [c] => if c.isDigit then some (.finite ((c.toNat - 48 : ℕ) : ℚ)) else none
    | _ => none

/-- Files with commas and with white space; the last line shows the error for a single series. -/
example : loadUnivariate digitFloat 1000 false ["1,5,nan".toList, "2,7,8".toList] ["2,3,4".toList, "1,nan,6".toList] =
      .ok ⟨[[[.finite 5, .finite 5]], [[.finite 7, .finite 8]]], [1, 2], [[[.finite 3, .finite 4]], [[.finite 0, .finite 6]]], [2, 1]⟩ ∧
    loadUnivariate digitFloat 1000 true ["  1  5 nan ".toList, "2 7 8".toList] ["2 3 4".toList, "1 5 6".toList] =
      .ok ⟨[[[.finite 5, .nan]], [[.finite 7, .finite 8]]], [1, 2], [[[.finite 3, .finite 4]], [[.finite 5, .finite 6]]], [2, 1]⟩ ∧
    loadUnivariate digitFloat 1000 false ["1,5,6".toList] ["2,3,4".toList, "1,5,6".toList] = .error .indexError := by decide +kernel

/-- The hypotheses of `C133_text_partial`. -/
example : TextField "12".toList ∧ LineOf true "1,5".toList ["1".toList, "5".toList] ∧ LineOf false "  1 5 ".toList ["1".toList, "5".toList] := by
  refine ⟨⟨by decide, by decide⟩, rfl, ["  ".toList, " ".toList], " ".toList, rfl, by decide, by decide, by decide, by decide⟩

end Fruits
