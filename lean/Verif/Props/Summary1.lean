import Verif.Summary
import Verif.Props.Texts1
import Verif.Props.Fruit7

/-! # C105: summaries of slices and fruits -/

namespace Fruits
set_option linter.unusedSectionVars false

variable {R P I W S V : Type} [Field R] [LinearOrder R] [FloorRing R]

/-! ### Specification: the lines of a summary -/

/-- The entries of a slice, line by line: every preparateur (one empty entry if there are none), for every ISS object its class with
the number of iterated sums, the number of words, the semiring and the weighting, and every sieve with its number of features (one
empty entry if there are none). -/
def sliceEntries (K : Sem R P I W S V) (N : Names I W S) (w : World R P I W S) (s : ℕ) (counts : List ℕ) : List PStr :=
  let o := w.slice s
  ["Preparateurs (".toList ++ showNat o.preps.length ++ "):".toList] ++
  (if o.preps = [] then [[]] else o.preps.map fun a => "    + ".toList ++ K.prepLabel (w.prep a)) ++
  ["ISS Calculators (".toList ++ showNat o.iss.length ++ "):".toList] ++
  ((o.iss.zip counts).flatMap fun p =>
    ["    + ".toList ++ N.iss (w.issAt p.1).1 ++ " -> ".toList ++ showNat p.2,
      "       | words: ".toList ++ showNat (N.words (w.issAt p.1).2),
      "       | semiring: ".toList ++ N.semiring (w.issAt p.1).1,
      "       | weighting: ".toList ++ (N.weighting (w.issAt p.1).1).getD "None".toList]) ++
  ["Sieves (".toList ++ showNat o.sieves.length ++ "):".toList] ++
  (if o.sieves = [] then [[]] else o.sieves.map fun a => "    + ".toList ++ N.sieve (w.sieve a) ++ " -> ".toList ++ showInt (K.sieveN (w.sieve a)))

/-- The lines of the summary of a slice: a centred title, a rule and the entries, filled up with blanks to 38 characters. -/
def sliceLines (K : Sem R P I W S V) (N : Names I W S) (w : World R P I W S) (s : ℕ) (n : ℤ) (counts : List ℕ) : List PStr :=
  centred 38 ("FruitSlice -> ".toList ++ showInt n) :: List.replicate 38 '-' :: (sliceEntries K N w s counts).map padRight

/-- The frame around the lines of the slices: two slices side by side, a shorter one filled up with blank lines, the last of an odd
number of slices alone. -/
def frame : List (List PStr) → List PStr
  | [] => []
  | [a] => ('|' :: List.replicate 38 '-' ++ ['|']) :: (a.map fun l => '|' :: l ++ ['|']) ++ ['|' :: List.replicate 38 '-' ++ ['|']]
  | a :: b :: l =>
    ('|' :: List.replicate 38 '-' ++ '|' :: '|' :: List.replicate 38 '-' ++ ['|']) ::
      ((List.range (max a.length b.length)).map fun i =>
        '|' :: a.getD i (List.replicate 38 ' ') ++ '|' :: '|' :: b.getD i (List.replicate 38 ' ') ++ ['|']) ++
      ('|' :: List.replicate 38 '-' ++ '|' :: '|' :: List.replicate 38 '-' ++ ['|']) :: frame l

/-- No text that a slice shows contains a line break. -/
structure OneLine (K : Sem R P I W S V) (N : Names I W S) (w : World R P I W S) (s : ℕ) : Prop where
  preps : ∀ a ∈ (w.slice s).preps, '\n' ∉ K.prepLabel (w.prep a)
  iss : ∀ a ∈ (w.slice s).iss, '\n' ∉ N.iss (w.issAt a).1 ∧ '\n' ∉ N.semiring (w.issAt a).1 ∧
    ∀ t, N.weighting (w.issAt a).1 = some t → '\n' ∉ t
  sieves : ∀ a ∈ (w.slice s).sieves, '\n' ∉ N.sieve (w.sieve a)

/-! ### Splitting -/

theorem psplit_lines (c : Char) : ∀ (ls : List PStr) (last : PStr), (∀ l ∈ ls, c ∉ l) → c ∉ last →
    psplit c (ls.flatMap (fun l => l ++ [c]) ++ last) = ls ++ [last]
  | [], last, _, h => by simpa using psplit_notMem c last h
  | l :: ls, last, h, h' => by
    have ih := psplit_lines c ls last (fun x hx => h x (by simp [hx])) h'
    rw [List.flatMap_cons, List.append_assoc, List.append_assoc, List.singleton_append, psplit_append c l _ (h l (by simp)), ih]
    rfl

theorem psplit_head (c : Char) : ∀ (ls : List PStr) (hd : PStr), (∀ l ∈ ls, c ∉ l) → c ∉ hd →
    psplit c (hd ++ ls.flatMap (fun l => c :: l)) = hd :: ls
  | [], hd, _, h => by simpa using psplit_notMem c hd h
  | l :: ls, hd, h, h' => by
    have ih := psplit_head c ls l (fun x hx => h x (by simp [hx])) (h l (by simp))
    rw [List.flatMap_cons, List.cons_append, psplit_append c hd _ h', ih]

theorem pjoin_cons (c : Char) : ∀ (l : PStr) (ls : List PStr), pjoin c (l :: ls) = l ++ ls.flatMap fun x => c :: x
  | l, [] => by simp [pjoin]
  | l, m :: ls => by rw [pjoin, pjoin_cons c m ls]; simp

theorem break_pjoin (c : Char) {ls : List PStr} (h : ls ≠ []) : c :: pjoin c ls = ls.flatMap fun x => c :: x := by
  rcases ls with _ | ⟨l, ls⟩
  · exact absurd rfl h
  · rw [pjoin_cons]; simp

theorem pjoin_break (c : Char) {ls : List PStr} (h : ls ≠ []) : pjoin c ls ++ [c] = ls.flatMap fun x => x ++ [c] := by
  induction ls with
  | nil => exact absurd rfl h
  | cons l ls ih =>
    rcases ls with _ | ⟨m, ls⟩
    · simp [pjoin]
    · rw [pjoin, List.flatMap_cons, ← ih (by simp)]; simp

theorem padRight_length (s : PStr) : (padRight s).length = max 38 s.length := by
  simp [padRight]; omega

theorem centred_length (n : ℕ) (s : PStr) : (centred n s).length = max n s.length := by
  simp [centred]; omega

theorem padRight_mem {s : PStr} {c : Char} (hc : c ≠ ' ') (h : c ∉ s) : c ∉ padRight s := by
  unfold padRight
  rw [List.mem_append, not_or]
  exact ⟨h, fun h => hc (List.eq_of_mem_replicate h)⟩

theorem centred_mem {n : ℕ} {s : PStr} {c : Char} (hc : c ≠ ' ') (h : c ∉ s) : c ∉ centred n s := by
  unfold centred
  rw [List.mem_append, List.mem_append, not_or, not_or]
  exact ⟨⟨fun h => hc (List.eq_of_mem_replicate h), h⟩, fun h => hc (List.eq_of_mem_replicate h)⟩

/-! ### Slices -/

theorem summary_eq {K : Sem R P I W S V} {N : Names I W S} {w : World R P I W S} {s : ℕ} {t : PStr}
    (hiss : (w.slice s).iss ≠ []) (h : sliceSummary K N w s = .ok t) :
    ∃ n counts, sliceN K w s = .ok n ∧ ((w.slice s).iss.mapM fun a => K.issCount (w.issAt a).1 (w.issAt a).2) = .ok counts ∧
      t = centred 38 ("FruitSlice -> ".toList ++ showInt n) ++ (dashes :: (sliceEntries K N w s counts).map padRight).flatMap fun l => '\n' :: l := by
  unfold sliceSummary at h
  rcases hn : sliceN K w s with e | n
  · rw [hn] at h; cases h
  rw [hn, ok_bind] at h
  dsimp only at h
  rcases hc : ((w.slice s).iss.mapM fun a => K.issCount (w.issAt a).1 (w.issAt a).2) with e | counts
  · rw [hc] at h; cases h
  rw [hc, ok_bind] at h
  refine ⟨n, counts, rfl, rfl, ?_⟩
  rw [← Except.ok.inj h]
  have h0 : ¬ (w.slice s).iss.length = 0 := by simpa using hiss
  have eb : blank = padRight [] := rfl
  have ei : ∀ p : ℕ × ℕ, issBlock N (w.issAt p.1).1 (w.issAt p.1).2 p.2 =
      (["    + ".toList ++ N.iss (w.issAt p.1).1 ++ " -> ".toList ++ showNat p.2,
        "       | words: ".toList ++ showNat (N.words (w.issAt p.1).2),
        "       | semiring: ".toList ++ N.semiring (w.issAt p.1).1,
        "       | weighting: ".toList ++ (N.weighting (w.issAt p.1).1).getD "None".toList].map padRight).flatMap fun l => '\n' :: l := by
    intro p
    unfold issBlock
    cases N.weighting (w.issAt p.1).1 <;> simp
  simp only [if_neg h0, sliceEntries, List.map_append, List.map_flatMap, List.flatMap_append, List.flatMap_cons, List.flatMap_assoc, ei,
    List.map_cons, List.map_nil, List.flatMap_nil, List.append_nil]
  by_cases hp : (w.slice s).preps = [] <;> by_cases hs : (w.slice s).sieves = []
  · simp [hp, hs, pjoin, eb]
  · simp [hp, hs, pjoin, eb, sieveLine, List.flatMap_map]
  · have hp0 : ¬ (w.slice s).preps.length = 0 := by simpa using hp
    rw [if_neg hp0, if_neg hp]
    have := break_pjoin '\n' (ls := (w.slice s).preps.map fun a => padRight ("    + ".toList ++ K.prepLabel (w.prep a))) (by simpa using hp)
    simp only [List.map_map, Function.comp_def, ← this]
    simp [hs, eb]
  · have hp0 : ¬ (w.slice s).preps.length = 0 := by simpa using hp
    rw [if_neg hp0, if_neg hp]
    have := break_pjoin '\n' (ls := (w.slice s).preps.map fun a => padRight ("    + ".toList ++ K.prepLabel (w.prep a))) (by simpa using hp)
    simp only [List.map_map, Function.comp_def, ← this]
    simp [hs, eb, sieveLine, List.flatMap_map]

theorem sliceEntries_break {K : Sem R P I W S V} {N : Names I W S} {w : World R P I W S} {s : ℕ} (ho : OneLine K N w s) (counts : List ℕ) :
    ∀ e ∈ sliceEntries K N w s counts, '\n' ∉ e := by
  have hd : ('\n').isDigit = false := by decide
  have hN : ∀ k, '\n' ∉ showNat k := fun k => showNat_not hd
  have hI : ∀ k, '\n' ∉ showInt k := fun k => showInt_not hd (by decide)
  intro e he
  simp only [sliceEntries, List.mem_append, List.mem_singleton] at he
  rcases he with ((((he | he) | he) | he) | he) | he
  · subst he; simp only [List.mem_append, not_or]; exact ⟨⟨by decide, hN _⟩, by decide⟩
  · split at he
    · rw [List.mem_singleton] at he; subst he; simp
    · obtain ⟨a, ha, rfl⟩ := List.mem_map.1 he
      simp only [List.mem_append, not_or]
      exact ⟨by decide, ho.preps a ha⟩
  · subst he; simp only [List.mem_append, not_or]; exact ⟨⟨by decide, hN _⟩, by decide⟩
  · obtain ⟨p, hp, he⟩ := List.mem_flatMap.1 he
    obtain ⟨h1, h2, h3⟩ := ho.iss p.1 (List.of_mem_zip hp).1
    simp only [List.mem_cons, List.not_mem_nil, or_false] at he
    rcases he with rfl | rfl | rfl | rfl
    · simp only [List.mem_append, not_or]; exact ⟨⟨⟨by decide, h1⟩, by decide⟩, hN _⟩
    · simp only [List.mem_append, not_or]; exact ⟨by decide, hN _⟩
    · simp only [List.mem_append, not_or]; exact ⟨by decide, h2⟩
    · simp only [List.mem_append, not_or]
      refine ⟨by decide, ?_⟩
      rcases hw : N.weighting (w.issAt p.1).1 with _ | t
      · show '\n' ∉ "None".toList; decide
      · exact h3 t hw
  · subst he; simp only [List.mem_append, not_or]; exact ⟨⟨by decide, hN _⟩, by decide⟩
  · split at he
    · rw [List.mem_singleton] at he; subst he; simp
    · obtain ⟨a, ha, rfl⟩ := List.mem_map.1 he
      simp only [List.mem_append, not_or]
      exact ⟨⟨⟨by decide, ho.sieves a ha⟩, by decide⟩, hI _⟩

theorem sliceLines_break {K : Sem R P I W S V} {N : Names I W S} {w : World R P I W S} {s : ℕ} (ho : OneLine K N w s) (n : ℤ)
    (counts : List ℕ) : ∀ e ∈ sliceLines K N w s n counts, '\n' ∉ e := by
  intro e he
  have hd : ('\n').isDigit = false := by decide
  simp only [sliceLines, List.mem_cons, List.mem_map] at he
  rcases he with rfl | rfl | ⟨e, he, rfl⟩
  · refine centred_mem (by decide) ?_
    simp only [List.mem_append, not_or]
    exact ⟨by decide, showInt_not hd (by decide)⟩
  · intro h; exact absurd (List.eq_of_mem_replicate h) (by decide)
  · exact padRight_mem (by decide) (sliceEntries_break ho counts e he)

/-- **C105 for slices (what is true of it).** The summary of a slice with at least one ISS object, split into lines, consists of a
title with the number of features, a rule and an entry for every preparateur, ISS object and sieve, in the order they have been
added; no line is shorter than 38 characters, and all are exactly that long if the entries are not longer. -/
theorem C105_slice_partial {K : Sem R P I W S V} {N : Names I W S} {w : World R P I W S} {s : ℕ} {t : PStr}
    (hiss : (w.slice s).iss ≠ []) (ho : OneLine K N w s) (h : sliceSummary K N w s = .ok t) :
    ∃ n counts, sliceN K w s = .ok n ∧ ((w.slice s).iss.mapM fun a => K.issCount (w.issAt a).1 (w.issAt a).2) = .ok counts ∧
      psplit '\n' t = sliceLines K N w s n counts ∧ (∀ l ∈ psplit '\n' t, 38 ≤ l.length) ∧
      ((∀ e ∈ sliceEntries K N w s counts, e.length ≤ 38) → (showInt n).length ≤ 24 → ∀ l ∈ psplit '\n' t, l.length = 38) := by
  obtain ⟨n, counts, h1, h2, rfl⟩ := summary_eq hiss h
  have hb := sliceLines_break ho n counts
  have hs := psplit_head '\n' (dashes :: (sliceEntries K N w s counts).map padRight)
    (centred 38 ("FruitSlice -> ".toList ++ showInt n)) (fun l hl => hb l (List.mem_cons_of_mem _ hl)) (hb _ (List.mem_cons_self ..))
  refine ⟨n, counts, h1, h2, hs, ?_, ?_⟩
  · rw [hs]
    intro l hl
    simp only [List.mem_cons, List.mem_map] at hl
    rcases hl with rfl | rfl | ⟨e, _, rfl⟩
    · rw [centred_length]; omega
    · simp [dashes]
    · rw [padRight_length]; omega
  · intro he hn
    rw [hs]
    intro l hl
    simp only [List.mem_cons, List.mem_map] at hl
    rcases hl with rfl | rfl | ⟨e, h, rfl⟩
    · rw [centred_length, List.length_append]
      have : "FruitSlice -> ".toList.length = 14 := rfl
      omega
    · simp [dashes]
    · rw [padRight_length]; have := he e h; omega

/-- **C105, the part that is false**: the summary of a slice without ISS objects has a line of 76 characters and an empty line. -/
theorem C105_counterexample {K : Sem R P I W S V} {N : Names I W S} {w : World R P I W S} {s : ℕ} {t : PStr}
    (hiss : (w.slice s).iss = []) (ho : OneLine K N w s) (h : sliceSummary K N w s = .ok t) :
    [] ∈ psplit '\n' t ∧ ∃ l ∈ psplit '\n' t, l.length = 76 := by
  unfold sliceSummary at h
  rcases hn : sliceN K w s with e | n
  · rw [hn] at h; cases h
  rw [hn, ok_bind] at h
  dsimp only at h
  rw [hiss, List.mapM_nil] at h
  have h := Except.ok.inj h
  have hb := sliceLines_break ho n []
  have hbe := sliceEntries_break ho []
  set I0 := padRight ("ISS Calculators (".toList ++ showNat 0 ++ "):".toList) with hI0
  have hsplit : ∀ (A B : List PStr) (hd : PStr), (∀ l ∈ hd :: A ++ B, '\n' ∉ l) →
      t = hd ++ (A ++ (I0 ++ blank) :: [] :: B).flatMap (fun l => '\n' :: l) → [] ∈ psplit '\n' t ∧ ∃ l ∈ psplit '\n' t, l.length = 76 := by
    intro A B hd hAB ht
    have := psplit_head '\n' (A ++ (I0 ++ blank) :: [] :: B) hd (by
      intro l hl
      simp only [List.mem_append, List.mem_cons] at hl
      rcases hl with hl | rfl | rfl | hl
      · exact hAB l (by simp [hl])
      · rw [hI0]; decide
      · simp
      · exact hAB l (by simp [hl])) (hAB hd (by simp))
    rw [ht, this]
    refine ⟨by simp, I0 ++ blank, by simp, ?_⟩
    rw [List.length_append, hI0, padRight_length]
    rfl
  set E := sliceEntries K N w s [] with hE
  have eb : blank = padRight [] := rfl
  refine hsplit (dashes :: (["Preparateurs (".toList ++ showNat (w.slice s).preps.length ++ "):".toList] ++
      (if (w.slice s).preps = [] then [[]] else (w.slice s).preps.map fun a => "    + ".toList ++ K.prepLabel (w.prep a))).map padRight)
    ((["Sieves (".toList ++ showNat (w.slice s).sieves.length ++ "):".toList] ++
      (if (w.slice s).sieves = [] then [[]] else (w.slice s).sieves.map fun a => "    + ".toList ++ N.sieve (w.sieve a) ++ " -> ".toList ++
        showInt (K.sieveN (w.sieve a)))).map padRight) (centred 38 ("FruitSlice -> ".toList ++ showInt n)) ?_ ?_
  · intro l hl
    apply hb
    rw [sliceLines, ← hE]
    simp only [List.cons_append, List.mem_cons, List.mem_append, List.map_append] at hl ⊢
    rcases hl with hl | hl | (hl | hl) | hl | hl
    · exact Or.inl hl
    · exact Or.inr (Or.inl hl)
    all_goals
      right; right
      rw [hE, sliceEntries]
      simp only [List.map_append, List.mem_append]
      tauto
  · rw [← h]
    clear hsplit hb hbe
    simp only [List.length_nil, if_true, List.map_append, List.flatMap_append, List.flatMap_cons, List.zip_nil_left,
      List.map_cons, List.map_nil, List.flatMap_nil, List.append_nil, ← hI0]
    by_cases hp : (w.slice s).preps = [] <;> by_cases hs : (w.slice s).sieves = []
    · simp [hp, hs, pjoin, eb]
    · simp [hp, hs, pjoin, eb, sieveLine, List.flatMap_map]
    · have hp0 : ¬ (w.slice s).preps.length = 0 := by simpa using hp
      rw [if_neg hp0, if_neg hp]
      have := break_pjoin '\n' (ls := (w.slice s).preps.map fun a => padRight ("    + ".toList ++ K.prepLabel (w.prep a))) (by simpa using hp)
      simp only [List.map_map, Function.comp_def, ← this]
      simp [hs, eb]
    · have hp0 : ¬ (w.slice s).preps.length = 0 := by simpa using hp
      rw [if_neg hp0, if_neg hp]
      have := break_pjoin '\n' (ls := (w.slice s).preps.map fun a => padRight ("    + ".toList ++ K.prepLabel (w.prep a))) (by simpa using hp)
      simp only [List.map_map, Function.comp_def, ← this]
      simp [hs, eb, sieveLine, List.flatMap_map]

/-! ### Fruits -/

theorem replaceBreaks_eq : ∀ (t : PStr), '|' :: replaceBreaks t ++ ['|', '\n'] = (psplit '\n' t).flatMap fun l => ('|' :: l ++ ['|']) ++ ['\n']
  | [] => by simp [replaceBreaks, psplit]
  | c :: t => by
    have ih := replaceBreaks_eq t
    have hr : replaceBreaks (c :: t) = (if c = '\n' then ['|', '\n', '|'] else [c]) ++ replaceBreaks t := by
      rw [replaceBreaks, List.flatMap_cons]; rfl
    rw [hr, psplit]
    by_cases hc : c = '\n'
    · rw [if_pos hc, if_pos hc, List.flatMap_cons, ← ih]
      simp
    · rw [if_neg hc, if_neg hc]
      rcases hp : psplit '\n' t with _ | ⟨p, ps⟩
      · exact absurd hp (psplit_ne_nil _ _)
      rw [hp, List.flatMap_cons] at ih
      simp only [List.flatMap_cons, List.cons_append, List.singleton_append, List.nil_append, List.append_assoc] at ih ⊢
      rw [List.cons.injEq] at ih ⊢
      refine ⟨rfl, ?_⟩
      rw [ih.2]

theorem zip_pad (a b : List PStr) :
    (a ++ List.replicate (b.length - a.length) blank).zip
      (b ++ List.replicate ((a ++ List.replicate (b.length - a.length) blank).length - b.length) blank) =
    (List.range (max a.length b.length)).map fun i => (a.getD i (List.replicate 38 ' '), b.getD i (List.replicate 38 ' ')) := by
  have key : ∀ (a : List PStr) (n i : ℕ) (hi : i < (a ++ List.replicate n blank).length),
      (a ++ List.replicate n blank)[i] = a.getD i (List.replicate 38 ' ') := by
    intro a n i hi
    rw [List.getElem_append, List.getD_eq_getElem?_getD]
    split
    · rename_i h; rw [List.getElem?_eq_getElem h]; rfl
    · rename_i h
      rw [List.getElem?_eq_none (by omega)]
      simp [blank]
  apply List.ext_getElem
  · simp; omega
  · intro i h1 h2
    rw [List.getElem_zip, List.getElem_map, List.getElem_range, key, key]

theorem sideBySide_eq (a b : PStr) : sideBySide a b = (frame [psplit '\n' a, psplit '\n' b]).flatMap fun l => l ++ ['\n'] := by
  unfold sideBySide
  simp only
  rw [zip_pad]
  have hne : ((List.range (max (psplit '\n' a).length (psplit '\n' b).length)).map fun i =>
      ((psplit '\n' a).getD i (List.replicate 38 ' '), (psplit '\n' b).getD i (List.replicate 38 ' '))).map
        (fun p => '|' :: p.1 ++ '|' :: '|' :: p.2 ++ ['|']) ≠ [] := by
    have := List.length_pos_of_ne_nil (psplit_ne_nil '\n' a)
    simp only [ne_eq, List.map_eq_nil_iff, List.range_eq_nil]
    omega
  have := pjoin_break '\n' hne
  have e : ∀ j : PStr, rule2 ++ ['\n'] ++ j ++ ['\n'] ++ rule2 ++ ['\n'] = (rule2 ++ ['\n']) ++ (j ++ ['\n']) ++ (rule2 ++ ['\n']) := by
    intro j; simp
  rw [e, this]
  simp only [frame, List.flatMap_cons, List.flatMap_append, List.cons_append, List.map_map, Function.comp_def, List.flatMap_nil]
  simp [rule2, dashes]

theorem slicesText_eq : ∀ ts : List PStr, slicesText ts = (frame (ts.map (psplit '\n'))).flatMap fun l => l ++ ['\n']
  | [] => rfl
  | [a] => by
    have e : slicesText [a] = ('|' :: dashes ++ ['|', '\n']) ++ ('|' :: replaceBreaks a ++ ['|', '\n']) ++ ('|' :: dashes ++ ['|', '\n']) := by
      simp [slicesText]
    rw [e, replaceBreaks_eq]
    simp [frame, dashes, List.flatMap_map]
  | a :: b :: l => by
    rw [slicesText, sideBySide_eq, slicesText_eq l]
    simp [frame]

theorem frame_break : ∀ {L : List (List PStr)}, (∀ ls ∈ L, ∀ l ∈ ls, '\n' ∉ l) → ∀ l ∈ frame L, '\n' ∉ l
  | [], _, l, h => by simp [frame] at h
  | [a], hL, l, h => by
    simp only [frame, List.cons_append, List.mem_cons, List.mem_append, List.mem_map, List.not_mem_nil, or_false] at h
    rcases h with rfl | ⟨x, hx, rfl⟩ | rfl
    · simp
    · simp [hL a (by simp) x hx]
    · simp
  | a :: b :: L, hL, l, h => by
    have hg : ∀ c ∈ a :: b :: L, ∀ i, '\n' ∉ c.getD i (List.replicate 38 ' ') := by
      intro c hc i
      rw [List.getD_eq_getElem?_getD]
      rcases h' : c[i]? with _ | x
      · simp
      · exact hL c hc x (List.mem_of_getElem? h')
    simp only [frame, List.cons_append, List.mem_cons, List.mem_append, List.mem_map] at h
    rcases h with rfl | ⟨i, _, rfl⟩ | rfl | h
    · simp
    · have h1 := hg a (by simp) i
      have h2 := hg b (by simp) i
      simp only [List.cons_append, List.mem_cons, List.mem_append, List.not_mem_nil, or_false, h1, h2]
      simp
    · simp
    · exact frame_break (fun ls hls => hL ls (by simp [hls])) l h

/-- In a frame around lines of 38 characters all lines have 80 characters, but those around the last of an odd number of slices have
40. -/
theorem frame_width : ∀ {L : List (List PStr)}, (∀ ls ∈ L, ∀ l ∈ ls, l.length = 38) →
    ∀ l ∈ frame L, l.length = 80 ∨ (L.length % 2 = 1 ∧ l.length = 40)
  | [], _, l, h => by simp [frame] at h
  | [a], hL, l, h => by
    simp only [frame, List.cons_append, List.mem_cons, List.mem_append, List.mem_map, List.not_mem_nil, or_false] at h
    right
    refine ⟨rfl, ?_⟩
    rcases h with rfl | ⟨x, hx, rfl⟩ | rfl
    · simp
    · simp [hL a (by simp) x hx]
    · simp
  | a :: b :: L, hL, l, h => by
    have hg : ∀ c ∈ a :: b :: L, ∀ i, (c.getD i (List.replicate 38 ' ')).length = 38 := by
      intro c hc i
      rw [List.getD_eq_getElem?_getD]
      rcases h' : c[i]? with _ | x
      · simp
      · exact hL c hc x (List.mem_of_getElem? h')
    simp only [frame, List.cons_append, List.mem_cons, List.mem_append, List.mem_map] at h
    rcases h with rfl | ⟨i, _, rfl⟩ | rfl | h
    · simp
    · have h1 := hg a (by simp) i
      have h2 := hg b (by simp) i
      left
      simp only [List.length_cons, List.length_append, List.length_nil, h1, h2]
    · simp
    · rcases frame_width (fun ls hls => hL ls (by simp [hls])) l h with h | h
      · exact Or.inl h
      · right; simp only [List.length_cons]; omega

/-- **C105 (what is true of it).** If every slice of a fruit has an ISS object, the summary of the fruit, split into lines, is a title
between two rules of 80 characters, the frame around the lines of the slices and a last rule.  If the entries are not too long, all
lines have 80 characters, or 40 for the last of an odd number of slices.  Missing: slices without ISS objects, for which it is false
(`C105_counterexample`). -/
theorem C105_fruit_partial {K : Sem R P I W S V} {N : Names I W S} {w : World R P I W S} {f : ℕ} {t : PStr}
    (hiss : ∀ s ∈ (w.fruit f).slices, (w.slice s).iss ≠ []) (ho : ∀ s ∈ (w.fruit f).slices, OneLine K N w s)
    (hname : '\n' ∉ N.repr (w.fruit f).name) (h : fruitSummary K N w f = .ok t) :
    ∃ n ls, fruitN K w f = .ok n ∧
      List.Forall₂ (fun s l => ∃ n counts, sliceN K w s = .ok n ∧
        ((w.slice s).iss.mapM fun a => K.issCount (w.issAt a).1 (w.issAt a).2) = .ok counts ∧ l = sliceLines K N w s n counts)
        (w.fruit f).slices ls ∧
      psplit '\n' t = [List.replicate 80 '=',
          '<' :: centred 78 ("Fruit".toList ++ (if (w.fruit f).name = [] then [] else ' ' :: N.repr (w.fruit f).name) ++
            " -> Features: ".toList ++ showInt n) ++ ['>'],
          List.replicate 80 '='] ++ frame ls ++ [List.replicate 80 '='] ∧
      ((∀ x ∈ ls, ∀ l ∈ x, l.length ≤ 38) → (N.repr (w.fruit f).name).length + (showInt n).length ≤ 58 →
        ∀ l ∈ psplit '\n' t, l.length = 80 ∨ ((w.fruit f).slices.length % 2 = 1 ∧ l.length = 40)) := by
  unfold fruitSummary at h
  dsimp only at h
  rcases hn : fruitN K w f with e | n
  · rw [hn] at h; cases h
  rw [hn, ok_bind] at h
  rcases hts : (w.fruit f).slices.mapM (sliceSummary K N w) with e | ts
  · rw [hts] at h; cases h
  rw [hts, ok_bind] at h
  have h := Except.ok.inj h
  rw [mapM_ok_iff] at hts
  have hf : List.Forall₂ (fun s l => ∃ n counts, sliceN K w s = .ok n ∧
      ((w.slice s).iss.mapM fun a => K.issCount (w.issAt a).1 (w.issAt a).2) = .ok counts ∧ l = sliceLines K N w s n counts)
      (w.fruit f).slices (ts.map (psplit '\n')) := by
    rw [List.forall₂_map_right_iff]
    have : ∀ (ss : List ℕ) (ts : List PStr), (∀ s ∈ ss, (w.slice s).iss ≠ []) → (∀ s ∈ ss, OneLine K N w s) →
        List.Forall₂ (fun s t => sliceSummary K N w s = .ok t) ss ts → List.Forall₂ (fun s t => ∃ n counts, sliceN K w s = .ok n ∧
        ((w.slice s).iss.mapM fun a => K.issCount (w.issAt a).1 (w.issAt a).2) = .ok counts ∧
        psplit '\n' t = sliceLines K N w s n counts) ss ts := by
      intro ss ts h1 h2 h3
      induction h3 with
      | nil => exact .nil
      | cons hx _ ih =>
        refine .cons ?_ (ih (fun s hs => h1 s (by simp [hs])) (fun s hs => h2 s (by simp [hs])))
        obtain ⟨n, c, e1, e2, e3, _⟩ := C105_slice_partial (h1 _ (by simp)) (h2 _ (by simp)) hx
        exact ⟨n, c, e1, e2, e3⟩
    exact this _ _ hiss ho hts
  have hbr : ∀ x ∈ ts.map (psplit '\n'), ∀ l ∈ x, '\n' ∉ l ∧ 38 ≤ l.length := by
    intro x hx
    obtain ⟨k, hk, rfl⟩ := List.getElem_of_mem hx
    have hk' : k < (w.fruit f).slices.length := by rw [hf.length_eq]; exact hk
    obtain ⟨n, c, _, _, e3⟩ := (List.forall₂_iff_get.1 hf).2 k hk' hk
    intro l hl
    simp only [List.get_eq_getElem] at e3
    rw [e3] at hl
    refine ⟨sliceLines_break (ho _ (List.getElem_mem hk')) n c l hl, ?_⟩
    simp only [sliceLines, List.mem_cons, List.mem_map] at hl
    rcases hl with rfl | rfl | ⟨e, _, rfl⟩
    · rw [centred_length]; omega
    · simp
    · rw [padRight_length]; omega
  have hifs : (if (w.fruit f).name ≠ [] then ' ' :: N.repr (w.fruit f).name else []) =
      if (w.fruit f).name = [] then [] else ' ' :: N.repr (w.fruit f).name := by
    by_cases hh : (w.fruit f).name = [] <;> simp [hh]
  rw [hifs] at h
  set ident := "Fruit".toList ++ (if (w.fruit f).name = [] then [] else ' ' :: N.repr (w.fruit f).name) ++
            " -> Features: ".toList ++ showInt n with hident
  have hib : '\n' ∉ ident := by
    rw [hident]
    simp only [List.mem_append, not_or]
    refine ⟨⟨⟨by decide, ?_⟩, by decide⟩, showInt_not (by decide) (by decide)⟩
    split
    · simp
    · simp only [List.mem_cons, not_or]; exact ⟨by decide, hname⟩
  have hsplit : psplit '\n' t = [List.replicate 80 '=', '<' :: centred 78 ident ++ ['>'], List.replicate 80 '='] ++
      frame (ts.map (psplit '\n')) ++ [List.replicate 80 '='] := by
    rw [← h, slicesText_eq]
    have := psplit_lines '\n' ([List.replicate 80 '=', '<' :: centred 78 ident ++ ['>'], List.replicate 80 '='] ++
      frame (ts.map (psplit '\n'))) (List.replicate 80 '=') (by
        intro l hl
        simp only [List.mem_append, List.mem_cons, List.not_mem_nil, or_false] at hl
        rcases hl with (rfl | rfl | rfl) | hl
        · intro h; exact absurd (List.eq_of_mem_replicate h) (by decide)
        · have := centred_mem (n := 78) (c := '\n') (by decide) hib
          simp only [List.cons_append, List.mem_cons, List.mem_append, this, List.not_mem_nil, or_false]
          decide
        · intro h; exact absurd (List.eq_of_mem_replicate h) (by decide)
        · exact frame_break (fun x hx l hl => (hbr x hx l hl).1) l hl)
      (fun h => absurd (List.eq_of_mem_replicate h) (by decide))
    rw [← this]
    congr 1
    simp only [List.flatMap_append, List.flatMap_cons, List.flatMap_nil, List.append_nil, List.append_assoc, List.cons_append,
      List.nil_append]
  refine ⟨n, ts.map (psplit '\n'), rfl, hf, hsplit, ?_⟩
  intro hle hid l hl
  rw [hsplit] at hl
  simp only [List.mem_append, List.mem_cons, List.not_mem_nil, or_false] at hl
  rcases hl with ((rfl | rfl | rfl) | hl) | rfl
  · left; simp
  · left
    have e1 : "Fruit".toList.length = 5 := rfl
    have e2 : " -> Features: ".toList.length = 14 := rfl
    have : ident.length ≤ 78 := by
      rw [hident]
      simp only [List.length_append, e1, e2]
      split
      · simp; omega
      · simp only [List.length_cons]; omega
    simp only [List.length_cons, List.length_append, centred_length, List.length_nil]
    omega
  · left; simp
  · have := frame_width (L := ts.map (psplit '\n')) (fun x hx l hl => by
      have h1 := hle x hx l hl
      have h2 := (hbr x hx l hl).2
      omega) l hl
    rwa [← hf.length_eq] at this
  · left; simp

end Fruits
