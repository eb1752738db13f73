import Verif.Props.Corb8

/-! # Loading text files: what separates fields, and texts that are not numbers (C133) -/

namespace Fruits
set_option linter.unusedSectionVars false
variable {R : Type} [Field R] [LinearOrder R] [FloorRing R]

/-- A field of a text file, letter by letter: it is not empty and has no space, tab, comma and comment sign. -/
def PlainField (t : PStr) : Prop := t ≠ [] ∧ ' ' ∉ t ∧ '\t' ∉ t ∧ ',' ∉ t ∧ '#' ∉ t

/-- White space: spaces and tabs. -/
def Gap (b : PStr) : Prop := ∀ c ∈ b, c = ' ' ∨ c = '\t'

/-- A line of fields, each of them after white space that is not empty. -/
inductive Follows : PStr → List PStr → Prop
  | done {b : PStr} : Gap b → Follows b []
  | field {b t line : PStr} {ts : List PStr} : b ≠ [] → Gap b → Follows line ts → Follows (b ++ t ++ line) (t :: ts)

/-- A line of fields separated by white space; there may be white space before the first field. -/
inductive Spaced : PStr → List PStr → Prop
  | line {b t line : PStr} {ts : List PStr} : Gap b → Follows line ts → Spaced (b ++ t ++ line) (t :: ts)

theorem PlainField.textField {t : PStr} (h : PlainField t) : TextField t := by
  obtain ⟨h0, h1, h2, h3, h4⟩ := h
  refine ⟨h0, fun c hc => ⟨?_, fun e => h3 (e ▸ hc), fun e => h4 (e ▸ hc)⟩⟩
  rw [isBlank, Bool.or_eq_false_iff]
  exact ⟨decide_eq_false fun e => h1 (e ▸ hc), decide_eq_false fun e => h2 (e ▸ hc)⟩

theorem Gap.blank {b : PStr} (h : Gap b) : ∀ c ∈ b, isBlank c = true := by
  intro c hc
  rcases h c hc with rfl | rfl <;> decide

theorem Follows.parts {line : PStr} {ts : List PStr} (h : Follows line ts) : ∃ (bs : List PStr) (last : PStr), bs.length = ts.length ∧
    (∀ b ∈ bs, ∀ c ∈ b, isBlank c = true) ∧ (∀ c ∈ last, isBlank c = true) ∧ (∀ b ∈ bs, b ≠ []) ∧ line = blankLine (bs.zip ts) last := by
  induction h with
  | done hb => exact ⟨[], _, rfl, by simp, hb.blank, by simp, by simp [blankLine]⟩
  | field h0 hb _ ih =>
    rename_i b t line ts _
    obtain ⟨bs, last, h1, h2, h3, h4, h5⟩ := ih
    refine ⟨b :: bs, last, by simp [h1], ?_, h3, ?_, by simp [h5, blankLine]⟩
    · intro x hx
      rcases List.mem_cons.1 hx with rfl | hx
      · exact hb.blank
      · exact h2 x hx
    · intro x hx
      rcases List.mem_cons.1 hx with rfl | hx
      · exact h0
      · exact h4 x hx

theorem Spaced.lineOf {line : PStr} {ts : List PStr} (h : Spaced line ts) : LineOf false line ts := by
  obtain ⟨hb, hf⟩ := h
  rename_i b t line ts
  obtain ⟨bs, last, h1, h2, h3, h4, h5⟩ := hf.parts
  refine ⟨b :: bs, last, by simp [h1], ?_, h3, by simpa using h4, by simp [h5, blankLine]⟩
  intro x hx
  rcases List.mem_cons.1 hx with rfl | hx
  · exact hb.blank
  · exact h2 x hx

theorem Spaced.lines {lines : List PStr} {T : List (List PStr)} (h : List.Forall₂ Spaced lines T) : List.Forall₂ (LineOf false) lines T :=
  h.imp fun _ _ hl => hl.lineOf

/-- **C133**, files with white space: the fields of a line are separated by spaces and tabs, in any number and mixture. -/
theorem C133_white_space {float : PStr → Option (Fl R)} {val : PStr → Fl R} (big : R) (keepNan : Bool) {lines lines' : List PStr}
    {T T' : List (List PStr)} {c c' : ℕ} (hc : 2 ≤ c) (hc' : 2 ≤ c') (hm : 2 ≤ T.length) (hm' : 2 ≤ T'.length)
    (hT : ∀ r ∈ T, r.length = c ∧ ∀ t ∈ r, PlainField t ∧ float t = some (val t))
    (hT' : ∀ r ∈ T', r.length = c' ∧ ∀ t ∈ r, PlainField t ∧ float t = some (val t))
    (h : List.Forall₂ Spaced lines T) (h' : List.Forall₂ Spaced lines' T') :
    loadUnivariate float big keepNan lines lines' = .ok (Loaded.clean big keepNan
      ⟨T.map fun r => [(r.drop 1).map val], T.map fun r => flTrunc (val (r.getD 0 [])),
        T'.map fun r => [(r.drop 1).map val], T'.map fun r => flTrunc (val (r.getD 0 []))⟩) :=
  C133_text_partial big keepNan false hc hc' hm hm' (fun r hr => ⟨(hT r hr).1, fun t ht => ⟨((hT r hr).2 t ht).1.textField, ((hT r hr).2 t ht).2⟩⟩)
    (fun r hr => ⟨(hT' r hr).1, fun t ht => ⟨((hT' r hr).2 t ht).1.textField, ((hT' r hr).2 t ht).2⟩⟩) (Spaced.lines h) (Spaced.lines h')

theorem readFields_error {float : PStr → Option (Fl R)} {ts : List PStr} (h : ∃ t ∈ ts, float t = none) :
    ts.mapM (readField float) = .error .valueError := by
  induction ts with
  | nil => simp at h
  | cons t ts ih =>
    rw [List.mapM_cons, readField]
    rcases ht : float t with _ | v
    · rfl
    · dsimp only
      obtain ⟨u, hu, hn⟩ := h
      rcases List.mem_cons.1 hu with rfl | hu
      · rw [ht] at hn; exact absurd hn (by simp)
      · rw [ok_bind, ih ⟨u, hu, hn⟩]
        rfl

theorem readFields_cases (float : PStr → Option (Fl R)) (ts : List PStr) :
    ts.mapM (readField float) = .error .valueError ∨ ∃ v, ts.mapM (readField float) = .ok v := by
  by_cases h : ∃ t ∈ ts, float t = none
  · exact .inl (readFields_error h)
  · right
    induction ts with
    | nil => exact ⟨[], rfl⟩
    | cons t ts ih =>
      obtain ⟨v, hv⟩ := ih fun ⟨u, hu, hn⟩ => h ⟨u, by simp [hu], hn⟩
      rcases ht : float t with _ | w
      · exact absurd ⟨t, by simp, ht⟩ h
      · refine ⟨w :: v, ?_⟩
        rw [List.mapM_cons, readField, ht]
        dsimp only
        rw [ok_bind, hv]
        rfl

/-- A table with a text that is not a number. -/
theorem loadtxt_error {float : PStr → Option (Fl R)} {comma : Bool} {lines : List PStr} {T : List (List PStr)}
    (hT : ∀ r ∈ T, r ≠ [] ∧ ∀ t ∈ r, TextField t) (h : List.Forall₂ (LineOf comma) lines T) (hbad : ∃ r ∈ T, ∃ t ∈ r, float t = none) :
    loadtxt float comma lines = .error .valueError := by
  have key : ((lines.map dropComment).filter fun l => if comma then l ≠ [] else pwords l ≠ []) = lines ∧
      (lines.mapM fun l => (fieldsOf comma l).mapM (readField float)) = T.mapM fun r => r.mapM (readField float) := by
    clear hbad
    induction h with
    | nil => exact ⟨rfl, rfl⟩
    | cons hl _ ih =>
      rename_i line ts lines T _
      obtain ⟨i1, i2⟩ := ih fun r hr => hT r (by simp [hr])
      obtain ⟨h1, h2⟩ := hT ts (by simp)
      obtain ⟨f1, f2, f3, f4, _⟩ := hl.fields h2 h1
      constructor
      · rw [List.map_cons, List.filter_cons, if_pos, i1, f1]
        rw [f1]
        cases comma with
        | true => simpa using f3 rfl
        | false => simpa using f4 rfl
      · rw [List.mapM_cons, List.mapM_cons, f2, i2]
  have hb : (T.mapM fun r => r.mapM (readField float)) = .error .valueError := by
    clear key h hT
    induction T with
    | nil => simp at hbad
    | cons r T ih =>
      rw [List.mapM_cons]
      rcases readFields_cases float r with hr | ⟨v, hr⟩
      · rw [hr]; rfl
      · obtain ⟨s, hs, t, ht, hn⟩ := hbad
        rcases List.mem_cons.1 hs with rfl | hs
        · rw [readFields_error ⟨t, ht, hn⟩] at hr; exact absurd hr (by simp)
        · rw [hr, ok_bind, ih ⟨s, hs, t, ht, hn⟩]
          rfl
  unfold loadtxt
  rw [key.1, key.2, hb]
  rfl

/-- **C133**, texts that are not numbers: if one of the fields of the training file is not accepted by `float`, `load` raises a `ValueError`,
whatever the test file has. -/
theorem C133_not_a_number {float : PStr → Option (Fl R)} (big : R) (keepNan comma : Bool) {lines : List PStr} (lines' : List PStr)
    {T : List (List PStr)} {c : ℕ} (hc : 2 ≤ c) (hT : ∀ r ∈ T, r.length = c ∧ ∀ t ∈ r, TextField t) (h : List.Forall₂ (LineOf comma) lines T)
    (hbad : ∃ r ∈ T, ∃ t ∈ r, float t = none) : loadUnivariate float big keepNan lines lines' = .error .valueError := by
  have hm : 1 ≤ T.length := by
    obtain ⟨r, hr, _⟩ := hbad
    exact List.length_pos_of_mem hr
  have hcomma := comma_detected (float := fun _ => some (.nan : Fl R)) (val := fun _ => .nan) hm hc
    (fun r hr => ⟨(hT r hr).1, fun t ht => ⟨(hT r hr).2 t ht, rfl⟩⟩) h
  unfold loadUnivariate
  dsimp only
  rw [hcomma, loadtxt_error (fun r hr => ⟨by rintro rfl; have := (hT _ hr).1; simp at this; omega, (hT r hr).2⟩) h hbad]
  rfl

/-- **C133**, the same for the test file, if the training file has only numbers. -/
theorem C133_not_a_number_test {float : PStr → Option (Fl R)} {val : PStr → Fl R} (big : R) (keepNan comma : Bool) {lines lines' : List PStr}
    {T T' : List (List PStr)} {c : ℕ} (hc : 2 ≤ c) (hm : 1 ≤ T.length)
    (hT : ∀ r ∈ T, r.length = c ∧ ∀ t ∈ r, TextField t ∧ float t = some (val t)) (hT' : ∀ r ∈ T', r ≠ [] ∧ ∀ t ∈ r, TextField t)
    (h : List.Forall₂ (LineOf comma) lines T) (h' : List.Forall₂ (LineOf comma) lines' T')
    (hbad : ∃ r ∈ T', ∃ t ∈ r, float t = none) : loadUnivariate float big keepNan lines lines' = .error .valueError := by
  have hcomma := comma_detected hm hc hT h
  unfold loadUnivariate
  dsimp only
  rw [hcomma, loadtxt_spec (by omega) hT h, ok_bind, loadtxt_error hT' h' hbad]
  rfl

/-- A line with spaces and tabs, and a file with a text that is not a number. -/
example : Spaced " 1\t5 \t7 ".toList ["1".toList, "5".toList, "7".toList] ∧ PlainField "12".toList ∧
    loadUnivariate digitFloat 1000 true ["1\t5\tnan".toList, "2 \t7 8".toList] ["2 3\t4".toList, "1 5 6".toList] =
      .ok ⟨[[[.finite 5, .nan]], [[.finite 7, .finite 8]]], [1, 2], [[[.finite 3, .finite 4]], [[.finite 5, .finite 6]]], [2, 1]⟩ ∧
    loadUnivariate digitFloat 1000 true ["1,x".toList, "2,7".toList] ["2,3".toList, "1,5".toList] = .error .valueError := by
  refine ⟨?_, by unfold PlainField; decide, by decide +kernel, by decide +kernel⟩
  exact Spaced.line (b := " ".toList) (t := "1".toList) (by unfold Gap; decide)
    (.field (b := "\t".toList) (t := "5".toList) (by decide) (by unfold Gap; decide)
      (.field (b := " \t".toList) (t := "7".toList) (by decide) (by unfold Gap; decide) (.done (b := " ".toList) (by unfold Gap; decide))))

end Fruits
