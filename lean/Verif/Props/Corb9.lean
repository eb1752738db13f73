import Verif.Props.Corb8

/-! # The cache files of `load` (C134) and `load_all` (C135) -/

namespace Fruits
set_option linter.unusedSectionVars false
variable {R L : Type} [Field R] [LinearOrder R] [FloorRing R] [DecidableEq L]

/-! ### Calls one after the other -/

/-- The cache files are those that an undisturbed call leaves. -/
def Settled (parsed : Except FileErr (Loaded R)) (fs : Files R) : Prop :=
  fs = noFiles ∨ ∃ D, parsed = .ok D ∧ fs = D.contents.map .complete

theorem ofContents_contents (D : Loaded R) : ofContents D.contents = .ok D := rfl

theorem loadCached_settled {parsed : Except FileErr (Loaded R)} {fs : Files R} (h : Settled parsed fs) (cache : Bool) :
    (loadCached parsed cache fs).1 = parsed ∧ Settled parsed (loadCached parsed cache fs).2 := by
  rcases h with rfl | ⟨D, hp, rfl⟩
  · unfold loadCached
    rw [if_neg (by simp [noFiles])]
    rcases parsed with e | D
    · exact ⟨rfl, .inl rfl⟩
    · cases cache
      · exact ⟨rfl, .inl rfl⟩
      · exact ⟨rfl, .inr ⟨D, rfl, rfl⟩⟩
  · cases cache
    · unfold loadCached
      rw [if_neg (by simp), hp]
      exact ⟨rfl, .inr ⟨D, rfl, rfl⟩⟩
    · unfold loadCached
      rw [if_pos (by simp [Loaded.contents])]
      exact ⟨hp.symm ▸ rfl, .inr ⟨D, hp, rfl⟩⟩

/-- A sequence of calls `load(path, univariate=False, cache, keep_nan)` one after the other: what they return. -/
def loadMany (big : R) (parsed : Except FileErr (Loaded R)) : List (Bool × Bool) → Files R → List (Except FileErr (Loaded R)) × Files R
  | [], fs => ([], fs)
  | c :: cs, fs =>
    let r := loadMultivariate big parsed c.1 c.2 fs
    let s := loadMany big parsed cs r.2
    (r.1 :: s.1, s.2)

/-- **C134**, calls one after the other.  However many calls of `load` were made before, with and without `cache`, each of them returns (or raises) what the
`.arff` files give, with NaNs replaced according to its own argument `keep_nan`. -/
theorem C134_sequential_partial (big : R) (parsed : Except FileErr (Loaded R)) (calls : List (Bool × Bool)) :
    (loadMany big parsed calls noFiles).1 = calls.map fun c => parsed.map (Loaded.clean big c.2) := by
  have : ∀ (calls : List (Bool × Bool)) (fs : Files R), Settled parsed fs →
      (loadMany big parsed calls fs).1 = calls.map fun c => parsed.map (Loaded.clean big c.2) := by
    intro calls
    induction calls with
    | nil => exact fun _ _ => rfl
    | cons c cs ih =>
      intro fs h
      obtain ⟨h1, h2⟩ := loadCached_settled h c.1
      show ((loadCached parsed c.1 fs).1.map (Loaded.clean big c.2)) :: (loadMany big parsed cs (loadCached parsed c.1 fs).2).1 = _
      rw [h1, ih _ h2]
      rfl
  exact this calls noFiles (.inl rfl)

/-! ### The steps of one undisturbed call -/

/-- `n` steps of a call without disturbance. -/
def Call.steps (parsed : Except FileErr (Loaded R)) : ℕ → Call R × Files R → Call R × Files R
  | 0, s => s
  | n + 1, s => Call.steps parsed n (s.1.step parsed s.2)

/-- The small steps add up to the function `loadCached`. -/
theorem steps_alone (parsed : Except FileErr (Loaded R)) (cache : Bool) {fs : Files R} (hfs : fs.length = 4) :
    Call.steps parsed 12 (.start cache, fs) = (.done (loadCached parsed cache fs).1, (loadCached parsed cache fs).2) := by
  match fs, hfs with
  | [f0, f1, f2, f3], _ =>
    rcases parsed with e | D <;> cases cache
    · rfl
    · cases f0 with
      | absent => rfl
      | incomplete => rfl
      | complete c0 =>
        cases f1 with
        | absent => rfl
        | incomplete => rfl
        | complete c1 =>
          cases f2 with
          | absent => rfl
          | incomplete => rfl
          | complete c2 => cases f3 <;> rfl
    · rfl
    · cases f0 with
      | absent => rfl
      | incomplete => rfl
      | complete c0 =>
        cases f1 with
        | absent => rfl
        | incomplete => rfl
        | complete c1 =>
          cases f2 with
          | absent => rfl
          | incomplete => rfl
          | complete c2 => cases f3 <;> rfl

/-! ### All schedules and crash points -/

/-- What holds of a call at any time. -/
def Call.Good (parsed : Except FileErr (Loaded R)) : Call R → Prop
  | .start _ => True
  | .reading got => got = [] ∨ ∃ D, parsed = .ok D ∧ got = D.contents.take got.length
  | .writing D _ _ => parsed = .ok D
  | .done (.ok D) => parsed = .ok D
  | .done (.error e) => parsed = .error e ∨ e = .notFound ∨ e = .badFile
  | .crashed => True

/-- What holds of the files at any time. -/
def GoodFiles (parsed : Except FileErr (Loaded R)) (fs : Files R) : Prop :=
  ∀ (k : ℕ) (c : Content R), fs[k]? = some (.complete c) → ∃ D, parsed = .ok D ∧ D.contents[k]? = some c

theorem GoodFiles.set {parsed : Except FileErr (Loaded R)} {fs : Files R} (h : GoodFiles parsed fs) {k : ℕ} {f : FileState R}
    (hf : ∀ c, f = .complete c → ∃ D, parsed = .ok D ∧ D.contents[k]? = some c) : GoodFiles parsed (fs.set k f) := by
  intro j c hj
  rw [List.getElem?_set] at hj
  split at hj
  · rename_i he
    subst he
    split at hj
    · exact hf c (Option.some.inj hj)
    · simp at hj
  · exact h j c hj

theorem Call.step_good {parsed : Except FileErr (Loaded R)} {x : Call R} {fs : Files R} (hx : x.Good parsed) (hf : GoodFiles parsed fs) :
    (x.step parsed fs).1.Good parsed ∧ GoodFiles parsed (x.step parsed fs).2 := by
  cases x with
  | start cache =>
    simp only [Call.step]
    split
    · exact ⟨.inl rfl, hf⟩
    · rcases parsed with e | D
      · exact ⟨.inl rfl, hf⟩
      · dsimp only
        split
        · exact ⟨rfl, hf⟩
        · exact ⟨rfl, hf⟩
  | reading got =>
    simp only [Call.step]
    split
    · rename_i h4
      rcases hx with rfl | ⟨D, hp, hg⟩
      · simp at h4
      · have : got = D.contents := by rw [hg, h4]; rfl
        rw [this, ofContents_contents]
        exact ⟨hp, hf⟩
    · rename_i h4
      rcases hr : readFile (fs.getD got.length .absent) with e | c
      · refine ⟨?_, hf⟩
        cases hs : fs.getD got.length .absent with
        | absent => rw [hs] at hr; exact .inr (.inl (Except.error.inj hr).symm)
        | incomplete => rw [hs] at hr; exact .inr (.inr (Except.error.inj hr).symm)
        | complete c => rw [hs] at hr; simp [readFile] at hr
      · refine ⟨?_, hf⟩
        have hs : fs[got.length]? = some (.complete c) := by
          cases hs : fs[got.length]? with
          | none => rw [List.getD_eq_getElem?_getD, hs] at hr; simp [readFile] at hr
          | some f =>
            rw [List.getD_eq_getElem?_getD, hs] at hr
            cases f with
            | absent => simp [readFile] at hr
            | incomplete => simp [readFile] at hr
            | complete c' => simp [readFile] at hr; rw [hr]
        obtain ⟨D, hp, hc⟩ := hf _ _ hs
        refine .inr ⟨D, hp, ?_⟩
        have hg : got = D.contents.take got.length := by
          rcases hx with rfl | ⟨D', hp', hg⟩
          · rfl
          · rw [hp] at hp'
            obtain rfl := Except.ok.inj hp'
            exact hg
        rw [List.length_append, List.length_singleton, List.take_add_one, hc, ← hg]
        rfl
  | writing D k opened =>
    simp only [Call.step]
    rcases hc : D.contents[k]? with _ | c
    · exact ⟨hx, hf⟩
    · dsimp only
      split
      · exact ⟨hx, hf.set fun c' hc' => ⟨D, hx, by rw [hc]; cases hc'; rfl⟩⟩
      · exact ⟨hx, hf.set fun c' hc' => by simp at hc'⟩
  | done r => exact ⟨hx, hf⟩
  | crashed => exact ⟨trivial, hf⟩

theorem Runs.good {parsed : Except FileErr (Loaded R)} {s t : (ℕ → Call R) × Files R} (h : Runs parsed s t) (h1 : ∀ i, (s.1 i).Good parsed)
    (h2 : GoodFiles parsed s.2) : (∀ i, (t.1 i).Good parsed) ∧ GoodFiles parsed t.2 := by
  induction h with
  | refl => exact ⟨h1, h2⟩
  | step i _ ih =>
    obtain ⟨g1, g2⟩ := ih
    obtain ⟨k1, k2⟩ := Call.step_good (g1 i) g2
    refine ⟨fun j => ?_, k2⟩
    by_cases hj : j = i
    · subst hj; simpa using k1
    · simpa [hj] using g1 j
  | crash i _ ih =>
    obtain ⟨g1, g2⟩ := ih
    refine ⟨fun j => ?_, g2⟩
    by_cases hj : j = i
    · subst hj; simp [Call.Good]
    · simpa [hj] using g1 j

/-- **C134**, all schedules and crash points.  Any number of processes call `load`, with and without `cache`, their steps are interleaved in any order, and each
may be stopped at any point.  A call that returns, returns exactly the data of the `.arff` files; if it raises, it raises what reading these
files raises, or an exception about a missing or broken cache file. -/
theorem C134_schedules_partial {parsed : Except FileErr (Loaded R)} (cache : ℕ → Bool) {calls : ℕ → Call R} {fs : Files R}
    (h : Runs parsed (fun i => .start (cache i), noFiles) (calls, fs)) (i : ℕ) :
    (∀ D, calls i = .done (.ok D) → parsed = .ok D) ∧
    ∀ e, calls i = .done (.error e) → parsed = .error e ∨ e = .notFound ∨ e = .badFile := by
  obtain ⟨g, _⟩ := h.good (fun _ => trivial) (by
    intro k c hk
    exfalso
    match k with
    | 0 => simp [noFiles] at hk
    | 1 => simp [noFiles] at hk
    | 2 => simp [noFiles] at hk
    | 3 => simp [noFiles] at hk
    | k + 4 => simp [noFiles] at hk)
  have : Call.Good parsed (calls i) := g i
  constructor
  · intro D hD
    rw [hD] at this
    exact this
  · intro e he
    rw [he] at this
    exact this

/-- The files after a call that was stopped between the first and the second file. -/
def brokenFiles (D : Loaded R) : Files R := [.complete (.series D.Xtrain), .absent, .absent, .absent]

/-- **C134** is false after a crash: one call with `cache=True` is stopped after the first file is saved … -/
theorem C134_crash (D : Loaded R) : ∃ calls : ℕ → Call R, Runs (.ok D) (fun _ => .start true, noFiles) (calls, brokenFiles D) ∧ calls 0 = .crashed := by
  have h0 := Runs.refl (parsed := .ok D) ((fun _ => .start true, noFiles) : (ℕ → Call R) × Files R)
  have h1 := h0.step 0
  have h2 := h1.step 0
  have h3 := h2.step 0
  have h4 := h3.crash 0
  simp [Call.step, noFiles, Loaded.contents] at h4
  exact ⟨_, h4, by simp⟩

/-- … and from then on every `load` with `cache=True` raises a `FileNotFoundError`, however often it is called; a `load` with
`cache=False` returns the data but does not repair the cache. -/
theorem C134_broken_forever (big : R) (D : Loaded R) (calls : List (Bool × Bool)) :
    loadMany big (.ok D) calls (brokenFiles D) =
      (calls.map fun c => if c.1 then .error .notFound else .ok (D.clean big c.2), brokenFiles D) := by
  induction calls with
  | nil => rfl
  | cons c cs ih =>
    have : loadCached (.ok D) c.1 (brokenFiles D) = (if c.1 then .error .notFound else .ok D, brokenFiles D) := by
      rcases c with ⟨_ | _, _⟩ <;> rfl
    show (((loadCached (.ok D) c.1 (brokenFiles D)).1.map (Loaded.clean big c.2)) :: (loadMany big (.ok D) cs (loadCached (.ok D) c.1 (brokenFiles D)).2).1,
      (loadMany big (.ok D) cs (loadCached (.ok D) c.1 (brokenFiles D)).2).2) = _
    rw [this]
    dsimp only
    rw [ih, List.map_cons]
    rcases c with ⟨_ | _, _⟩ <;> rfl

/-- Without any crash a second process raises if it starts while the first one saves its files. -/
theorem C134_race (D : Loaded R) : ∃ (calls : ℕ → Call R) (fs : Files R), Runs (.ok D) (fun _ => .start true, noFiles) (calls, fs) ∧
    calls 1 = .done (.error .notFound) ∧ calls 0 ≠ .crashed := by
  have h0 := Runs.refl (parsed := .ok D) ((fun _ => .start true, noFiles) : (ℕ → Call R) × Files R)
  have h6 := (((((h0.step 0).step 0).step 0).step 1).step 1).step 1
  simp [Call.step, noFiles, Loaded.contents, readFile] at h6
  exact ⟨_, _, h6, by simp, by simp⟩

/-! ### C135: load_all -/

theorem strLt_iff : ∀ {a b : PStr}, strLt a b = true ↔ a.map Char.toNat < b.map Char.toNat
  | [], [] => by simp [strLt]
  | [], _ :: _ => by simp [strLt]
  | _ :: _, [] => by simp [strLt]
  | a :: as, b :: bs => by
    have ht : ∀ {c d : Char}, c.toNat = d.toNat ↔ c = d := fun {c d} =>
      ⟨fun h => Char.ext (UInt32.toNat_inj.1 h), fun h => h ▸ rfl⟩
    rw [strLt, List.map_cons, List.map_cons, List.cons_lt_cons_iff]
    split
    · rename_i h
      subst h
      simp [strLt_iff]
    · rename_i h
      simp [ht, h]

/-- **C135.**  `load_all(path, datasets)` loads, in increasing order of their names (each once), exactly the directories in `path` that are wanted: all
of them or those in `datasets`. -/
theorem C135_load_all (entries : List (PStr × Bool)) (hd : (entries.map Prod.fst).Nodup) (datasets : Option (List PStr)) :
    (loadAllNames entries datasets).Pairwise (fun a b => a.map Char.toNat < b.map Char.toNat) ∧
    ∀ n, n ∈ loadAllNames entries datasets ↔ (n, true) ∈ entries ∧ ∀ ds, datasets = some ds → n ∈ ds := by
  constructor
  · unfold loadAllNames
    refine List.Pairwise.filter _ (List.Pairwise.map Prod.fst (fun _ _ h => h) (List.Pairwise.filter _ ?_))
    have h1 := List.pairwise_mergeSort (le := fun a b : PStr × Bool => !strLt b.1 a.1) (by
      intro a b c h1 h2
      simp only [Bool.not_eq_true', ← Bool.not_eq_true, strLt_iff, not_lt] at h1 h2 ⊢
      exact h1.trans h2) (by
      intro a b
      simp only [Bool.or_eq_true, Bool.not_eq_true', ← Bool.not_eq_true, strLt_iff, not_lt]
      exact le_total _ _) entries
    have h2 : (entries.mergeSort fun a b => !strLt b.1 a.1).Pairwise fun a b => a.1 ≠ b.1 := by
      have := ((List.mergeSort_perm entries fun a b => !strLt b.1 a.1).map Prod.fst).nodup_iff.2 hd
      rw [List.Nodup, List.pairwise_map] at this
      exact this
    refine (h1.and h2).imp fun {a b} h => ?_
    have := h.1
    simp only [Bool.not_eq_true', ← Bool.not_eq_true, strLt_iff, not_lt] at this
    refine lt_of_le_of_ne this fun he => h.2 ?_
    have hinj : Function.Injective Char.toNat := fun c d h => Char.ext (UInt32.toNat_inj.1 h)
    exact List.map_injective_iff.2 hinj he
  · intro n
    unfold loadAllNames
    cases datasets with
    | none => simp
    | some ds => simp

/-- Some directories; only two of them are wanted. -/
example : ∀ n, n ∈ loadAllNames [("b".toList, true), ("readme".toList, false), ("a".toList, true), ("Z".toList, true)]
    (some ["b".toList, "Z".toList, "readme".toList]) ↔ n = "b".toList ∨ n = "Z".toList := by
  intro n
  rw [(C135_load_all _ (by decide) _).2]
  constructor
  · rintro ⟨h, hd⟩
    have := hd _ rfl
    simp only [List.mem_cons, Prod.mk.injEq, List.not_mem_nil, or_false, and_true, and_false, Bool.true_eq_false, false_or] at h this
    rcases this with h' | h' | rfl
    · exact .inl h'
    · exact .inr h'
    · revert h; decide
  · rintro (rfl | rfl) <;> exact ⟨by decide, fun ds h => by cases h; decide⟩

/-- A dataset for C134. -/
example : loadMany (1000 : ℚ) (.ok ⟨[[[.nan]]], [0], [[[.finite 1]]], [0]⟩) [(true, true), (true, false)] noFiles =
    ([.ok ⟨[[[.nan]]], [0], [[[.finite 1]]], [0]⟩, .ok ⟨[[[.finite 0]]], [0], [[[.finite 1]]], [0]⟩],
      [.complete (.series [[[.nan]]]), .complete (.labels [0]), .complete (.series [[[.finite 1]]]), .complete (.labels [0])]) := by decide +kernel

end Fruits
