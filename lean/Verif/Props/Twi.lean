import Verif.Props.Warp3
import Verif.Props.Words4
import Verif.Props.Demo

/-! # The time warping invariant fruit of the experiments (property C108) -/

namespace Fruits
set_option linter.unusedSectionVars false
variable {R : Type} [Field R] [LinearOrder R] [IsStrictOrderedRing R] [FloorRing R]

/-- The letters of the words of `of_weight(w, dim)`. -/
theorem ofWeight_letters {order : List ℤ → List ℤ} (ho : SetOrder order) {permSet : List ℕ → List (List ℕ)} (hp : PermOrder permSet) {w : ℕ}
    (hw : 1 ≤ w) {dim : ℕ} {l : List (SWord R)} (hl : ofWeight R order permSet w dim = .ok l) {d : ℕ} (hd : dim ≤ d) :
    ∀ u ∈ l, u.els ≠ [] ∧ ∀ el ∈ u.els, PositiveLetter d el := by
  rw [ofWeight_eq ho hp hw dim] at hl
  cases hl
  intro u hu
  obtain ⟨ns, hns, rfl⟩ := List.mem_map.1 hu
  rw [mem_numWords hp hw] at hns
  obtain ⟨h1, h2⟩ := hns
  have hne : ns ≠ [] := by rintro rfl; simp at h1; omega
  refine ⟨by simpa [storedEls] using hne, ?_⟩
  intro el hel
  simp only [storedEls, List.map_map] at hel
  obtain ⟨e, he, rfl⟩ := List.mem_map.1 hel
  obtain ⟨he1, _, he3⟩ := h2 e he
  set vs := ns.map (·.map fun n : ℕ => (n : ℤ)) with hvs
  have hval : ∀ v ∈ vs, ∀ x ∈ v, 1 ≤ x ∧ x ≤ (dim : ℤ) := by
    intro v hv x hx
    obtain ⟨e', he', rfl⟩ := List.mem_map.1 hv
    obtain ⟨n, hn, rfl⟩ := List.mem_map.1 hx
    have := (h2 e' he').2.2 n hn
    omega
  have hmax : maxLetter vs ≤ dim := by
    by_contra h
    push Not at h
    obtain ⟨v, hv, x, hx, h3⟩ := exists_maxLetter (els := vs) (by omega)
    have := hval v hv x hx
    omega
  have hmem : e.map (fun n : ℕ => (n : ℤ)) ∈ vs := List.mem_map.2 ⟨e, he, rfl⟩
  have hcount : ∀ k, signedCount (e.map fun n : ℕ => (n : ℤ)) k = ((e.map fun n : ℕ => (n : ℤ)).count ((k : ℤ) + 1) : ℤ) := by
    intro k
    unfold signedCount
    have h0 : (e.map fun n : ℕ => (n : ℤ)).count (-((k : ℤ) + 1)) = 0 := List.count_eq_zero.2 fun hm => by
      have := hval _ hmem _ hm
      omega
    rw [h0]
    simp
  refine ⟨by simp [tab_length]; omega, ?_, ?_⟩
  · intro x hx
    obtain ⟨k, hk, rfl⟩ := mem_tab.1 hx
    rw [hcount]
    omega
  · obtain ⟨n, hn⟩ := List.exists_mem_of_ne_nil _ he1
    have hb := he3 n hn
    have hin : (n : ℤ) ∈ e.map (fun n : ℕ => (n : ℤ)) := List.mem_map.2 ⟨n, hn, rfl⟩
    have := le_maxLetter hmem hin
    refine ⟨_, mem_tab.2 ⟨n - 1, by simp at this; omega, rfl⟩, ?_⟩
    rw [hcount]
    have : ((n - 1 : ℕ) : ℤ) + 1 = n := by omega
    rw [this]
    exact_mod_cast List.count_pos_iff.2 hin

/-- `of_weight(w, dim)` satisfies the hypotheses of the theorems on time warping. -/
theorem ofWeight_simpleISS {order : List ℤ → List ℤ} (ho : SetOrder order) {permSet : List ℕ → List (List ℕ)} (hp : PermOrder permSet) {w : ℕ}
    (hw : 1 ≤ w) {dim : ℕ} (hd : 1 ≤ dim) {l : List (SWord R)} (hl : ofWeight R order permSet w dim = .ok l) (mode : ISSMode) (k : SemiringKind)
    (hk : k ≠ .arcticArgmax) (wt : Option (Weighting R)) : SimpleISS (⟨l.map .simple, mode, k, wt⟩ : ISSConf R) where
  semiring := hk
  nonempty := by
    simp only [ne_eq, List.map_eq_nil_iff]
    rintro rfl
    have := (ofWeight_blocks ho hp hw dim hl).2 [List.replicate w 1] ((mem_numWords hp hw dim _).2 ⟨by simp, ?_⟩)
    · obtain ⟨u, hu, _⟩ := this
      cases hu
    · intro el hel
      rw [List.mem_singleton] at hel
      subst hel
      refine ⟨by simp; omega, List.pairwise_replicate.2 (Or.inr (le_refl 1)), fun a ha => ?_⟩
      rw [(List.mem_replicate.1 ha).2]; omega
  simple := by intro v hv; obtain ⟨u, _, rfl⟩ := List.mem_map.1 hv; exact ⟨u, rfl⟩
  letters := by
    intro v hv
    obtain ⟨u, hu, rfl⟩ := List.mem_map.1 hv
    have := (ofWeight_letters ho hp hw hl (le_refl dim) u hu).1
    simpa [IWord.len] using this
  blocks := by
    intro _ v hv
    obtain ⟨u, hu, rfl⟩ := List.mem_map.1 hv
    obtain ⟨ns, _, h⟩ := (ofWeight_blocks ho hp hw dim hl).1 u hu
    exact ⟨_, h⟩

/-! ### `alternate_sign([SimpleWord(n*"[1]")])` -/

/-- `n*"[1]"`. -/
def onesStr (n : ℕ) : PStr := (List.replicate n "[1]".toList).flatten

/-- The letters of `[-1][1][-1]…` (`p = 0`) and `[1][-1][1]…` (`p = 1`). -/
def altOnes (n p : ℕ) : List (List Tok) := tab n fun i => [.plain (decide (i % 2 = p)) 1]

theorem onesStr_eq (n : ℕ) : onesStr n = wordStr (List.replicate n [Tok.plain false 1]) := by
  unfold onesStr wordStr render
  induction n with
  | zero => rfl
  | succ n ih =>
    rw [List.replicate_succ, List.flatten_cons, ih, List.replicate_succ]
    rfl

theorem values_altOnes (n p : ℕ) : values (altOnes n p) = tab n fun i => [if i % 2 = p then (-1 : ℤ) else 1] := by
  unfold values altOnes
  rw [map_tab]
  apply tab_congr
  intro i _
  by_cases h : i % 2 = p <;> simp [h, Tok.value, signed]

theorem maxLetter_ones {vs : List (List ℤ)} (hne : vs ≠ []) (h : ∀ el ∈ vs, ∃ x : ℤ, el = [x] ∧ x.natAbs = 1) : maxLetter vs = 1 := by
  apply le_antisymm
  · by_contra hc
    push Not at hc
    obtain ⟨el, hel, l, hl, h2⟩ := exists_maxLetter (els := vs) (by omega)
    obtain ⟨x, rfl, hx⟩ := h el hel
    rw [List.mem_singleton] at hl
    subst hl
    omega
  · obtain ⟨el, hel⟩ := List.exists_mem_of_ne_nil _ hne
    obtain ⟨x, rfl, hx⟩ := h el hel
    have := le_maxLetter hel (List.mem_singleton.2 rfl : x ∈ [x])
    omega

/-- The word `[-1][1]…` or `[1][-1]…` as an object. -/
def altWord (R : Type) (n p : ℕ) : SWord R :=
  ⟨tab n fun i => [if i % 2 = p then (-1 : ℤ) else 1], 1, wordStr (altOnes n p), none⟩

theorem mk_altOnes {order : List ℤ → List ℤ} (ho : SetOrder order) {n : ℕ} (hn : 1 ≤ n) (p : ℕ) :
    SWord.mk' R order (wordStr (altOnes n p)) = .ok (altWord R n p) := by
  have hwf : WellFormed (altOnes n p) := by
    refine ⟨fun h => ?_, fun el hel => ?_⟩
    · have := congrArg List.length h
      simp [altOnes, tab_length] at this; omega
    · obtain ⟨i, _, rfl⟩ := mem_tab.1 hel
      simp
  have hv := values_altOnes n p
  have h1 : ∀ el ∈ values (altOnes n p), ∃ x : ℤ, el = [x] ∧ x.natAbs = 1 := by
    rw [hv]
    intro el hel
    obtain ⟨i, _, rfl⟩ := mem_tab.1 hel
    refine ⟨_, rfl, ?_⟩
    split <;> rfl
  have hmax : maxLetter (values (altOnes n p)) = 1 := by
    refine maxLetter_ones ?_ h1
    intro h
    have := congrArg List.length h
    simp [values, altOnes, tab_length] at this; omega
  rw [mk_eq ho _ hwf]
  · rw [hmax, hv]
    unfold altWord storedEls
    rw [map_tab]
    congr 2
    apply tab_congr
    intro i _
    by_cases h : i % 2 = p <;> simp [h, tab, signedCount]
  · intro el hel l hl
    obtain ⟨x, rfl, hx⟩ := h1 el hel
    rw [List.mem_singleton] at hl
    subst hl
    omega

theorem altToks_ones (n p : ℕ) : altToks 1 (fun i => decide ((0 + i) % 2 = p)) (List.replicate n [(1 : ℤ)]) = altOnes n p := by
  unfold altToks altOnes
  apply List.ext_getElem
  · simp [tab_length]
  · intro i h1 h2
    simp only [List.length_mapIdx, List.length_replicate] at h1
    rw [List.getElem_mapIdx, List.getElem_replicate, tab_getElem]
    simp [sortedLetters, digTok]
    rfl

/-- `SimpleWord(n*"[1]")` and `alternate_sign` of it. -/
theorem alternate_ones {order : List ℤ → List ℤ} (ho : SetOrder order) {n : ℕ} (hn : 1 ≤ n) :
    ∃ u : SWord R, SWord.mk' R order (onesStr n) = .ok u ∧ alternateSign order [u] = .ok [altWord R n 0, altWord R n 1] := by
  have hv : values (List.replicate n [Tok.plain false 1]) = List.replicate n [(1 : ℤ)] := by
    simp [values, Tok.value, signed]
  have hmax : maxLetter (List.replicate n [(1 : ℤ)]) = 1 := by
    refine maxLetter_ones (by simp; omega) fun el hel => ⟨1, (List.mem_replicate.1 hel).2, rfl⟩
  have hpos : ∀ el ∈ List.replicate n [(1 : ℤ)], ∀ l ∈ el, 0 < l := by
    intro el hel l hl
    rw [(List.mem_replicate.1 hel).2, List.mem_singleton] at hl
    subst hl; omega
  refine ⟨_, by
    rw [onesStr_eq, mk_eq ho _ ⟨by simp; omega, fun el hel => by rw [(List.mem_replicate.1 hel).2]; simp⟩
      (by rw [hv]; exact fun el hel l hl => (hpos el hel l hl).ne')], ?_⟩
  rw [alternateSign, hv, hmax]
  have halt : alternateStrings (storedEls 1 (List.replicate n [(1 : ℤ)])) = (wordStr (altOnes n 0), wordStr (altOnes n 1)) := by
    unfold alternateStrings
    rw [alternate_aux _ (by omega) _ hpos, altToks_ones, altToks_ones]
    simp
  simp only [halt, mk_altOnes ho hn, ok_bind]
  rfl

theorem altWord_blocks (n p : ℕ) : HasBlocks (.simple (altWord R n p)) (tab n fun i => (Tok.plain (decide (i % 2 = p)) 1).str) := by
  have e : (tab n fun i => (Tok.plain (decide (i % 2 = p)) 1).str) = (altOnes n p).map (·.flatMap Tok.str) := by
    unfold altOnes
    rw [map_tab]
    simp
  rw [e]
  refine ⟨blocksOK_toks _, rfl, ?_⟩
  simp [altOnes, altWord, IWord.len, tab_length]

theorem altWord_simpleISS {n : ℕ} (hn : 1 ≤ n) (mode : ISSMode) (k : SemiringKind) (hk : k ≠ .arcticArgmax) (wt : Option (Weighting R)) :
    SimpleISS (⟨[.simple (altWord R n 0), .simple (altWord R n 1)], mode, k, wt⟩ : ISSConf R) where
  semiring := hk
  nonempty := by simp
  simple := by
    intro v hv
    simp only [List.mem_cons, List.not_mem_nil, or_false] at hv
    rcases hv with rfl | rfl <;> exact ⟨_, rfl⟩
  letters := by
    intro v hv
    simp only [List.mem_cons, List.not_mem_nil, or_false] at hv
    rcases hv with rfl | rfl <;> simp [IWord.len, altWord, tab_length] <;> omega
  blocks := by
    intro _ v hv
    simp only [List.mem_cons, List.not_mem_nil, or_false] at hv
    rcases hv with rfl | rfl <;> exact ⟨_, altWord_blocks n _⟩

/-- The beginnings of `[-1][1]…` and `[1][-1]…` are different: `2n` iterated sums in EXTENDED mode. -/
theorem altWord_count {n : ℕ} (hn : 1 ≤ n) (k : SemiringKind) (hk : k ≠ .arcticArgmax) (wt : Option (Weighting R)) :
    (⟨[.simple (altWord R n 0), .simple (altWord R n 1)], .extended, k, wt⟩ : ISSConf R).nIteratedSums = .ok (2 * n) := by
  obtain ⟨L, h1, h2, _, _, h5⟩ := C18_labels_are_prefixes (⟨[.simple (altWord R n 0), .simple (altWord R n 1)], .extended, k, wt⟩ : ISSConf R) rfl
    ((altWord_simpleISS hn .extended k hk wt).blocks rfl)
  rw [h5 hk]
  congr 1
  let bl : ℕ → List PStr := fun p => tab n fun i => (Tok.plain (decide (i % 2 = p)) 1).str
  have hblen : ∀ p, (bl p).length = n := fun p => tab_length _ _
  have hperm : L.Perm ((List.range 2 ×ˢ List.range' 1 n).map fun x => render ((bl x.1).take x.2)) := by
    rw [List.perm_ext_iff_of_nodup h1]
    · intro s
      rw [h2, List.mem_map]
      constructor
      · rintro ⟨v, hv, bs, hb, q, hq1, hq2, rfl⟩
        simp only [List.mem_cons, List.not_mem_nil, or_false] at hv
        rcases hv with rfl | rfl
        · have := hb.unique (altWord_blocks n 0)
          subst this
          refine ⟨(0, q), ?_, rfl⟩
          rw [tab_length] at hq2
          simp [List.mem_product, List.mem_range'_1]; omega
        · have := hb.unique (altWord_blocks n 1)
          subst this
          refine ⟨(1, q), ?_, rfl⟩
          rw [tab_length] at hq2
          simp [List.mem_product, List.mem_range'_1]; omega
      · rintro ⟨⟨p, q⟩, hpq, rfl⟩
        rw [List.mem_product, List.mem_range, List.mem_range'_1] at hpq
        have hp : p = 0 ∨ p = 1 := by omega
        rcases hp with rfl | rfl
        · exact ⟨_, by simp, _, altWord_blocks n 0, q, hpq.2.1, by rw [tab_length]; omega, rfl⟩
        · exact ⟨_, List.mem_cons_of_mem _ (List.mem_singleton.2 rfl), _, altWord_blocks n 1, q, hpq.2.1, by rw [tab_length]; omega, rfl⟩
    · refine List.Nodup.map_on ?_ (List.nodup_range.product (List.nodup_range' ))
      rintro ⟨p, q⟩ hx ⟨p', q'⟩ hy hxy
      rw [List.mem_product, List.mem_range, List.mem_range'_1] at hx hy
      simp only at hx hy hxy
      have hbo : ∀ p q, BlocksOK ((bl p).take q) := fun p q b hb => (altWord_blocks (R := R) n p).1 b (List.mem_of_mem_take hb)
      have he := render_injective (hbo p q) (hbo p' q') hxy
      have hq : q = q' := by
        have := congrArg List.length he
        simp only [List.length_take, hblen] at this
        omega
      subst hq
      have h0 : ((bl p).take q)[0]? = ((bl p').take q)[0]? := by rw [he]
      have hg : ∀ p, ((bl p).take q)[0]? = some (Tok.plain (decide (0 % 2 = p)) 1).str := by
        intro p
        rw [List.getElem?_take, if_pos (by omega), List.getElem?_eq_getElem (by rw [hblen]; omega)]
        simp only [bl, tab_getElem]
      rw [hg, hg] at h0
      have hp : p = 0 ∨ p = 1 := by omega
      have hp' : p' = 0 ∨ p' = 1 := by omega
      rcases hp with rfl | rfl <;> rcases hp' with rfl | rfl <;> first | rfl | exact absurd h0 (by decide)
  rw [hperm.length_eq, List.length_map, List.length_product, List.length_range, List.length_range']

/-! ### The script -/

/-- `NPI()`, `increment.py:49-61`. -/
def npiDefault : SafeSieve R := ⟨.inc .npi 1 { q := [0, 1] }, trivial⟩
/-- `MPI()`. -/
def mpiDefault : SafeSieve R := ⟨.inc .mpi 1 { q := [0, 1] }, trivial⟩
/-- `END()`, `segment.py:34-42`. -/
def endDefault : SafeSieve R := ⟨.seg .end_ { q := [-1, 1] }, trivial⟩
/-- `INC()`, `transform.py:33-40`. -/
def incDefault : SafePrep R := ⟨.inc ⟨.int 1, 1, true⟩, trivial⟩
/-- `ISS(…, mode=EXTENDED, semiring=Reals(), weighting=L1())`, `weighting.py:137-149`. -/
def twiReals : BIss R := .iss ⟨.extended, .reals, some (false, .norm .L1 false false none 50)⟩
/-- `ISS(…, mode=EXTENDED, semiring=Arctic())`. -/
def twiArctic : BIss R := .iss ⟨.extended, .arctic, none⟩

/-- `experiments/fruit_twi.py:3-32`, with `of_weight(9, 1)` and `alternate_sign([SimpleWord(48*"[1]")])` given as the lists `ws` and `vs`. -/
def twiScript (ws vs : List (IWord R)) : List (Op R (SafePrep R) (BIss R) (List (IWord R)) (SafeSieve R)) :=
  [.newFruit "Time Warping Invariant Fruit".toList, .cut 0 none, .fruitAdd 0 [.prepClass incDefault], .newWords ws, .newIss twiReals 0,
    .fruitAdd 0 [.iss 0], .fruitAdd 0 [.sieveClass npiDefault, .sieveClass mpiDefault, .sieveClass endDefault], .cut 0 none, .newWords vs,
    .newIss twiArctic 1, .fruitAdd 0 [.iss 1], .fruitAdd 0 [.sieveClass npiDefault, .sieveClass endDefault], .setSample 0 (.float 1),
    .setSample 1 (.float 1)]

/-- The world after the script. -/
structure TwiWorld (ws vs : List (IWord R)) (w : World R (SafePrep R) (BIss R) (List (IWord R)) (SafeSieve R)) : Prop where
  fruit : (w.fruit 0).slices = [0, 1]
  slice0 : w.slice 0 = { preps := [0], iss := [0], sieves := [0, 1, 2], sample := .float 1 }
  slice1 : w.slice 1 = { preps := [], iss := [1], sieves := [3, 4], sample := .float 1 }
  prep : w.prep 0 = incDefault
  iss0 : w.issAt 0 = (twiReals, ws)
  iss1 : w.issAt 1 = (twiArctic, vs)
  sieves : w.sieve 0 = npiDefault ∧ w.sieve 1 = mpiDefault ∧ w.sieve 2 = endDefault ∧ w.sieve 3 = npiDefault ∧ w.sieve 4 = endDefault

theorem twiScript_world [NpMath R] (L : Lib R) (ρ : ℕ → Rng R) (ws vs : List (IWord R))
    (w0 : World R (SafePrep R) (BIss R) (List (IWord R)) (SafeSieve R)) (h0 : w0.Empty) :
    TwiWorld ws vs (runOps (builtin L) ρ (twiScript ws vs) w0) := by
  obtain ⟨e1, e2, e3, e4, e5, e6⟩ := h0
  constructor <;>
  simp [runOps, twiScript, step, World.newFruit, fruitCutNew, fruitCut, World.newSlice, World.setFruit, fruitAdd, ensureSlice, currentSlice, sliceAdd,
    sliceAddPrep, sliceAddIss, sliceAddSieve, World.newPrep, World.newIss, World.newWords, World.newSieve, World.setSlice, sliceSetSample, World.issAt, World.setPrep, World.setIss, World.setWords, World.setSieve,
    Function.update, e1, e2, e3, e4, e5, e6]

theorem TwiWorld.twi {l : List (SWord R)} {order : List ℤ → List ℤ} (ho : SetOrder order) {permSet : List ℕ → List (List ℕ)} (hp : PermOrder permSet)
    {k n : ℕ} (hk : 1 ≤ k) (hn : 1 ≤ n) (hl : ofWeight R order permSet k 1 = .ok l) {w : World R (SafePrep R) (BIss R) (List (IWord R)) (SafeSieve R)}
    (hw : TwiWorld (l.map .simple) [.simple (altWord R n 0), .simple (altWord R n 1)] w) {d : ℕ} (hd : 1 ≤ d) (X : Data R) :
    ∀ s ∈ (w.fruit 0).slices, TwiSlice w s d X := by
  obtain ⟨s0, s1, s2, s3, s4⟩ := hw.sieves
  intro s hs
  rw [hw.fruit] at hs
  simp only [List.mem_cons, List.not_mem_nil, or_false] at hs
  rcases hs with rfl | rfl
  · refine ⟨?_, ?_, [], 0, ⟨.extended, .reals, some (false, .norm .L1 false false none 50)⟩, ?_, by simp, ?_, ?_, ⟨rfl, rfl⟩, Or.inl ⟨rfl, ⟨0, true, ?_, ?_⟩, ?_⟩⟩
    · rw [hw.slice0]
      simp [s0, s1, s2, npiDefault, mpiDefault, endDefault, Sieve.Elastic, Cut.Elastic]
    · rw [hw.slice0]; simp
    · rw [hw.slice0]
    · rw [hw.iss0]; rfl
    · rw [hw.iss0]; exact ofWeight_simpleISS ho hp hk (le_refl 1) hl .extended .reals (by decide) none
    · rw [hw.slice0]; rfl
    · rw [hw.prep]; rfl
    · intro u hu
      rw [hw.iss0] at hu
      obtain ⟨v, hv, he⟩ := List.mem_map.1 hu
      cases he
      exact (ofWeight_letters ho hp hk hl hd u hv).2
  · refine ⟨?_, ?_, [], 1, ⟨.extended, .arctic, none⟩, ?_, by simp, ?_, ?_, trivial, Or.inr (Or.inl ⟨rfl, ?_, ?_⟩)⟩
    · rw [hw.slice1]
      simp [s3, s4, npiDefault, endDefault, Sieve.Elastic, Cut.Elastic]
    · rw [hw.slice1]; simp
    · rw [hw.slice1]
    · rw [hw.iss1]; rfl
    · rw [hw.iss1]; exact altWord_simpleISS hn .extended .arctic (by decide) none
    · rw [hw.slice1]
    · intro u hu el hel
      rw [hw.iss1] at hu
      simp only [List.mem_cons, List.not_mem_nil, or_false, IWord.simple.injEq] at hu
      have : el.length = 1 := by
        rcases hu with rfl | rfl <;>
        · obtain ⟨i, _, rfl⟩ := mem_tab.1 hel
          rfl
      omega

/-- **C108.** The fruit of `experiments/fruit_twi.py`, fitted on any training data, returns the same features for a dataset (with at least one
series and dimension) and for the dataset with repeated samples. -/
theorem C108_fruit_twi [NpMath R] (L : Lib R) (hT : L.T.Lawful) (hexp : ExpLike L.expf) (ρ : ℕ → Rng R)
    (w0 : World R (SafePrep R) (BIss R) (List (IWord R)) (SafeSieve R)) (h0 : w0.Empty)
    (order : List ℤ → List ℤ) (ho : SetOrder order) (permSet : List ℕ → List (List ℕ)) (hp : PermOrder permSet) (l vs : List (SWord R)) (u : SWord R)
    (hl : ofWeight R order permSet 9 1 = .ok l) (hu : SWord.mk' R order (onesStr 48) = .ok u) (hv : alternateSign order [u] = .ok vs)
    (C Xtrain X : Data R) (w : World R (SafePrep R) (BIss R) (List (IWord R)) (SafeSieve R))
    (hfit : fruitFit (builtin L) ρ 0 C Xtrain (runOps (builtin L) ρ (twiScript (l.map .simple) (vs.map .simple)) w0) = (.ok (), w))
    {m d n n' : ℕ} (hX : HasShape X m d n) (hm : 0 < m) (hd : 0 < d) {φ : ℕ → ℕ → ℕ} (hφ : ∀ i < m, IsWarp n n' (φ i)) (c c' : ℕ) :
    (fruitTransform (builtin L) w c' 0 (warp φ n' X) (warp φ n' X)).1 = (fruitTransform (builtin L) w c 0 X X).1 := by
  obtain ⟨u', e1, e2⟩ := alternate_ones (R := R) ho (n := 48) (by omega)
  rw [e1] at hu; cases hu
  rw [e2] at hv; cases hv
  exact C106_fitted L hT hexp ρ _ w 0 C Xtrain X ((twiScript_world L ρ _ _ w0 h0).twi ho hp (by omega) (by omega) hl hd X) hfit hX hm hd hφ c c'

/-- It has 1725 features: three for each of the 511 words of weight at most nine, and two for each of the 96 beginnings of the two
alternating words. -/
theorem C108_nfeatures [NpMath R] (L : Lib R) (ρ : ℕ → Rng R) (w0 : World R (SafePrep R) (BIss R) (List (IWord R)) (SafeSieve R)) (h0 : w0.Empty)
    (order : List ℤ → List ℤ) (ho : SetOrder order) (permSet : List ℕ → List (List ℕ)) (hp : PermOrder permSet) (l vs : List (SWord R)) (u : SWord R)
    (hl : ofWeight R order permSet 9 1 = .ok l) (hu : SWord.mk' R order (onesStr 48) = .ok u) (hv : alternateSign order [u] = .ok vs) :
    fruitN (builtin L) (runOps (builtin L) ρ (twiScript (l.map .simple) (vs.map .simple)) w0) 0 = .ok 1725 := by
  obtain ⟨u', e1, e2⟩ := alternate_ones (R := R) ho (n := 48) (by omega)
  rw [e1] at hu; cases hu
  rw [e2] at hv; cases hv
  have hw := twiScript_world L ρ (l.map .simple) [.simple (altWord R 48 0), .simple (altWord R 48 1)] w0 h0
  show fruitN (builtin L) (runOps (builtin L) ρ (twiScript (l.map .simple) [.simple (altWord R 48 0), .simple (altWord R 48 1)]) w0) 0 = _
  generalize runOps (builtin L) ρ (twiScript (l.map .simple) [.simple (altWord R 48 0), .simple (altWord R 48 1)]) w0 = w at hw
  obtain ⟨s0, s1, s2, s3, s4⟩ := hw.sieves
  have c0 : BIss.count (twiReals : BIss R) (l.map .simple) = .ok 511 :=
    C107_one_dimension order ho permSet hp 9 (by omega) l hl ⟨l.map .simple, .extended, .reals, none⟩ rfl rfl (by simp)
  have c1 : BIss.count (twiArctic : BIss R) [.simple (altWord R 48 0), .simple (altWord R 48 1)] = .ok 96 :=
    altWord_count (by omega) .arctic (by decide) none
  have n0 : sliceN (builtin L) w 0 = .ok 1533 := by
    unfold sliceN sliceCount sieveTotal
    rw [hw.slice0]
    show (do let n ← (do let ns ← [0].mapM fun a => BIss.count (w.issAt a).1 (w.issAt a).2; pure ns.prod); _) = _
    simp only [List.mapM_cons, List.mapM_nil, hw.iss0, c0]
    simp only [List.map_cons, List.map_nil, s0, s1, s2]
    have e : ∀ v ∈ [npiDefault, mpiDefault, (endDefault : SafeSieve R)], (builtin L).sieveN v = 1 := by
      intro v hv
      simp only [List.mem_cons, List.not_mem_nil, or_false] at hv
      rcases hv with rfl | rfl | rfl <;> rfl
    rw [e npiDefault (by simp), e mpiDefault (by simp), e endDefault (by simp)]
    simp [bind, Except.bind, pure, Except.pure]
  have n1 : sliceN (builtin L) w 1 = .ok 192 := by
    unfold sliceN sliceCount sieveTotal
    rw [hw.slice1]
    show (do let n ← (do let ns ← [1].mapM fun a => BIss.count (w.issAt a).1 (w.issAt a).2; pure ns.prod); _) = _
    simp only [List.mapM_cons, List.mapM_nil, hw.iss1, c1]
    simp only [List.map_cons, List.map_nil, s3, s4]
    have e : ∀ v ∈ [npiDefault, (endDefault : SafeSieve R)], (builtin L).sieveN v = 1 := by
      intro v hv
      simp only [List.mem_cons, List.not_mem_nil, or_false] at hv
      rcases hv with rfl | rfl <;> rfl
    rw [e npiDefault (by simp), e endDefault (by simp)]
    simp [bind, Except.bind, pure, Except.pure]
  unfold fruitN
  rw [hw.fruit]
  simp only [List.mapM_cons, List.mapM_nil, n0, n1]
  rfl

/-- The words exist. -/
example : (∃ l : List (SWord ℚ), ofWeight ℚ List.dedup (fun p => p.permutations.dedup) 9 1 = .ok l) ∧
    ∃ u vs : List (SWord ℚ), ∃ x, SWord.mk' ℚ List.dedup (onesStr 48) = .ok x ∧ u = [x] ∧ alternateSign List.dedup u = .ok vs := by
  obtain ⟨l, h, _⟩ := C26_of_weight (R := ℚ) List.dedup (fun _ => .refl _) _ permOrder_dedup 9 (by omega) 1
  obtain ⟨x, h1, h2⟩ := alternate_ones (R := ℚ) (order := List.dedup) (fun _ => .refl _) (n := 48) (by omega)
  exact ⟨⟨l, h⟩, [x], _, x, h1, rfl, h2⟩

end Fruits
