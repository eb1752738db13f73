import Verif.Props.Scripts0
import Verif.Props.Scripts1

/-! # The fruits of `experiments/fruit_general.py` and `experiments/fruit_reduced.py` (property C112) -/

namespace Fruits
set_option linter.unusedSectionVars false
variable {R : Type} [Field R] [LinearOrder R] [IsStrictOrderedRing R] [FloorRing R]

/-- `NPI(q=(0.5, 1.0), inc=i)`. -/
def npiHalf (i : ℤ) : SafeSieve R := ⟨.inc .npi i { q := [1 / 2, 1] }, trivial⟩
/-- `MPI(q=(0.5, 1.0), inc=i)`. -/
def mpiHalf (i : ℤ) : SafeSieve R := ⟨.inc .mpi i { q := [1 / 2, 1] }, trivial⟩
/-- `NEW(INC())`. -/
def newInc : SafePrep R := ⟨.new (some (.inc ⟨.int 1, 1, true⟩)), trivial⟩
/-- `STD()`, `transform.py:112-121`: `std_eps=1e-5`. -/
def stdDefault : SafePrep R := ⟨.std { eps := 1 / 100000 }, trivial⟩
/-- `ISS(…, mode=EXTENDED, semiring=Reals(), weighting=Indices())`. -/
def genReals : BIss R := .iss ⟨.extended, .reals, some (false, .indices true none 50)⟩
/-- `CosWISS(freqs=[i/20 for i in range(1, 11, 2)], …, exponent=e, total_weighting=True)`. -/
def genCos (e : ℕ) : BIss R := .cos { freqs := [1 / 20, 3 / 20, 5 / 20, 7 / 20, 9 / 20], exponent := e, total := true }

/-- The seven lines adding sieves (`fruit_general.py:36-42`, `47-53`, `65-71`); `b` sieve objects exist already. -/
def addSieves (b : ℕ) : List (Op R (SafePrep R) (BIss R) (List (IWord R)) (SafeSieve R)) :=
  [.newSieve (npiHalf 0), .fruitAdd 0 [.sieve b], .newSieve (npiHalf 1), .fruitAdd 0 [.sieve (b + 1)], .newSieve (npiHalf 2), .fruitAdd 0 [.sieve (b + 2)],
    .newSieve (mpiHalf 0), .fruitAdd 0 [.sieve (b + 3)], .newSieve (mpiHalf 1), .fruitAdd 0 [.sieve (b + 4)], .newSieve (mpiHalf 2), .fruitAdd 0 [.sieve (b + 5)],
    .fruitAdd 0 [.sieveClass endDefault]]

/-- `experiments/fruit_general.py:3-74` and `experiments/fruit_reduced.py:3-73`, with the lists of words given: `ws` is the list `of_weight(6, 2)`, `vs` the list
`alternate_sign([…])` and `cs` the list `cos_words`. -/
def expScript (name : PStr) (ws vs cs : List (IWord R)) : List (Op R (SafePrep R) (BIss R) (List (IWord R)) (SafeSieve R)) :=
  [.newWords ws, .newIss genReals 0, .newWords vs, .newIss twiArctic 1, .newWords cs, .newFruit name,
    .cut 0 none, .newPrep newInc, .fruitAdd 0 [.prep 0], .fruitAdd 0 [.prepClass stdDefault], .fruitAdd 0 [.iss 0]] ++ addSieves 0 ++
  [.cut 0 none, .newPrep newInc, .fruitAdd 0 [.prep 2], .fruitAdd 0 [.iss 1]] ++ addSieves 7 ++
  [.cut 0 none, .newPrep newInc, .fruitAdd 0 [.prep 3], .fruitAdd 0 [.prepClass stdDefault], .newIss (genCos 1) 2, .fruitAdd 0 [.iss 2]] ++ addSieves 14 ++
  [.cut 0 none, .newPrep newInc, .fruitAdd 0 [.prep 5], .fruitAdd 0 [.prepClass stdDefault], .newIss (genCos 2) 2, .fruitAdd 0 [.iss 3]] ++ addSieves 21 ++
  [.setSample 0 (.float 1), .setSample 1 (.float 1), .setSample 2 (.float 1), .setSample 3 (.float 1)]

/-- The seven sieves. -/
def sevenSieves : List (SafeSieve R) := [npiHalf 0, npiHalf 1, npiHalf 2, mpiHalf 0, mpiHalf 1, mpiHalf 2, endDefault]

/-- What the script builds. -/
def expConf (ws vs cs : List (IWord R)) : Conf R (SafePrep R) (BIss R) (List (IWord R)) (SafeSieve R) where
  preps := [newInc, stdDefault, newInc, newInc, stdDefault, newInc, stdDefault]
  iss := [(genReals, 0), (twiArctic, 1), (genCos 1, 2), (genCos 2, 2)]
  words := [ws, vs, cs]
  sieves := sevenSieves ++ sevenSieves ++ sevenSieves ++ sevenSieves
  slices := [{ preps := [0, 1], iss := [0], sieves := [0, 1, 2, 3, 4, 5, 6], sample := .float 1 },
    { preps := [2], iss := [1], sieves := [7, 8, 9, 10, 11, 12, 13], sample := .float 1 },
    { preps := [3, 4], iss := [2], sieves := [14, 15, 16, 17, 18, 19, 20], sample := .float 1 },
    { preps := [5, 6], iss := [3], sieves := [21, 22, 23, 24, 25, 26, 27], sample := .float 1 }]
  made := true

theorem Conf.run_append {P I W S : Type} (a b : List (Op R P I W S)) (c : Conf R P I W S) : Conf.run (a ++ b) c = (Conf.run a c).bind (Conf.run b) := by
  induction a generalizing c with
  | nil => rfl
  | cons o os ih =>
    rw [List.cons_append, Conf.run, Conf.run, Option.bind_assoc]
    congr 1
    funext x
    exact ih x

theorem modify_last {α : Type} (l : List α) (o : α) (f : α → α) : (l ++ [o]).modify ((l ++ [o]).length - 1) f = l ++ [f o] := by
  rw [List.length_append, List.length_singleton, Nat.add_sub_cancel]
  induction l with
  | nil => rfl
  | cons a l ih => simp [ih]

theorem addSieve_conf (ps : List (SafePrep R)) (is : List (BIss R × ℕ)) (wl : List (List (IWord R))) (vl : List (SafeSieve R)) (sl : List (SliceObj R (SafeSieve R)))
    (o : SliceObj R (SafeSieve R)) (v : SafeSieve R) (rest : List (Op R (SafePrep R) (BIss R) (List (IWord R)) (SafeSieve R))) (b : ℕ) (hb : vl.length = b) :
    Conf.run (.newSieve v :: .fruitAdd 0 [.sieve b] :: rest) ⟨ps, is, wl, vl, sl ++ [o], true⟩ =
      Conf.run rest ⟨ps, is, wl, vl ++ [v], sl ++ [{ o with sieves := o.sieves ++ [b], fitted := false }], true⟩ := by
  subst hb
  simp only [Conf.run, Conf.step, Option.bind_some]
  rw [if_pos (by simp), Option.bind_some]
  simp only [Conf.addLast, modify_last]

theorem addSieves_conf (ps : List (SafePrep R)) (is : List (BIss R × ℕ)) (wl : List (List (IWord R))) (vl : List (SafeSieve R)) (sl : List (SliceObj R (SafeSieve R)))
    (o : SliceObj R (SafeSieve R)) (b : ℕ) (hb : vl.length = b) :
    Conf.run (addSieves b) ⟨ps, is, wl, vl, sl ++ [o], true⟩ =
      some ⟨ps, is, wl, vl ++ sevenSieves, sl ++ [{ o with sieves := o.sieves ++ [b, b + 1, b + 2, b + 3, b + 4, b + 5, b + 6], fitted := false }], true⟩ := by
  subst hb
  unfold addSieves
  rw [addSieve_conf _ _ _ _ _ _ _ _ _ rfl, addSieve_conf _ _ _ _ _ _ _ _ _ (by simp), addSieve_conf _ _ _ _ _ _ _ _ _ (by simp),
    addSieve_conf _ _ _ _ _ _ _ _ _ (by simp), addSieve_conf _ _ _ _ _ _ _ _ _ (by simp), addSieve_conf _ _ _ _ _ _ _ _ _ (by simp)]
  simp only [Conf.run, Conf.step]
  rw [if_pos (by simp), Option.bind_some]
  simp only [Conf.addLast, modify_last]
  simp [sevenSieves]

theorem expScript_conf (name : PStr) (ws vs cs : List (IWord R)) : Conf.run (expScript name ws vs cs) {} = some (expConf ws vs cs) := by
  unfold expScript
  simp only [Conf.run_append]
  have e1 : Conf.run [.newWords ws, .newIss genReals 0, .newWords vs, .newIss twiArctic 1, .newWords cs, .newFruit name,
      .cut 0 none, .newPrep newInc, .fruitAdd 0 [.prep 0], .fruitAdd 0 [.prepClass stdDefault], .fruitAdd 0 [.iss 0]] ({} : Conf R (SafePrep R) (BIss R) (List (IWord R)) (SafeSieve R)) =
      some ⟨[newInc, stdDefault], [(genReals, 0), (twiArctic, 1)], [ws, vs, cs], [], [] ++ [{ preps := [0, 1], iss := [0] }], true⟩ := rfl
  rw [e1, Option.bind_some, addSieves_conf _ _ _ _ _ _ 0 rfl, Option.bind_some]
  dsimp only [List.nil_append]
  have e2 : ∀ (vl : List (SafeSieve R)) (o : SliceObj R (SafeSieve R)),
      Conf.run [.cut 0 none, .newPrep newInc, .fruitAdd 0 [.prep 2], .fruitAdd 0 [.iss 1]] 
      (⟨[newInc, stdDefault], [(genReals, 0), (twiArctic, 1)], [ws, vs, cs], vl, [o], true⟩ : Conf R (SafePrep R) (BIss R) (List (IWord R)) (SafeSieve R)) =
      some ⟨[newInc, stdDefault, newInc], [(genReals, 0), (twiArctic, 1)], [ws, vs, cs], vl, [o] ++ [{ preps := [2], iss := [1] }], true⟩ := fun _ _ => rfl
  rw [e2, Option.bind_some, addSieves_conf _ _ _ _ _ _ 7 rfl, Option.bind_some]
  dsimp only [List.cons_append, List.nil_append]
  have e3 : ∀ (vl : List (SafeSieve R)) (o o' : SliceObj R (SafeSieve R)),
      Conf.run [.cut 0 none, .newPrep newInc, .fruitAdd 0 [.prep 3], .fruitAdd 0 [.prepClass stdDefault], .newIss (genCos 1) 2, .fruitAdd 0 [.iss 2]]
      (⟨[newInc, stdDefault, newInc], [(genReals, 0), (twiArctic, 1)], [ws, vs, cs], vl, [o, o'], true⟩ : Conf R (SafePrep R) (BIss R) (List (IWord R)) (SafeSieve R)) =
      some ⟨[newInc, stdDefault, newInc, newInc, stdDefault], [(genReals, 0), (twiArctic, 1), (genCos 1, 2)], [ws, vs, cs], vl, [o, o'] ++ [{ preps := [3, 4], iss := [2] }], true⟩ :=
    fun _ _ _ => rfl
  rw [e3, Option.bind_some, addSieves_conf _ _ _ _ _ _ 14 rfl, Option.bind_some]
  dsimp only [List.cons_append, List.nil_append]
  have e4 : ∀ (vl : List (SafeSieve R)) (o o' o'' : SliceObj R (SafeSieve R)),
      Conf.run [.cut 0 none, .newPrep newInc, .fruitAdd 0 [.prep 5], .fruitAdd 0 [.prepClass stdDefault], .newIss (genCos 2) 2, .fruitAdd 0 [.iss 3]]
      (⟨[newInc, stdDefault, newInc, newInc, stdDefault], [(genReals, 0), (twiArctic, 1), (genCos 1, 2)], [ws, vs, cs], vl, [o, o', o''], true⟩ : Conf R (SafePrep R) (BIss R) (List (IWord R)) (SafeSieve R)) =
      some ⟨[newInc, stdDefault, newInc, newInc, stdDefault, newInc, stdDefault], [(genReals, 0), (twiArctic, 1), (genCos 1, 2), (genCos 2, 2)], [ws, vs, cs], vl,
        [o, o', o''] ++ [{ preps := [5, 6], iss := [3] }], true⟩ := fun _ _ _ _ => rfl
  rw [e4, Option.bind_some, addSieves_conf _ _ _ _ _ _ 21 rfl, Option.bind_some]
  rfl

/-! ### What the slices need, and how many features there are -/

theorem expConf_sieves (ws vs cs : List (IWord R)) {w : World R (SafePrep R) (BIss R) (List (IWord R)) (SafeSieve R)} (h : Rep w (expConf ws vs cs)) (b : ℕ)
    (hb : b = 0 ∨ b = 7 ∨ b = 14 ∨ b = 21) : [b, b + 1, b + 2, b + 3, b + 4, b + 5, b + 6].map w.sieve = sevenSieves := by
  have g := h.sieve
  rcases hb with rfl | rfl | rfl | rfl <;>
  simp only [List.map_cons, List.map_nil, sevenSieves] <;>
  rw [g _ _ rfl, g _ _ rfl, g _ _ rfl, g _ _ rfl, g _ _ rfl, g _ _ rfl, g _ _ rfl]

theorem sevenSieves_accepts {v : SafeSieve R} (hv : v ∈ (sevenSieves : List (SafeSieve R))) : v.1.Accepts .aligned 0 := by
  have hh : ∀ q ∈ [(1 / 2 : R), 1], q = -1 ∨ (0 ≤ q ∧ q ≤ 1) := by
    intro q hq
    simp only [List.mem_cons, List.not_mem_nil, or_false] at hq
    rcases hq with rfl | rfl <;> right <;> norm_num
  simp only [sevenSieves, List.mem_cons, List.not_mem_nil, or_false] at hv
  rcases hv with rfl | rfl | rfl | rfl | rfl | rfl | rfl
  iterate 6 exact ⟨by simp, hh⟩
  simp only [endDefault, Sieve.Accepts, Seg.GoodQ, Seg.GoodCut]
  refine ⟨⟨⟨by simp, ?_⟩, rfl⟩, ?_⟩
  · intro q hq
    simp at hq
    rcases hq with rfl | rfl
    · left; rfl
    · right; norm_num
  · intro c hc
    simp at hc
    subst hc
    norm_num

theorem sevenSieves_n [NpMath R] (L : Lib R) {v : SafeSieve R} (hv : v ∈ (sevenSieves : List (SafeSieve R))) : (builtin L).sieveN v = 1 := by
  simp only [sevenSieves, List.mem_cons, List.not_mem_nil, or_false] at hv
  rcases hv with rfl | rfl | rfl | rfl | rfl | rfl | rfl <;> rfl

theorem sieveTotal_seven [NpMath R] (L : Lib R) {w : World R (SafePrep R) (BIss R) (List (IWord R)) (SafeSieve R)} {s : ℕ}
    (h : (w.slice s).sieves.map w.sieve = sevenSieves) : sieveTotal (builtin L) w s = 7 := by
  unfold sieveTotal
  rw [show ((w.slice s).sieves.map fun a => (builtin L).sieveN (w.sieve a)) = ((w.slice s).sieves.map w.sieve).map (builtin L).sieveN by rw [List.map_map]; rfl, h,
    List.map_congr_left (g := fun _ => (1 : ℤ)) fun v hv => sevenSieves_n L hv]
  rfl

theorem sieves_accept {w : World R (SafePrep R) (BIss R) (List (IWord R)) (SafeSieve R)} {s : ℕ}
    (h : (w.slice s).sieves.map w.sieve = sevenSieves) : ∀ a ∈ (w.slice s).sieves, (w.sieve a).1.Accepts .aligned 0 := by
  intro a ha
  exact sevenSieves_accepts (h ▸ List.mem_map.2 ⟨a, ha, rfl⟩)

/-- `NEW(INC())` doubles the number of dimensions. -/
theorem newInc_accepts [NpMath R] (d : ℕ) : (newInc : SafePrep R).1.Accepts .aligned d (2 * d) := by
  simp only [newInc, Prep.Accepts, INC.ok]
  exact ⟨d, by simp, by omega⟩

theorem stdDefault_accepts [NpMath R] (d : ℕ) : (stdDefault : SafePrep R).1.Accepts .aligned d d := by
  simp only [stdDefault, Prep.Accepts]

/-- The numbers of dimensions the preparateurs of the script are used with: `NEW(INC())` doubles, `STD` keeps. -/
def expDims (d a : ℕ) : ℕ × ℕ := if a = 0 ∨ a = 2 ∨ a = 3 ∨ a = 5 then (d, 2 * d) else (2 * d, 2 * d)

/-- All slices of the script are made for data with any number `d ≥ 1` of dimensions. -/
theorem exp_sliceFor [NpMath R] {order : List ℤ → List ℤ} (ho : SetOrder order) {permSet : List ℕ → List (List ℕ)} (hp : PermOrder permSet) {k n : ℕ} (hk : 1 ≤ k)
    {l cs : List (SWord R)} (hl : ofWeight R order permSet k 2 = .ok l) (hne : cs ≠ []) (hcs : ∀ u ∈ cs, u.els ≠ [] ∧ ∀ el ∈ u.els, PositiveLetter 2 el)
    {w : World R (SafePrep R) (BIss R) (List (IWord R)) (SafeSieve R)}
    (hw : Rep w (expConf (l.map .simple) ((altWords R n).map .simple) (cs.map .simple))) {d : ℕ} (hd : 1 ≤ d) :
    ∀ s ∈ (w.fruit 0).slices, SliceFor false 0 (expDims d) (fun _ => (2 * d, 2 * d)) w d s := by
  have hs0 := hw.slice 0 _ rfl
  have hs1 := hw.slice 1 _ rfl
  have hs2 := hw.slice 2 _ rfl
  have hs3 := hw.slice 3 _ rfl
  have hp0 := hw.prep 0 _ rfl
  have hp1 := hw.prep 1 _ rfl
  have hp2 := hw.prep 2 _ rfl
  have hp3 := hw.prep 3 _ rfl
  have hp4 := hw.prep 4 _ rfl
  have hp5 := hw.prep 5 _ rfl
  have hp6 := hw.prep 6 _ rfl
  have hi0 : w.issAt 0 = (genReals, l.map .simple) := by unfold World.issAt; rw [hw.iss 0 _ rfl, hw.words 0 _ rfl]
  have hi1 : w.issAt 1 = (twiArctic, (altWords R n).map .simple) := by unfold World.issAt; rw [hw.iss 1 _ rfl, hw.words 1 _ rfl]
  have hi2 : w.issAt 2 = (genCos 1, cs.map .simple) := by unfold World.issAt; rw [hw.iss 2 _ rfl, hw.words 2 _ rfl]
  have hi3 : w.issAt 3 = (genCos 2, cs.map .simple) := by unfold World.issAt; rw [hw.iss 3 _ rfl, hw.words 2 _ rfl]
  have hsv : ∀ s b, (w.slice s).sieves = [b, b + 1, b + 2, b + 3, b + 4, b + 5, b + 6] → (b = 0 ∨ b = 7 ∨ b = 14 ∨ b = 21) →
      ∀ a ∈ (w.slice s).sieves, (w.sieve a).1.Accepts .aligned 0 := by
    intro s b h1 h2
    exact sieves_accept (h1 ▸ expConf_sieves _ _ _ hw b h2)
  have hcos : ∀ e, BIss.Accepts .aligned (genCos e : BIss R) (cs.map .simple) (2 * d) (2 * d) := by
    intro e
    refine ⟨rfl, by simp, by simpa using hne, ?_, fun _ => rfl⟩
    intro v hv
    obtain ⟨u, hu, rfl⟩ := List.mem_map.1 hv
    refine ⟨u, rfl, (hcs u hu).1, fun el hel => ?_⟩
    have := ((hcs u hu).2 el hel).1
    omega
  intro s hs
  rw [(hw.fruit rfl).1] at hs
  have hs : s < 4 := by simpa [expConf] using hs
  have hs : s = 0 ∨ s = 1 ∨ s = 2 ∨ s = 3 := by omega
  rcases hs with rfl | rfl | rfl | rfl
  · constructor
    · rw [hs0]; simp
    · rw [hs0]; simp
    · rw [hs0]; exact ⟨one_pos, le_rfl⟩
    · rw [hs0]; exact ⟨2 * d, ⟨rfl, rfl, rfl⟩, rfl, trivial⟩
    · rw [hs0]
      intro a ha
      simp only [List.mem_cons, List.not_mem_nil, or_false] at ha
      rcases ha with rfl | rfl
      · rw [hp0]; exact newInc_accepts d
      · rw [hp1]; exact stdDefault_accepts (2 * d)
    · rw [hs0]
      intro a ha
      rw [List.mem_singleton] at ha
      subst ha
      rw [hi0]
      refine ⟨?_, ?_, ?_, ?_⟩
      · exact (ofWeight_simpleISS ho hp hk (by omega) hl .extended .reals (by decide) none).nonempty
      · intro h; cases h
      · intro u hu
        obtain ⟨v, hv, rfl⟩ := List.mem_map.1 hu
        exact fun el hel => ((ofWeight_letters ho hp hk hl (by omega : 2 ≤ 2 * d) v hv).2 el hel).1
      · intro q hq
        cases hq
        trivial
    · exact hsv 0 0 (by rw [hs0]) (by omega)
  · constructor
    · rw [hs1]; simp
    · rw [hs1]; simp
    · rw [hs1]; exact ⟨one_pos, le_rfl⟩
    · rw [hs1]; exact ⟨2 * d, ⟨rfl, rfl⟩, rfl, trivial⟩
    · rw [hs1]
      intro a ha
      rw [List.mem_singleton] at ha
      subst ha
      rw [hp2]; exact newInc_accepts d
    · rw [hs1]
      intro a ha
      rw [List.mem_singleton] at ha
      subst ha
      rw [hi1]
      refine ⟨by simp [altWords], ?_, ?_, ?_⟩
      · intro h; cases h
      · intro u hu
        obtain ⟨v, hv, rfl⟩ := List.mem_map.1 hu
        obtain ⟨j, _, p, _, rfl⟩ := mem_altWords.1 hv
        exact lineWord_letters _ j n (by omega)
      · intro q hq
        cases hq
    · exact hsv 1 7 (by rw [hs1]) (by omega)
  · constructor
    · rw [hs2]; simp
    · rw [hs2]; simp
    · rw [hs2]; exact ⟨one_pos, le_rfl⟩
    · rw [hs2]; exact ⟨2 * d, ⟨rfl, rfl, rfl⟩, rfl, trivial⟩
    · rw [hs2]
      intro a ha
      simp only [List.mem_cons, List.not_mem_nil, or_false] at ha
      rcases ha with rfl | rfl
      · rw [hp3]; exact newInc_accepts d
      · rw [hp4]; exact stdDefault_accepts (2 * d)
    · rw [hs2]
      intro a ha
      rw [List.mem_singleton] at ha
      subst ha
      rw [hi2]
      exact hcos 1
    · exact hsv 2 14 (by rw [hs2]) (by omega)
  · constructor
    · rw [hs3]; simp
    · rw [hs3]; simp
    · rw [hs3]; exact ⟨one_pos, le_rfl⟩
    · rw [hs3]; exact ⟨2 * d, ⟨rfl, rfl, rfl⟩, rfl, trivial⟩
    · rw [hs3]
      intro a ha
      simp only [List.mem_cons, List.not_mem_nil, or_false] at ha
      rcases ha with rfl | rfl
      · rw [hp5]; exact newInc_accepts d
      · rw [hp6]; exact stdDefault_accepts (2 * d)
    · rw [hs3]
      intro a ha
      rw [List.mem_singleton] at ha
      subst ha
      rw [hi3]
      exact hcos 2
    · exact hsv 3 21 (by rw [hs3]) (by omega)

/-- The number of features: seven for every iterated sum. -/
theorem exp_nfeatures [NpMath R] (L : Lib R) {ws vs cs : List (IWord R)} {w : World R (SafePrep R) (BIss R) (List (IWord R)) (SafeSieve R)}
    (hw : Rep w (expConf ws vs cs)) {a b : ℕ} (ha : BIss.count (genReals : BIss R) ws = .ok a) (hb : BIss.count (twiArctic : BIss R) vs = .ok b) :
    fruitN (builtin L) w 0 = .ok (7 * ((a : ℤ) + b + 2 * (5 * cs.length))) := by
  have hi0 : w.issAt 0 = (genReals, ws) := by unfold World.issAt; rw [hw.iss 0 _ rfl, hw.words 0 _ rfl]
  have hi1 : w.issAt 1 = (twiArctic, vs) := by unfold World.issAt; rw [hw.iss 1 _ rfl, hw.words 1 _ rfl]
  have hi2 : w.issAt 2 = (genCos 1, cs) := by unfold World.issAt; rw [hw.iss 2 _ rfl, hw.words 2 _ rfl]
  have hi3 : w.issAt 3 = (genCos 2, cs) := by unfold World.issAt; rw [hw.iss 3 _ rfl, hw.words 2 _ rfl]
  have key : ∀ s i j n, (w.slice s).sieves = [i, i + 1, i + 2, i + 3, i + 4, i + 5, i + 6] → (i = 0 ∨ i = 7 ∨ i = 14 ∨ i = 21) → (w.slice s).iss = [j] →
      BIss.count (w.issAt j).1 (w.issAt j).2 = .ok n → sliceN (builtin L) w s = .ok (7 * (n : ℤ)) := by
    intro s i j n h1 h2 h3 h4
    unfold sliceN sliceCount
    rw [sieveTotal_seven L (h1 ▸ expConf_sieves _ _ _ hw i h2), h3]
    show (do let n ← (do let ns ← [j].mapM fun a => BIss.count (w.issAt a).1 (w.issAt a).2; pure ns.prod); _) = _
    simp only [List.mapM_cons, List.mapM_nil, h4]
    simp [bind, Except.bind, pure, Except.pure]
  have n0 := key 0 0 0 a (by rw [hw.slice 0 _ rfl]) (by omega) (by rw [hw.slice 0 _ rfl]) (by rw [hi0]; exact ha)
  have n1 := key 1 7 1 b (by rw [hw.slice 1 _ rfl]) (by omega) (by rw [hw.slice 1 _ rfl]) (by rw [hi1]; exact hb)
  have n2 := key 2 14 2 (5 * cs.length) (by rw [hw.slice 2 _ rfl]) (by omega) (by rw [hw.slice 2 _ rfl]) (by rw [hi2]; rfl)
  have n3 := key 3 21 3 (5 * cs.length) (by rw [hw.slice 3 _ rfl]) (by omega) (by rw [hw.slice 3 _ rfl]) (by rw [hi3]; rfl)
  unfold fruitN
  rw [(hw.fruit rfl).1]
  show (do let ns ← [0, 1, 2, 3].mapM fun s => sliceN (builtin L) w s; pure ns.sum) = _
  simp only [List.mapM_cons, List.mapM_nil, n0, n1, n2, n3]
  show Except.ok _ = _
  congr 1
  simp only [List.sum_cons, List.sum_nil]
  push_cast
  ring

end Fruits
