import Verif.Parallel
import Verif.Props.Total6

/-! # Parallel loops do not depend on the schedule -/

namespace Fruits
namespace Par
set_option linter.unusedSectionVars false

section generic
variable {I A R L : Type} [DecidableEq I] [DecidableEq A]

/-- An iteration executed alone, on the memory `e.2` with the local variables `e.1`. -/
def exec : List (Instr A R L) → L × (A → R) → L × (A → R)
  | [], e => e
  | .load a put :: p, e => exec p (put (e.2 a) e.1, e.2)
  | .store a val :: p, e => exec p (e.1, Function.update e.2 a (val e.1))

theorem exec_append (p q : List (Instr A R L)) : ∀ e, exec (p ++ q) e = exec q (exec p e) := by
  induction p with
  | nil => intro e; rfl
  | cons c p ih => intro e; cases c <;> exact ih _

theorem exec_congr {own : A → I} {i : I} : ∀ (p : List (Instr A R L)) (_ : ∀ c ∈ p, own c.addr = i) (l : L) (m m' : A → R)
    (_ : ∀ a, own a = i → m a = m' a),
    (exec p (l, m)).1 = (exec p (l, m')).1 ∧ ∀ a, own a = i → (exec p (l, m)).2 a = (exec p (l, m')).2 a
  | [], _, _, _, _, h => ⟨rfl, h⟩
  | .load a put :: p, hp, l, m, m', h => by
    have ha : own a = i := hp _ List.mem_cons_self
    rw [exec, exec]
    simp only [h a ha]
    exact exec_congr p (fun c hc => hp c (List.mem_cons_of_mem _ hc)) _ m m' h
  | .store a val :: p, hp, l, m, m', h => by
    rw [exec, exec]
    refine exec_congr p (fun c hc => hp c (List.mem_cons_of_mem _ hc)) _ _ _ fun b hb => ?_
    simp only [Function.update_apply]
    rw [h b hb]

/-- If every iteration keeps to its own part of the shared array, then after any schedule that finishes all iterations every
number is the one that its iteration computes when it runs alone. -/
theorem run_mem (own : A → I) (sched : List I) : ∀ (s : State I A R L), (∀ i, ∀ c ∈ s.prog i, own c.addr = i) →
    (s.run sched).Finished → ∀ a, (s.run sched).mem a = (exec (s.prog (own a)) (s.loc (own a), s.mem)).2 a := by
  induction sched with
  | nil =>
    intro s _ hf a
    have : s.prog (own a) = [] := hf _
    rw [this]; rfl
  | cons i sched ih =>
    intro s hs hf a
    have hrun : s.run (i :: sched) = (s.step i).run sched := rfl
    rw [hrun] at hf ⊢
    rcases hp : s.prog i with _ | ⟨c, p⟩
    · have : s.step i = s := by unfold State.step; rw [hp]
      rw [this] at hf ⊢
      exact ih s hs hf a
    have hc : own c.addr = i := hs i c (by rw [hp]; exact List.mem_cons_self)
    cases c with
    | load b put =>
      have hst : s.step i = ⟨s.mem, Function.update s.prog i p, Function.update s.loc i (put (s.mem b) (s.loc i))⟩ := by
        unfold State.step; rw [hp]
      rw [hst] at hf ⊢
      rw [ih _ (fun j c hc => ?_) hf a]
      · by_cases h : own a = i
        · simp only [h, Function.update_self, hp]; rfl
        · simp only [Function.update_of_ne h]
      · by_cases h : j = i
        · subst h
          simp only [Function.update_self] at hc
          exact hs j c (by rw [hp]; exact List.mem_cons_of_mem _ hc)
        · simp only [Function.update_of_ne h] at hc
          exact hs j c hc
    | store b val =>
      have hst : s.step i = ⟨Function.update s.mem b (val (s.loc i)), Function.update s.prog i p, s.loc⟩ := by
        unfold State.step; rw [hp]
      rw [hst] at hf ⊢
      rw [ih _ (fun j c hc => ?_) hf a]
      · by_cases h : own a = i
        · simp only [h, Function.update_self, hp]; rfl
        · simp only [Function.update_of_ne h]
          refine (exec_congr (own := own) (i := own a) _ (fun c hc => hs _ c hc) _ _ _ fun d hd => ?_).2 a rfl
          rw [Function.update_of_ne]
          rintro rfl
          exact h (hd.symm.trans hc)
      · by_cases h : j = i
        · subst h
          simp only [Function.update_self] at hc
          exact hs j c (by rw [hp]; exact List.mem_cons_of_mem _ hc)
        · simp only [Function.update_of_ne h] at hc
          exact hs j c hc

theorem exec_stores {κ : Type} (addr : κ → A) (val : κ → R) : ∀ (ks : List κ) (_ : ∀ k ∈ ks, ∀ k' ∈ ks, addr k = addr k' → val k = val k')
    (e : Unit × (A → R)) (a : A),
    (∀ k ∈ ks, addr k = a → (exec (stores ks addr val) e).2 a = val k) ∧
    ((∀ k ∈ ks, addr k ≠ a) → (exec (stores ks addr val) e).2 a = e.2 a)
  | [], _, e, a => ⟨by simp, fun _ => rfl⟩
  | k :: ks, h, e, a => by
    have ih := exec_stores addr val ks (fun k hk k' hk' => h k (List.mem_cons_of_mem _ hk) k' (List.mem_cons_of_mem _ hk'))
      (e.1, Function.update e.2 (addr k) (val k)) a
    have hs : exec (stores (k :: ks) addr val) e = exec (stores ks addr val) (e.1, Function.update e.2 (addr k) (val k)) := rfl
    rw [hs]
    constructor
    · intro k' hk' ha
      by_cases hmem : ∃ k'' ∈ ks, addr k'' = a
      · obtain ⟨k'', h1, h2⟩ := hmem
        rw [ih.1 k'' h1 h2]
        exact h _ (List.mem_cons_of_mem _ h1) _ hk' (h2.trans ha.symm)
      · have hno : ∀ k ∈ ks, addr k ≠ a := fun k hk hka => hmem ⟨k, hk, hka⟩
        rw [ih.2 hno]
        rcases List.mem_cons.1 hk' with rfl | hk'
        · simp [ha]
        · exact absurd ha (hno k' hk')
    · intro hno
      rw [ih.2 fun k hk => hno k (List.mem_cons_of_mem _ hk)]
      exact Function.update_of_ne (fun h => hno k List.mem_cons_self h.symm) _ _

theorem stores_addr {κ : Type} {addr : κ → A} {val : κ → R} {ks : List κ} {P : A → Prop} (h : ∀ k ∈ ks, P (addr k)) :
    ∀ c ∈ stores ks addr val, P c.addr := by
  intro c hc
  obtain ⟨k, hk, rfl⟩ := List.mem_map.1 hc
  exact h k hk

theorem mem_grid {m n : ℕ} {e : ℕ × ℕ} : e ∈ grid m n ↔ e.1 < m ∧ e.2 < n := by
  obtain ⟨a, b⟩ := e
  simp [grid]

/-- Every loop with finitely many iterations has a schedule that finishes it (for instance one after the other), so the
theorems below are about something. -/
theorem exists_finished (T : List I) : ∀ (s : State I A R L), (∀ i, i ∉ T → s.prog i = []) → ∃ sched, (s.run sched).Finished := by
  induction T with
  | nil => intro s h; exact ⟨[], fun i => h i (by simp)⟩
  | cons i T ih =>
    intro s h
    have key : ∀ (k : ℕ) (s : State I A R L), (s.prog i).length = k →
        ∃ sched, (s.run sched).prog i = [] ∧ ∀ j, j ≠ i → (s.run sched).prog j = s.prog j := by
      intro k
      induction k with
      | zero => intro s hk; exact ⟨[], List.length_eq_zero_iff.1 hk, fun _ _ => rfl⟩
      | succ k ihk =>
        intro s hk
        have hst : ((s.step i).prog i).length = k ∧ ∀ j, j ≠ i → (s.step i).prog j = s.prog j := by
          rcases hp : s.prog i with _ | ⟨c, p⟩
          · rw [hp] at hk; simp at hk
          · rw [hp] at hk
            simp at hk
            unfold State.step
            rw [hp]
            cases c <;> exact ⟨by simpa using hk, fun j hj => Function.update_of_ne hj _ _⟩
        obtain ⟨sched, h1, h2⟩ := ihk (s.step i) hst.1
        exact ⟨i :: sched, h1, fun j hj => (h2 j hj).trans (hst.2 j hj)⟩
    obtain ⟨s1, h1, h2⟩ := key _ s rfl
    obtain ⟨s2, h3⟩ := ih (s.run s1) fun j hj => by
      by_cases hji : j = i
      · subst hji; exact h1
      · rw [h2 j hji]; exact h j (by simp [hji, hj])
    refine ⟨s1 ++ s2, ?_⟩
    have : s.run (s1 ++ s2) = (s.run s1).run s2 := List.foldl_append
    rw [this]; exact h3

theorem start_mem [Zero R] {own : A → I} {P : I → List (Instr A R L)} (l : L) (hP : ∀ i, ∀ c ∈ P i, own c.addr = i)
    {sched : List I} (hf : ((start l P).run sched).Finished) (a : A) :
    ((start l P).run sched).mem a = (exec (P (own a)) (l, fun _ => 0)).2 a := run_mem own sched (start l P) hP hf a

/-- A thread that is never scheduled keeps its instructions. -/
theorem run_prog_of_notMem {sched : List I} {i : I} : ∀ {s : State I A R L}, i ∉ sched → (s.run sched).prog i = s.prog i := by
  induction sched with
  | nil => intro s _; rfl
  | cons j sched ih =>
    intro s h
    have hne : i ≠ j := fun e => h (e ▸ List.mem_cons_self)
    refine (ih (s := s.step j) fun hm => h (List.mem_cons_of_mem _ hm)).trans ?_
    unfold State.step
    rcases s.prog j with _ | ⟨c, p⟩
    · rfl
    · cases c <;> exact Function.update_of_ne hne _ _

/-- A loop whose iterations `i` (with `T i`) only write, each to its own part of the array. -/
theorem stores_mem [Zero R] {κ : Type} {own : A → I} {T : I → Prop} [DecidablePred T] {ks : I → List κ} {addr : I → κ → A}
    {val : I → κ → R} (P : I → List (Instr A R Unit)) (hP : ∀ i, P i = if T i then stores (ks i) (addr i) (val i) else [])
    (hown : ∀ i, ∀ k ∈ ks i, own (addr i k) = i) (hinj : ∀ i, ∀ k ∈ ks i, ∀ k' ∈ ks i, addr i k = addr i k' → k = k')
    {sched : List I} (hf : ((start () P).run sched).Finished) :
    (∀ i, T i → ∀ k ∈ ks i, ((start () P).run sched).mem (addr i k) = val i k) ∧
    ∀ a, (T (own a) → ∀ k ∈ ks (own a), addr (own a) k ≠ a) → ((start () P).run sched).mem a = 0 := by
  have ho : ∀ i, ∀ c ∈ P i, own c.addr = i := by
    intro i c hc
    rw [hP i] at hc
    split at hc
    · exact stores_addr (P := fun a => own a = i) (hown i) c hc
    · cases hc
  constructor
  · intro i hi k hk
    rw [start_mem () ho hf, hown i k hk, hP i, if_pos hi]
    exact (exec_stores _ _ _ (fun k hk k' hk' h => by rw [hinj i k hk k' hk' h]) _ _).1 k hk rfl
  · intro a ha
    rw [start_mem () ho hf, hP (own a)]
    split
    · rename_i hT
      exact (exec_stores _ _ _ (fun k hk k' hk' h => by rw [hinj _ k hk k' hk' h]) _ _).2 (ha hT)
    · rfl

end generic

section loops
variable {R : Type} [Field R] [LinearOrder R] [IsStrictOrderedRing R] [FloorRing R]

theorem tab2_of_shape {A : List (List R)} {m n : ℕ} (h : HasShape2 A m n) : tab m (fun e => tab n fun t => at2 A e t) = A := by
  obtain ⟨rfl, h2⟩ := h
  symm
  refine eq_tab rfl fun e he => ?_
  have he' : A[e].length = n := h2 _ (List.getElem_mem he)
  refine eq_tab he' fun t ht => ?_
  unfold at2
  rw [List.getD_eq_getElem?_getD, List.getD_eq_getElem?_getD, List.getElem?_eq_getElem he, Option.getD_some,
    List.getElem?_eq_getElem (by omega), Option.getD_some]

/-- **C113, the iterated sums.** Whatever the order in which the threads execute the accesses of their iterations, when
all are done the array of `iterated_sums` of a semiring holds the iterated sums of the sequential model. -/
theorem C113_iterated_sums (expf : R → R) (k : SemiringKind) {X : Data R} {m d n : ℕ} (hX : HasShape X m d n) (hd : 0 < d)
    {w : SWord R} (hw : (IWord.simple w).On d) (ext : ℕ) {wt : Option (Weighting R)}
    (hwt : ∀ v, wt = some v → ∃ mL, HasShape2 (v.lookup X) mL n ∧ m ≤ mL) (sched : List ℕ)
    (hf : ((start () (issProg m (rowsOf k (.simple w) ext) n (issSingle expf k X w ext wt))).run sched).Finished) :
    tab3 m (rowsOf k (.simple w) ext) n (fun j e t =>
      ((start () (issProg m (rowsOf k (.simple w) ext) n (issSingle expf k X w ext wt))).run sched).mem (j, e, t))
    = iteratedSums expf k X (.simple w) ext wt := by
  have hlen := iteratedSums_count expf k X (.simple w) ext wt
  rw [hX.1] at hlen
  symm
  refine eq_tab hlen fun j hj => ?_
  have hjm : j < m := by omega
  have hsh := iteratedSums_shape expf k hX hd hw ext hwt _ (List.getElem_mem hj)
  have hsingle : (iteratedSums expf k X (.simple w) ext wt)[j] = issSingle expf k X w ext wt j := by
    have hjX : j < X.length := by rw [hX.1]; exact hjm
    cases wt with
    | none => simp [iteratedSums, issSingle, List.getD_eq_getElem?_getD, hjX]
    | some v => simp [iteratedSums, issSingle, List.getD_eq_getElem?_getD, hjX]
  rw [hsingle] at hsh ⊢
  rw [← tab2_of_shape hsh]
  unfold tab2
  refine tab_congr fun e he => tab_congr fun t ht => ?_
  exact ((stores_mem (own := fun a => a.1) (T := fun j => j < m) (ks := fun _ => grid (rowsOf k (.simple w) ext) n)
    (addr := fun j e => (j, e.1, e.2)) (val := fun j e => at2 (issSingle expf k X w ext wt j) e.1 e.2) _ (fun _ => rfl)
    (fun _ _ _ => rfl) (by rintro i ⟨a, b⟩ _ ⟨a', b'⟩ _ h; simpa using h) hf).1 j hjm (e, t) (mem_grid.2 ⟨he, ht⟩)).symm

theorem tab3_of_shape {A : Data R} {m d n : ℕ} (h : HasShape A m d n) : tab3 m d n (at3 A) = A := by
  obtain ⟨rfl, h2⟩ := h
  symm
  refine eq_tab rfl fun e he => ?_
  rw [← tab2_of_shape (h2 _ (List.getElem_mem he) : HasShape2 A[e] d n)]
  refine tab_congr fun j _ => tab_congr fun t _ => ?_
  unfold at3 at2
  rw [List.getD_eq_getElem?_getD (l := A), List.getElem?_eq_getElem he, Option.getD_some]

theorem wordResult_entry [NpMath R] {pi : R} {c : CosWISS R} {X : Data R} {w : ℕ} {word : SWord R} {A : Data R}
    (h : c.wordResult pi X w word = .ok A) {f i : ℕ} (hf : f < c.freqs.length) (hi : i < X.length) (t : ℕ) :
    at3 A f i t = (cosSingle pi c X w word f i).getD t 0 := by
  unfold CosWISS.wordResult at h
  unfold cosSingle at3
  simp only at h
  have hX : ∀ F : ℕ → Series R → List R, (((List.range c.freqs.length).map fun f => X.map (F f)).getD f []).getD i []
      = F f (X.getD i []) := by
    intro F
    simp [List.getD_eq_getElem?_getD, hf, hi]
  repeat' split at h
  all_goals first
    | (cases h; done)
    | (cases h
       rw [hX]
       simp_all [List.getD_eq_getElem?_getD])

/-- **C113, CosWISS.** The same for the three compiled functions of `CosWISS`. -/
theorem C113_coswiss [NpMath R] (pi : R) (c : CosWISS R) {X A : Data R} {m n : ℕ} (w : ℕ) (word : SWord R) (hm : X.length = m)
    (hA : c.wordResult pi X w word = .ok A) (hs : HasShape A c.freqs.length m n) (sched : List ℕ)
    (hf : ((start () (cosProg m c.freqs.length n (cosSingle pi c X w word))).run sched).Finished) :
    tab3 c.freqs.length m n (fun f i t =>
      ((start () (cosProg m c.freqs.length n (cosSingle pi c X w word))).run sched).mem (f, i, t)) = A := by
  rw [← tab3_of_shape hs]
  refine tab_congr fun f hf' => tab_congr fun i hi => tab_congr fun t ht => ?_
  rw [wordResult_entry hA hf' (by omega)]
  exact (stores_mem (own := fun a => a.2.1) (T := fun j => j < m) (ks := fun _ => grid c.freqs.length n)
    (addr := fun i e => (e.1, i, e.2)) (val := fun i e => (cosSingle pi c X w word e.1 i).getD e.2 0) _ (fun _ => rfl)
    (fun _ _ _ => rfl) (by rintro i ⟨a, b⟩ _ ⟨a', b'⟩ _ h; simpa using h) hf).1 i hi (f, t) (mem_grid.2 ⟨hf', ht⟩)

/-- **C113, MAV.** -/
theorem C113_mav {X : Data R} {m d n : ℕ} (hX : HasShape X m d n) {w : ℕ} (hw : 0 < w) (sched : List (ℕ × ℕ))
    (hf : ((start () (mavProg X m d n w)).run sched).Finished) :
    tab3 m d n (fun i j t => ((start () (mavProg X m d n w)).run sched).mem (i, j, t)) = mapRows (MAV.row w) X := by
  have hrow : ∀ i < m, ∀ j < d, (X.getD i []).getD j [] = tab n (at2 (X.getD i []) j) := by
    intro i hi j hj
    have h1 : HasShape2 (X.getD i []) d n := by
      rw [List.getD_eq_getElem?_getD, List.getElem?_eq_getElem (by rw [hX.1]; exact hi)]
      exact hX.2 _ (List.getElem_mem _)
    exact h1.row hj
  have hE : mapRows (MAV.row w) X = tab m fun i => tab d fun j => MAV.row w ((X.getD i []).getD j []) := by
    unfold mapRows
    refine eq_tab (by simp [hX.1]) fun i hi => ?_
    have hi' : i < X.length := by simpa using hi
    rw [List.getElem_map]
    refine eq_tab (by simp [(hX.2 _ (List.getElem_mem hi')).1]) fun j hj => ?_
    have hj' : j < X[i].length := by simpa using hj
    rw [List.getElem_map]
    congr 1
    rw [List.getD_eq_getElem?_getD (l := X), List.getElem?_eq_getElem hi', Option.getD_some,
      List.getD_eq_getElem?_getD, List.getElem?_eq_getElem hj', Option.getD_some]
  rw [hE]
  refine tab_congr fun i hi => tab_congr fun j hj => ?_
  rw [hrow i hi j hj, mav_row w n hw]
  have key := stores_mem (own := fun a : Ix3 => (a.1, a.2.1)) (T := fun ij : ℕ × ℕ => ij.1 < m ∧ ij.2 < d)
    (ks := fun _ => List.range' w (n + 1 - w)) (addr := fun ij k => (ij.1, ij.2, k - 1))
    (val := fun ij k => (slc ((X.getD ij.1 []).getD ij.2 []) ((k : ℤ) - w) k).sum / (w : R)) (mavProg X m d n w) (fun _ => rfl)
    (fun _ _ _ => rfl) (by
      intro i k hk k' hk' h
      rw [List.mem_range'] at hk hk'
      simp at h
      omega) hf
  refine tab_congr fun t ht => ?_
  by_cases hwt : w ≤ t + 1
  · rw [if_pos hwt]
    have := key.1 (i, j) ⟨hi, hj⟩ (t + 1) (by rw [List.mem_range'_1]; omega)
    simp only [Nat.add_sub_cancel] at this
    refine this.trans ?_
    have h1 := slc_tab n (t + 1 - w) (t + 1) (at2 (X.getD i []) j)
    rw [hrow i hi j hj, show (((t + 1 : ℕ) : ℤ) - w) = ((t + 1 - w : ℕ) : ℤ) by omega, h1,
      show min (t + 1) n - (t + 1 - w) = w by omega, sum_tab]
  · rw [if_neg hwt]
    refine key.2 (i, j, t) fun _ k hk h => ?_
    rw [List.mem_range'_1] at hk
    simp at h
    omega

/-- A dataset, one series after the other. -/
theorem map_eq_tab {α β : Type} [Inhabited α] (f : α → β) (X : List α) (e : α) {m : ℕ} (h : X.length = m) :
    X.map f = tab m fun i => f (X.getD i e) := by
  refine eq_tab (by simp [h]) fun i hi => ?_
  have hi' : i < X.length := by simpa using hi
  rw [List.getElem_map, List.getD_eq_getElem?_getD, List.getElem?_eq_getElem hi', Option.getD_some]

/-- **C113, RPE.** -/
theorem C113_rpe [NpMath R] {X : Data R} {m d n : ℕ} (hX : HasShape X m d n) (len : ℕ) (freq : R) (sched : List (ℕ × ℕ))
    (hf : ((start () (rpeProg X m n len freq)).run sched).Finished) :
    tab3 m 2 n (fun i j t => ((start () (rpeProg X m n len freq)).run sched).mem (i, j, t))
    = X.map (RPE.series len freq n) := by
  rw [map_eq_tab _ X [] hX.1]
  refine tab_congr fun i hi => ?_
  have hP : ∀ j, j < 2 → ∀ t < n, ((start () (rpeProg X m n len freq)).run sched).mem (i, j, t)
      = at2 (RPE.series len freq n (X.getD i [])) j t := by
    intro j hj t ht
    rw [start_mem (own := fun a : Ix3 => (a.1, a.2.2)) () ?_ hf]
    · simp only [rpeProg, hi, ht, and_self, if_true, exec]
      rcases (by omega : j = 0 ∨ j = 1) with rfl | rfl
      · rw [Function.update_of_ne (by simp), Function.update_self]
        simp [at2, RPE.series, ht]
      · rw [Function.update_self]
        simp [at2, RPE.series, ht]
    · intro ik c hc
      simp only [rpeProg] at hc
      split at hc
      · rcases List.mem_cons.1 hc with rfl | hc
        · rfl
        · rcases List.mem_cons.1 hc with rfl | hc
          · rfl
          · cases hc
      · cases hc
  have hsh : HasShape2 (RPE.series len freq n (X.getD i [])) 2 n := by
    refine ⟨rfl, ?_⟩
    simp [RPE.series]
  rw [← tab2_of_shape hsh]
  exact tab_congr fun j hj => tab_congr fun t ht => hP j hj t ht

/-- **C113, the sieves.** `MAX`, `MIN`, `CUR` and the increment sieves (`op` is what they compute on one segment and one
band, `val i j k` its value). -/
theorem C113_sieves (op : SegOp R) (val : ℕ → ℕ → ℕ → R) {cuts : List (List ℤ)} {qs : List (QVal R)} {X : List (List R)} {m J : ℕ}
    (hm : X.length = m) (hq : qs ≠ []) (hc : ∀ i < m, (cuts.getD i []).length = J + 1)
    (hop : ∀ i < m, ∀ j < J, ∀ k < qs.length - 1, op (X.getD i []) ((cuts.getD i []).getD j 0) ((cuts.getD i []).getD (j + 1) 0)
      (qs.getD k ⊥) (qs.getD (k + 1) ⊥) = .ok (val i j k)) (sched : List ℕ)
    (hf : ((start () (sieveProg m J (qs.length - 1) val)).run sched).Finished) :
    backend op cuts qs X = .ok (tab m fun i => tab (J * (qs.length - 1)) fun p =>
      ((start () (sieveProg m J (qs.length - 1) val)).run sched).mem (i, p)) := by
  unfold backend
  rw [hm]
  refine mapM_ok_map fun i hi => ?_
  replace hi := List.mem_range.1 hi
  unfold backendRow
  rw [if_neg (by tauto), hc i hi, Nat.add_sub_cancel, fillGrid_ok (w := val i) fun j hj k hk => hop i hi j hj k hk]
  congr 1
  refine tab_congr fun p hp => ?_
  set K := qs.length - 1
  have hK : 0 < K := by
    rcases Nat.eq_zero_or_pos K with h0 | h0
    · rw [h0] at hp; simp at hp
    · exact h0
  have key := (stores_mem (own := fun a : ℕ × ℕ => a.1) (T := fun j => j < m) (ks := fun _ => grid J K)
    (addr := fun i e => (i, e.1 * K + e.2)) (val := fun i e => val i e.1 e.2) (sieveProg m J K val) (fun _ => rfl)
    (fun _ _ _ => rfl) (by
      rintro i ⟨a, b⟩ h1 ⟨a', b'⟩ h2 h
      rw [mem_grid] at h1 h2
      simp only [Prod.mk.injEq, true_and] at h
      have hb : b = b' := by
        have := congrArg (· % K) h
        simpa [Nat.mul_add_mod', Nat.mod_eq_of_lt h1.2, Nat.mod_eq_of_lt h2.2] using this
      subst hb
      have ha : a * K = a' * K := by omega
      rw [Nat.eq_of_mul_eq_mul_right hK ha]) hf).1 i hi (p / K, p % K)
      (mem_grid.2 ⟨Nat.div_lt_of_lt_mul (by rwa [Nat.mul_comm] at hp), Nat.mod_lt _ hK⟩)
  simp only at key
  rw [Nat.mul_comm (p / K), Nat.div_add_mod p K] at key
  exact key.symm

/-- **C113, the coquantiles.** -/
theorem C113_coquantiles (X : List (List R)) (q : R) (sched : List ℕ)
    (hf : ((start () (coquantileProg X q)).run sched).Finished) :
    tab X.length (fun i => ((start () (coquantileProg X q)).run sched).mem i) = X.map (coquantile1 q) := by
  rw [map_eq_tab _ X [] rfl]
  refine tab_congr fun i hi => ?_
  exact (stores_mem (own := fun a : ℕ => a) (T := fun j => j < X.length) (ks := fun _ => [()]) (addr := fun i _ => i)
    (val := fun i _ => coquantile1 q (X.getD i [])) _ (fun _ => rfl) (fun _ _ _ => rfl) (fun _ _ _ _ _ _ => rfl) hf).1 i hi ()
    (by simp)

/-- **C113, the `L1` and `L2` sums of the cache.** `Y` are the increments of the first dimensions. -/
theorem C113_norm_sums (nm : Norm) (Y : List (List R)) {n : ℕ} (hY : ∀ y ∈ Y, y.length = n) (sched : List ℕ)
    (hf : ((start () (normProg nm Y n)).run sched).Finished) :
    tab Y.length (fun i => tab n fun t => ((start () (normProg nm Y n)).run sched).mem (i, t))
    = Y.map fun y => cumsum (y.map nm.val) := by
  rw [map_eq_tab _ Y [] rfl]
  refine tab_congr fun i hi => ?_
  have hl : (cumsum ((Y.getD i []).map nm.val)).length = n := by
    rw [cumsum_len, List.length_map, List.getD_eq_getElem?_getD, List.getElem?_eq_getElem hi, Option.getD_some]
    exact hY _ (List.getElem_mem hi)
  symm
  refine eq_tab hl fun t ht => ?_
  rw [(stores_mem (own := fun a : ℕ × ℕ => a.1) (T := fun j => j < Y.length) (ks := fun _ => List.range n)
    (addr := fun i t => (i, t)) (val := fun i t => (cumsum ((Y.getD i []).map nm.val)).getD t 0) (normProg nm Y n) (fun _ => rfl)
    (fun _ _ _ => rfl) (by intro i a _ b _ h; simpa using h) hf).1 i hi t (List.mem_range.2 (by omega))]
  have : ∀ (l : List R) (h : t < l.length), l[t] = l.getD t 0 := fun l h => by
    rw [List.getD_eq_getElem?_getD, List.getElem?_eq_getElem h]; rfl
  exact this _ ht

theorem exec_rinDims (s : Series R) (kernel : List (List R)) (dims : List ℕ) (w n i : ℕ) : ∀ (cs : List ℕ) (b nd : ℕ)
    (e : Unit × (Ix3 → R)) (i' d' k' : ℕ), (exec (rinDims s kernel dims w n i b nd cs) e).2 (i', d', k')
    = if i' = i ∧ nd ≤ d' ∧ d' < nd + cs.length ∧ w ≤ k' ∧ k' < n then at2 (RIN.outDims s kernel dims w n b cs) (d' - nd) k'
      else e.2 (i', d', k')
  | [], b, nd, e, i', d', k' => by
    rw [if_neg (by simp only [List.length_nil]; omega)]; rfl
  | c :: cs, b, nd, e, i', d', k' => by
    rw [rinDims, exec_append, exec_rinDims s kernel dims w n i cs, RIN.outDims]
    set v : ℕ → R := fun k => ((List.range' b c).map fun j =>
        ((List.range' (k - w) w).map fun l => - at2 s (dims.getD j 0) l * at2 kernel j (l + w - k)).sum + at2 s j k).sum with hv
    have hst := exec_stores (fun k => (i, nd, k)) v (List.range' w (n - w)) (fun k _ k' _ h => by
      have : k = k' := by simpa using h
      rw [this]) e (i', d', k')
    have hat : ∀ (A : List (List R)) (x : List R), nd < d' → at2 (x :: A) (d' - nd) k' = at2 A (d' - (nd + 1)) k' := by
      intro A x h
      unfold at2
      rw [show d' - nd = d' - (nd + 1) + 1 by omega, List.getD_cons_succ]
    by_cases h1 : i' = i ∧ nd + 1 ≤ d' ∧ d' < nd + 1 + cs.length ∧ w ≤ k' ∧ k' < n
    · rw [if_pos h1, if_pos (by simp only [List.length_cons]; omega), hat _ _ (by omega)]
    · rw [if_neg h1]
      by_cases h2 : i' = i ∧ d' = nd ∧ w ≤ k' ∧ k' < n
      · obtain ⟨rfl, rfl, h3, h4⟩ := h2
        have hcond : i' = i' ∧ d' ≤ d' ∧ d' < d' + (c :: cs).length ∧ w ≤ k' ∧ k' < n :=
          ⟨rfl, le_rfl, by simp, h3, h4⟩
        rw [if_pos hcond, hst.1 k' (by rw [List.mem_range'_1]; omega) rfl, Nat.sub_self]
        unfold at2
        rw [List.getD_cons_zero, List.getD_eq_getElem?_getD, List.getElem?_map, List.getElem?_range h4, Option.map_some,
          Option.getD_some, if_neg (by omega)]
        rfl
      · rw [if_neg (by simp only [List.length_cons]; omega)]
        refine hst.2 fun k hk h => ?_
        rw [List.mem_range'_1] at hk
        simp only [Prod.mk.injEq] at h
        omega

theorem rinDims_addr (s : Series R) (kernel : List (List R)) (dims : List ℕ) (w n i : ℕ) : ∀ (cs : List ℕ) (b nd : ℕ),
    ∀ c ∈ rinDims s kernel dims w n i b nd cs, c.addr.1 = i
  | [], _, _, c, hc => by cases hc
  | c :: cs, b, nd, x, hx => by
    rw [rinDims] at hx
    rcases List.mem_append.1 hx with hx | hx
    · exact stores_addr (P := fun a => a.1 = i) (fun _ _ => rfl) x hx
    · exact rinDims_addr s kernel dims w n i cs _ _ x hx

/-- **C113, RIN.** -/
theorem C113_rin {X : Data R} {m n : ℕ} (hm : X.length = m) (kernel : List (List R)) (ndim dims : List ℕ) (sched : List ℕ)
    (hf : ((start () (rinProg X m n kernel ndim dims)).run sched).Finished) :
    tab3 m ndim.length n (fun i j t => ((start () (rinProg X m n kernel ndim dims)).run sched).mem (i, j, t))
    = X.map fun s => RIN.outDims s kernel dims (kernel.getD 0 []).length n 0 ndim := by
  rw [map_eq_tab _ X [] hm]
  refine tab_congr fun i hi => ?_
  have hsh : HasShape2 (RIN.outDims (X.getD i []) kernel dims (kernel.getD 0 []).length n 0 ndim) ndim.length n :=
    RIN.outDims_shape _ _ _ _ _ _ _
  rw [← tab2_of_shape hsh]
  refine tab_congr fun j hj => tab_congr fun t ht => ?_
  refine (start_mem (own := fun a : Ix3 => a.1) () ?_ hf _).trans ?_
  · intro i c hc
    unfold rinProg at hc
    split at hc
    · exact rinDims_addr _ _ _ _ _ _ _ _ _ c hc
    · cases hc
  · simp only [rinProg, if_pos hi]
    rw [exec_rinDims]
    by_cases hw : (kernel.getD 0 []).length ≤ t
    · rw [if_pos (by omega), Nat.sub_zero]
    · rw [if_neg (by omega), rin_outDims]
      unfold at2
      rw [getD_tab hj, getD_tab ht, if_pos (by omega)]

theorem exec_adds {A : Type} [DecidableEq A] (a : A) (x : ℕ → R) : ∀ (js : List ℕ) (e : R × (A → R)) (a' : A),
    (exec (js.flatMap fun j => [Instr.load a (fun v _ => v), Instr.store a (fun v => v + x j)]) e).2 a'
    = if a' = a then e.2 a + (js.map x).sum else e.2 a'
  | [], e, a' => by
    by_cases h : a' = a
    · subst h; simp [exec]
    · simp [exec, h]
  | j :: js, e, a' => by
    rw [List.flatMap_cons, exec_append, exec_adds a x js]
    by_cases h : a' = a
    · simp [exec, h, add_assoc]
    · simp [exec, h]

theorem exec_jldDims (s : Series R) (st : JLDState R) (n i k : ℕ) (hk : k < n) : ∀ (cs : List ℕ) (b nd : ℕ)
    (e : R × (Ix3 → R)) (i' d' k' : ℕ), (exec (jldDims s st i k b nd cs) e).2 (i', d', k')
    = if i' = i ∧ k' = k ∧ nd ≤ d' ∧ d' < nd + cs.length then e.2 (i', d', k') + at2 (JLD.outDims s st n b nd cs) (d' - nd) k
      else e.2 (i', d', k')
  | [], b, nd, e, i', d', k' => by
    rw [if_neg (by simp only [List.length_nil]; omega)]; rfl
  | c :: cs, b, nd, e, i', d', k' => by
    rw [jldDims, exec_append, exec_jldDims s st n i k hk cs, JLD.outDims]
    rw [exec_adds (i, nd, k) (fun j => at2 s (st.dims.getD j 0) k * st.kernel.getD j 0 + st.bias.getD nd 0)]
    have hat : ∀ (A : List (List R)) (x : List R), nd < d' → at2 (x :: A) (d' - nd) k = at2 A (d' - (nd + 1)) k := by
      intro A x h
      unfold at2
      rw [show d' - nd = d' - (nd + 1) + 1 by omega, List.getD_cons_succ]
    by_cases h1 : i' = i ∧ k' = k ∧ nd + 1 ≤ d' ∧ d' < nd + 1 + cs.length
    · rw [if_pos h1, if_neg (by simp only [Prod.mk.injEq]; omega), if_pos (by simp only [List.length_cons]; omega), hat _ _ (by omega)]
    · rw [if_neg h1]
      by_cases h2 : i' = i ∧ d' = nd ∧ k' = k
      · obtain ⟨rfl, rfl, rfl⟩ := h2
        have hcond : i' = i' ∧ k' = k' ∧ d' ≤ d' ∧ d' < d' + (c :: cs).length := ⟨rfl, rfl, le_rfl, by simp⟩
        rw [if_pos rfl, if_pos hcond, Nat.sub_self]
        congr 1
        rw [at2, List.getD_cons_zero]
        exact (getD_tab (f := fun t => ((List.range' b c).map fun j =>
          at2 s (st.dims.getD j 0) t * st.kernel.getD j 0 + st.bias.getD d' 0).sum) hk).symm
      · rw [if_neg (by simp only [Prod.mk.injEq]; omega), if_neg (by simp only [List.length_cons]; omega)]

theorem jldDims_addr (s : Series R) (st : JLDState R) (i k : ℕ) : ∀ (cs : List ℕ) (b nd : ℕ),
    ∀ c ∈ jldDims s st i k b nd cs, (c.addr.1, c.addr.2.2) = (i, k)
  | [], _, _, c, hc => by cases hc
  | c :: cs, b, nd, x, hx => by
    rw [jldDims] at hx
    rcases List.mem_append.1 hx with hx | hx
    · obtain ⟨j, _, hx⟩ := List.mem_flatMap.1 hx
      rcases List.mem_cons.1 hx with rfl | hx
      · rfl
      · rcases List.mem_cons.1 hx with rfl | hx
        · rfl
        · cases hx
    · exact jldDims_addr s st i k cs _ _ x hx

/-- **C113, JLD.** Here an iteration reads the shared array as well: `result[i, d, k] += …`. -/
theorem C113_jld {X : Data R} {m n : ℕ} (hm : X.length = m) (st : JLDState R) (sched : List (ℕ × ℕ))
    (hf : ((start 0 (jldProg X m n st)).run sched).Finished) :
    tab3 m st.ndim.length n (fun i j t => ((start 0 (jldProg X m n st)).run sched).mem (i, j, t))
    = X.map fun s => JLD.outDims s st n 0 0 st.ndim := by
  rw [map_eq_tab _ X [] hm]
  refine tab_congr fun i hi => ?_
  have hsh : HasShape2 (JLD.outDims (X.getD i []) st n 0 0 st.ndim) st.ndim.length n := JLD.outDims_shape _ _ _ _ _ _
  rw [← tab2_of_shape hsh]
  refine tab_congr fun j hj => tab_congr fun t ht => ?_
  refine (start_mem (own := fun a : Ix3 => (a.1, a.2.2)) 0 ?_ hf _).trans ?_
  · intro i c hc
    unfold jldProg at hc
    split at hc
    · exact jldDims_addr _ _ _ _ _ _ _ c hc
    · cases hc
  · simp only [jldProg, hi, ht, and_self, if_true]
    rw [exec_jldDims _ _ n _ _ ht, if_pos (by omega), Nat.sub_zero, zero_add]

/-- All the loops above have finishing schedules. -/
theorem finishes {A L : Type} [DecidableEq A] (m : ℕ) (l : L) (P : ℕ → List (Instr A R L)) (h : ∀ i, m ≤ i → P i = []) :
    ∃ sched, ((start l P).run sched).Finished :=
  exists_finished (List.range m) (start l P) fun i hi => h i (by simpa using hi)

theorem finishes2 {A L : Type} [DecidableEq A] (m n : ℕ) (l : L) (P : ℕ × ℕ → List (Instr A R L))
    (h : ∀ i, ¬ (i.1 < m ∧ i.2 < n) → P i = []) : ∃ sched, ((start l P).run sched).Finished :=
  exists_finished (grid m n) (start l P) fun i hi => h i fun hc => hi (mem_grid.2 hc)

end loops

/-- `JLD` on one series with two time steps: the two iterations `(0, 0)` and `(0, 1)` interleaved, one access at a time. -/
example : ((start 0 (jldProg ([[[1, 2], [3, 4]]] : Data ℚ) 1 2 ⟨[1, 1], [0], [2], [0, 1]⟩)).run
      [(0, 0), (0, 1), (0, 1), (0, 0), (0, 1), (0, 0), (0, 0), (0, 1)]).Finished ∧
    tab3 1 1 2 (fun i j t => ((start 0 (jldProg ([[[1, 2], [3, 4]]] : Data ℚ) 1 2 ⟨[1, 1], [0], [2], [0, 1]⟩)).run
      [(0, 0), (0, 1), (0, 1), (0, 0), (0, 1), (0, 0), (0, 0), (0, 1)]).mem (i, j, t)) = [[[4, 6]]] := by
  refine ⟨?_, by decide +kernel⟩
  rintro ⟨i, k⟩
  by_cases h : i < 1 ∧ k < 2
  · obtain ⟨h1, h2⟩ := h
    rcases (by omega : i = 0 ∧ k = 0 ∨ i = 0 ∧ k = 1) with ⟨rfl, rfl⟩ | ⟨rfl, rfl⟩ <;> rfl
  · rw [run_prog_of_notMem]
    · simp only [start, jldProg, if_neg h]
    · intro hm
      simp only [List.mem_cons, Prod.mk.injEq, List.not_mem_nil, or_false] at hm
      omega

/-- The model does see races: two iterations that add 1 and 2 to the same number give 3 or 2, depending on the schedule. -/
example : ∃ P : Bool → List (Instr Unit ℚ ℚ),
    ((start 0 P).run [true, true, false, false]).mem () = 3 ∧ ((start 0 P).run [true, false, true, false]).mem () = 2 :=
  ⟨fun b => [.load () (fun v _ => v), .store () (fun v => v + if b then 1 else 2)], by decide +kernel, by decide +kernel⟩

/-- The iterated sums of the word `[1]` of two series, the iterations interleaved. -/
example : ∃ sched, ((start () (issProg 2 1 2 (issSingle (fun x => x) .reals ([[[1, 2]], [[3, 4]]] : Data ℚ)
      ⟨[[1]], 1, [], none⟩ 1 none))).run sched).Finished ∧ (IWord.simple (⟨[[1]], 1, [], none⟩ : SWord ℚ)).On 1 ∧
      HasShape ([[[1, 2]], [[3, 4]]] : Data ℚ) 2 1 2 :=
  ⟨[0, 1, 1, 0], fun i => by
    rcases i with _ | _ | i
    · rfl
    · rfl
    · rw [run_prog_of_notMem (by simp)]; simp [start, issProg], by simp [IWord.On], by simp [HasShape]⟩

/-- `MAV`, `RPE`, `RIN`, the sieves, the coquantiles, the norm sums and `CosWISS` can be scheduled. -/
example (X : Data ℚ) (m d n w : ℕ) : ∃ sched, ((start () (mavProg X m d n w)).run sched).Finished :=
  finishes2 m d () _ fun _ h => by simp only [mavProg, if_neg h]
example [NpMath ℚ] (X : Data ℚ) (m n l : ℕ) (f : ℚ) : ∃ sched, ((start () (rpeProg X m n l f)).run sched).Finished :=
  finishes2 m n () _ fun _ h => by simp only [rpeProg, if_neg h]
example (X : Data ℚ) (m n : ℕ) (ker : List (List ℚ)) (nd ds : List ℕ) :
    ∃ sched, ((start () (rinProg X m n ker nd ds)).run sched).Finished :=
  finishes m () _ fun _ h => by simp only [rinProg, if_neg (not_lt.2 h)]
example (m J K : ℕ) (val : ℕ → ℕ → ℕ → ℚ) : ∃ sched, ((start () (sieveProg m J K val)).run sched).Finished :=
  finishes m () _ fun _ h => by simp only [sieveProg, if_neg (not_lt.2 h)]
example (m F n : ℕ) (v : ℕ → ℕ → List ℚ) : ∃ sched, ((start () (cosProg m F n v)).run sched).Finished :=
  finishes m () _ fun _ h => by simp only [cosProg, if_neg (not_lt.2 h)]
example (Y : List (List ℚ)) (n : ℕ) (nm : Norm) : ∃ sched, ((start () (normProg nm Y n)).run sched).Finished :=
  finishes Y.length () _ fun _ h => by simp only [normProg, if_neg (not_lt.2 h)]
example (X : List (List ℚ)) (q : ℚ) : ∃ sched, ((start () (coquantileProg X q)).run sched).Finished :=
  exists_finished (List.range X.length) _ fun i hi => by
    simp only [List.mem_range] at hi
    simp only [start, coquantileProg, if_neg hi]

/-- The hypotheses of `C113_sieves` for `NPI` with two segments of two series. -/
example : ∀ i < 2, ∀ j < 2, ∀ k < ([⊥, ⊤] : List (QVal ℚ)).length - 1,
    opNpi (([[1, 2, 3], [4, 5, 6]] : List (List ℚ)).getD i []) ((([[0, 1, 3], [0, 2, 3]] : List (List ℤ)).getD i []).getD j 0)
      ((([[0, 1, 3], [0, 2, 3]] : List (List ℤ)).getD i []).getD (j + 1) 0) (([⊥, ⊤] : List (QVal ℚ)).getD k ⊥)
      (([⊥, ⊤] : List (QVal ℚ)).getD (k + 1) ⊥) = .ok (if i = j then 1 else 2) := by
  intro i hi j hj k hk
  simp only [List.length_cons, List.length_nil] at hk
  interval_cases i <;> interval_cases j <;> interval_cases k <;> decide +kernel

end Par
end Fruits
