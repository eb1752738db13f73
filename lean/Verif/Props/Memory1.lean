import Verif.Memory
import Verif.Props.DType1
import Verif.Props.Prep10

/-! # C165: transforming never changes the data it is given -/

namespace Fruits
set_option linter.unusedSectionVars false
variable {R : Type} [Field R] [LinearOrder R] [IsStrictOrderedRing R] [FloorRing R]

/-- Everything that was in the memory `m` is still there, unchanged, in `m'`. -/
def Mem.Kept (m m' : Mem R) : Prop := m.next ≤ m'.next ∧ ∀ k < m.next, m'.cell k = m.cell k

theorem Mem.Kept.refl (m : Mem R) : m.Kept m := ⟨le_rfl, fun _ _ => rfl⟩

theorem Mem.Kept.trans {a b c : Mem R} (h1 : a.Kept b) (h2 : b.Kept c) : a.Kept c :=
  ⟨h1.1.trans h2.1, fun k hk => (h2.2 k (hk.trans_le h1.1)).trans (h1.2 k hk)⟩

/-- The specification of a call with the array `x`, started in memory `m`: if the value model returns `D`, the call returns an array with
content `D` that is new or, if `same` holds, the array `x` itself; if the value model raises, the call raises the same; and in both cases everything that was in memory
before is unchanged. -/
def Refines (same : Prop) (m : Mem R) (x : ℕ) (out : Except Err ℕ × Mem R) (r : Except Err (Data R)) : Prop :=
  m.Kept out.2 ∧ match r with
    | .ok D => ∃ y, out.1 = .ok y ∧ out.2.cell y = D ∧ y < out.2.next ∧ (m.next ≤ y ∨ (same ∧ y = x))
    | .error e => out.1 = .error e

/-! ### Rules -/

theorem bind_ok {α β : Type} {a : MemAct R α} {f : α → MemAct R β} {m m' : Mem R} {v : α} (h : a m = (.ok v, m')) :
    (a >>= f) m = f v m' := by
  change (match a m with
    | (.ok v, m') => f v m'
    | (.error e, m') => (.error e, m')) = _
  rw [h]

theorem bind_err {α β : Type} {a : MemAct R α} {f : α → MemAct R β} {m m' : Mem R} {e : Err} (h : a m = (.error e, m')) :
    (a >>= f) m = (.error e, m') := by
  change (match a m with
    | (.ok v, m') => f v m'
    | (.error e, m') => (.error e, m')) = _
  rw [h]

/-- The memory after a new array. -/
def Mem.push (m : Mem R) (D : Data R) : Mem R := ⟨Function.update m.cell m.next D, m.next + 1⟩
/-- The memory after writing `D` to `y`. -/
def Mem.put (m : Mem R) (y : ℕ) (D : Data R) : Mem R := { m with cell := Function.update m.cell y D }

theorem Mem.kept_push (m : Mem R) (D : Data R) : m.Kept (m.push D) :=
  ⟨Nat.le_succ _, fun k hk => Function.update_of_ne (Nat.ne_of_lt hk) _ _⟩
@[simp] theorem Mem.push_cell (m : Mem R) (D : Data R) : (m.push D).cell m.next = D := Function.update_self ..
@[simp] theorem Mem.push_next (m : Mem R) (D : Data R) : (m.push D).next = m.next + 1 := rfl
theorem Mem.kept_put {m m' : Mem R} (h : m.Kept m') {y : ℕ} (hy : m.next ≤ y) (D : Data R) : m.Kept (m'.put y D) :=
  ⟨h.1, fun k hk => (Function.update_of_ne (by omega) _ _).trans (h.2 k hk)⟩
@[simp] theorem Mem.put_cell (m : Mem R) (y : ℕ) (D : Data R) : (m.put y D).cell y = D := Function.update_self ..
@[simp] theorem Mem.put_next (m : Mem R) (y : ℕ) (D : Data R) : (m.put y D).next = m.next := rfl

theorem compute_spec (f : Data R → Except Err (Data R)) (x : ℕ) (m : Mem R) :
    compute f x m = match f (m.cell x) with
      | .ok D => (.ok m.next, m.push D)
      | .error e => (.error e, m) := by
  unfold compute
  rw [bind_ok (rfl : readArr x m = _)]
  cases e : f (m.cell x) with
  | error er => exact bind_err rfl
  | ok D => rw [bind_ok (rfl : ofExcept (.ok D) m = _)]; rfl

theorem compute_refines (f : Data R → Except Err (Data R)) (x : ℕ) (m : Mem R) :
    Refines False m x (compute f x m) (f (m.cell x)) := by
  rw [compute_spec]
  cases f (m.cell x) with
  | error e => exact ⟨Mem.Kept.refl m, rfl⟩
  | ok D => exact ⟨m.kept_push D, m.next, rfl, m.push_cell D, Nat.lt_succ_self _, Or.inl le_rfl⟩

theorem fillNew_spec (f : Data R → Except Err (Data R)) (x : ℕ) (m : Mem R) : ∃ Z,
    fillNew f x m = match f (m.cell x) with
      | .ok D => (.ok m.next, (m.push Z).put m.next D)
      | .error e => (.error e, m.push Z) := by
  refine ⟨(m.cell x).map fun s => s.map fun r => zeros r.length, ?_⟩
  unfold fillNew
  rw [bind_ok (rfl : readArr x m = _), bind_ok (rfl : newArr _ m = _)]
  cases e : f (m.cell x) with
  | error er => exact bind_err rfl
  | ok D => exact bind_ok (rfl : assign m.next (fun _ => .ok D) _ = (.ok (), _))

theorem fillNew_refines (f : Data R → Except Err (Data R)) (x : ℕ) (m : Mem R) :
    Refines False m x (fillNew f x m) (f (m.cell x)) := by
  obtain ⟨Z, h⟩ := fillNew_spec f x m
  rw [h]
  cases f (m.cell x) with
  | error e => exact ⟨m.kept_push Z, rfl⟩
  | ok D => exact ⟨Mem.kept_put (m.kept_push Z) le_rfl D, m.next, rfl, Mem.put_cell .., Nat.lt_succ_self _, Or.inl le_rfl⟩

theorem Refines.weaken {same same' : Prop} {m : Mem R} {x : ℕ} {out : Except Err ℕ × Mem R} {r : Except Err (Data R)}
    (h : Refines same m x out r) (hs : same → same') : Refines same' m x out r := by
  refine ⟨h.1, ?_⟩
  have h2 := h.2
  cases r with
  | error e => exact h2
  | ok D =>
    obtain ⟨y, a, b, c, d⟩ := h2
    exact ⟨y, a, b, c, d.imp id (fun e => ⟨hs e.1, e.2⟩)⟩

/-- Programs that only write to the array `y`, by the function `f`. -/
def Writes (y : ℕ) (a : MemAct R Unit) (f : Data R → Except Err (Data R)) : Prop :=
  ∀ m : Mem R, match f (m.cell y) with
    | .ok D => a m = (.ok (), m.put y D)
    | .error e => ∃ E, a m = (.error e, m.put y E)

theorem Mem.put_put (m : Mem R) (y : ℕ) (D E : Data R) : (m.put y D).put y E = m.put y E := by
  simp [Mem.put]

theorem Mem.put_self (m : Mem R) (y : ℕ) : m.put y (m.cell y) = m := by simp [Mem.put]

theorem assign_writes (y : ℕ) (f : Data R → Except Err (Data R)) : Writes y (assign y f) f := by
  intro m
  unfold assign
  cases f (m.cell y) with
  | ok D => rfl
  | error e => exact ⟨m.cell y, by rw [Mem.put_self]⟩

theorem pure_writes (y : ℕ) : Writes y (pure () : MemAct R Unit) .ok := by
  intro m
  change _ = _
  rw [Mem.put_self]; rfl

theorem Writes.seq {y : ℕ} {a b : MemAct R Unit} {f g : Data R → Except Err (Data R)} (ha : Writes y a f) (hb : Writes y b g) :
    Writes y (a >>= fun _ => b) (fun D => f D >>= g) := by
  intro m
  have h := ha m
  dsimp only
  cases e : f (m.cell y) with
  | error er =>
    rw [e] at h
    obtain ⟨E, h⟩ := h
    exact ⟨E, bind_err h⟩
  | ok D =>
    rw [e] at h
    have h : a m = (.ok (), m.put y D) := h
    rw [ok_bind, bind_ok h]
    have h2 := hb (m.put y D)
    rw [Mem.put_cell] at h2
    cases e2 : g D with
    | ok D' =>
      rw [e2] at h2
      have h2 : b (m.put y D) = (.ok (), (m.put y D).put y D') := h2
      rw [Mem.put_put] at h2; exact h2
    | error er =>
      rw [e2] at h2
      obtain ⟨E, h2⟩ := h2
      rw [Mem.put_put] at h2; exact ⟨E, h2⟩

/-- A copy that is changed in place. -/
theorem copy_refines {x : ℕ} {m : Mem R} {a : ℕ → MemAct R Unit} {f : Data R → Except Err (Data R)} (h : ∀ y, Writes y (a y) f) :
    Refines False m x ((do let y ← copyArr x; a y; return y : MemAct R ℕ) m) (f (m.cell x)) := by
  have h1 := h m.next (m.push (m.cell x))
  rw [Mem.push_cell] at h1
  rw [bind_ok (rfl : copyArr x m = (.ok m.next, m.push (m.cell x)))]
  cases e : f (m.cell x) with
  | ok D =>
    rw [e] at h1
    have h1 : _ = _ := h1
    change Refines False m x ((a m.next >>= fun _ => pure m.next) (m.push (m.cell x))) _
    rw [bind_ok h1]
    exact ⟨Mem.kept_put (m.kept_push _) le_rfl D, m.next, rfl, Mem.put_cell .., Nat.lt_succ_self _, Or.inl le_rfl⟩
  | error er =>
    rw [e] at h1
    obtain ⟨E, h1⟩ := h1
    change Refines False m x ((a m.next >>= fun _ => pure m.next) (m.push (m.cell x))) _
    rw [bind_err h1]
    exact ⟨Mem.kept_put (m.kept_push _) le_rfl E, rfl⟩

/-! ### The loops of `DIL` and `PDD`, and `CTS` -/

theorem mapRows_mapRows {f g : List R → List R} (D : Data R) : mapRows g (mapRows f D) = mapRows (fun r => g (f r)) D := by
  simp [mapRows, Function.comp_def]

theorem zeroLoop_writes {β : Type} (f : ℕ → β → ℕ × ℕ) (y : ℕ) : ∀ es : List β, Writes y (zeroLoop f y es : MemAct R Unit) (fun D =>
    .ok (mapRows (fun r => es.foldl (fun r e => fillSlc r (f r.length e).1 (f r.length e).2 0) r) D))
  | [] => by
    have h := pure_writes (R := R) y
    intro m
    have := h m
    simp only [List.foldl_nil]
    rw [show mapRows (fun r => r) (m.cell y) = m.cell y by simp [mapRows]]
    exact this
  | e :: es => by
    have h := (assign_writes (R := R) y (fun D => .ok (mapRows (fun r => fillSlc r (f r.length e).1 (f r.length e).2 0) D))).seq
      (zeroLoop_writes f y es)
    intro m
    have h := h m
    simp only [ok_bind, mapRows_mapRows] at h
    exact h


/-! ### Rows one after the other, or all rows together -/

theorem zipM_cons {α β γ : Type} (f : α → β → Except Err γ) (a : α) (as : List α) (b : β) (bs : List β) :
    zipM f (a :: as) (b :: bs) = f a b >>= fun c => zipM f as bs >>= fun cs => .ok (c :: cs) := rfl

theorem zipM_congr {α β γ : Type} {f g : α → β → Except Err γ} : ∀ {as : List α} {bs : List β},
    (∀ p ∈ as.zip bs, f p.1 p.2 = g p.1 p.2) → zipM f as bs = zipM g as bs
  | [], _, _ => rfl
  | _ :: _, [], _ => rfl
  | a :: as, b :: bs, h => by
    rw [zipM_cons, zipM_cons, h (a, b) (by simp), zipM_congr (fun p hp => h p (by simp [hp]))]

theorem zipM_ok {α β γ : Type} {f : α → β → Except Err γ} : ∀ {as : List α} {bs : List β},
    (∀ p ∈ as.zip bs, ∃ c, f p.1 p.2 = .ok c) → ∃ cs, zipM f as bs = .ok cs
  | [], _, _ => ⟨[], rfl⟩
  | _ :: _, [], _ => ⟨[], rfl⟩
  | a :: as, b :: bs, h => by
    obtain ⟨c, hc⟩ := h (a, b) (by simp)
    obtain ⟨cs, hcs⟩ := zipM_ok (f := f) (as := as) (bs := bs) (fun p hp => h p (by simp [hp]))
    exact ⟨c :: cs, by rw [zipM_cons, hc, hcs]; rfl⟩

/-- The function fails for all pairs with the same error or for none. -/
def RowsAlike {α β γ : Type} (f : α → β → Except Err γ) (l : List (α × β)) : Prop :=
  (∃ e, ∀ p ∈ l, f p.1 p.2 = .error e) ∨ ∀ p ∈ l, ∃ c, f p.1 p.2 = .ok c

theorem zipM_bind {α β γ δ : Type} {f : α → β → Except Err γ} {g : α → γ → Except Err δ} : ∀ {as : List α} {bs : List β},
    RowsAlike f (as.zip bs) → zipM (fun a b => f a b >>= g a) as bs = (zipM f as bs >>= zipM g as)
  | [], _, _ => rfl
  | _ :: _, [], _ => rfl
  | a :: as, b :: bs, h => by
    rcases h with ⟨e, h⟩ | h
    · have h1 : f a b = .error e := h (a, b) (by simp)
      rw [zipM_cons, zipM_cons, h1]; rfl
    · obtain ⟨c, hc⟩ := h (a, b) (by simp)
      have hc : f a b = .ok c := hc
      have ht : ∀ p ∈ as.zip bs, ∃ c, f p.1 p.2 = .ok c := fun p hp => h p (by simp [hp])
      obtain ⟨cs, hcs⟩ := zipM_ok ht
      rw [zipM_cons, zipM_cons, hc, ok_bind, ok_bind, zipM_bind (Or.inr ht), hcs]
      rfl

theorem zipM_mem {α β γ : Type} {f : α → β → Except Err γ} : ∀ {as : List α} {bs : List β} {cs : List γ},
    zipM f as bs = .ok cs → as.length = bs.length → cs.length = as.length ∧ ∀ c ∈ cs, ∃ p ∈ as.zip bs, f p.1 p.2 = .ok c
  | [], [], cs, h, _ => by injection h with h; subst h; simp
  | [], _ :: _, _, _, hl => by simp at hl
  | _ :: _, [], _, _, hl => by simp at hl
  | a :: as, b :: bs, cs, h, hl => by
    rw [zipM_cons] at h
    cases e : f a b with
    | error _ => rw [e] at h; cases h
    | ok c =>
      rw [e, ok_bind] at h
      cases e2 : zipM f as bs with
      | error _ => rw [e2] at h; cases h
      | ok cs' =>
        rw [e2] at h
        injection h with h; subst h
        obtain ⟨h1, h2⟩ := zipM_mem e2 (by simpa using hl)
        refine ⟨by simp [h1], fun x hx => ?_⟩
        rcases List.mem_cons.1 hx with rfl | hx
        · exact ⟨(a, b), by simp, e⟩
        · obtain ⟨p, hp, hp'⟩ := h2 x hx
          exact ⟨p, by simp [hp], hp'⟩

theorem zipM_mapM {α γ : Type} (f : α → Except Err γ) : ∀ {β : Type} (as : List β) (bs : List α), as.length = bs.length →
    zipM (fun _ b => f b) as bs = bs.mapM f
  | _, [], [], _ => rfl
  | _, [], _ :: _, h => by simp at h
  | _, _ :: _, [], h => by simp at h
  | _, a :: as, b :: bs, h => by
    rw [zipM_cons, List.mapM_cons, zipM_mapM f as bs (by simpa using h)]; rfl

theorem zipM_diag {α γ : Type} (f : α → α → Except Err γ) : ∀ as : List α, zipM f as as = as.mapM fun a => f a a
  | [] => rfl
  | a :: as => by rw [zipM_cons, List.mapM_cons, zipM_diag f as]; rfl

/-- Applies `f` to the pairs of rows of two datasets. -/
def zipRows (f : List R → List R → Except Err (List R)) (X O : Data R) : Except Err (Data R) := zipM (zipM f) X O

/-- On rows of length `n`, `f` always fails with the same error or always returns a row of length `n`. -/
def LenOnly (n : ℕ) (f : List R → List R → Except Err (List R)) : Prop :=
  (∃ e, ∀ x o, x.length = n → o.length = n → f x o = .error e) ∨
    ∀ x o, x.length = n → o.length = n → ∃ y, f x o = .ok y ∧ y.length = n

theorem LenOnly.alike {n : ℕ} {f : List R → List R → Except Err (List R)} (h : LenOnly n f) {s o : Series R}
    (hs : ∀ r ∈ s, r.length = n) (ho : ∀ r ∈ o, r.length = n) : RowsAlike f (s.zip o) := by
  rcases h with ⟨e, h⟩ | h
  · exact Or.inl ⟨e, fun p hp => h _ _ (hs _ (List.of_mem_zip hp).1) (ho _ (List.of_mem_zip hp).2)⟩
  · exact Or.inr fun p hp => ⟨_, (h _ _ (hs _ (List.of_mem_zip hp).1) (ho _ (List.of_mem_zip hp).2)).choose_spec.1⟩

theorem zipRows_bind {f g : List R → List R → Except Err (List R)} {X O : Data R} {m d n : ℕ} (hX : HasShape X m d n)
    (hO : HasShape O m d n) (hf : LenOnly n f) :
    zipRows (fun x o => f x o >>= g x) X O = (zipRows f X O >>= zipRows g X) := by
  unfold zipRows
  rw [zipM_congr (g := fun s o => zipM f s o >>= zipM g s)]
  · apply zipM_bind
    rcases hf with ⟨e, h⟩ | h
    · rcases Nat.eq_zero_or_pos d with h0 | h0
      · right
        intro p hp
        have : p.1 = [] := List.length_eq_zero_iff.1 (((hX.2 _ (List.of_mem_zip hp).1).1).trans h0)
        rw [this]
        exact ⟨[], rfl⟩
      · left
        refine ⟨e, fun p hp => ?_⟩
        have h1 := hX.2 _ (List.of_mem_zip hp).1
        have h2 := hO.2 _ (List.of_mem_zip hp).2
        obtain ⟨s, o⟩ := p
        match s, o, h1, h2 with
        | [], _, h1, _ => simp at h1; omega
        | _ :: _, [], _, h2 => simp at h2; omega
        | x :: s, y :: o, h1, h2 =>
          change zipM f (x :: s) (y :: o) = _
          rw [zipM_cons, h x y (h1.2 x (by simp)) (h2.2 y (by simp))]; rfl
    · right
      intro p hp
      apply zipM_ok
      intro q hq
      exact ⟨_, (h _ _ ((hX.2 _ (List.of_mem_zip hp).1).2 _ (List.of_mem_zip hq).1)
        ((hO.2 _ (List.of_mem_zip hp).2).2 _ (List.of_mem_zip hq).2)).choose_spec.1⟩
  · intro p hp
    apply zipM_bind
    exact hf.alike (hX.2 _ (List.of_mem_zip hp).1).2 (hO.2 _ (List.of_mem_zip hp).2).2

theorem zipRows_shape {f : List R → List R → Except Err (List R)} {X O Y : Data R} {m d n : ℕ} (hX : HasShape X m d n)
    (hO : HasShape O m d n) (hf : LenOnly n f) (h : zipRows f X O = .ok Y) : HasShape Y m d n := by
  obtain ⟨h1, h2⟩ := zipM_mem h (hX.1.trans hO.1.symm)
  refine ⟨h1.trans hX.1, fun s hs => ?_⟩
  obtain ⟨p, hp, hp'⟩ := h2 s hs
  have hx := hX.2 _ (List.of_mem_zip hp).1
  have ho := hO.2 _ (List.of_mem_zip hp).2
  obtain ⟨h3, h4⟩ := zipM_mem hp' (hx.1.trans ho.1.symm)
  refine ⟨h3.trans hx.1, fun r hr => ?_⟩
  obtain ⟨q, hq, hq'⟩ := h4 r hr
  have a := hx.2 _ (List.of_mem_zip hq).1
  have b := ho.2 _ (List.of_mem_zip hq).2
  rcases hf with ⟨e, hf⟩ | hf
  · rw [hf _ _ a b] at hq'; cases hq'
  · obtain ⟨y, hy, hyl⟩ := hf _ _ a b
    rw [hy] at hq'
    injection hq' with hq'; subst hq'; exact hyl

theorem zipRows_mapRowsM {f : List R → Except Err (List R)} {X O : Data R} {m d n : ℕ} (hX : HasShape X m d n)
    (hO : HasShape O m d n) : zipRows (fun _ o => f o) X O = mapRowsM f O := by
  unfold zipRows mapRowsM
  rw [← zipM_mapM _ X O (hX.1.trans hO.1.symm)]
  apply zipM_congr
  intro p hp
  exact zipM_mapM f p.1 p.2 ((hX.2 _ (List.of_mem_zip hp).1).1.trans (hO.2 _ (List.of_mem_zip hp).2).1.symm)

theorem zipRows_diag {f : List R → List R → Except Err (List R)} {X : Data R} : zipRows f X X = mapRowsM (fun x => f x x) X := by
  unfold zipRows mapRowsM
  rw [zipM_diag]
  congr 1
  funext s
  exact zipM_diag f s

/-! ### `INC` -/

theorem incr_lenOnly (n : ℕ) (k : ℤ) : LenOnly n (fun _ (o : List R) => increments1 k o) := by
  unfold increments1
  by_cases h : (n - pyClip n k) = min (pyClip n (-k)) n
  · right
    intro x o _ ho
    have hl : (slcFrom o k).length = (slcTo o (-k)).length := by
      simp only [slcFrom, slcTo, List.length_drop, List.length_take, ho]; exact h
    dsimp only
    rw [if_pos hl]
    have hv : (vsub (slcFrom o k) (slcTo o (-k))).length = o.length - pyClip o.length k := by
      simp [vsub, ← hl, slcFrom]
    unfold setSlc
    rw [if_pos hv]
    refine ⟨_, rfl, ?_⟩
    have := pyClip_le o.length k
    simp only [List.length_append, List.length_take, List.length_drop, hv, zeros, List.length_replicate]
    omega
  · left
    refine ⟨.valueError, fun x o _ ho => ?_⟩
    have hl : ¬ (slcFrom o k).length = (slcTo o (-k)).length := by
      simp only [slcFrom, slcTo, List.length_drop, List.length_take, ho]; exact h
    dsimp only
    rw [if_neg hl]

theorem restore_lenOnly (n : ℕ) (s : Shift R) : LenOnly n (s.restore (A := R)) := by
  cases s with
  | float f => exact Or.inl ⟨_, fun _ _ _ _ => rfl⟩
  | call f => exact Or.inl ⟨_, fun _ _ _ _ => rfl⟩
  | int k =>
    right
    intro x o hx ho
    unfold Shift.restore setSlc
    have hv : (slcTo x k).length = pyClip o.length k - 0 := by
      have := pyClip_le n k
      simp only [slcTo, List.length_take, hx, ho]
      omega
    dsimp only
    rw [if_pos hv]
    refine ⟨_, rfl, ?_⟩
    have := pyClip_le o.length k
    simp only [List.length_append, List.length_take, List.length_drop, hv]
    omega

/-- One round of `INC` on all rows. -/
def incRound (p : INC R) (n : ℕ) (X O : Data R) : Except Err (Data R) := do
  let O ← mapRowsM (increments1 (p.shift.eval n)) O
  if p.zeroPadding then pure O else restoreData p.shift X O

/-- All rounds. -/
def incArr (p : INC R) (n : ℕ) (X : Data R) : ℕ → Data R → Except Err (Data R)
  | 0, O => .ok O
  | k + 1, O => incRound p n X O >>= incArr p n X k

/-- One round on a row. -/
def incRow (p : INC R) (n : ℕ) (x o : List R) : Except Err (List R) := do
  let o ← increments1 (p.shift.eval n) o
  if p.zeroPadding then pure o else p.shift.restore x o

theorem incRow_lenOnly (p : INC R) (n N : ℕ) : LenOnly n (incRow p N) := by
  rcases incr_lenOnly (R := R) n (p.shift.eval N) with ⟨e, h⟩ | h
  · exact Or.inl ⟨e, fun x o hx ho => by
      have h1 : increments1 (p.shift.eval N) o = _ := h x o hx ho
      unfold incRow; rw [h1]; rfl⟩
  · cases hz : p.zeroPadding with
    | true =>
      right
      intro x o hx ho
      obtain ⟨y, hy, hl⟩ := h x o hx ho
      have hy : increments1 (p.shift.eval N) o = _ := hy
      refine ⟨y, ?_, hl⟩
      unfold incRow
      rw [hy, hz]; rfl
    | false =>
      rcases restore_lenOnly n p.shift with ⟨e, h2⟩ | h2
      · refine Or.inl ⟨e, fun x o hx ho => ?_⟩
        obtain ⟨y, hy, hl⟩ := h x o hx ho
        have hy : increments1 (p.shift.eval N) o = _ := hy
        unfold incRow
        rw [hy, hz]
        exact h2 x y hx hl
      · right
        intro x o hx ho
        obtain ⟨y, hy, hl⟩ := h x o hx ho
        have hy : increments1 (p.shift.eval N) o = _ := hy
        obtain ⟨z, hz', hl'⟩ := h2 x y hx hl
        refine ⟨z, ?_, hl'⟩
        unfold incRow
        rw [hy, hz]
        exact hz'

theorem mapM_ok_self {α : Type} {f : α → Except Err α} : ∀ (l : List α), (∀ a ∈ l, f a = .ok a) → l.mapM f = .ok l
  | [], _ => rfl
  | a :: l, h => by
    rw [List.mapM_cons, h a (List.mem_cons_self ..), ok_bind, mapM_ok_self l (fun b hb => h b (List.mem_cons_of_mem _ hb))]
    rfl

theorem incRound_rows {p : INC R} {N : ℕ} {X O : Data R} {m d n : ℕ} (hX : HasShape X m d n) (hO : HasShape O m d n) :
    incRound p N X O = zipRows (incRow p N) X O := by
  have h := zipRows_bind (g := fun x o => if p.zeroPadding then pure o else p.shift.restore x o) hX hO
    (incr_lenOnly (R := R) n (p.shift.eval N))
  have h' : zipRows (incRow p N) X O = _ := h
  rw [h', zipRows_mapRowsM hX hO]
  unfold incRound
  cases e : mapRowsM (increments1 (p.shift.eval N)) O with
  | error _ => rfl
  | ok Y =>
    rw [ok_bind, ok_bind]
    cases hz : p.zeroPadding with
    | false => rfl
    | true =>
      have hY : HasShape Y m d n := by
        rw [← zipRows_mapRowsM hX hO] at e
        exact zipRows_shape hX hO (incr_lenOnly n _) e
      change Except.ok Y = zipRows (fun _ o => .ok o) X Y
      rw [zipRows_mapRowsM hX hY]
      unfold mapRowsM
      symm
      exact mapM_ok_self _ (fun s _ => mapM_ok_self s (fun _ _ => rfl))

theorem incArr_rows (p : INC R) (N : ℕ) {X : Data R} {m d n : ℕ} (hX : HasShape X m d n) : ∀ (k : ℕ) (O : Data R),
    HasShape O m d n → incArr p N X k O = zipRows (fun x o => INC.loop p N x k o) X O
  | 0, O, hO => by
    change Except.ok O = zipRows (fun _ o => .ok o) X O
    rw [zipRows_mapRowsM hX hO]
    unfold mapRowsM
    symm
    exact mapM_ok_self _ (fun s _ => mapM_ok_self s (fun _ _ => rfl))
  | k + 1, O, hO => by
    have hl : (fun x o => INC.loop p N x (k + 1) o) = fun x o => incRow p N x o >>= fun o => INC.loop p N x k o := by
      funext x o
      simp only [INC.loop, incRow]
      cases increments1 (p.shift.eval N) o with
      | error _ => rfl
      | ok o' =>
        rw [ok_bind, ok_bind]
        cases p.zeroPadding with
        | true => rfl
        | false => rfl
    rw [hl, zipRows_bind (g := fun x o => INC.loop p N x k o) hX hO (incRow_lenOnly p n N)]
    unfold incArr
    rw [incRound_rows hX hO]
    cases e : zipRows (incRow p N) X O with
    | error _ => rfl
    | ok Y =>
      rw [ok_bind, ok_bind]
      exact incArr_rows p N hX k Y (zipRows_shape hX hO (incRow_lenOnly p n N) e)

theorem inc_transform_arr (p : INC R) {X : Data R} {m d n : ℕ} (hX : HasShape X m d n) :
    p.transform X = incArr p (shape2 X) X p.depth X := by
  rw [incArr_rows p (shape2 X) hX p.depth X hX, zipRows_diag]
  rfl


theorem incLoop_refines (p : INC R) (x N : ℕ) (m0 : Mem R) (hx : x < m0.next) : ∀ (k out : ℕ) (m : Mem R), m0.Kept m →
    out < m.next → m0.Kept (incLoop p x N k out m).2 ∧ match incArr p N (m0.cell x) k (m.cell out) with
      | .ok D => ∃ y, (incLoop p x N k out m).1 = .ok y ∧ (incLoop p x N k out m).2.cell y = D ∧
          y < (incLoop p x N k out m).2.next ∧ (m0.next ≤ y ∨ (k = 0 ∧ y = out))
      | .error e => (incLoop p x N k out m).1 = .error e
  | 0, out, m, hm, ho => ⟨hm, out, rfl, rfl, ho, Or.inr ⟨rfl, rfl⟩⟩
  | k + 1, out, m, hm, ho => by
    unfold incLoop incArr incRound
    have hc := compute_spec (mapRowsM (increments1 (p.shift.eval N))) out m
    cases e : mapRowsM (increments1 (p.shift.eval N)) (m.cell out) with
    | error er =>
      rw [e] at hc
      rw [bind_err hc]
      exact ⟨hm, rfl⟩
    | ok D =>
      rw [e] at hc
      rw [bind_ok hc, ok_bind]
      have hm1 : m0.Kept (m.push D) := hm.trans (m.kept_push D)
      cases hz : p.zeroPadding with
      | true =>
        rw [if_pos rfl, if_pos rfl]
        have ih := incLoop_refines p x N m0 hx k m.next (m.push D) hm1 (Nat.lt_succ_self _)
        rw [Mem.push_cell] at ih
        refine ⟨ih.1, ?_⟩
        have ih2 := ih.2
        change match incArr p N (m0.cell x) k D with | .ok D => _ | .error e => _
        cases e2 : incArr p N (m0.cell x) k D with
        | error er => rw [e2] at ih2; exact ih2
        | ok E =>
          rw [e2] at ih2
          obtain ⟨y, a, b, c, d⟩ := ih2
          refine ⟨y, a, b, c, Or.inl ?_⟩
          rcases d with d | d
          · exact d
          · rw [d.2]; exact hm.1
      | false =>
        rw [if_neg (by simp), if_neg (by simp)]
        have hX : (m.push D).cell x = m0.cell x := hm1.2 x hx
        have hw := assign_writes (R := R) m.next (restoreData p.shift (m0.cell x)) (m.push D)
        rw [Mem.push_cell] at hw
        cases e3 : restoreData p.shift (m0.cell x) D with
        | error er =>
          rw [e3] at hw
          obtain ⟨E, hw⟩ := hw
          rw [bind_ok (rfl : readArr x (m.push D) = _), hX, bind_err hw]
          exact ⟨Mem.kept_put hm1 hm.1 E, rfl⟩
        | ok E =>
          rw [e3] at hw
          have hw : _ = _ := hw
          rw [bind_ok (rfl : readArr x (m.push D) = _), hX, bind_ok hw, ok_bind]
          have ih := incLoop_refines p x N m0 hx k m.next ((m.push D).put m.next E) (Mem.kept_put hm1 hm.1 E) (Nat.lt_succ_self _)
          rw [Mem.put_cell] at ih
          refine ⟨ih.1, ?_⟩
          have ih2 := ih.2
          cases e2 : incArr p N (m0.cell x) k E with
          | error er => rw [e2] at ih2; exact ih2
          | ok F =>
            rw [e2] at ih2
            obtain ⟨y, a, b, c, d⟩ := ih2
            refine ⟨y, a, b, c, Or.inl ?_⟩
            rcases d with d | d
            · exact d
            · rw [d.2]; exact hm.1

/-! ### `CTS` -/

theorem mapM_bind_const {α β γ : Type} {f : α → Except Err β} {g : β → Except Err γ} {e0 : Err}
    (hf : ∀ a e, f a = .error e → e = e0) (hg : ∀ a e, g a = .error e → e = e0) : ∀ l : List α,
    (l.mapM f >>= fun l' => l'.mapM g) = l.mapM (fun a => f a >>= g)
  | [] => rfl
  | a :: l => by
    have ih := mapM_bind_const hf hg l
    rw [List.mapM_cons, List.mapM_cons, ← ih]
    cases ea : f a with
    | error e => rfl
    | ok b =>
      rw [ok_bind, ok_bind]
      cases el : l.mapM f with
      | error e =>
        have : e = e0 := mapM_error_const hf l e el
        subst this
        rw [err_bind, err_bind]
        cases eb : g b with
        | error e' => rw [hg b e' eb]; rfl
        | ok c => rfl
      | ok l' =>
        rw [ok_bind]
        change (b :: l').mapM g = _
        rw [List.mapM_cons]; rfl
where
  mapM_error_const {α β : Type} {f : α → Except Err β} {e0 : Err} (hf : ∀ a e, f a = .error e → e = e0) : ∀ (l : List α) (e : Err),
      l.mapM f = .error e → e = e0
    | [], e, h => by cases h
    | a :: l, e, h => by
      rw [List.mapM_cons] at h
      cases ea : f a with
      | error e' => rw [ea] at h; injection h with h; subst h; exact hf a _ ea
      | ok b =>
        rw [ea, ok_bind] at h
        cases el : l.mapM f with
        | error e' => rw [el] at h; injection h with h; subst h; exact mapM_error_const hf l _ el
        | ok l' => rw [el] at h; cases h

theorem setSlc_error {x v : List R} {a b : ℕ} {e : Err} (h : setSlc x a b v = .error e) : e = .valueError := by
  unfold setSlc at h
  by_cases hl : v.length = b - a
  · rw [if_pos hl] at h; cases h
  · rw [if_neg hl] at h
    match v, h with
    | [], h => injection h with h; exact h.symm
    | [c], h => cases h
    | _ :: _ :: _, h => injection h with h; exact h.symm

theorem mapRowsM_bind {f g : List R → Except Err (List R)} (hf : ∀ a e, f a = .error e → e = .valueError)
    (hg : ∀ a e, g a = .error e → e = .valueError) (X : Data R) :
    (mapRowsM f X >>= mapRowsM g) = mapRowsM (fun r => f r >>= g) X := by
  unfold mapRowsM
  have h := mapM_bind_const (f := fun s : Series R => s.mapM f) (g := fun s => s.mapM g) (e0 := .valueError)
    (fun s e h => mapM_bind_const.mapM_error_const hf s e h) (fun s e h => mapM_bind_const.mapM_error_const hg s e h) X
  rw [h]
  congr 1
  funext s
  exact mapM_bind_const hf hg s

theorem cts_writes (p : CTS R) (n y : ℕ) : Writes y (p.fill (p.shift n) y) (mapRowsM (CTS.row p.pseudo (p.shift n))) := by
  unfold CTS.fill
  cases hp : p.pseudo with
  | true =>
    rw [if_pos rfl]
    have h := assign_writes (R := R) y (fun D => .ok (mapRows (fun r => fillSlc r 0 (pyClip r.length (p.shift n)) 0) D))
    have e : (fun D : Data R => (.ok (mapRows (fun r => fillSlc r 0 (pyClip r.length (p.shift n)) 0) D) : Except Err (Data R))) =
        mapRowsM (CTS.row true (p.shift n)) := by
      funext D
      unfold mapRowsM mapRows
      symm
      apply mapM_ok_map
      intro s _
      apply mapM_ok_map
      intro r _
      rfl
    rw [← e]; exact h
  | false =>
    rw [if_neg (by simp)]
    have h := (assign_writes (R := R) y (mapRowsM fun r => setSlc r 0 (pyClip r.length (-(p.shift n))) (slcFrom r (p.shift n)))).seq
      (assign_writes y (mapRowsM fun r => setSlc r (pyClip r.length (-(p.shift n))) r.length (slcFrom r (-1))))
    have e : (fun D : Data R => mapRowsM (fun r => setSlc r 0 (pyClip r.length (-(p.shift n))) (slcFrom r (p.shift n))) D >>=
        mapRowsM fun r => setSlc r (pyClip r.length (-(p.shift n))) r.length (slcFrom r (-1))) =
        mapRowsM (CTS.row false (p.shift n)) := by
      funext D
      rw [mapRowsM_bind (fun a e h => setSlc_error h) (fun a e h => setSlc_error h)]
      rfl
    rw [← e]; exact h

/-! ### The theorem -/

/-- The preparateurs that hand back their input: `INC` with depth zero, which the constructor refuses (`transform.py:51-52`). -/
def Prep.ReturnsInput : Prep R → Prop
  | .inc p => p.depth = 0
  | _ => False

/-- **C165.** `preparateur.transform(x)`, as a program on memory: it returns an array with the content that the model of the other
properties gives (or raises the same error), it changes no array that existed before the call, whether it returns or raises, and the returned array
is a new one, except for `INC` with depth 0 (refused by the constructor), which would return `x` itself. -/
theorem C165_memory [NpMath R] (T : FloatText R) : ∀ (p : Prep R) (C : Data R) (x : ℕ) (m : Mem R), x < m.next → Uni (m.cell x) →
    Refines p.ReturnsInput m x (p.exec T C x m) (p.transformC T C (m.cell x))
  | .inc p, C, x, m, hx, hX => by
    have h := incLoop_refines p x (shape2 (m.cell x)) m hx p.depth x m (Mem.Kept.refl m) hx
    have e : (Prep.inc p).exec T C x m = incLoop p x (shape2 (m.cell x)) p.depth x m := bind_ok rfl
    rw [e]
    change Refines _ _ _ _ (p.transform (m.cell x))
    rw [inc_transform_arr p hX]
    exact h
  | .std p, C, x, m, _, _ => (compute_refines _ x m).weaken False.elim
  | .nrm p, C, x, m, _, _ => (fillNew_refines _ x m).weaken False.elim
  | .mav p, C, x, m, _, _ => (compute_refines _ x m).weaken False.elim
  | .lag, C, x, m, _, _ => (fillNew_refines _ x m).weaken False.elim
  | .ffn p, C, x, m, _, _ => (compute_refines _ x m).weaken False.elim
  | .rin p, C, x, m, _, _ => (compute_refines _ x m).weaken False.elim
  | .rdw p, C, x, m, _, _ => (compute_refines _ x m).weaken False.elim
  | .jld p, C, x, m, _, _ => (compute_refines _ x m).weaken False.elim
  | .spe p, C, x, m, _, _ => (compute_refines _ x m).weaken False.elim
  | .rpe p, C, x, m, _, _ => (compute_refines _ x m).weaken False.elim
  | .cts p, C, x, m, _, _ => by
    have e : (Prep.cts p).exec T C x m = _ := bind_ok (rfl : readArr x m = _)
    rw [e]
    exact (copy_refines (fun y => cts_writes p (shape2 (m.cell x)) y)).weaken False.elim
  | .qtc p, C, x, m, _, _ => (compute_refines _ x m).weaken False.elim
  | .func f, C, x, m, _, _ => (compute_refines _ x m).weaken False.elim
  | .dil p, C, x, m, _, _ => by
    simp only [Prep.exec, Prep.transformC, DIL.transform]
    cases hf : p.fitted with
    | none => exact ⟨Mem.Kept.refl m, rfl⟩
    | some st => exact (copy_refines (fun y => zeroLoop_writes (R := R) (fun n (e : ℕ × ℕ) => (pyClip n (e.1 : ℤ),
        pyClip n ((e.1 + st.2.getD e.2 0 : ℕ) : ℤ))) y st.1.zipIdx)).weaken False.elim
  | .win p, C, x, m, _, _ => (fillNew_refines _ x m).weaken False.elim
  | .dot p, C, x, m, _, _ => (fillNew_refines _ x m).weaken False.elim
  | .pdd p, C, x, m, _, _ => by
    simp only [Prep.exec, Prep.transformC, PDD.transform]
    cases hf : p.fitted with
    | none => exact ⟨Mem.Kept.refl m, rfl⟩
    | some st => exact (copy_refines (fun y => zeroLoop_writes (R := R) (fun n (i : ℤ) => (pyClip n i, pyClip n (i + st.2))) y
        st.1)).weaken False.elim
  | .dim p dims, C, x, m, hx, hX => by
    simp only [Prep.exec, Prep.transformC]
    have hc := compute_spec (selectDims dims) x m
    cases e : selectDims dims (m.cell x) with
    | error er =>
      rw [e] at hc
      rw [bind_err hc]
      exact ⟨Mem.Kept.refl m, rfl⟩
    | ok sub =>
      rw [e] at hc
      have hc : compute (selectDims dims) x m = (.ok m.next, m.push sub) := hc
      rw [bind_ok hc, ok_bind, bind_ok (rfl : readArr m.next (m.push sub) = _), Mem.push_cell]
      have hu : Uni sub := (selectDims_single hX e).1
      have ih := C165_memory T p sub m.next (m.push sub) (Nat.lt_succ_self _) (by rw [Mem.push_cell]; exact hu)
      rw [Mem.push_cell] at ih
      obtain ⟨hk, ih⟩ := ih
      have hk0 := (m.kept_push sub).trans hk
      rcases er : Prep.exec T sub p m.next (m.push sub) with ⟨r, m1⟩
      rw [er] at ih hk hk0
      cases e1 : Prep.transformC T sub p sub with
      | error er' =>
        rw [e1] at ih
        have ih : r = .error er' := ih
        subst ih
        rw [bind_err er]
        exact ⟨hk0, rfl⟩
      | ok Y =>
        rw [e1] at ih
        obtain ⟨y, hy1, hy2, hy3, -⟩ := ih
        have hy1 : r = .ok y := hy1
        subst hy1
        rw [bind_ok er, ok_bind]
        have hc2 := compute_spec (deleteDims dims) x m1
        have hk0 : m.Kept m1 := hk0
        rw [hk0.2 x hx] at hc2
        cases e2 : deleteDims dims (m.cell x) with
        | error er' =>
          rw [e2] at hc2
          rw [bind_err hc2]
          exact ⟨hk0, rfl⟩
        | ok rest =>
          rw [e2] at hc2
          have hc2 : compute (deleteDims dims) x m1 = (.ok m1.next, m1.push rest) := hc2
          rw [bind_ok hc2, ok_bind, bind_ok (rfl : readArr m1.next (m1.push rest) = _), Mem.push_cell]
          have hk1 := hk0.trans (m1.kept_push rest)
          have h3 := compute_refines (concatDims rest) y (m1.push rest)
          have hcy : (m1.push rest).cell y = Y := ((m1.kept_push rest).2 y hy3).trans hy2
          rw [hcy] at h3
          refine ⟨hk1.trans h3.1, ?_⟩
          have h4 := h3.2
          cases e3 : concatDims rest Y with
          | error er' => rw [e3] at h4; exact h4
          | ok Z =>
            rw [e3] at h4
            obtain ⟨z, a, b, c, d⟩ := h4
            refine ⟨z, a, b, c, Or.inl ?_⟩
            rcases d with d | d
            · have := hk1.1; omega
            · exact d.1.elim
  | .new none, C, x, m, _, _ => (fillNew_refines _ x m).weaken False.elim
  | .new (some p), C, x, m, hx, hX => by
    simp only [Prep.exec, Prep.transformC]
    rw [bind_ok (rfl : readArr x m = _)]
    have ih := C165_memory T p (m.cell x) x m hx hX
    obtain ⟨hk, ih⟩ := ih
    rcases er : Prep.exec T (m.cell x) p x m with ⟨r, m1⟩
    rw [er] at ih hk
    have hk : m.Kept m1 := hk
    cases e1 : Prep.transformC T (m.cell x) p (m.cell x) with
    | error er' =>
      rw [e1] at ih
      have ih : r = .error er' := ih
      subst ih
      rw [bind_err er]
      exact ⟨hk, rfl⟩
    | ok Y =>
      rw [e1] at ih
      obtain ⟨y, hy1, hy2, hy3, -⟩ := ih
      have hy1 : r = .ok y := hy1
      subst hy1
      rw [bind_ok er, ok_bind, bind_ok (rfl : readArr x m1 = _), hk.2 x hx]
      have h3 := fillNew_refines (appendDims (m.cell x)) y m1
      have hy2 : m1.cell y = Y := hy2
      rw [hy2] at h3
      refine ⟨hk.trans h3.1, ?_⟩
      have h4 := h3.2
      cases e3 : appendDims (m.cell x) Y with
      | error er' => rw [e3] at h4; exact h4
      | ok Z =>
        rw [e3] at h4
        obtain ⟨z, a, b, c, d⟩ := h4
        refine ⟨z, a, b, c, Or.inl ?_⟩
        rcases d with d | d
        · exact le_trans hk.1 d
        · exact d.1.elim

/-- **C165.** The preparateurs of a slice, one after the other, as a program on memory. -/
theorem C165_sequences [NpMath R] (T : FloatText R) (C : Data R) (hC : Uni C) : ∀ (ps : List (Prep R)) (x : ℕ) (m : Mem R),
    (∀ p ∈ ps, p.FunsIndependent) → x < m.next → Uni (m.cell x) → C.length = (m.cell x).length →
    Refines (∀ p ∈ ps, p.ReturnsInput) m x (prepsRun T C ps x m) (prepsC T C ps (m.cell x))
  | [], x, m, _, hx, _, _ => ⟨Mem.Kept.refl m, x, rfl, rfl, hx, Or.inr ⟨by simp, rfl⟩⟩
  | p :: ps, x, m, hp, hx, hX, hl => by
    obtain ⟨hk, h1⟩ := C165_memory T p C x m hx hX
    simp only [prepsRun, prepsC, List.foldlM_cons]
    rcases er : Prep.exec T C p x m with ⟨r, m1⟩
    rw [er] at h1 hk
    have hk : m.Kept m1 := hk
    cases e1 : p.transformC T C (m.cell x) with
    | error er' =>
      rw [e1] at h1
      have h1 : r = .error er' := h1
      subst h1
      rw [bind_err er]
      exact ⟨hk, rfl⟩
    | ok Y =>
      rw [e1] at h1
      obtain ⟨y, hy1, hy2, hy3, hy4⟩ := h1
      have hy1 : r = .ok y := hy1
      have hy2 : m1.cell y = Y := hy2
      have hy3 : y < m1.next := hy3
      subst hy1
      rw [bind_ok er, ok_bind]
      obtain ⟨hu, hlen, -⟩ := perS_prep T p (hp p (by simp)) C (m.cell x) Y hC hX hl e1
      have ih := C165_sequences T C hC ps y m1 (fun q hq => hp q (by simp [hq])) hy3 (by rw [hy2]; exact hu)
        (by rw [hy2, hlen]; exact hl)
      rw [hy2] at ih
      obtain ⟨ik, ih⟩ := ih
      refine ⟨hk.trans ik, ?_⟩
      change match prepsC T C ps Y with | .ok D => _ | .error e => _
      cases e2 : prepsC T C ps Y with
      | error er' => rw [e2] at ih; exact ih
      | ok Z =>
        rw [e2] at ih
        obtain ⟨z, a, b, c, d⟩ := ih
        refine ⟨z, a, b, c, ?_⟩
        rcases d with d | ⟨d, rfl⟩
        · exact Or.inl (le_trans hk.1 d)
        · rcases hy4 with hy4 | ⟨hy4, rfl⟩
          · exact Or.inl hy4
          · exact Or.inr ⟨by simpa using ⟨hy4, d⟩, rfl⟩

/-- **C165.** The array that is transformed has the content that it had before, whether the call returns or raises. -/
theorem C165_unchanged [NpMath R] (T : FloatText R) (C : Data R) (hC : Uni C) (ps : List (Prep R)) (x : ℕ) (m : Mem R)
    (hp : ∀ p ∈ ps, p.FunsIndependent) (hx : x < m.next) (hX : Uni (m.cell x)) (hl : C.length = (m.cell x).length) :
    (prepsRun T C ps x m).2.cell x = m.cell x :=
  (C165_sequences T C hC ps x m hp hx hX hl).1.2 x hx

/-- **C165.** A second call with the same array has the same outcome as the first: the same error, or an array with the same content, and
the array that the first call returned keeps its content. -/
theorem C165_twice [NpMath R] (T : FloatText R) (C : Data R) (hC : Uni C) (ps : List (Prep R)) (x y : ℕ) (m m1 : Mem R)
    (hp : ∀ p ∈ ps, p.FunsIndependent) (hx : x < m.next) (hX : Uni (m.cell x)) (hl : C.length = (m.cell x).length)
    (h1 : prepsRun T C ps x m = (.ok y, m1)) :
    ∃ z m2, prepsRun T C ps x m1 = (.ok z, m2) ∧ m2.cell z = m1.cell y ∧ m2.cell y = m1.cell y := by
  obtain ⟨hk, h2⟩ := C165_sequences T C hC ps x m hp hx hX hl
  rw [h1] at hk h2
  have hk : m.Kept m1 := hk
  cases e : prepsC T C ps (m.cell x) with
  | error er => rw [e] at h2; cases h2
  | ok D =>
    rw [e] at h2
    obtain ⟨y', a, b, c, -⟩ := h2
    injection a with a
    subst a
    have hcx := hk.2 x hx
    obtain ⟨hk', h3⟩ := C165_sequences T C hC ps x m1 hp (lt_of_lt_of_le hx hk.1) (by rw [hcx]; exact hX) (by rw [hcx]; exact hl)
    rw [hcx, e] at h3
    obtain ⟨z, a', b', -, -⟩ := h3
    refine ⟨z, (prepsRun T C ps x m1).2, Prod.ext a' rfl, b'.trans b.symm, hk'.2 y c⟩

/-- An array changed by the caller after the call does not change the result, and a result changed by the caller does not change the input,
if at least one preparateur makes a new array. -/
theorem C165_separate [NpMath R] (T : FloatText R) (C : Data R) (hC : Uni C) (ps : List (Prep R)) (x y : ℕ) (m m1 : Mem R)
    (hp : ∀ p ∈ ps, p.FunsIndependent) (hx : x < m.next) (hX : Uni (m.cell x)) (hl : C.length = (m.cell x).length)
    (h1 : prepsRun T C ps x m = (.ok y, m1)) (hn : ∃ p ∈ ps, ¬ p.ReturnsInput) : y ≠ x := by
  obtain ⟨-, h2⟩ := C165_sequences T C hC ps x m hp hx hX hl
  rw [h1] at h2
  cases e : prepsC T C ps (m.cell x) with
  | error er => rw [e] at h2; cases h2
  | ok D =>
    rw [e] at h2
    obtain ⟨y', a, -, -, d⟩ := h2
    injection a with a
    subst a
    rcases d with d | ⟨d, -⟩
    · omega
    · obtain ⟨p, a, b⟩ := hn
      exact absurd (d p a) b

/-! ### Examples -/

/-- The memory with the caller's array, object 0. -/
def demoMem : Mem ℚ := ⟨fun _ => [[[1, 2, 4, 7]], [[0, 1, 0, 1]]], 1⟩

/-- Increments of depth 2 without padding, then a dimension-wise normalisation: objects 1 and 2 are made and written by `INC`, object 3 is the result; object 0 is unchanged. -/
example : let out := @prepsRun ℚ _ _ _ ⟨id, id, fun a _ => a, id, id⟩ ⟨fun _ => [], fun _ => none⟩ [] [.inc ⟨.int 1, 2, false⟩, .nrm false] 0 demoMem
    out.1.toOption = some 3 ∧ out.2.cell 3 = [[[1, 0, 1, 1]], [[1 / 2, 3 / 4, 0, 1]]] ∧ out.2.cell 0 = [[[1, 2, 4, 7]], [[0, 1, 0, 1]]] := by
  decide +kernel

/-- `CTS` writes to its copy, object 1. -/
example : let out := @Prep.exec ℚ _ _ _ ⟨id, id, fun a _ => a, id, id⟩ ⟨fun _ => [], fun _ => none⟩ [] (.cts ⟨1, false⟩) 0 demoMem
    out.1.toOption = some 1 ∧ out.2.cell 1 = [[[2, 4, 7, 7]], [[1, 0, 1, 1]]] ∧ out.2.cell 0 = [[[1, 2, 4, 7]], [[0, 1, 0, 1]]] := by
  decide +kernel

/-- `INC` with depth 0 (refused by the constructor, `transform.py:51-52`) would hand back the array it is given. -/
example : (@Prep.exec ℚ _ _ _ ⟨id, id, fun a _ => a, id, id⟩ ⟨fun _ => [], fun _ => none⟩ [] (.inc ⟨.int 1, 0, true⟩) 0 demoMem).1.toOption =
    some 0 := by decide +kernel

/-- The hypotheses hold for the example. -/
example : Uni (demoMem.cell 0) ∧ (0 : ℕ) < demoMem.next := by
  refine ⟨⟨rfl, ?_⟩, by decide⟩
  decide +kernel

end Fruits
