import Verif.Texts
import Verif.WordLemmas
import Verif.Props.Equality1
import Verif.Props.Builtin2
import Verif.Props.Text

/-! # C103: the text of a preparateur -/

namespace Fruits
set_option linter.unusedSectionVars false

variable {R : Type} [Field R] [LinearOrder R] [FloorRing R]

/-! ### Specification -/

/-- Neither a comma nor a closing parenthesis. -/
def Plain (s : PStr) : Prop := ',' ∉ s ∧ ')' ∉ s

/-- The functions a program has defined. -/
structure FunObjs (R : Type) where
  nat : Set (ℕ → ℤ)
  fld : Set (R → R)
  data : Set (Data R → Except Err (Data R))

/-- What is known about the texts of floats (`0.5`, `1e-05`, `inf`) and of the functions of the program
(`<function f at 0x7f…>`): no commas and parentheses, different values have different texts, and a float or a function is not
printed like an integer or `None`. -/
structure TextLaws (T : FloatText R) (A : CallText R) (O : FunObjs R) : Prop where
  float_inj : ∀ a b, T.toText a = T.toText b → a = b
  float_plain : ∀ q, Plain (T.toText q)
  float_int : ∀ q k, T.toText q ≠ showInt k
  float_none : ∀ q, T.toText q ≠ "None".toList
  nat_inj : ∀ f ∈ O.nat, ∀ g ∈ O.nat, A.nat f = A.nat g → f = g
  nat_plain : ∀ f ∈ O.nat, Plain (A.nat f)
  nat_int : ∀ f ∈ O.nat, ∀ k, A.nat f ≠ showInt k
  nat_float : ∀ f ∈ O.nat, ∀ q, A.nat f ≠ T.toText q
  fld_inj : ∀ f ∈ O.fld, ∀ g ∈ O.fld, A.fld f = A.fld g → f = g
  fld_plain : ∀ f ∈ O.fld, Plain (A.fld f)
  fld_none : ∀ f ∈ O.fld, A.fld f ≠ "None".toList
  data_inj : ∀ f ∈ O.data, ∀ g ∈ O.data, A.data f = A.data g → f = g
  data_plain : ∀ f ∈ O.data, Plain (A.data f)

/-- The functions among the settings are functions of the program. -/
def Prep.Uses (O : FunObjs R) : Prep R → Prop
  | .inc p => ∀ f, p.shift = .call f → f ∈ O.nat
  | .rin p => ∀ f, p.width = .call f → f ∈ O.nat
  | .spe p => ∀ f, p.function = some f → f ∈ O.fld
  | .func f => f ∈ O.data
  | .dim p _ => p.Uses O
  | .new (some p) => p.Uses O
  | _ => True

/-- No setting that the text does not show: `STD` with the default `std_eps`, `RIN` without a given kernel. -/
def Prep.Visible : Prep R → Prop
  | .std p => p.eps = 1 / 100000
  | .rin p => p.constKernel = none
  | .dim p _ => p.Visible
  | .new (some p) => p.Visible
  | _ => True

/-! ### Strings -/

theorem split_at {c : Char} : ∀ {s t a b : PStr}, c ∉ s → c ∉ t → s ++ c :: a = t ++ c :: b → s = t ∧ a = b
  | [], [], a, b, _, _, h => by simpa using h
  | [], y :: t, a, b, _, ht, h => by
    simp only [List.nil_append, List.cons_append, List.cons.injEq] at h
    simp [h.1] at ht
  | x :: s, [], a, b, hs, _, h => by
    simp only [List.nil_append, List.cons_append, List.cons.injEq] at h
    simp [h.1] at hs
  | x :: s, y :: t, a, b, hs, ht, h => by
    simp only [List.cons_append, List.cons.injEq] at h
    simp only [List.mem_cons, not_or] at hs ht
    obtain ⟨h1, h2⟩ := split_at hs.2 ht.2 h.2
    exact ⟨by rw [h.1, h1], h2⟩

theorem commas_cons (f g : PStr) (fs : List PStr) : commas (f :: g :: fs) = f ++ ',' :: ' ' :: commas (g :: fs) := by
  simp [commas, List.intercalate]

theorem commas_one (f : PStr) : commas [f] = f := by simp [commas, List.intercalate]

theorem commas_noParen : ∀ {fs : List PStr}, (∀ f ∈ fs, Plain f) → ')' ∉ commas fs
  | [], _ => by simp [commas, List.intercalate]
  | [f], h => by rw [commas_one]; exact (h f (by simp)).2
  | f :: g :: fs, h => by
    rw [commas_cons]
    have := commas_noParen (fs := g :: fs) (fun x hx => h x (by simp at hx ⊢; tauto))
    simp only [List.mem_append, List.mem_cons, not_or]
    exact ⟨(h f (by simp)).2, by decide, by decide, this⟩

theorem commas_inj : ∀ {fs gs : List PStr}, fs ≠ [] → gs ≠ [] → (∀ f ∈ fs, ',' ∉ f) → (∀ g ∈ gs, ',' ∉ g) →
    commas fs = commas gs → fs = gs
  | [], _, h, _, _, _, _ => absurd rfl h
  | _, [], _, h, _, _, _ => absurd rfl h
  | [f], [g], _, _, _, _, h => by rw [commas_one, commas_one] at h; rw [h]
  | [f], g :: g' :: gs, _, _, hf, _, h => by
    rw [commas_one, commas_cons] at h
    exact absurd (by rw [h]; simp) (hf f (by simp))
  | f :: f' :: fs, [g], _, _, _, hg, h => by
    rw [commas_one, commas_cons] at h
    exact absurd (by rw [← h]; simp) (hg g (by simp))
  | f :: f' :: fs, g :: g' :: gs, _, _, hf, hg, h => by
    rw [commas_cons, commas_cons] at h
    obtain ⟨h1, h2⟩ := split_at (hf f (by simp)) (hg g (by simp)) h
    have h3 := commas_inj (fs := f' :: fs) (gs := g' :: gs) (by simp) (by simp)
      (fun x hx => hf x (List.mem_cons_of_mem _ hx)) (fun x hx => hg x (List.mem_cons_of_mem _ hx)) (by simpa using h2)
    rw [h1, h3]

theorem showNat_chars (n : ℕ) : ∀ c ∈ showNat n, c.isDigit = true := by
  obtain ⟨ds, h1, -, h3, -⟩ := showNat_eq n
  rw [h1]
  intro c hc
  obtain ⟨d, hd, rfl⟩ := List.mem_map.1 hc
  have := h3 d hd
  interval_cases d <;> decide

theorem showInt_chars (k : ℤ) : ∀ c ∈ showInt k, c.isDigit = true ∨ c = '-' := by
  intro c hc
  unfold showInt at hc
  split at hc
  · rcases List.mem_cons.1 hc with h | h
    · exact Or.inr h
    · exact Or.inl (showNat_chars _ c h)
  · exact Or.inl (showNat_chars _ c hc)

theorem showInt_not {k : ℤ} {c : Char} (h1 : c.isDigit = false) (h2 : c ≠ '-') : c ∉ showInt k := by
  intro h
  rcases showInt_chars k c h with h | h
  · simp [h] at h1
  · exact h2 h

theorem showNat_not {k : ℕ} {c : Char} (h1 : c.isDigit = false) : c ∉ showNat k := by
  intro h
  have := showNat_chars k c h
  simp [this] at h1

theorem showInt_plain (k : ℤ) : Plain (showInt k) := ⟨showInt_not (by decide) (by decide), showInt_not (by decide) (by decide)⟩

theorem showNat_plain (k : ℕ) : Plain (showNat k) := ⟨showNat_not (by decide), showNat_not (by decide)⟩

theorem showInt_inj {a b : ℤ} (h : showInt a = showInt b) : a = b := by
  have := pint_showInt a
  rw [h, pint_showInt] at this
  exact (Except.ok.inj this).symm

theorem showNat_inj {a b : ℕ} (h : showNat a = showNat b) : a = b := by
  have := pnat_showNat a
  rw [h, pnat_showNat] at this
  exact (Except.ok.inj this).symm

theorem showNat_none (k : ℕ) : showNat k ≠ "None".toList := by
  intro h
  have : 'N' ∈ showNat k := by rw [h]; decide
  exact showNat_not (by decide) this

theorem showInt_none (k : ℤ) : showInt k ≠ "None".toList := by
  intro h
  have : 'N' ∈ showInt k := by rw [h]; decide
  exact showInt_not (by decide) (by decide) this

theorem boolText_inj : ∀ {a b : Bool}, boolText a = boolText b → a = b := by decide

theorem boolText_plain (b : Bool) : Plain (boolText b) := by cases b <;> (unfold Plain; decide)

theorem optText_inj {α : Type*} {f : α → PStr} {a b : Option α} (hf : ∀ x ∈ a, ∀ y ∈ b, f x = f y → x = y)
    (ha : ∀ x ∈ a, f x ≠ "None".toList) (hb : ∀ x ∈ b, f x ≠ "None".toList) (h : optText f a = optText f b) : a = b := by
  cases a <;> cases b <;> simp only [optText] at h
  · rfl
  · rename_i y; exact absurd h.symm (hb y rfl)
  · rename_i x; exact absurd h (ha x rfl)
  · rename_i x y; rw [hf x rfl y rfl h]

theorem optText_plain {α : Type*} {f : α → PStr} {a : Option α} (h : ∀ x ∈ a, Plain (f x)) : Plain (optText f a) := by
  cases a
  · unfold Plain; simp only [optText]; decide
  · exact h _ rfl

theorem Plain.append {s t : PStr} (hs : Plain s) (ht : Plain t) : Plain (s ++ t) := by
  unfold Plain at *; simp [hs, ht]

theorem tupleText_inj {l m : List ℤ} {a b : PStr} (h : tupleText l ++ a = tupleText m ++ b) : l = m ∧ a = b := by
  have key : ∀ l : List ℤ, ∃ body, tupleText l = '(' :: (body ++ ")".toList) ∧ ')' ∉ body ∧
      ((l = [] ∧ body = []) ∨ (∃ x, l = [x] ∧ body = showInt x ++ [',']) ∨
        (2 ≤ l.length ∧ body = commas (l.map showInt))) := by
    intro l
    rcases l with _ | ⟨x, _ | ⟨y, l⟩⟩
    · exact ⟨[], rfl, by simp, Or.inl ⟨rfl, rfl⟩⟩
    · refine ⟨showInt x ++ [','], by simp [tupleText], ?_, Or.inr (Or.inl ⟨x, rfl, rfl⟩)⟩
      simp [(showInt_plain x).2]
    · refine ⟨commas ((x :: y :: l).map showInt), rfl, ?_, Or.inr (Or.inr ⟨by simp, rfl⟩)⟩
      apply commas_noParen
      intro f hf
      obtain ⟨k, -, rfl⟩ := List.mem_map.1 hf
      exact showInt_plain k
  obtain ⟨u, hu1, hu2, hu3⟩ := key l
  obtain ⟨v, hv1, hv2, hv3⟩ := key m
  rw [hu1, hv1] at h
  simp only [List.cons_append, List.cons.injEq, true_and, List.append_assoc] at h
  obtain ⟨huv, hab⟩ := split_at hu2 hv2 h
  refine ⟨?_, by simpa using hab⟩
  have two : ∀ {l : List ℤ} {x : ℤ}, 2 ≤ l.length → commas (l.map showInt) ≠ showInt x ++ [','] := by
    intro l x hl e
    rcases l with _ | ⟨p, _ | ⟨q, l⟩⟩
    · simp at hl
    · simp at hl
    · rw [List.map_cons, List.map_cons, commas_cons] at e
      have := (split_at (showInt_plain p).1 (showInt_plain x).1 e).2
      simp at this
  have nz : ∀ {l : List ℤ}, 2 ≤ l.length → commas (l.map showInt) ≠ [] := by
    intro l hl e
    rcases l with _ | ⟨p, _ | ⟨q, l⟩⟩
    · simp at hl
    · simp at hl
    · rw [List.map_cons, List.map_cons, commas_cons] at e; simp at e
  rcases hu3 with ⟨rfl, h1⟩ | ⟨x, rfl, h1⟩ | ⟨hl, h1⟩ <;> rcases hv3 with ⟨rfl, h2⟩ | ⟨y, rfl, h2⟩ | ⟨hm, h2⟩ <;>
    rw [h1, h2] at huv
  · simp at huv
  · exact absurd huv.symm (nz hm)
  · simp at huv
  · rw [showInt_inj (List.append_cancel_right huv)]
  · exact absurd huv.symm (two hm)
  · exact absurd huv (nz hl)
  · exact absurd huv (two hl)
  · have := commas_inj (by simpa using List.ne_nil_of_length_pos (by omega : 0 < l.length))
      (by simpa using List.ne_nil_of_length_pos (by omega : 0 < m.length))
      (fun f hf => by obtain ⟨k, -, rfl⟩ := List.mem_map.1 hf; exact (showInt_plain k).1)
      (fun f hf => by obtain ⟨k, -, rfl⟩ := List.mem_map.1 hf; exact (showInt_plain k).1) huv
    exact List.map_injective_iff.2 (fun _ _ => showInt_inj) this

/-! ### The texts of the settings -/

variable {T : FloatText R} {A : CallText R} {O : FunObjs R}

theorem IntOrFloat.text_inj (hT : TextLaws T A O) {a b : IntOrFloat R} (h : a.text T = b.text T) : a = b := by
  cases a <;> cases b <;> simp only [IntOrFloat.text] at h
  · rw [showInt_inj h]
  · exact absurd h.symm (hT.float_int _ _)
  · exact absurd h (hT.float_int _ _)
  · rw [hT.float_inj _ _ h]

theorem IntOrFloat.text_plain (hT : TextLaws T A O) (a : IntOrFloat R) : Plain (a.text T) := by
  cases a
  · exact showInt_plain _
  · exact hT.float_plain _

theorem IntOrFloat.text_none (hT : TextLaws T A O) (a : IntOrFloat R) : a.text T ≠ "None".toList := by
  cases a
  · exact showInt_none _
  · exact hT.float_none _

theorem Shift.text_inj (hT : TextLaws T A O) {a b : Shift R} (ha : ∀ f, a = .call f → f ∈ O.nat)
    (hb : ∀ f, b = .call f → f ∈ O.nat) (h : a.text T A = b.text T A) : a = b := by
  cases a <;> cases b <;> simp only [Shift.text] at h
  · rw [showInt_inj h]
  · exact absurd h.symm (hT.float_int _ _)
  · exact absurd h.symm (hT.nat_int _ (hb _ rfl) _)
  · exact absurd h (hT.float_int _ _)
  · rw [hT.float_inj _ _ h]
  · exact absurd h.symm (hT.nat_float _ (hb _ rfl) _)
  · exact absurd h (hT.nat_int _ (ha _ rfl) _)
  · exact absurd h (hT.nat_float _ (ha _ rfl) _)
  · rw [hT.nat_inj _ (ha _ rfl) _ (hb _ rfl) h]

theorem Shift.text_plain (hT : TextLaws T A O) {a : Shift R} (ha : ∀ f, a = .call f → f ∈ O.nat) : Plain (a.text T A) := by
  cases a
  · exact showInt_plain _
  · exact hT.float_plain _
  · exact hT.nat_plain _ (ha _ rfl)

theorem Width.text_inj (hT : TextLaws T A O) {a b : Width} (ha : ∀ f, a = .call f → f ∈ O.nat)
    (hb : ∀ f, b = .call f → f ∈ O.nat) (h : a.text A = b.text A) : a = b := by
  cases a <;> cases b <;> simp only [Width.text] at h
  · rw [showInt_inj h]
  · exact absurd h.symm (hT.nat_int _ (hb _ rfl) _)
  · exact absurd h (hT.nat_int _ (ha _ rfl) _)
  · rw [hT.nat_inj _ (ha _ rfl) _ (hb _ rfl) h]

theorem Width.text_plain (hT : TextLaws T A O) {a : Width} (ha : ∀ f, a = .call f → f ∈ O.nat) : Plain (a.text A) := by
  cases a
  · exact showInt_plain _
  · exact hT.nat_plain _ (ha _ rfl)

theorem Norm.str_inj : ∀ {a b : Norm}, a.str = b.str → a = b := by
  intro a b; cases a <;> cases b <;> simp [Norm.str]

theorem Norm.str_plain (a : Norm) : Plain a.str := by cases a <;> (unfold Plain Norm.str; decide)

theorem Norm.str_none (a : Norm) : a.str ≠ "None".toList := by cases a <;> (unfold Norm.str; decide)

/-- The preparateurs that are no wrappers. -/
def Prep.Simple : Prep R → Prop
  | .dim _ _ => False
  | .new _ => False
  | _ => True

theorem Prep.str_simple {p : Prep R} (h : p.Simple) :
    p.str T A = p.className ++ '(' :: (commas (p.fieldTexts T A) ++ ")".toList) := by
  cases p <;> first | (simp only [Prep.Simple] at h; done) | simp only [Prep.str, Prep.flatStr, List.append_assoc, List.cons_append]

theorem Prep.str_name (p : Prep R) : ∃ body, p.str T A = p.className ++ '(' :: body := by
  by_cases h : p.Simple
  · exact ⟨_, Prep.str_simple h⟩
  · cases p <;> first | exact absurd trivial h | skip
    · rename_i q dims; exact ⟨q.str T A ++ ", ".toList ++ tupleText dims ++ ")".toList, by simp [Prep.str, dimStr, newStr, Prep.className]⟩
    · rename_i q
      cases q
      · exact ⟨"None)".toList, by simp [Prep.str, dimStr, newStr, Prep.className]⟩
      · rename_i q; exact ⟨q.str T A ++ ")".toList, by simp [Prep.str, dimStr, newStr, Prep.className]⟩

theorem Prep.className_noParen (p : Prep R) : '(' ∉ p.className := by
  cases p <;> (simp only [Prep.className]; decide)

theorem Prep.fields_plain (hT : TextLaws T A O) {p : Prep R} (hs : p.Simple) (hu : p.Uses O) (hv : p.Visible) :
    ∀ f ∈ p.fieldTexts T A, Plain f := by
  have hfl := hT.float_plain
  have hnum := IntOrFloat.text_plain hT
  have hb := boolText_plain
  have hn := showNat_plain
  have lit : ∀ s : PStr, ',' ∉ s → ')' ∉ s → Plain s := fun s h1 h2 => ⟨h1, h2⟩
  cases p <;> first | (simp only [Prep.Simple] at hs; done) | skip
  case func f => simp only [Prep.fieldTexts, List.mem_singleton, forall_eq]; exact hT.data_plain f hu
  case lag => simp only [Prep.fieldTexts, List.mem_singleton, forall_eq]; exact lit _ (by simp) (by simp)
  all_goals rename_i q
  all_goals simp only [Prep.fieldTexts, List.mem_cons, List.not_mem_nil, or_false, forall_eq_or_imp, forall_eq]
  case inc => exact ⟨Shift.text_plain hT hu, hn _, hb _⟩
  case std => exact ⟨hb _, hb _⟩
  case nrm => exact hb _
  case mav => exact hnum _
  case ffn => exact ⟨hn _, optText_plain fun _ _ => hn _, hb _, hb _⟩
  case rin =>
    have hv : q.constKernel = none := hv
    refine ⟨Width.text_plain hT hu, hb _, showInt_plain _, hb _, optText_plain ?_⟩
    rw [hv]; simp
  case rdw => split <;> exact lit _ (by decide) (by decide)
  case jld => exact ⟨hnum _, hb _, hb _⟩
  case spe =>
    refine ⟨hfl _, ?_, optText_plain fun f hf => hT.fld_plain f (hu f hf), optText_plain fun _ _ => Norm.str_plain _,
      optText_plain fun _ _ => hn _⟩
    split <;> exact lit _ (by decide) (by decide)
  case rpe => exact ⟨hfl _, optText_plain fun _ _ => hn _⟩
  case cts => exact ⟨hfl _, hb _⟩
  case qtc => exact ⟨hfl _, hb _, optText_plain fun _ _ => hfl _⟩
  case dil => exact (lit _ (by decide) (by decide)).append (optText_plain fun _ _ => hfl _)
  case win => exact ⟨(lit _ (by decide) (by decide)).append (hfl _), (lit _ (by decide) (by decide)).append (hfl _)⟩
  case dot =>
    exact ⟨(lit _ (by decide) (by decide)).append (hnum _), (lit _ (by decide) (by decide)).append (optText_plain fun _ _ => hnum _)⟩
  case pdd => exact ⟨(lit _ (by decide) (by decide)).append (hfl _), (lit _ (by decide) (by decide)).append (hfl _)⟩

theorem Prep.fields_ne (p : Prep R) (hs : p.Simple) : p.fieldTexts T A ≠ [] := by
  cases p <;> first | (simp only [Prep.Simple] at hs; done) | (simp only [Prep.fieldTexts]; exact List.cons_ne_nil _ _)

theorem quoteDist_inj : ∀ {a b : Bool}, (if a then "'dirichlet'".toList else "'uniform'".toList) =
    (if b then "'dirichlet'".toList else "'uniform'".toList) → a = b := by decide

theorem opText_inj : ∀ {a b : Bool}, (if a then "additive".toList else "multiplicative".toList) =
    (if b then "additive".toList else "multiplicative".toList) → a = b := by decide

set_option maxHeartbeats 1000000 in
/-- Equal class and equal texts of the settings: equal objects. -/
theorem Prep.fields_inj (hT : TextLaws T A O) {p q : Prep R} (hs : p.Simple) (hn : p.className = q.className) (hp : p.Uses O)
    (hq : q.Uses O) (hpv : p.Visible) (hqv : q.Visible) (hpf : p.Fresh) (hqf : q.Fresh)
    (h : p.fieldTexts T A = q.fieldTexts T A) : p = q := by
  have hnat := fun (a b : Option ℕ) => optText_inj (f := showNat) (a := a) (b := b) (fun _ _ _ _ => showNat_inj) (fun _ _ => showNat_none _) (fun _ _ => showNat_none _)
  have hflo := fun (a b : Option R) => optText_inj (f := T.toText) (a := a) (b := b) (fun _ _ _ _ => hT.float_inj _ _)
    (fun _ _ => hT.float_none _) (fun _ _ => hT.float_none _)
  cases p <;> first | (simp only [Prep.Simple] at hs; done) | skip
  all_goals (cases q <;> first | (simp [Prep.className] at hn; done) | skip)
  case func.func f g =>
    simp only [Prep.fieldTexts, List.cons.injEq, and_true] at h
    rw [hT.data_inj f hp g hq h]
  case lag.lag => rfl
  case nrm.nrm a b =>
    simp only [Prep.fieldTexts, List.cons.injEq, and_true] at h
    rw [boolText_inj h]
  all_goals rename_i a b
  all_goals simp only [Prep.fieldTexts, List.cons.injEq, and_true, List.append_cancel_left_eq] at h
  case inc.inc =>
    have h1 := Shift.text_inj hT hp hq h.1
    have h2 := showNat_inj h.2.1
    have h3 := boolText_inj h.2.2
    clear h hnat hflo hn hs hT hp hq; cases a; cases b; simp_all
  case std.std =>
    have h1 := boolText_inj h.1
    have h2 := boolText_inj h.2
    clear h hnat hflo hn hs hT hp hq; cases a; cases b; simp_all [Prep.Fresh, Prep.Visible]
  case mav.mav =>
    have h1 := IntOrFloat.text_inj hT h
    clear h hnat hflo hn hs hT hp hq; cases a; cases b; simp_all [Prep.Fresh]
  case ffn.ffn =>
    have h1 := showNat_inj h.1
    have h2 := hnat _ _ h.2.1
    have h3 := boolText_inj h.2.2.1
    have h4 := boolText_inj h.2.2.2
    clear h hnat hflo hn hs hT hp hq; cases a; cases b; simp_all [Prep.Fresh]
  case rin.rin =>
    have h1 := Width.text_inj hT hp hq h.1
    have h2 := boolText_inj h.2.1
    have h3 := showInt_inj h.2.2.1
    have h4 := boolText_inj h.2.2.2.1
    clear h hnat hflo hn hs hT hp hq; cases a; cases b; simp_all [Prep.Fresh, Prep.Visible]
  case rdw.rdw =>
    have h1 := quoteDist_inj h
    clear h hnat hflo hn hs hT hp hq; cases a; cases b; simp_all [Prep.Fresh]
  case jld.jld =>
    have h1 := IntOrFloat.text_inj hT h.1
    have h2 := boolText_inj h.2.1
    have h3 := boolText_inj h.2.2
    clear h hnat hflo hn hs hT hp hq; cases a; cases b; simp_all [Prep.Fresh]
  case spe.spe =>
    have h1 := hT.float_inj _ _ h.1
    have h2 := opText_inj h.2.1
    have h3 := optText_inj (fun x hx y hy => hT.fld_inj x (hp x hx) y (hq y hy)) (fun x hx => hT.fld_none x (hp x hx))
      (fun x hx => hT.fld_none x (hq x hx)) h.2.2.1
    have h4 := optText_inj (fun _ _ _ _ => Norm.str_inj) (fun _ _ => Norm.str_none _) (fun _ _ => Norm.str_none _) h.2.2.2.1
    have h5 := hnat _ _ h.2.2.2.2
    clear h hnat hflo hn hs hT hp hq; cases a; cases b; simp_all
  case rpe.rpe =>
    have h1 := hT.float_inj _ _ h.1
    have h2 := hnat _ _ h.2
    clear h hnat hflo hn hs hT hp hq; cases a; cases b; simp_all
  case cts.cts =>
    have h1 := hT.float_inj _ _ h.1
    have h2 := boolText_inj h.2
    clear h hnat hflo hn hs hT hp hq; cases a; cases b; simp_all
  case qtc.qtc =>
    have h1 := hT.float_inj _ _ h.1
    have h2 := boolText_inj h.2.1
    have h3 := hflo _ _ h.2.2
    clear h hnat hflo hn hs hT hp hq; cases a; cases b; simp_all [Prep.Fresh]
  case dil.dil =>
    have h1 := hflo _ _ h
    clear h hnat hflo hn hs hT hp hq; cases a; cases b; simp_all [Prep.Fresh]
  case win.win =>
    have h1 := hT.float_inj _ _ h.1
    have h2 := hT.float_inj _ _ h.2
    clear h hnat hflo hn hs hT hp hq; cases a; cases b; simp_all
  case dot.dot =>
    have h1 := IntOrFloat.text_inj hT h.1
    have h2 := optText_inj (fun _ _ _ _ => IntOrFloat.text_inj hT) (fun _ _ => IntOrFloat.text_none hT _)
      (fun _ _ => IntOrFloat.text_none hT _) h.2
    clear h hnat hflo hn hs hT hp hq; cases a; cases b; simp_all [Prep.Fresh]
  case pdd.pdd =>
    have h1 := hT.float_inj _ _ h.1
    have h2 := hT.float_inj _ _ h.2
    clear h hnat hflo hn hs hT hp hq; cases a; cases b; simp_all [Prep.Fresh]

theorem Prep.str_names {p q : Prep R} {a b : PStr} (h : p.str T A ++ a = q.str T A ++ b) : p.className = q.className := by
  obtain ⟨u, hu⟩ := Prep.str_name (T := T) (A := A) p
  obtain ⟨v, hv⟩ := Prep.str_name (T := T) (A := A) q
  rw [hu, hv, List.append_assoc, List.append_assoc, List.cons_append, List.cons_append] at h
  exact (split_at p.className_noParen q.className_noParen h).1

theorem Prep.str_inj_simple (hT : TextLaws T A O) {p q : Prep R} {a b : PStr} (hps : p.Simple) (hpu : p.Uses O) (hqu : q.Uses O)
    (hpv : p.Visible) (hqv : q.Visible) (hpf : p.Fresh) (hqf : q.Fresh) (h : p.str T A ++ a = q.str T A ++ b) : p = q ∧ a = b := by
  have hn := Prep.str_names h
  have hqs : q.Simple := by
    cases q <;> first | trivial | (cases p <;> first | exact hps | (simp [Prep.className] at hn; done))
  rw [Prep.str_simple hps, Prep.str_simple hqs, List.append_assoc, List.append_assoc, List.cons_append, List.cons_append,
    List.append_assoc, List.append_assoc] at h
  have h1 := (split_at p.className_noParen q.className_noParen h).2
  have hpp := Prep.fields_plain hT hps hpu hpv
  have hqp := Prep.fields_plain hT hqs hqu hqv
  obtain ⟨h2, h3⟩ := split_at (commas_noParen hpp) (commas_noParen hqp) h1
  have h4 := commas_inj (p.fields_ne hps) (q.fields_ne hqs) (fun f hf => (hpp f hf).1) (fun f hf => (hqp f hf).1) h2
  exact ⟨Prep.fields_inj hT hps hn hpu hqu hpv hqv hpf hqf h4, by simpa using h3⟩

theorem Prep.str_not_none (p : Prep R) (a b : PStr) : "None".toList ++ a ≠ p.str T A ++ b := by
  intro h
  obtain ⟨u, hu⟩ := Prep.str_name (T := T) (A := A) p
  rw [hu] at h
  cases p <;> simp [Prep.className] at h

theorem Prep.str_inj_append (hT : TextLaws T A O) : ∀ (p q : Prep R) (a b : PStr), p.Uses O → q.Uses O → p.Visible → q.Visible →
    p.Fresh → q.Fresh → p.str T A ++ a = q.str T A ++ b → p = q ∧ a = b
  | .dim p dims, q, a, b, hpu, hqu, hpv, hqv, hpf, hqf, h => by
    have hn := Prep.str_names h
    cases q <;> first | (simp [Prep.className] at hn; done) | skip
    rename_i q dims'
    simp only [Prep.str, dimStr, newStr, List.append_assoc] at h
    have h := List.append_cancel_left h
    obtain ⟨h1, h2⟩ := Prep.str_inj_append hT p q _ _ hpu hqu hpv hqv hpf hqf h
    have h2 := List.append_cancel_left h2
    obtain ⟨h3, h4⟩ := tupleText_inj h2
    exact ⟨by rw [h1, h3], List.append_cancel_left h4⟩
  | .new none, q, a, b, hpu, hqu, hpv, hqv, hpf, hqf, h => by
    have hn := Prep.str_names h
    cases q <;> first | (simp [Prep.className] at hn; done) | skip
    rename_i q
    rcases q with _ | q
    · exact ⟨rfl, List.append_cancel_left h⟩
    · simp only [Prep.str, dimStr, newStr, List.append_assoc] at h
      exact absurd (List.append_cancel_left h) (Prep.str_not_none q _ _)
  | .new (some p), q, a, b, hpu, hqu, hpv, hqv, hpf, hqf, h => by
    have hn := Prep.str_names h
    cases q <;> first | (simp [Prep.className] at hn; done) | skip
    rename_i q
    rcases q with _ | q
    · simp only [Prep.str, dimStr, newStr, List.append_assoc] at h
      exact absurd (List.append_cancel_left h).symm (Prep.str_not_none p _ _)
    · simp only [Prep.str, dimStr, newStr, List.append_assoc] at h
      obtain ⟨h1, h2⟩ := Prep.str_inj_append hT p q _ _ hpu hqu hpv hqv hpf hqf (List.append_cancel_left h)
      exact ⟨by rw [h1], List.append_cancel_left h2⟩
  | .inc _, _, _, _, hpu, hqu, hpv, hqv, hpf, hqf, h => Prep.str_inj_simple hT trivial hpu hqu hpv hqv hpf hqf h
  | .std _, _, _, _, hpu, hqu, hpv, hqv, hpf, hqf, h => Prep.str_inj_simple hT trivial hpu hqu hpv hqv hpf hqf h
  | .nrm _, _, _, _, hpu, hqu, hpv, hqv, hpf, hqf, h => Prep.str_inj_simple hT trivial hpu hqu hpv hqv hpf hqf h
  | .mav _, _, _, _, hpu, hqu, hpv, hqv, hpf, hqf, h => Prep.str_inj_simple hT trivial hpu hqu hpv hqv hpf hqf h
  | .lag, _, _, _, hpu, hqu, hpv, hqv, hpf, hqf, h => Prep.str_inj_simple hT trivial hpu hqu hpv hqv hpf hqf h
  | .ffn _, _, _, _, hpu, hqu, hpv, hqv, hpf, hqf, h => Prep.str_inj_simple hT trivial hpu hqu hpv hqv hpf hqf h
  | .rin _, _, _, _, hpu, hqu, hpv, hqv, hpf, hqf, h => Prep.str_inj_simple hT trivial hpu hqu hpv hqv hpf hqf h
  | .rdw _, _, _, _, hpu, hqu, hpv, hqv, hpf, hqf, h => Prep.str_inj_simple hT trivial hpu hqu hpv hqv hpf hqf h
  | .jld _, _, _, _, hpu, hqu, hpv, hqv, hpf, hqf, h => Prep.str_inj_simple hT trivial hpu hqu hpv hqv hpf hqf h
  | .spe _, _, _, _, hpu, hqu, hpv, hqv, hpf, hqf, h => Prep.str_inj_simple hT trivial hpu hqu hpv hqv hpf hqf h
  | .rpe _, _, _, _, hpu, hqu, hpv, hqv, hpf, hqf, h => Prep.str_inj_simple hT trivial hpu hqu hpv hqv hpf hqf h
  | .cts _, _, _, _, hpu, hqu, hpv, hqv, hpf, hqf, h => Prep.str_inj_simple hT trivial hpu hqu hpv hqv hpf hqf h
  | .qtc _, _, _, _, hpu, hqu, hpv, hqv, hpf, hqf, h => Prep.str_inj_simple hT trivial hpu hqu hpv hqv hpf hqf h
  | .func _, _, _, _, hpu, hqu, hpv, hqv, hpf, hqf, h => Prep.str_inj_simple hT trivial hpu hqu hpv hqv hpf hqf h
  | .dil _, _, _, _, hpu, hqu, hpv, hqv, hpf, hqf, h => Prep.str_inj_simple hT trivial hpu hqu hpv hqv hpf hqf h
  | .win _, _, _, _, hpu, hqu, hpv, hqv, hpf, hqf, h => Prep.str_inj_simple hT trivial hpu hqu hpv hqv hpf hqf h
  | .dot _, _, _, _, hpu, hqu, hpv, hqv, hpf, hqf, h => Prep.str_inj_simple hT trivial hpu hqu hpv hqv hpf hqf h
  | .pdd _, _, _, _, hpu, hqu, hpv, hqv, hpf, hqf, h => Prep.str_inj_simple hT trivial hpu hqu hpv hqv hpf hqf h

/-! ### C103 -/

/-- C103 (what is true of it): two new preparateurs with nothing hidden (`Visible`) have the same text if and only if they are of
the same class with the same settings.  Missing: `std_eps` of `STD` does not appear in the text, and kernels of `RIN` are
printed as numpy prints arrays. -/
theorem C103_text_partial (hT : TextLaws T A O) {p q : Prep R} (hpu : p.Uses O) (hqu : q.Uses O) (hpv : p.Visible) (hqv : q.Visible)
    (hpf : p.Fresh) (hqf : q.Fresh) : p.str T A = q.str T A ↔ p = q := by
  constructor
  · intro h
    exact (Prep.str_inj_append hT p q [] [] hpu hqu hpv hqv hpf hqf (by rw [h])).1
  · rintro rfl; rfl

/-- C103: hence they do the same: fitted on the same data with the same random numbers and applied to the same data they return
the same array or raise the same exception. -/
theorem C103_behave_partial [NpMath R] (hT : TextLaws T A O) {p q : Prep R} (hpu : p.Uses O) (hqu : q.Uses O) (hpv : p.Visible)
    (hqv : q.Visible) (hpf : p.Fresh) (hqf : q.Fresh) (h : p.str T A = q.str T A) (g : Rng R) (fuel : ℕ) (X C Y : Data R) :
    p.run T g fuel X C Y = q.run T g fuel X C Y := by
  rw [(C103_text_partial hT hpu hqu hpv hqv hpf hqf).1 h]

/-- C103: a copy is printed like the original, fitted or not, whatever its settings. -/
theorem C103_copy (T : FloatText R) (A : CallText R) : ∀ p : Prep R, p.copy.str T A = p.str T A
  | .dim p dims => by simp only [Prep.copy, Prep.str, C103_copy T A p]
  | .new none => rfl
  | .new (some p) => by simp only [Prep.copy, Prep.str, C103_copy T A p]
  | .inc _ | .std _ | .nrm _ | .mav _ | .lag | .ffn _ | .rin _ | .rdw _ | .jld _ | .spe _ | .rpe _ | .cts _ | .qtc _ | .func _
  | .dil _ | .win _ | .dot _ | .pdd _ => by
    simp only [Prep.copy, Prep.str, Prep.flatStr, Prep.className, Prep.fieldTexts]

/-- C103: fitting does not change the text. -/
theorem C103_fit [NpMath R] (T : FloatText R) (A : CallText R) {g : Rng R} {fuel : ℕ} {p q : Prep R} {X : Data R}
    (h : p.fit g fuel X = .ok (some q)) : q.str T A = p.str T A := by
  rw [← C103_copy T A q, Prep.fit_copy p q X h, C103_copy]

/-- C103 fails for `std_eps`: `STD(False, False, 1)` and `STD(False, False, 3)` are printed alike (`STD(False, False)`) but
transform `[0, 2]` to different arrays. -/
theorem C103_counterexample [NpMath ℚ] (T : FloatText ℚ) (A : CallText ℚ) (g : Rng ℚ) (C : Data ℚ) :
    let a : Prep ℚ := .std { separately := false, var := false, eps := 1 }
    let b : Prep ℚ := .std { separately := false, var := false, eps := 3 }
    a.str T A = "STD(False, False)".toList ∧ b.str T A = "STD(False, False)".toList ∧ a.Fresh ∧ b.Fresh
      ∧ a.run T g 1 [[[0, 2]]] C [[[0, 2]]] = .ok (some [[[-1/2, 1/2]]])
      ∧ b.run T g 1 [[[0, 2]]] C [[[0, 2]]] = .ok (some [[[-1/4, 1/4]]]) := by
  have I : PyId ℚ := ⟨fun _ _ => false, fun _ _ => false⟩
  obtain ⟨-, h1, h2, -, h3, h4⟩ := C98_counterexample_eps I T g C
  exact ⟨rfl, rfl, h1, h2, h3, h4⟩

/-! ### The hypotheses can be met -/

namespace TextExample

/-- A function of the program. -/
def half : ℕ → ℤ := fun n => n / 2

/-- Another one. -/
def ident : Data ℚ → Except Err (Data ℚ) := fun X => .ok X

/-- The functions of the program. -/
def objs : FunObjs ℚ := ⟨{half}, {id}, {ident}⟩

/-- Their texts. -/
def calls : CallText ℚ :=
  ⟨fun _ => "<function half>".toList, fun _ => "<function id>".toList, fun _ => "<function ident>".toList, fun _ => "[[...]]".toList⟩

theorem mem_text {q : ℚ} {c : Char} (h : c ∈ ratText.toText q) : c = '-' ∨ c = 'n' ∨ c = 'd' := by
  unfold ratText at h
  simp only [List.mem_append, List.mem_replicate] at h
  rcases h with h | ⟨_, h⟩ | ⟨_, h⟩
  · split at h
    · left; simpa using h
    · simp at h
  · exact Or.inr (Or.inl h)
  · exact Or.inr (Or.inr h)

theorem d_mem (q : ℚ) : 'd' ∈ ratText.toText q := by
  unfold ratText
  simp only [List.mem_append, List.mem_replicate]
  exact Or.inr (Or.inr ⟨q.den_nz, trivial⟩)

theorem laws : TextLaws ratText calls objs where
  float_inj a b h := by
    have h1 := ratText_lawful.ofText_toText a
    rw [h, ratText_lawful.ofText_toText] at h1
    exact (Option.some.inj h1).symm
  float_plain q := ⟨fun h => by simpa using mem_text h, fun h => by simpa using mem_text h⟩
  float_int q k h := by
    have := d_mem q
    rw [h] at this
    exact showInt_not (by decide) (by decide) this
  float_none q h := by
    have := d_mem q
    rw [h] at this
    revert this; decide
  nat_inj f hf g hg _ := by rw [show f = half from hf, show g = half from hg]
  nat_plain _ _ := by show Plain "<function half>".toList; unfold Plain; decide
  nat_int f _ k h := by
    have : '<' ∈ calls.nat f := by show '<' ∈ "<function half>".toList; decide
    rw [h] at this
    exact showInt_not (by decide) (by decide) this
  nat_float f _ q h := by
    have : '<' ∈ calls.nat f := by show '<' ∈ "<function half>".toList; decide
    rw [h] at this
    simpa using mem_text this
  fld_inj f hf g hg _ := by rw [show f = id from hf, show g = id from hg]
  fld_plain _ _ := by show Plain "<function id>".toList; unfold Plain; decide
  fld_none _ _ := by show "<function id>".toList ≠ "None".toList; decide
  data_inj f hf g hg _ := by rw [show f = ident from hf, show g = ident from hg]
  data_plain _ _ := by show Plain "<function ident>".toList; unfold Plain; decide

/-- `DIM(NEW(INC(half, 2, True)), (0, -1))`. -/
def nested : Prep ℚ := .dim (.new (some (.inc { shift := .call half, depth := 2 }))) [0, -1]

/-- The hypotheses of `C103_text_partial` hold for nested preparateurs with functions, and what the text is. -/
example : nested.Uses objs ∧ nested.Visible ∧ nested.Fresh ∧
    nested.str ratText calls = "DIM(NEW(INC(<function half>, 2, True)), (0, -1))".toList := by
  refine ⟨?_, trivial, trivial, by decide +kernel⟩
  show ∀ f, Shift.call half = .call f → f ∈ objs.nat
  intro f h
  cases h
  rfl

/-- Other texts. -/
example : (Prep.spe { freq := 1, step := some .L1, maxLength := some 20 } : Prep ℚ).str ratText calls
      = "SPE(nd, multiplicative, None, L1, 20)".toList ∧
    (Prep.lag : Prep ℚ).str ratText calls = "LAG()".toList ∧
    (Prep.dot { given := .int 2, firstGiven := some (.float (1/2)) } : Prep ℚ).str ratText calls = "DOT(n=2, first=ndd)".toList ∧
    (Prep.dim .lag [3] : Prep ℚ).str ratText calls = "DIM(LAG(), (3,))".toList ∧
    (Prep.rin { constKernel := some [[1]] } : Prep ℚ).str ratText calls = "RIN(1, False, -1, False, [[...]])".toList ∧
    (Prep.new none : Prep ℚ).str ratText calls = "NEW(None)".toList := by
  decide +kernel

/-- `C103_fit` for a fit that succeeds. -/
example [NpMath ℚ] (g : Rng ℚ) : ∃ q, (Prep.qtc { q := 1/2 } : Prep ℚ).fit g 0 [[[1, 3]]] = .ok (some q) ∧
    q.str ratText calls = "QTC(ndd, False, None)".toList := by
  refine ⟨.qtc { q := 1/2, quantile := some 2 }, ?_, by decide +kernel⟩
  simp only [Prep.fit]
  have : (QTC.fit ({ q := 1/2 } : QTC ℚ) ([[[1, 3]]] : Data ℚ)).toOption.map (fun p => (p.q, p.lower, p.bound, p.quantile)) =
    some (1/2, false, none, some 2) := by decide +kernel
  rcases hf : QTC.fit ({ q := 1/2 } : QTC ℚ) ([[[1, 3]]] : Data ℚ) with e | p
  · rw [hf] at this; simp [Except.toOption] at this
  · rw [hf] at this
    simp only [Except.toOption, Option.map_some, Option.some.injEq, Prod.mk.injEq] at this
    rw [ok_bind]
    obtain ⟨q, l, b, v⟩ := p
    obtain ⟨rfl, rfl, rfl, rfl⟩ := this
    rfl

end TextExample

end Fruits
