import Verif.PrepFit
import Verif.Sieve
import Verif.WordOps

/-! # Texts of seeds

`str(preparateur)`, `str(sieve)` and `sieve.summary()`: `fruits/seed.py:68-82`, the methods `__str__` of
`fruits/preparation/{transform,filter,wrapper}.py`, and `__str__`, `_summary` of
`fruits/sieving/{segment,increment,implicit,wrapper}.py`. -/

namespace Fruits
set_option linter.unusedSectionVars false

variable {R : Type} [Field R] [LinearOrder R] [FloorRing R]

/-- `str` of the values whose text the model does not define: functions (`<function f at 0x…>`) and arrays. -/
structure CallText (R : Type) where
  nat : (ℕ → ℤ) → PStr
  fld : (R → R) → PStr
  data : (Data R → Except Err (Data R)) → PStr
  array : List (List R) → PStr

/-- `str(b)`. -/
def boolText (b : Bool) : PStr := if b then "True".toList else "False".toList

/-- `str(x)` for a value that may be `None`. -/
def optText {α : Type*} (f : α → PStr) : Option α → PStr
  | none => "None".toList
  | some a => f a

/-- `str` of an integer or a float. -/
def IntOrFloat.text (T : FloatText R) : IntOrFloat R → PStr
  | .int k => showInt k
  | .float f => T.toText f

/-- `str(self._shift)`. -/
def Shift.text (T : FloatText R) (A : CallText R) : Shift R → PStr
  | .int k => showInt k
  | .float f => T.toText f
  | .call f => A.nat f

/-- `str(self._width)`. -/
def Width.text (A : CallText R) : Width → PStr
  | .int k => showInt k
  | .call f => A.nat f

/-- `", ".join(texts)`. -/
def commas (ts : List PStr) : PStr := List.intercalate ", ".toList ts

/-- `str` of a tuple of integers: `()`, `(1,)`, `(1, 2)`. -/
def tupleText : List ℤ → PStr
  | [] => "()".toList
  | [a] => '(' :: showInt a ++ ",)".toList
  | a :: b :: l => '(' :: commas ((a :: b :: l).map showInt) ++ ")".toList

/-- The class name of a preparateur. -/
def Prep.className : Prep R → PStr
  | .inc _ => "INC".toList
  | .std _ => "STD".toList
  | .nrm _ => "NRM".toList
  | .mav _ => "MAV".toList
  | .lag => "LAG".toList
  | .ffn _ => "FFN".toList
  | .rin _ => "RIN".toList
  | .rdw _ => "RDW".toList
  | .jld _ => "JLD".toList
  | .spe _ => "SPE".toList
  | .rpe _ => "RPE".toList
  | .cts _ => "CTS".toList
  | .qtc _ => "QTC".toList
  | .func _ => "FUN".toList
  | .dil _ => "DIL".toList
  | .win _ => "WIN".toList
  | .dot _ => "DOT".toList
  | .pdd _ => "PDD".toList
  | .dim _ _ => "DIM".toList
  | .new _ => "NEW".toList

/-- The texts between the parentheses of `str(preparateur)` for the classes that are no wrappers: `INC` `transform.py:88-89`,
`STD` 157-158, `NRM` 208-209, `MAV` 273-274, `LAG` 308-309, `FFN` 386-388, `RIN` 564-568, `RDW` 612-613, `JLD` 745-746, `SPE`
833-835, `RPE` 906-907, `CTS` 957-958, `QTC` 1014-1015, `FUN` 1047-1048, `DIL` `filter.py:67-68`, `WIN` 119-120, `DOT` 205-206,
`PDD` 269-270.  (`CTS` stores its shift as a number here, so an integer shift is printed like the float of the same value.) -/
def Prep.fieldTexts (T : FloatText R) (A : CallText R) : Prep R → List PStr
  | .inc p => [p.shift.text T A, showNat p.depth, boolText p.zeroPadding]
  | .std p => [boolText p.separately, boolText p.var]
  | .nrm b => [boolText b]
  | .mav p => [p.given.text T]
  | .lag => [[]]
  | .ffn p => [showNat p.dOut, optText showNat p.dHidden, boolText p.center, boolText p.reluOut]
  | .rin p => [p.width.text A, boolText p.adaptive, showInt p.outDim, boolText p.forceSumOne, optText A.array p.constKernel]
  | .rdw p => [if p.dirichlet then "'dirichlet'".toList else "'uniform'".toList]
  | .jld p => [p.d.text T, boolText p.distribute, boolText p.bias]
  | .spe p => [T.toText p.freq, if p.additive then "additive".toList else "multiplicative".toList, optText A.fld p.function,
      optText Norm.str p.step, optText showNat p.maxLength]
  | .rpe p => [T.toText p.freq, optText showNat p.maxLength]
  | .cts p => [T.toText p.s, boolText p.pseudo]
  | .qtc p => [T.toText p.q, boolText p.lower, optText T.toText p.bound]
  | .func f => [A.data f]
  | .dil p => ["clusters=".toList ++ optText T.toText p.clusters]
  | .win p => ["start=".toList ++ T.toText p.start, "end=".toList ++ T.toText p.stop]
  | .dot p => ["n=".toList ++ p.given.text T, "first=".toList ++ optText (IntOrFloat.text T) p.firstGiven]
  | .pdd p => ["density=".toList ++ T.toText p.density, "proportion=".toList ++ T.toText p.proportion]
  | .dim _ _ => []
  | .new _ => []

/-- `f"{class}({settings})"`. -/
def Prep.flatStr (T : FloatText R) (A : CallText R) (p : Prep R) : PStr :=
  p.className ++ '(' :: commas (p.fieldTexts T A) ++ ")".toList

/-- `DIM.__str__`, `wrapper.py:49-50`, for the text of the wrapped preparateur. -/
def dimStr (inner : PStr) (dims : List ℤ) : PStr := "DIM(".toList ++ inner ++ ", ".toList ++ tupleText dims ++ ")".toList

/-- `NEW.__str__`, `wrapper.py:102-103`, for the text of the wrapped preparateur. -/
def newStr (inner : PStr) : PStr := "NEW(".toList ++ inner ++ ")".toList

/-- `str(preparateur)`, which is also `preparateur.label()` (`seed.py:68-79`); `DIM` `wrapper.py:49-50`, `NEW` 102-103, the
others as in `Prep.fieldTexts`. -/
def Prep.str (T : FloatText R) (A : CallText R) : Prep R → PStr
  | .dim p dims => dimStr (p.str T A) dims
  | .new none => newStr "None".toList
  | .new (some p) => newStr (p.str T A)
  | .inc p => Prep.flatStr T A (.inc p)
  | .std p => Prep.flatStr T A (.std p)
  | .nrm p => Prep.flatStr T A (.nrm p)
  | .mav p => Prep.flatStr T A (.mav p)
  | .lag => Prep.flatStr T A .lag
  | .ffn p => Prep.flatStr T A (.ffn p)
  | .rin p => Prep.flatStr T A (.rin p)
  | .rdw p => Prep.flatStr T A (.rdw p)
  | .jld p => Prep.flatStr T A (.jld p)
  | .spe p => Prep.flatStr T A (.spe p)
  | .rpe p => Prep.flatStr T A (.rpe p)
  | .cts p => Prep.flatStr T A (.cts p)
  | .qtc p => Prep.flatStr T A (.qtc p)
  | .func p => Prep.flatStr T A (.func p)
  | .dil p => Prep.flatStr T A (.dil p)
  | .win p => Prep.flatStr T A (.win p)
  | .dot p => Prep.flatStr T A (.dot p)
  | .pdd p => Prep.flatStr T A (.pdd p)

/-! ### Sieves -/

/-- `str` of a list: `[a, b]`. -/
def listText (ts : List PStr) : PStr := '[' :: commas ts ++ "]".toList

/-- `str` of a tuple of texts. -/
def tupleTexts : List PStr → PStr
  | [] => "()".toList
  | [a] => '(' :: a ++ ",)".toList
  | a :: b :: l => '(' :: commas (a :: b :: l) ++ ")".toList

/-- `PPV.__str__` `implicit.py:148-153`, `CPV.__str__` 208-213. -/
def PPV.str (T : FloatText R) (cpv : Bool) (p : PPV R) : PStr :=
  (if cpv then "CPV".toList else "PPV".toList) ++ "(quantile=".toList ++ listText (p.qc.map fun x => T.toText x.1)
    ++ ", constant=".toList ++ listText (p.qc.map fun x => boolText x.2) ++ ", sample_size=".toList ++ T.toText p.sampleSize
    ++ ", segments=".toList ++ boolText p.segments ++ ")".toList

/-- `self.__class__.__name__` of a sieve. -/
def Sieve.className : Sieve R → PStr
  | .seg k _ => k.name
  | .inc k _ _ => k.name
  | .ppv _ => "PPV".toList
  | .cpv _ => "CPV".toList
  | .wrapInc _ _ _ => "INC".toList
  | .wrapInt _ => "INT".toList

/-- `str(sieve)`: `segment.py:93-94`, `increment.py:86-88`, `implicit.py:148-153,208-213`, `wrapper.py:63-64,103-104`.  The
sequences `cut` and `q` are printed as tuples (the code prints lists as lists). -/
def Sieve.str (T : FloatText R) : Sieve R → PStr
  | .seg k p => k.name ++ '(' :: commas [tupleTexts (p.cut.map (Cut.text T)), tupleTexts (p.q.map T.toText)] ++ ")".toList
  | .inc k n p => k.name ++ '(' :: commas [tupleTexts (p.cut.map (Cut.text T)), tupleTexts (p.q.map T.toText), intText n]
      ++ ")".toList
  | .ppv p => p.str T false
  | .cpv p => p.str T true
  | .wrapInc s d k => "INC(".toList ++ commas [s.str T, showNat d, showInt k] ++ ")".toList
  | .wrapInt s => "INT(".toList ++ s.str T ++ ")".toList

/-- `sieve.summary()`: `sieving/abstract.py:29-34`, `segment.py:103-104` (overridden by every class), `segment.py:148-152,196-200,221-225,268-272,311-315,354-358`, `increment.py:94-98`,
`implicit.py:139-146,199-206`, `wrapper.py:57-58,97-98`. -/
def Sieve.summary (T : FloatText R) : Sieve R → PStr
  | .seg k p => k.name ++ " -> ".toList ++ intText (Sieve.seg k p).nfeatures ++ ":".toList
      ++ p.cut.flatMap fun c => "\n   > ".toList ++ c.text T
  | .inc k n p => k.name ++ " -> ".toList ++ intText (Sieve.inc k n p).nfeatures ++ ":".toList
      ++ p.cut.flatMap fun c => "\n   > ".toList ++ c.text T
  | .ppv p => ppvSummary "PPV".toList p
  | .cpv p => ppvSummary "CPV".toList p
  | .wrapInc s _ _ => "INC>".toList ++ s.summary T
  | .wrapInt s => "INT>".toList ++ s.summary T
where
  /-- `implicit.py:139-146`. -/
  ppvSummary (name : PStr) (p : PPV R) : PStr :=
    name ++ " [sampling=".toList ++ T.toText p.sampleSize ++ (if p.segments then ", segments".toList else [])
      ++ "] -> ".toList ++ intText p.nfeatures ++ ":".toList
      ++ p.qc.flatMap fun x => "\n   > ".toList ++ T.toText x.1 ++ " | ".toList ++ boolText x.2

end Fruits
