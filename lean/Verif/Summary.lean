import Verif.Builtin

/-! # Summaries of slices and fruits

`FruitSlice.summary` and `Fruit.summary`, `fruits/fruit.py:186-213,562-596`. -/

namespace Fruits

variable {R P I W S V : Type} [Field R] [LinearOrder R] [FloorRing R]

/-- The texts a summary contains besides the labels: names of classes, the number of words and `repr` of strings. -/
structure Names (I W S : Type) where
  /-- `str(iss)`, the name of the class (`seed.py:82`) -/
  iss : I → PStr
  /-- `len(iss.words)` -/
  words : W → ℕ
  /-- `iss.semiring.__class__.__name__` -/
  semiring : I → PStr
  /-- `iss.weighting.__class__.__name__`; `none` if there is no weighting -/
  weighting : I → Option PStr
  /-- `sieve.__class__.__name__` -/
  sieve : S → PStr
  /-- `repr(name)` -/
  repr : PStr → PStr

/-- `f"{s: <38}"`. -/
def padRight (s : PStr) : PStr := s ++ List.replicate (38 - s.length) ' '

/-- `f"{s: ^width}"`: the smaller half of the blanks is on the left. -/
def centred (width : ℕ) (s : PStr) : PStr :=
  List.replicate ((width - s.length) / 2) ' ' ++ s ++ List.replicate (width - s.length - (width - s.length) / 2) ' '

/-- `38*" "`. -/
def blank : PStr := List.replicate 38 ' '

/-- `38*"-"`. -/
def dashes : PStr := List.replicate 38 '-'

/-- The four lines of an ISS object with the line breaks before them, `fruit.py:580-588`. -/
def issBlock (N : Names I W S) (i : I) (ws : W) (count : ℕ) : PStr :=
  '\n' :: padRight ("    + ".toList ++ N.iss i ++ " -> ".toList ++ showNat count) ++
  ('\n' :: padRight ("       | words: ".toList ++ showNat (N.words ws))) ++
  ('\n' :: padRight ("       | semiring: ".toList ++ N.semiring i)) ++
  ('\n' :: padRight ("       | weighting: ".toList ++ match N.weighting i with | none => "None".toList | some n => n))

/-- The line of a sieve with the line break before it, `fruit.py:593-595`. -/
def sieveLine (K : Sem R P I W S V) (N : Names I W S) (v : S) : PStr :=
  '\n' :: padRight ("    + ".toList ++ N.sieve v ++ " -> ".toList ++ showInt (K.sieveN v))

/-- `FruitSlice.summary`, `fruit.py:562-596`. -/
def sliceSummary (K : Sem R P I W S V) (N : Names I W S) (w : World R P I W S) (s : ℕ) : Except Err PStr := do
  let n ← sliceN K w s
  let o := w.slice s
  let counts ← o.iss.mapM fun a => K.issCount (w.issAt a).1 (w.issAt a).2
  let t0 := centred 38 ("FruitSlice -> ".toList ++ showInt n) ++ '\n' :: dashes ++ ['\n']
  let t1 := t0 ++ padRight ("Preparateurs (".toList ++ showNat o.preps.length ++ "):".toList) ++ ['\n']
  let t2 := t1 ++ pjoin '\n' (o.preps.map fun a => padRight ("    + ".toList ++ K.prepLabel (w.prep a)))
  let t3 := if o.preps.length = 0 then t2 ++ blank else t2
  let t4 := t3 ++ ['\n'] ++ padRight ("ISS Calculators (".toList ++ showNat o.iss.length ++ "):".toList)
  let t5 := if o.iss.length = 0 then t4 ++ blank else t4
  let t6 := t5 ++ (o.iss.zip counts).flatMap fun p => issBlock N (w.issAt p.1).1 (w.issAt p.1).2 p.2
  let t7 := if o.iss.length = 0 then t6 ++ ['\n'] else t6
  let t8 := t7 ++ '\n' :: padRight ("Sieves (".toList ++ showNat o.sieves.length ++ "):".toList)
  let t9 := if o.sieves.length = 0 then t8 ++ '\n' :: blank else t8
  pure (t9 ++ o.sieves.flatMap fun a => sieveLine K N (w.sieve a))

/-- `"|" + 38*"-" + "||" + 38*"-" + "|"`. -/
def rule2 : PStr := '|' :: dashes ++ '|' :: '|' :: dashes ++ ['|']

/-- Two slices side by side, `fruit.py:201-208`. -/
def sideBySide (left right : PStr) : PStr :=
  let l := psplit '\n' left
  let r := psplit '\n' right
  let l := l ++ List.replicate (r.length - l.length) blank
  let r := r ++ List.replicate (l.length - r.length) blank
  rule2 ++ ['\n'] ++ pjoin '\n' ((l.zip r).map fun p => '|' :: p.1 ++ '|' :: '|' :: p.2 ++ ['|']) ++ ['\n'] ++ rule2 ++ ['\n']

/-- `text.replace("\n", "|\n|")`. -/
def replaceBreaks (text : PStr) : PStr := text.flatMap fun c => if c = '\n' then ['|', '\n', '|'] else [c]

/-- The loop over pairs of slices and the last one, `fruit.py:197-212`. -/
def slicesText : List PStr → PStr
  | [] => []
  | [a] => ('|' :: dashes ++ ['|', '\n', '|']) ++ replaceBreaks a ++ (['|', '\n', '|'] ++ dashes ++ ['|', '\n'])
  | a :: b :: l => sideBySide a b ++ slicesText l

/-- `Fruit.summary`, `fruit.py:186-213`.  All numbers of features are asked for first. -/
def fruitSummary (K : Sem R P I W S V) (N : Names I W S) (w : World R P I W S) (f : ℕ) : Except Err PStr := do
  let o := w.fruit f
  let n ← fruitN K w f
  let texts ← o.slices.mapM (sliceSummary K N w)
  let ident := "Fruit".toList ++ (if o.name ≠ [] then ' ' :: N.repr o.name else []) ++ " -> Features: ".toList ++ showInt n
  pure (List.replicate 80 '=' ++ ['\n'] ++ ('<' :: centred 78 ident ++ ['>', '\n']) ++ List.replicate 80 '=' ++ ['\n']
    ++ slicesText texts ++ List.replicate 80 '=')

/-! ### Seeds of the library -/

/-- The texts of the seeds of the library: `iss.py:95-109` (an ISS without semiring has the reals), `cos.py:223` (`CosWISS` has
neither semiring nor weighting of its own).  `repr` of the name of a fruit is the parameter. -/
def builtinNames (repr : PStr → PStr) : Names (BIss R) (List (IWord R)) (SafeSieve R) where
  iss | .iss _ => "ISS".toList | .cos _ => "CosWISS".toList
  words := List.length
  semiring | .iss o => o.semiring.className | .cos _ => "Reals".toList
  weighting | .iss o => o.weighting.map fun k => k.2.name | .cos _ => none
  sieve v := v.1.className
  repr := repr

end Fruits
