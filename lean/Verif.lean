import Verif.Props.IteratedSums
import Verif.Props.Kernels
import Verif.Props.Plan
import Verif.Props.Algebra
import Verif.Props.General
import Verif.Props.Words
import Verif.Props.Words2
import Verif.Props.Words3
import Verif.Props.CacheProps
import Verif.Props.Prep1
import Verif.Props.Prep2
import Verif.Props.Prep3
import Verif.Props.Prep4
import Verif.Props.Prep5
import Verif.Props.Prep6
import Verif.Props.Prep7
import Verif.Props.Prep8
import Verif.Props.Prep9
import Verif.Props.Prep10
import Verif.Sieve
import Verif.Props.Sieve1
import Verif.Props.Sieve2
import Verif.Props.Sieve3
import Verif.Props.Sieve4
import Verif.Props.Sieve5
import Verif.Props.Sieve6
import Verif.PrepFit
import Verif.Props.Copies
import Verif.Fruit
import Verif.Props.Fruit1
import Verif.Props.Fruit2
import Verif.Props.FruitInv
import Verif.Props.Fruit3
import Verif.Props.Fruit4
import Verif.Props.Fruit5
import Verif.Props.Fruit6
import Verif.Weighting
import Verif.Props.Weightings
import Verif.CosWISS
import Verif.Props.Cos1
import Verif.Props.Cos2
import Verif.Builtin
import Verif.Props.Builtin1
import Verif.Props.Demo
import Verif.Props.Fruit7
import Verif.Props.Fruit8
import Verif.Props.Fruit9
import Verif.Props.Fruit10
import Verif.Props.Demo2
import Verif.Props.Fruit11
import Verif.Props.Fruit12
import Verif.Props.Builtin2
import Verif.Props.Demo3
import Verif.Props.Text
import Verif.Props.Fruit13
import Verif.Props.Fruit14
import Verif.Props.Demo4
import Verif.Props.Warp
import Verif.Props.Warp2
import Verif.Props.Argmax
import Verif.Props.Series1
import Verif.Props.KernelShape
import Verif.Props.Series2
import Verif.Props.Demo5
import Verif.Equality
import Verif.UserCode
import Verif.Props.Equality1
import Verif.Props.UserCode1
import Verif.Texts
import Verif.Summary
import Verif.Props.Texts1
import Verif.Props.Texts2
import Verif.Props.Summary1
import Verif.Props.Demo6
import Verif.Props.Warp3
import Verif.Props.Words4
import Verif.Props.Twi
import Verif.Props.Demo7
import Verif.Props.Copies2
import Verif.Props.Total1
import Verif.Props.Total2
import Verif.Props.Total3
import Verif.Props.Total4
import Verif.Props.Total5
import Verif.Props.Fruit15
import Verif.Props.Total6
import Verif.Props.Words5
import Verif.WordEq
import Verif.Props.Words6
import Verif.Props.Scripts0
import Verif.Props.Scripts1
import Verif.Props.Scripts2
import Verif.Props.Scripts3
import Verif.Props.Plan2
import Verif.Parallel
import Verif.Props.Parallel1
import Verif.Props.Prep11
import Verif.FitTransform
import Verif.Props.Fruit16
import Verif.Props.Sieve7
import Verif.Props.Sieve8
import Verif.Props.Cos3
import Verif.CorbData
import Verif.Props.Corb1
import Verif.Props.Corb2
import Verif.Props.Corb3
import Verif.CorbTools
import Verif.Props.Corb4
import Verif.Props.Corb5
import Verif.Props.Corb6
import Verif.Props.Corb7
import Verif.CorbLoad
import Verif.CorbChoose
import Verif.Props.Corb8
import Verif.Props.Corb9
import Verif.Props.Corb10
import Verif.Props.Corb11
import Verif.Props.Corb12
import Verif.Props.Corb13
import Verif.CorbPlot
import Verif.Props.Corb14
import Verif.Props.Corb15
import Verif.Props.Chen
import Verif.Props.Dims
import Verif.Getters
import Verif.Props.Getters1
import Verif.Checked
import Verif.Props.Checked1
import Verif.Checked2
import Verif.Props.Checked2
import Verif.Props.Checked3
import Verif.Checked3
import Verif.Props.Checked4
import Verif.Rounded
import Verif.RoundedBinary
import Verif.RoundedLemmas
import Verif.RoundedKernels
import Verif.RoundedRows
import Verif.Props.Rounded1
import Verif.Props.Rounded2
import Verif.Props.Rounded3
import Verif.RoundedSeeds
import Verif.Props.Rounded4
import Verif.Props.Rounded5
import Verif.Props.Rounded6
import Verif.Props.Warp4
import Verif.FastMath
import Verif.FastMathLemmas
import Verif.Props.FastMath1
import Verif.Props.FastMath2
import Verif.Props.Logarithm
import Verif.Props.Stability
import Verif.Props.Corb16
import Verif.Props.Fruit17
import Verif.Props.Reversal
import Verif.DType
import Verif.Props.DType1
import Verif.Memory
import Verif.Props.Memory1
import Verif.Props.Units1
import Verif.Props.Units2
import Verif.Props.Units3
import Verif.Props.Units4
import Verif.Props.Order1
import Verif.Props.Order2
import Verif.Props.Order3
import Verif.Props.Offset1
import Verif.Props.Offset2
import Verif.Props.Offset3
import Verif.Missing
import Verif.Props.Missing1
import Verif.Props.Missing2
import Verif.Props.Missing3
import Verif.Props.Missing4
import Verif.MissingSieve
import Verif.Props.MissingSieve1
import Verif.Props.MissingSieve2
import Verif.Props.MissingSieve3
import Verif.Props.MissingSieve4
import Verif.Props.MissingSieve5
import Verif.MissingPrep
import Verif.Props.MissingPrep1
import Verif.Props.MissingPrep2
import Verif.Props.MissingPrep3
import Verif.Props.MissingPrep4
import Verif.Props.CacheDims
import Verif.Props.MissingPrep5
import Verif.Props.MissingFruit1
import Verif.Props.MissingFruit2
import Verif.Props.MissingPrep6
import Verif.Props.Corb17
