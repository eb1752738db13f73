import Verif.ISS
import Verif.CosWISS
import Verif.Sieve

/-! # Parallel loops (`numba.prange`)

All compiled functions of the package with `parallel=True` distribute the iterations of their outermost loop over threads.
The iterations share one freshly allocated array of zeros, `result`; the inputs are never written.  Here every iteration is
a thread: a list of instructions, each of which reads or writes one number of the shared array.  A schedule is an arbitrary
list of thread names; it says which thread executes its next instruction.  The memory is sequentially consistent and a
number is read or written at once (both are trusted; see DESIGN.md). -/

namespace Fruits
namespace Par
set_option linter.unusedSectionVars false

/-- One access to the shared array `A → R`; `L` holds the local variables of the iteration. -/
inductive Instr (A R L : Type)
  | load (a : A) (put : R → L → L)
  | store (a : A) (val : L → R)

/-- The address an instruction uses. -/
def Instr.addr {A R L : Type} : Instr A R L → A
  | .load a _ => a
  | .store a _ => a

/-- The shared array, and the remaining instructions and local variables of every thread. -/
structure State (I A R L : Type) where
  mem : A → R
  prog : I → List (Instr A R L)
  loc : I → L

variable {I A R L : Type} [DecidableEq I] [DecidableEq A]

/-- Thread `i` executes its next instruction, if there is one. -/
def State.step (s : State I A R L) (i : I) : State I A R L :=
  match s.prog i with
  | [] => s
  | .load a put :: p => ⟨s.mem, Function.update s.prog i p, Function.update s.loc i (put (s.mem a) (s.loc i))⟩
  | .store a val :: p => ⟨Function.update s.mem a (val (s.loc i)), Function.update s.prog i p, s.loc⟩

/-- The threads run in the order of the schedule. -/
def State.run (s : State I A R L) (sched : List I) : State I A R L := sched.foldl State.step s

/-- All iterations are finished (`prange` waits for this). -/
def State.Finished (s : State I A R L) : Prop := ∀ i, s.prog i = []

/-- The beginning of a loop with the iterations `prog`: `result = np.zeros(...)`. -/
def start [Zero R] (l : L) (prog : I → List (Instr A R L)) : State I A R L := ⟨fun _ => 0, prog, fun _ => l⟩

/-- A loop without local variables that lives on: `for k in ks: result[addr k] = val k`. -/
def stores {κ : Type} (ks : List κ) (addr : κ → A) (val : κ → R) : List (Instr A R Unit) :=
  ks.map fun k => .store (addr k) fun _ => val k

/-- `for a in range(m): for b in range(n)`. -/
def grid (m n : ℕ) : List (ℕ × ℕ) := (List.range m).flatMap fun a => (List.range n).map fun b => (a, b)

/-- An address `[i, j, k]` of a three dimensional array. -/
abbrev Ix3 := ℕ × ℕ × ℕ

section
variable {R : Type} [Field R] [LinearOrder R] [FloorRing R]

/-- `for j in prange(Z.shape[0]): result[j] = single(Z[j], …)` with a matrix of `E` rows of length `n`:
semiring.py 174-201 (`Reals`), 361-404 (`Arctic`), 544-571 (`Bayesian`), after `fastSingle` has chosen the function. -/
def issProg (m E n : ℕ) (single : ℕ → List (List R)) (j : ℕ) : List (Instr Ix3 R Unit) :=
  if j < m then stores (grid E n) (fun e => (j, e.1, e.2)) fun e => at2 (single j) e.1 e.2 else []

/-- semiring.py 14-41, 203-219, 409-421, 573-589: what iteration `j` computes for a `SimpleWord`. -/
def issSingle (expf : R → R) (k : SemiringKind) (X : Data R) (w : SWord R) (extended : ℕ) (weighting : Option (Weighting R))
    (j : ℕ) : List (List R) :=
  match weighting with
  | some wt => fastSingle expf k (X.getD j []) w.els w.getAlpha ((wt.lookup X).getD j []) extended wt.total
  | none => fastSingle expf k (X.getD j []) w.els (zeros w.els.length) (zeros (ncols (X.getD j []))) extended true

/-- cos.py 137-139, 159-161, 180: the row for frequency number `f` and series `i`, word number `w`. -/
def cosSingle [NpMath R] (pi : R) (c : CosWISS R) (X : Data R) (w : ℕ) (word : SWord R) (f i : ℕ) : List R :=
  let wts := getWeightings c.exponent c.total word.els.length
  match c.ffnSize, c.dropout with
  | some _, _ =>
    let net := ((c.net.getD []).getD w []).getD f ⟨[], [], []⟩
    coswissSingle pi (cosFfn net.A net.b net.C (X.getD i [])) word.els (c.freqs.getD f 0) wts
  | none, some _ =>
    leakyCoswissSingle pi (X.getD i []) word.els (c.freqs.getD f 0) wts (((c.drops.getD []).getD w []).getD f [])
  | none, none => coswissSingle pi (X.getD i []) word.els (c.freqs.getD f 0) wts

/-- cos.py 125-140, 149-162, 171-181: `for i in prange(X.shape[0]): for f in range(len(freqs)): result[f, i] = single(…)`. -/
def cosProg (m F n : ℕ) (single : ℕ → ℕ → List R) (i : ℕ) : List (Instr Ix3 R Unit) :=
  if i < m then stores (grid F n) (fun e => (e.1, i, e.2)) fun e => (single e.1 i).getD e.2 0 else []

/-- `MAV._backend`, transform.py 233-239: both loops over the series and the dimensions are parallel. -/
def mavProg (X : Data R) (m d n width : ℕ) (ij : ℕ × ℕ) : List (Instr Ix3 R Unit) :=
  if ij.1 < m ∧ ij.2 < d then
    stores (List.range' width (n + 1 - width)) (fun k => (ij.1, ij.2, k - 1))
      fun k => (slc ((X.getD ij.1 []).getD ij.2 []) ((k : ℤ) - width) k).sum / (width : R)
  else []

/-- `RIN._backend`, transform.py 453-468, one series from output dimension `nd` on; `s` is a local variable. -/
def rinDims (s : Series R) (kernel : List (List R)) (dims : List ℕ) (w n i : ℕ) : ℕ → ℕ → List ℕ → List (Instr Ix3 R Unit)
  | _, _, [] => []
  | begin_, nd, c :: cs =>
    stores (List.range' w (n - w)) (fun k => (i, nd, k))
      (fun k => ((List.range' begin_ c).map fun j =>
        ((List.range' (k - w) w).map fun l => - at2 s (dims.getD j 0) l * at2 kernel j (l + w - k)).sum + at2 s j k).sum)
    ++ rinDims s kernel dims w n i (begin_ + c) (nd + 1) cs

/-- `RIN._backend`, transform.py 447-468: the loop over the series is parallel. -/
def rinProg (X : Data R) (m n : ℕ) (kernel : List (List R)) (ndim dims : List ℕ) (i : ℕ) : List (Instr Ix3 R Unit) :=
  if i < m then rinDims (X.getD i []) kernel dims ((kernel.getD 0 []).length) n i 0 0 ndim else []

/-- `JLD._backend`, transform.py 661-669, one series and one time step from output dimension `nd` on:
`result[i, nd, k] += X[i, dims[j], k] * kernel[j] + bias[nd]` reads and writes the shared array. -/
def jldDims (s : Series R) (st : JLDState R) (i k : ℕ) : ℕ → ℕ → List ℕ → List (Instr Ix3 R R)
  | _, _, [] => []
  | begin_, nd, c :: cs =>
    ((List.range' begin_ c).flatMap fun j =>
      [.load (i, nd, k) (fun v _ => v),
       .store (i, nd, k) (fun v => v + (at2 s (st.dims.getD j 0) k * st.kernel.getD j 0 + st.bias.getD nd 0))])
    ++ jldDims s st i k (begin_ + c) (nd + 1) cs

/-- `JLD._backend`, transform.py 651-670: the loops over the series and the time steps are parallel. -/
def jldProg (X : Data R) (m n : ℕ) (st : JLDState R) (ik : ℕ × ℕ) : List (Instr Ix3 R R) :=
  if ik.1 < m ∧ ik.2 < n then jldDims (X.getD ik.1 []) st ik.1 ik.2 0 0 st.ndim else []

/-- `RPE._backend`, transform.py 859-875: the loops over the series and the time steps are parallel. -/
def rpeProg [NpMath R] (X : Data R) (m n len : ℕ) (freq : R) (ik : ℕ × ℕ) : List (Instr Ix3 R Unit) :=
  let ang : R := (ik.2 : R) / NpMath.pow (len : R) freq
  let x := X.getD ik.1 []
  if ik.1 < m ∧ ik.2 < n then
    [.store (ik.1, 0, ik.2) fun _ => NpMath.cos ang * at2 x 0 ik.2 - NpMath.sin ang * at2 x 1 ik.2,
     .store (ik.1, 1, ik.2) fun _ => NpMath.sin ang * at2 x 0 ik.2 + NpMath.cos ang * at2 x 1 ik.2]
  else []

/-- The `_backend` functions of the sieves, segment.py 122-141, 170-189, 242-260 and increment.py 115-129, 146-163,
181-198, 216-239: the loop over the series is parallel; `J` segments, `K` bands, `val i j k` the number for segment `j` and
band `k` of series `i`. -/
def sieveProg (m J K : ℕ) (val : ℕ → ℕ → ℕ → R) (i : ℕ) : List (Instr (ℕ × ℕ) R Unit) :=
  if i < m then stores (grid J K) (fun e => (i, e.1 * K + e.2)) fun e => val i e.1 e.2 else []

/-- `_coquantile`, fruits/cache.py 16-22. -/
def coquantileProg (X : List (List R)) (q : R) (i : ℕ) : List (Instr ℕ ℕ Unit) :=
  if i < X.length then stores [()] (fun _ => i) fun _ => coquantile1 q (X.getD i []) else []

/-- `_L1_sum`, `_L2_sum`, fruits/cache.py 25-40, on the increments `Y` (rows of length `n`): `results[i, :] = np.cumsum(…)`
copies number by number. -/
def normProg (nm : Norm) (Y : List (List R)) (n i : ℕ) : List (Instr (ℕ × ℕ) R Unit) :=
  if i < Y.length then stores (List.range n) (fun t => (i, t))
    fun t => (cumsum ((Y.getD i []).map nm.val)).getD t 0 else []

end
end Par
end Fruits
