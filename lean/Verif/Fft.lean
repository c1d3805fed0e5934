import Verif.ThreadPool
import Verif.Log2
import Verif.Gmp
import Mathlib.Algebra.Field.ZMod

/-!
# FFT, `c/fft.cpp` and `c/fft.hpp`

The field operations `f.add`, `f.sub`, `f.mul`, `f.copy` are the operations of a field `K` (C01-C23 relate them to the limbs).
The array `a`, and the table `roots` while it is built, are shared memories whose cells are written by the threads of the pool; every
field operation on a cell is one atomic action.  A relation `X ... m m'` says that some schedule runs `X` from `m` to a normal return
with `m'`; where an assertion fails or the behaviour is undefined there is no such `m'`.
-/

namespace FF.Fft

open Par Pool

/-- `BR`, `fft.cpp:20-27`. -/
def BR (x : BitVec 64) (domainPow : Nat) : BitVec 64 :=
  let x := (x >>> 16) ||| (x <<< 16)
  let x := ((x &&& 0xFF00FF00#64) >>> 8) ||| ((x &&& 0x00FF00FF#64) <<< 8)
  let x := ((x &&& 0xF0F0F0F0#64) >>> 4) ||| ((x &&& 0x0F0F0F0F#64) <<< 4)
  let x := ((x &&& 0xCCCCCCCC#64) >>> 2) ||| ((x &&& 0x33333333#64) <<< 2)
  (((x &&& 0xAAAAAAAA#64) >>> 1) ||| ((x &&& 0x55555555#64) <<< 1)) >>> (32 - domainPow)

/-- The conversion of a 64-bit argument to an `int` parameter. -/
def toInt32 (n : Nat) : Int := (BitVec.ofNat 32 n).toInt

variable {K : Type} [Field K]

/-- The `Element` locals of the loop bodies (`tmp`, `t`, `u`, `copyBase`). -/
structure Loc (K : Type) where
  t : K
  u : K

/-- Body of the loop of `reversePermutation` for index `i`, `fft.cpp:163-171`. -/
def revIter (domainPow : Nat) (i : Nat) : List (Act (Loc K) K) :=
  let r := (BR (BitVec.ofNat 64 i) domainPow).toNat
  if i > r then
    [fun (l, a) => ({ l with t := a i }, a),
     fun (l, a) => (l, Function.update a i (a r)),
     fun (l, a) => (l, Function.update a r l.t)]
  else []

/-- The object: `s`, `nqr`, `roots`, `powTwoInv`, `fft.hpp:9-12`. -/
structure Obj (K : Type) where
  s : Nat
  nqr : K
  roots : Nat → K
  powTwoInv : Nat → K

/-- `root`, `fft.hpp:28`, for `domainPow ≤ s` (otherwise the shift count wraps around: see `Stage`). -/
def Obj.root (F : Obj K) (domainPow idx : Nat) : K := F.roots (idx <<< (F.s - domainPow))

/-- Body of the butterfly loop of `fft` at stage `s` for index `i`, `fft.cpp:186-196`. -/
def butterfly (F : Obj K) (s : Nat) (i : Nat) : List (Act (Loc K) K) :=
  let m := 1 <<< s
  let mdiv2 := m >>> 1
  let k := (i / mdiv2) * m
  let j := i % mdiv2
  [fun (l, a) => ({ l with t := F.root s j * a (k + j + mdiv2) }, a),
   fun (l, a) => ({ l with u := a (k + j) }, a),
   fun (l, a) => (l, Function.update a (k + j) (l.t + l.u)),
   fun (l, a) => (l, Function.update a (k + j + mdiv2) (l.u - l.t))]

/-- One iteration of the stage loop, `fft.cpp:181-198`: `1 << s` is an `int` shift, and `root(s, _)` needs `s` at most the table order. -/
def Stage (F : Obj K) (T n s : Nat) (m m' : Nat → K) : Prop :=
  s ≤ 30 ∧ s ≤ F.s ∧ ParFor T 0 (toInt32 (n >>> 1)) (butterfly F s) m m'

def Stages (F : Obj K) (T n : Nat) : List Nat → (Nat → K) → (Nat → K) → Prop
  | [], m, m' => m' = m
  | s :: ss, m, m' => ∃ m1, Stage F T n s m m1 ∧ Stages F T n ss m1 m'

/-- `reversePermutation`, `fft.cpp:158-173`. -/
def ReversePermutation (T : Nat) (n : BitVec 64) (m m' : Nat → K) : Prop :=
  ∃ domainPow, fftLog2 n = some domainPow ∧ ParFor T 0 (toInt32 n.toNat) (revIter domainPow) m m'

/-- `fft`, `fft.cpp:176-199`. -/
def FftRun (F : Obj K) (T : Nat) (n : BitVec 64) (m m' : Nat → K) : Prop :=
  ∃ m1, ReversePermutation T n m m1 ∧ ∃ domainPow, fftLog2 n = some domainPow ∧ (1#64 <<< domainPow) = n ∧
    Stages F T n.toNat (List.range' 1 domainPow) m1 m'

/-- Body of the loop of `ifft` for index `i`, `fft.cpp:208-214`. -/
def ifftIter (F : Obj K) (n domainPow : Nat) (i : Nat) : List (Act (Loc K) K) :=
  let r := n - i
  [fun (l, a) => ({ l with t := a i }, a),
   fun (l, a) => (l, Function.update a i (a r * F.powTwoInv domainPow)),
   fun (l, a) => (l, Function.update a r (l.t * F.powTwoInv domainPow))]

/-- `ifft`, `fft.cpp:201-218`. -/
def IfftRun (F : Obj K) (T : Nat) (n : BitVec 64) (m m' : Nat → K) : Prop :=
  ∃ m1, FftRun F T n m m1 ∧ ∃ domainPow, fftLog2 n = some domainPow ∧
    ∃ m2, ParFor T 1 (toInt32 (n.toNat >>> 1)) (ifftIter F n.toNat domainPow) m1 m2 ∧
    let m2 := Function.update m2 0 (m2 0 * F.powTwoInv domainPow)
    m' = Function.update m2 (n.toNat >>> 1) (m2 (n.toNat >>> 1) * F.powTwoInv domainPow)

/-! ## Constructor -/

/-- The loop of `RawFr::exp` as actions on the cell `r`, `fr.cpp.ejs:264-274`; the first argument counts the bits still to be read. -/
def expActs (r e : Nat) : Nat → Bool → List (Act (Loc K) K)
  | 0, oneFound => if !oneFound then [fun (l, a) => (l, Function.update a r 1)] else []
  | i + 1, oneFound =>
    if !oneFound then
      if !e.testBit i then expActs r e i false
      else (fun (l, a) => (l, Function.update a r l.t)) :: expActs r e i true
    else
      (fun (l, a) => (l, Function.update a r (a r * a r))) ::
        ((if e.testBit i then [fun (l, a) => (l, Function.update a r (a r * l.t))] else []) ++ expActs r e i true)

/-- `f.exp(roots[start], roots[1], (uint8_t *)(&start), 8)`: the base is copied first, `fr.cpp.ejs:262-263`; the bytes of `start` are
little-endian, so the bits read are those of `start`. -/
def expProg (r b e : Nat) : List (Act (Loc K) K) := (fun (l, a) => ({ l with t := a b }, a)) :: expActs r e 64 false

/-- Body of the parallel block filling `roots`, `fft.cpp:91-102`. -/
def blockProg (nRoots nThreads idThread : Nat) : List (Act (Loc K) K) :=
  let increment := nRoots / nThreads
  let start := if idThread = 0 then 2 else idThread * increment
  let stop := if idThread = nThreads - 1 then nRoots else (idThread + 1) * increment
  (if stop > start then expProg start 1 start else []) ++
    (List.range' (start + 1) (stop - (start + 1))).map fun i => fun (l, a) => (l, Function.update a i (a (i - 1) * a 1))

/-- The threads that fill the table of roots. -/
def ctorThreads (nRoots T j : Nat) : List (Act (Loc K) K) :=
  match (parallelBlock T)[j]? with
  | some id => blockProg nRoots T id
  | none => []

/-- The search for a non-residue, `fft.cpp:53-58`; it runs until `mpz_powm` differs from one. -/
def nqrLoop (qm1d2 q : Int) : Nat → Int → Option Int
  | 0, _ => none
  | fuel + 1, nqr =>
    match mpzPowm nqr qm1d2 q with
    | none => none
    | some aux => if aux = 1 then nqrLoop qm1d2 q fuel (nqr + 1) else some nqr

/-- The loop that finds `s`, `fft.cpp:64-69`; at most `domainPow` iterations, since `s` grows from one. -/
def sLoop (domainPow : Nat) : Nat → Nat → Int → Nat × Int
  | 0, s, aux => (s, aux)
  | fuel + 1, s, aux => if !(decide (aux % 2 = 1)) && decide (s < domainPow) then sLoop domainPow fuel (s + 1) (aux / 2) else (s, aux)

/-- The loop `powTwoInv[i] = powTwoInv[i-1] * powTwoInv[1]`, `fft.cpp:107-109`. -/
def powLoop (p : Nat → K) (s : Nat) : Nat → K :=
  (List.range' 2 (s - 1)).foldl (fun p i => Function.update p i (p (i - 1) * p 1)) p

/-- The constructor, `fft.cpp:31-115`, for the field of `q` elements: `none` is the `range_error`.  `junk` is the memory returned by
`new Element[]`; `nRoots > 1` always holds since `s ≥ 1`.  Memory exhaustion is not modelled. -/
def Ctor (q T : Nat) [Fact q.Prime] (maxDomainSize : BitVec 64) (res : Option (Obj (ZMod q))) : Prop :=
  ∃ domainPow, fftLog2 maxDomainSize = some domainPow ∧
    let m_aux : Int := ((-1 : ZMod q).val : Int)
    let m_q := m_aux + 1
    let m_qm1d2 := m_aux / 2
    ∃ fuel m_nqr, nqrLoop m_qm1d2 m_q fuel 2 = some m_nqr ∧
      let (s, m_aux) := sLoop domainPow domainPow 1 m_qm1d2
      if s < domainPow then res = none
      else
        let nRoots := 1 <<< s
        ∃ w, mpzPowm m_nqr m_aux m_q = some w ∧
        ∃ (junk junk' : Nat → ZMod q) (j : Int),
          let roots := Function.update (Function.update junk 0 1) 1 ((w : Int) : ZMod q)
          let pow := Function.update (Function.update junk' 0 1) 1 ((mpzInvert 2 m_q j : Int) : ZMod q)
          ∃ roots', Exec (ctorThreads nRoots T) roots roots' ∧
            roots' (nRoots - 1) * roots' 1 = 1 ∧
            res = some { s := s, nqr := ((m_nqr : Int) : ZMod q), roots := roots', powTwoInv := powLoop pow s }

end FF.Fft
