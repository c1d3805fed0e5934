import Verif.Race
import Verif.Primes

/-!
# C40 - C44: FFT and parallel loops

`FftRun F T n m m'`: some schedule of the pool of `T` threads runs `fft(a, n)` from the array contents `m` to a normal return with
contents `m'`; so a statement about all `m'` holds for all schedules.  `Ctor q T N res` is the same for the constructor.
-/

namespace FF.Props

open FF.Fft FF.Pool

section C40

variable {q : Nat} [Fact q.Prime]

/-- C40: the constructor reports an error exactly when `2^k`, with `k` the logarithm of the requested size, does not divide `q - 1`;
otherwise it returns a table of all powers of a primitive `2^s`-th root of unity, `s = max 1 k`, and the inverses of the powers of two. -/
theorem C40_constructor (hq : q ≠ 2) {T : Nat} (hT : 0 < T) (N : BitVec 64) (res : Option (Obj (ZMod q))) (h : Ctor q T N res) :
    (res = none ↔ ¬ 2 ^ Nat.log2 N.toNat ∣ q - 1) ∧
    ∀ F, res = some F → F.s = max 1 (Nat.log2 N.toNat) ∧ ∃ ω : ZMod q, IsPrimitiveRoot ω (2 ^ F.s) ∧
      (∀ i < 2 ^ F.s, F.roots i = ω ^ i) ∧ ∀ i ≤ F.s, F.powTwoInv i * 2 ^ i = 1 := by
  rcases ctor_spec hq hT h with ⟨rfl, hd⟩ | ⟨hd, F, ω, rfl, hs, ht, -⟩
  · exact ⟨⟨fun _ => hd, fun _ => rfl⟩, by simp⟩
  · refine ⟨⟨by simp, fun h => absurd hd h⟩, ?_⟩
    rintro F' hF
    obtain rfl := Option.some.inj hF
    exact ⟨hs, ω, ht.prim, ht.roots, ht.inv⟩

/-- C40: the constructor returns or throws under some schedule, for every number of threads, also when there are more threads than
roots; together with `C40_constructor` every such outcome is the right one. -/
theorem C40_total (hq : q ≠ 2) {T : Nat} (hT : 0 < T) (N : BitVec 64) (hN : N ≠ 0) : ∃ res, Ctor q T N res := ctor_exists hq hT hN

example : ∃ F : Obj (ZMod bnR), Ctor bnR 7 (BitVec.ofNat 64 (2 ^ 28)) (some F) := by
  obtain ⟨res, h⟩ := C40_total (q := bnR) (by decide) (T := 7) (by norm_num) (BitVec.ofNat 64 (2 ^ 28)) (by decide)
  cases res with
  | some F => exact ⟨F, h⟩
  | none => exact absurd ((C40_constructor (by decide) (by norm_num) _ _ h).1.1 rfl) (by rw [not_not]; decide)

example : Ctor bnR 7 (BitVec.ofNat 64 (2 ^ 29)) none := by
  obtain ⟨res, h⟩ := C40_total (q := bnR) (by decide) (T := 7) (by norm_num) (BitVec.ofNat 64 (2 ^ 29)) (by decide)
  obtain rfl := (C40_constructor (by decide) (by norm_num) _ _ h).1.2 (by decide)
  exact h

end C40

section C41

variable {q : Nat} [Fact q.Prime]

theorem built_table (hq : q ≠ 2) {T : Nat} (hT : 0 < T) {N : BitVec 64} {F : Obj (ZMod q)} (h : Ctor q T N (some F)) : ∃ ω, Table F ω := by
  rcases ctor_spec hq hT h with ⟨h, _⟩ | ⟨_, F', ω, hF, _, ht, _⟩
  · simp at h
  · obtain rfl := Option.some.inj hF; exact ⟨ω, ht⟩

/-- C41: with the object built by any run of the constructor, `fft` on `2^k` cells, `k` at most the order of the table, returns for every
number of threads, and every schedule leaves at index `i` the value at the `i`-th power of one primitive `2^k`-th root of unity of the
polynomial whose coefficients were in the array; the cells behind the array keep their contents. -/
theorem C41_fft (hq : q ≠ 2) {T : Nat} (hT : 0 < T) (N : BitVec 64) (F : Obj (ZMod q)) (hF : Ctor q T N (some F)) (k : Nat) (hk : k ≤ F.s)
    (hk30 : k ≤ 30) : ∃ v : ZMod q, IsPrimitiveRoot v (2 ^ k) ∧ ∀ T' > 0, T' < 2 ^ 31 → ∀ m : Nat → ZMod q,
      (∃ m', FftRun F T' (BitVec.ofNat 64 (2 ^ k)) m m') ∧
      ∀ m', FftRun F T' (BitVec.ofNat 64 (2 ^ k)) m m' →
        (∀ i < 2 ^ k, m' i = ∑ t ∈ Finset.range (2 ^ k), m t * (v ^ i) ^ t) ∧ ∀ i, 2 ^ k ≤ i → m' i = m i := by
  obtain ⟨ω, ht⟩ := built_table hq hT hF
  refine ⟨ω ^ 2 ^ (F.s - k), ?_, fun T' hT' hT31 m => ⟨fft_exists F hT' hT31 hk30 hk m, fun m' hm => ?_⟩⟩
  · refine ht.prim.pow (Nat.two_pow_pos _) ?_
    rw [← pow_add]; congr 1; omega
  · obtain ⟨h1, h2⟩ := fft_spec ht hT' hk30 hm
    refine ⟨fun i hi => ?_, h2⟩
    rw [h1 i hi]
    apply Finset.sum_congr rfl
    intro t _
    rw [pow_mul]

/-- C41: on a length that is no power of two, zero included, `fft` does not return (the assertion stops the program). -/
theorem C41_rejects {K : Type} [Field K] (F : Obj K) (T : Nat) (n : BitVec 64) (hn : ∀ k < 64, n.toNat ≠ 2 ^ k) (m m' : Nat → K) : ¬ FftRun F T n m m' := by
  rintro ⟨m1, -, k, hk, he, -⟩
  obtain ⟨h0, -, hk64⟩ := fftLog2_lt hk
  apply hn k hk64
  rw [← he, BitVec.toNat_shiftLeft, Nat.shiftLeft_eq]
  simp only [BitVec.toNat_ofNat]
  rw [Nat.mod_eq_of_lt (a := 1) (by norm_num), one_mul, Nat.mod_eq_of_lt (Nat.pow_lt_pow_right (by norm_num) hk64)]

local instance fact17 : Fact (Nat.Prime 17) := ⟨by decide⟩

/-- A four-point transform over the field of 17 elements, on three threads. -/
example : ∃ (F : Obj (ZMod 17)) (v : ZMod 17), IsPrimitiveRoot v 4 ∧ ∃ m', FftRun F 3 4 (fun i => (i : ZMod 17) + 5) m' ∧
    m' 1 = 5 + 6 * v + 7 * v ^ 2 + 8 * v ^ 3 := by
  obtain ⟨res, h⟩ := C40_total (q := 17) (by decide) (T := 5) (by norm_num) 4 (by decide)
  have hc := C40_constructor (q := 17) (by decide) (T := 5) (by norm_num) 4 res h
  cases res with
  | none => exact absurd (hc.1.1 rfl) (by rw [not_not]; decide)
  | some F =>
    have hs : F.s = 2 := (hc.2 F rfl).1.trans (by decide)
    obtain ⟨v, hv, hrun⟩ := C41_fft (q := 17) (by decide) (by norm_num) 4 F h 2 (by omega) (by norm_num)
    obtain ⟨⟨m', hm⟩, hspec⟩ := hrun 3 (by norm_num) (by norm_num) (fun i => (i : ZMod 17) + 5)
    refine ⟨F, v, hv, m', hm, ?_⟩
    rw [(hspec m' hm).1 1 (by norm_num)]
    simp only [show (2 : Nat) ^ 2 = 4 from rfl, Finset.sum_range_succ, Finset.sum_range_zero]
    push_cast
    ring

end C41

section C42

variable {q : Nat} [Fact q.Prime]

/-- C42: for sizes from four up, `ifft` returns, and undoes `fft` and is undone by it, under all schedules.  Missing: sizes one and two,
see `C42_violation_small`. -/
theorem C42_inverse_partial (hq : q ≠ 2) {T : Nat} (hT : 0 < T) (N : BitVec 64) (F : Obj (ZMod q)) (hF : Ctor q T N (some F)) (k : Nat)
    (hk : k ≤ F.s) (hk30 : k ≤ 30) (hk2 : 2 ≤ k) {T' : Nat} (hT' : 0 < T') (hT31 : T' < 2 ^ 31) (m : Nat → ZMod q) :
    (∃ m', IfftRun F T' (BitVec.ofNat 64 (2 ^ k)) m m') ∧
    (∀ m1 m2, FftRun F T' (BitVec.ofNat 64 (2 ^ k)) m m1 → IfftRun F T' (BitVec.ofNat 64 (2 ^ k)) m1 m2 → m2 = m) ∧
    (∀ m1 m2, IfftRun F T' (BitVec.ofNat 64 (2 ^ k)) m m1 → FftRun F T' (BitVec.ofNat 64 (2 ^ k)) m1 m2 → m2 = m) := by
  obtain ⟨ω, ht⟩ := built_table hq hT hF
  exact table_inverse ht k hk hk30 hk2 hT' hT31 m

/-- C42 is false for arrays of one and of two cells: the parallel loop over `[1, n/2)` is empty and its assertion stops the program. -/
theorem C42_violation_small {K : Type} [Field K] (F : Obj K) (T : Nat) (m m' : Nat → K) : ¬ IfftRun F T 1 m m' ∧ ¬ IfftRun F T 2 m m' := by
  constructor <;>
  · rintro ⟨m1, -, k, -, m2, ⟨calls, hc, -⟩, -⟩
    simp [parallelFor, divideWork, toInt32] at hc

/-- The hypotheses of `C42_inverse_partial` hold for the scalar field of BN254 at full size 2^28. -/
example : ∃ F : Obj (ZMod bnR), Ctor bnR 4 (BitVec.ofNat 64 (2 ^ 28)) (some F) ∧ F.s = 28 := by
  obtain ⟨res, h⟩ := C40_total (q := bnR) (by decide) (T := 4) (by norm_num) (BitVec.ofNat 64 (2 ^ 28)) (by decide)
  have hc := C40_constructor (q := bnR) (by decide) (by norm_num) _ _ h
  cases res with
  | some F => exact ⟨F, h, (hc.2 F rfl).1.trans (by decide)⟩
  | none => exact absurd (hc.1.1 rfl) (by rw [not_not]; decide)

end C42

section C43

/-- C43: the index computed for `i < 2^k` has the `k` low bits of `i` in reverse order and no others. -/
theorem C43_bits {k i : Nat} (hk : k ≤ 32) (hi : i < 2 ^ k) :
    ∀ j, (BR (BitVec.ofNat 64 i) k).toNat.testBit j = (decide (j < k) && i.testBit (k - 1 - j)) := by
  intro j; rw [BR_toNat hk hi, revN_testBit]

/-- C43: it is an involution of the indices below `2^k`. -/
theorem C43_involution {k i : Nat} (hk : k ≤ 32) (hi : i < 2 ^ k) :
    (BR (BitVec.ofNat 64 i) k).toNat < 2 ^ k ∧ (BR (BitVec.ofNat 64 (BR (BitVec.ofNat 64 i) k).toNat) k).toNat = i := by
  rw [BR_toNat hk hi, BR_toNat hk (revN_lt k i), revN_revN k i hi]
  exact ⟨revN_lt k i, rfl⟩

/-- C43: every run of the parallel swap on `2^k` cells, under every schedule, moves each cell to its reversed index and touches no others. -/
theorem C43_permutation {K : Type} [Field K] {T k : Nat} (hT : 0 < T) (hT31 : T < 2 ^ 31) (hk : k ≤ 30) (m : Nat → K) :
    (∃ m', ReversePermutation T (BitVec.ofNat 64 (2 ^ k)) m m') ∧
    ∀ m', ReversePermutation T (BitVec.ofNat 64 (2 ^ k)) m m' →
      (∀ i < 2 ^ k, ∀ r < 2 ^ k, (∀ j < k, r.testBit j = i.testBit (k - 1 - j)) → m' i = m r) ∧ ∀ i, 2 ^ k ≤ i → m' i = m i := by
  constructor
  · obtain ⟨m1, h1⟩ := parFor_exists (lo := 0) (hi := 2 ^ k) (revIter k) (⟨0, 0⟩ : Loc K) m hT hT31 (Nat.two_pow_pos _)
      (Nat.pow_lt_pow_right (by norm_num) (by omega))
    refine ⟨m1, k, fftLog2_two_pow (by omega), ?_⟩
    rw [ofNat_toNat (by omega), toInt32_eq (Nat.pow_lt_pow_right (by norm_num) (by omega))]
    exact_mod_cast h1
  · rintro m' ⟨k', hk', h⟩
    rw [fftLog2_two_pow (by omega)] at hk'
    obtain rfl := Option.some.inj hk'
    rw [ofNat_toNat (by omega), toInt32_eq (Nat.pow_lt_pow_right (by norm_num) (by omega))] at h
    obtain ⟨r1, r2⟩ := rev_spec hT hk h
    refine ⟨fun i hi r hr hb => ?_, r2⟩
    rw [r1 i hi]
    congr 1
    apply Nat.eq_of_testBit_eq
    intro j
    rw [revN_testBit]
    by_cases hj : j < k
    · simp [hj, hb j hj]
    · simp only [hj, decide_false, Bool.false_and]
      exact (Nat.testBit_lt_two_pow (lt_of_lt_of_le hr (Nat.pow_le_pow_right (by norm_num) (by omega)))).symm

example : (BR (BitVec.ofNat 64 6) 5).toNat = 12 ∧ (BR (BitVec.ofNat 64 1) 32).toNat = 2 ^ 31 := by decide

end C43

section C44

/-- C44: a parallel loop over a non-empty range calls the body on consecutive non-empty ranges covering the range exactly, the `i`-th with
thread number `i`, at most as many as the pool has threads, with sizes differing by at most one.  The length of the range must be
expressible as an `int`. -/
theorem C44_cover {nThreads : Nat} {lo hi : Int} (hT : 0 < nThreads) (hT31 : nThreads < 2 ^ 31) (h : lo < hi) (h31 : hi - lo < 2 ^ 31) :
    ∃ calls : List Call,
    parallelFor nThreads lo hi = some calls ∧ 0 < calls.length ∧ calls.length ≤ nThreads ∧
    (∀ (i : Nat) (c : Call), calls[i]? = some c → c.k = i ∧ c.lo < c.hi) ∧
    (∀ c ∈ calls, ∀ d ∈ calls, c.hi - c.lo ≤ d.hi - d.lo + 1) ∧
    calls.flatMap (fun c => ints c.lo c.hi) = ints lo hi := parallelFor_spec hT hT31 h h31

/-- C44: on an empty range the assertion of `divideWork` stops the program. -/
theorem C44_empty {nThreads : Nat} {lo hi : Int} (h : hi ≤ lo) : parallelFor nThreads lo hi = none := by
  cases hc : parallelFor nThreads lo hi with
  | none => rfl
  | some calls => have := (parallelFor_bounds hc).1; omega

/-- C44, the limit of the interface: a range of 2³¹ indices or more overflows the `int` count, and the loop does not run. -/
theorem C44_long_range {nThreads : Nat} {lo hi : Int} (h : 2 ^ 31 ≤ hi - lo) : parallelFor nThreads lo hi = none := by
  cases hc : parallelFor nThreads lo hi with
  | none => rfl
  | some calls => have := (parallelFor_bounds hc).2.1; omega

example : (2 : Int) ^ 31 ≤ 1073741824 - (-1073741824) := by norm_num

example : parallelFor 3 2 9 = some [⟨2, 5, 0⟩, ⟨5, 7, 1⟩, ⟨7, 9, 2⟩] := by decide

/-- C44: `parallelBlock` calls the body once for every thread number. -/
theorem C44_block {nThreads : Nat} (hT : 0 < nThreads) : parallelBlock nThreads = List.range nThreads := by
  unfold parallelBlock
  obtain ⟨t, rfl⟩ : ∃ t, nThreads = t + 1 := ⟨nThreads - 1, by omega⟩
  rw [Nat.add_sub_cancel, List.range_succ]

end C44

section C57

open FF.Par

/-- C57: the parallel loops of `fft` (all stages) and `ifft` and of the bit-reversal permutation are free of data races, for every power of
two and every number of threads. -/
theorem C57_fft_race_free {K : Type} [Field K] (F : Obj K) {T k : Nat} (hT : 0 < T) (hk : k ≤ 30) (m : Nat → K) :
    (∀ calls, parallelFor T 0 (2 ^ k : Nat) = some calls → ¬Race (threads calls (revIter (K := K) k)) m) ∧
    (∀ s, 1 ≤ s → s ≤ k → ∀ calls, parallelFor T 0 (2 ^ (k - 1) : Nat) = some calls → ¬Race (threads calls (butterfly F s)) m) ∧
    (2 ≤ k → ∀ calls, parallelFor T 1 (2 ^ (k - 1) : Nat) = some calls → ¬Race (threads calls (ifftIter F (2 ^ k) k)) m) := by
  refine ⟨fun calls hc => ?_, fun s hs hsk calls hc => ?_, fun hk2 calls hc => ?_⟩
  · exact parFor_no_race (lo := 0) (hi := 2 ^ k) hT (Nat.two_pow_pos k) (rev_dis k) (rev_foot (by omega)) (by exact_mod_cast hc) m
  · obtain ⟨s, rfl⟩ : ∃ s', s = s' + 1 := ⟨s - 1, by omega⟩
    exact parFor_no_race (lo := 0) (hi := 2 ^ (k - 1)) hT (Nat.two_pow_pos _) (bf_dis (Nat.two_pow_pos s))
      (fun i _ _ => bf_foot (bf_eq F s) i) (by exact_mod_cast hc) m
  · have e : 2 ^ (k - 1) = 2 ^ k / 2 := by
      obtain ⟨d, rfl⟩ : ∃ d, k = d + 1 := ⟨k - 1, by omega⟩
      rw [Nat.add_sub_cancel, pow_succ]; omega
    have h4 : 4 ≤ 2 ^ k := le_trans (by norm_num) (Nat.pow_le_pow_right (show 0 < 2 by norm_num) hk2)
    rw [e] at hc
    exact parFor_no_race (lo := 1) (hi := 2 ^ k / 2) hT (by omega) (by intro i j c h1 h2 h3 h4 h5 h6; omega) ifft_foot (by exact_mod_cast hc) m

/-- The loops of the theorem are those `fft` and `ifft` run. -/
example {K : Type} [Field K] (F : Obj K) : parallelFor 3 0 (2 ^ 2 : Nat) = some [⟨0, 2, 0⟩, ⟨2, 3, 1⟩, ⟨3, 4, 2⟩] ∧ butterfly F 1 0 ≠ [] := by
  refine ⟨by decide, by simp [butterfly]⟩

/-- C57: the constructor of the FFT fills its table without data races except when there is exactly one root per thread (rounded down) and
there are at least three threads. -/
theorem C57_table_race_partial {K : Type} [Field K] {nRoots T : Nat} (hT : 0 < T) (hn : 2 ≤ nRoots) (m : Nat → K) :
    Race (ctorThreads nRoots T) m ↔ nRoots / T = 1 ∧ 3 ≤ T := ctor_race hT hn m

/-- C57 is false of the constructor: with four roots and four threads, the second thread writes `roots[1]` while the third reads it. -/
theorem C57_violation {K : Type} [Field K] (m : Nat → K) : Race (ctorThreads 4 4) m := (ctor_race (by norm_num) (by norm_num) m).2 ⟨by norm_num, by norm_num⟩

end C57

end FF.Props
