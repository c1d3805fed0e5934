import Verif.Msm
import Verif.Props.Curve

/-!
# Properties C36 – C39 and C47: multi-exponentiation and integer logarithms

`G` is the implementation of a group handed to the templates, `D p x` and `DA p x` say that the point `p` stands for the element `x` of
an abelian group, and `G.Sound D DA` that the operations of `G` compute the group operations (`Curve.code_sound`: the curve code does).
`scalarVal scalars size i` is the little-endian value of bytes `i*size .. i*size+size-1`.  `σ.Valid nThreads`: every parallel loop runs
each iteration exactly once, on a thread below `nThreads`, in any order.
-/

namespace FF.Props

open FF

variable {P PA A : Type} [AddCommGroup A] {G : GroupCode P PA} {D : P → A → Prop} {DA : PA → A → Prop}
variable {σ σ' : Sched} {nThreads nThreads' : Nat} {bases : Nat → PA} {a : Nat → A} {n : Nat}

/-! ## C36 -/

/-- C36, in any group: any number of points, any scalar width from 8 bytes (below 2²⁸, where 32-bit counters overflow), any thread count and schedule, any content of the
allocated arrays. -/
theorem C36_multiexp (hG : G.Sound D DA) (hσ : σ.Valid nThreads) (hT : 1 ≤ nThreads) (ha : ∀ i < n, DA (bases i) (a i))
    (mem mem' : Nat → P) (scalars : Nat → BitVec 8) {scalarSize : Nat} (hs : 8 ≤ scalarSize) (hs' : scalarSize < 2 ^ 28) :
    ∃ r, multiexp G σ nThreads mem mem' bases scalars scalarSize n = some r ∧
      D r (∑ i ∈ Finset.range n, scalarVal scalars scalarSize i • a i) := by
  have := pmeRun_rel hG hσ hT ha (fun _ => true) mem mem' scalars hs hs' (fun _ => rfl)
  simp only [if_true] at this
  exact this

/-- C36, on the curve. -/
theorem C36_multiexp_curve {K : Type} [Field K] [DecidableEq K] {a b : K} (hb : b ≠ 0) {bases : Nat → PtA K} {Q : Nat → Curve.GPoint a b}
    (hσ : σ.Valid nThreads) (hT : 1 ≤ nThreads) (hQ : ∀ i < n, Curve.ARep (bases i) (Q i))
    (mem mem' : Nat → Pt K) (scalars : Nat → BitVec 8) {scalarSize : Nat} (hs : 8 ≤ scalarSize) (hs' : scalarSize < 2 ^ 28) :
    ∃ r, multiexp (Curve.code a) σ nThreads mem mem' bases scalars scalarSize n = some r ∧
      Curve.CRep r (∑ i ∈ Finset.range n, scalarVal scalars scalarSize i • Q i) :=
  C36_multiexp (Curve.code_sound hb) hσ hT hQ mem mem' scalars hs hs'

/-- The result does not depend on the thread count, the schedule or the contents of fresh memory. -/
theorem C36_schedule_independent (hG : G.Sound D DA) (hσ : σ.Valid nThreads) (hT : 1 ≤ nThreads) (hσ' : σ'.Valid nThreads') (hT' : 1 ≤ nThreads')
    (ha : ∀ i < n, DA (bases i) (a i)) (m1 m2 m3 m4 : Nat → P) (scalars : Nat → BitVec 8) {scalarSize : Nat} (hs : 8 ≤ scalarSize) (hs' : scalarSize < 2 ^ 28) :
    ∃ r r' x, multiexp G σ nThreads m1 m2 bases scalars scalarSize n = some r ∧
      multiexp G σ' nThreads' m3 m4 bases scalars scalarSize n = some r' ∧ D r x ∧ D r' x := by
  obtain ⟨r, h1, h2⟩ := C36_multiexp hG hσ hT ha m1 m2 scalars hs hs'
  obtain ⟨r', h1', h2'⟩ := C36_multiexp hG hσ' hT' ha m3 m4 scalars hs hs'
  exact ⟨r, r', _, h1, h1', h2, h2'⟩

/-- Five integers with 9-byte scalars, all bytes `i % 256`, two threads that take the iterations in reverse order. -/
example : ∃ r, multiexp intCode altSched 2 (fun _ => 77) (fun _ => 78) (fun i => (i : ℤ) - 2) (fun i => BitVec.ofNat 8 i) 9 5 = some r ∧
    r = ∑ i ∈ Finset.range 5, scalarVal (fun i => BitVec.ofNat 8 i) 9 i • ((i : ℤ) - 2) :=
  C36_multiexp intCode_sound altSched_valid (by norm_num) (fun _ _ => rfl) _ _ _ (by norm_num) (by norm_num)

section
local instance factPrime7 : Fact (Nat.Prime 7) := ⟨by decide⟩

/-- Points (1,2), (4,2), (1,2), … of `y² = x³ + 3` over the field of 7 elements, two threads. -/
example : ∃ r, multiexp (Curve.code (0 : ZMod 7)) altSched 2 (fun _ => ⟨5, 5, 5, 5⟩) (fun _ => ⟨6, 6, 6, 6⟩)
      (fun i => if i % 2 = 0 then ⟨1, 2⟩ else ⟨4, 2⟩) (fun i => BitVec.ofNat 8 i) 32 10 = some r ∧
    Curve.CRep (a := 0) (b := 3) r (∑ i ∈ Finset.range 10, scalarVal (fun i => BitVec.ofNat 8 i) 32 i •
      (if i % 2 = 0 then .some 1 2 ns12 else .some 4 2 ns45 : Curve.GPoint (0 : ZMod 7) 3)) :=
  C36_multiexp_curve (by decide) altSched_valid (by norm_num) (by
    intro i _
    by_cases h : i % 2 = 0
    · simp only [h, if_true]; exact ⟨rfl, rfl⟩
    · simp only [h, if_false]; exact ⟨rfl, rfl⟩) _ _ _ (by norm_num) (by norm_num)

/-- The all-zero point of `C31_eq_violated` is reachable: two points with zero scalars make `multiMulByScalar` return it (`reduce` adds
`memset` points), and `eq` then accepts any point as equal to that result. -/
theorem C31_eq_violated_reachable :
    multiexp (Curve.code (0 : ZMod 7)) seqSched 1 (fun _ => ⟨5, 5, 5, 5⟩) (fun _ => ⟨6, 6, 6, 6⟩) (fun _ => ⟨1, 2⟩) (fun _ => 0) 8 2 =
      some ⟨0, 0, 0, 0⟩ ∧ Curve.eq (⟨1, 2, 1, 1⟩ : Pt (ZMod 7)) ⟨0, 0, 0, 0⟩ = true := by decide +kernel

end

/-! ## C37 -/

/-- C37 for lengths from 1 to 2^32: exactly the points whose position `i / nX` in vector `i % nX` is below that vector's length are
summed.  Missing: a vector of length zero (the code then takes all its points, `C37_violation_zero_length`) and a vector longer than
2^32. -/
theorem C37_strided_partial (hG : G.Sound D DA) (hσ : σ.Valid nThreads) (hT : 1 ≤ nThreads) (ha : ∀ i < n, DA (bases i) (a i))
    (mem mem' : Nat → P) (scalars : Nat → BitVec 8) {scalarSize : Nat} (hs : 8 ≤ scalarSize) (hs' : scalarSize < 2 ^ 28) {nX : Nat} {size : Nat → BitVec 64}
    (hX : 0 < nX) (hX' : nX < 2 ^ 32) (hsz : ∀ k < nX, 1 ≤ (size k).toNat ∧ (size k).toNat ≤ 2 ^ 32) :
    ∃ r, multiexpStrided G σ nThreads mem mem' bases scalars scalarSize n nX size = some r ∧
      D r (∑ i ∈ Finset.range n with i / nX < (size (i % nX)).toNat, scalarVal scalars scalarSize i • a i) := by
  have hinc : ∀ i, stridedInc nX size i = true ↔ i / nX < (size (i % nX)).toNat := fun i =>
    stridedInc_iff hX hX' (hsz _ (Nat.mod_lt _ hX)).1 (hsz _ (Nat.mod_lt _ hX)).2
  obtain ⟨r, h1, h2⟩ := pmeRun_rel hG hσ hT ha (stridedInc nX size) mem mem' scalars hs hs' (fun _ => by
    rw [hinc, Nat.zero_div, Nat.zero_mod]; exact (hsz 0 hX).1)
  refine ⟨r, by rw [multiexpStrided, if_neg (by omega), h1], ?_⟩
  rw [Finset.sum_filter]
  convert h2 using 1
  exact Finset.sum_congr rfl fun i _ => by simp only [hinc]

/-- Two interleaved vectors of lengths 3 and 1, eight points. -/
example : ∃ r, multiexpStrided intCode altSched 2 (fun _ => 77) (fun _ => 78) (fun i => (i : ℤ) + 1) (fun _ => 1) 8 8 2
      (fun k => if k = 0 then 3 else 1) = some r ∧
    r = ∑ i ∈ Finset.range 8 with i / 2 < ((fun k => if k = 0 then 3 else 1 : Nat → BitVec 64) (i % 2)).toNat,
      scalarVal (fun _ => 1) 8 i • ((i : ℤ) + 1) :=
  C37_strided_partial intCode_sound altSched_valid (by norm_num) (fun _ _ => rfl) _ _ _ (by norm_num) (by norm_num) (by norm_num) (by norm_num)
    (by intro k _; by_cases h : k = 0 <;> simp [h])

/-- C37 fails: one vector of length 0 among two points; the code sums both points instead of none. -/
theorem C37_violation_zero_length : ∃ r, multiexpStrided intCode seqSched 1 (fun _ => 0) (fun _ => 0) (fun _ => 1)
      (fun i => if i % 8 = 0 then 1 else 0) 8 2 1 (fun _ => 0) = some r ∧ r = 2 ∧
    (∑ i ∈ Finset.range 2 with i / 1 < ((fun _ => 0 : Nat → BitVec 64) (i % 1)).toNat,
      scalarVal (fun i => if i % 8 = 0 then 1 else 0) 8 i • (1 : ℤ)) = 0 := by
  obtain ⟨r, h1, h2⟩ := pmeRun_rel (n := 2) (bases := fun _ => (1 : ℤ)) (a := fun _ => (1 : ℤ)) intCode_sound seqSched_valid (by norm_num)
    (fun _ _ => rfl) (stridedInc 1 (fun _ => 0)) (fun _ => 0) (fun _ => 0) (fun i => if i % 8 = 0 then 1 else 0)
    (scalarSize := 8) (by norm_num) (by norm_num) (by omega)
  refine ⟨r, by rw [multiexpStrided, if_neg (by omega), h1], ?_, by decide +kernel⟩
  rw [h2]; decide +kernel

/-- C37 fails: with a single point the lengths are ignored. -/
theorem C37_violation_single : ∃ r, multiexpStrided intCode seqSched 1 (fun _ => 0) (fun _ => 0) (fun _ => 1)
      (fun i => if i % 8 = 0 then 1 else 0) 8 1 1 (fun _ => 0) = some r ∧ r = 1 ∧
    (∑ i ∈ Finset.range 1 with i / 1 < ((fun _ => 0 : Nat → BitVec 64) (i % 1)).toNat,
      scalarVal (fun i => if i % 8 = 0 then 1 else 0) 8 i • (1 : ℤ)) = 0 := by
  obtain ⟨r, h1, h2⟩ := pmeRun_rel (n := 1) (bases := fun _ => (1 : ℤ)) (a := fun _ => (1 : ℤ)) intCode_sound seqSched_valid (by norm_num)
    (fun _ _ => rfl) (stridedInc 1 (fun _ => 0)) (fun _ => 0) (fun _ => 0) (fun i => if i % 8 = 0 then 1 else 0)
    (scalarSize := 8) (by norm_num) (by norm_num) (by decide)
  refine ⟨r, by rw [multiexpStrided, if_neg (by omega), h1], ?_, by decide +kernel⟩
  rw [h2]; decide +kernel

/-! ## C38 -/

/-- C38 for scalars below `2^(8*size-2)`, which covers every residue of the BN254 scalar field in 32 bytes.  Missing: larger scalars,
for which a carry out of the last window is lost (`C38_msm_value` says exactly when, `C38_violation` is a case). -/
theorem C38_msm_partial (hG : G.Sound D DA) (hσ : σ.Valid nThreads) (ha : ∀ i < n, DA (bases i) (a i)) (hn : n < 2 ^ 31)
    (memM memC : Nat → P) (memS : Nat → ℤ) (scalars : Nat → BitVec 8) {scalarSize : Nat} (hs : 8 ≤ scalarSize) (hs' : scalarSize < 2 ^ 28)
    (hsc : ∀ i < n, scalarVal scalars scalarSize i < 2 ^ (8 * scalarSize - 2)) :
    ∃ r, msmRun G σ memM memC memS bases scalars scalarSize n = some r ∧
      D r (∑ i ∈ Finset.range n, scalarVal scalars scalarSize i • a i) := by
  unfold msmRun
  by_cases e0 : n = 0
  · rw [if_pos e0]; exact ⟨_, rfl, by subst e0; simpa using hG.zero⟩
  rw [if_neg e0]
  by_cases e1 : n = 1
  · rw [if_pos e1]
    obtain ⟨r, hr, hd⟩ := hG.mulByScalar (ha 0 (by omega)) (scalarBytes scalars scalarSize 0)
      (fun e => by have := scalarBytes_length scalars scalarSize 0; rw [e] at this; simp at this; omega)
      (by rw [scalarBytes_length]; exact hs')
    exact ⟨r, hr, by subst e1; simpa [scalarVal] using hd⟩
  rw [if_neg e1, if_neg (by omega)]
  have hr := msmBitsPerChunk_range n scalarSize
  refine ⟨_, rfl, ?_⟩
  have := msmMain_rel hG hσ (by omega) (hr.2.trans (by norm_num)) hs ha scalars memM memC memS
  convert this using 1
  refine Finset.sum_congr rfl fun i hi => ?_
  rw [msmCarry_zero]
  · simp
  · exact hr.1
  · have h1 := hsc i (Finset.mem_range.mp hi)
    have hbnd : scalarSize * 8 ≤ msmChunkCount scalarSize (msmBitsPerChunk n scalarSize) * msmBitsPerChunk n scalarSize := by
      have h1 := Nat.lt_mul_div_succ (scalarSize * 8 - 1) (show 0 < msmBitsPerChunk n scalarSize by omega)
      rw [msmChunkCount, mul_comm _ (msmBitsPerChunk n scalarSize)]; exact Nat.le_of_pred_lt h1
    have h2 : (2 : Nat) ^ (scalarSize * 8) = 4 * 2 ^ (8 * scalarSize - 2) := by
      rw [show (4 : Nat) = 2 ^ 2 by norm_num, ← pow_add]; congr 1; omega
    have h3 : (2 : Nat) ^ (scalarSize * 8) ≤ _ := Nat.pow_le_pow_right (by norm_num) hbnd
    omega

/-- What the code computes for every scalar: scalar `s` acts as `s - 2^(b*m)` exactly when `s` exceeds the largest number whose `m`
windows of `b` bits are all at most `2^(b-1)-1`, that is when `(2^b-1)*s > (2^(b-1)-1)*(2^(b*m)-1)`; `b` is the window width chosen
and `m = ⌈8*size/b⌉`. -/
theorem C38_msm_value (hG : G.Sound D DA) (hσ : σ.Valid nThreads) (ha : ∀ i < n, DA (bases i) (a i)) (hn : n < 2 ^ 31) (hn2 : 2 ≤ n)
    (memM memC : Nat → P) (memS : Nat → ℤ) (scalars : Nat → BitVec 8) {scalarSize : Nat} (hs : 8 ≤ scalarSize) (_hs' : scalarSize < 2 ^ 28) :
    ∃ r b m, msmRun G σ memM memC memS bases scalars scalarSize n = some r ∧ 3 ≤ b ∧ b ≤ 16 ∧ m = (8 * scalarSize + b - 1) / b ∧
      D r (∑ i ∈ Finset.range n, ((scalarVal scalars scalarSize i : ℤ) -
        if (2 ^ b - 1) * scalarVal scalars scalarSize i > (2 ^ (b - 1) - 1) * (2 ^ (m * b) - 1) then 2 ^ (m * b) else 0) • a i) := by
  have hr := msmBitsPerChunk_range n scalarSize
  unfold msmRun
  rw [if_neg (by omega), if_neg (by omega), if_neg (by omega)]
  generalize msmBitsPerChunk n scalarSize = b at hr ⊢
  refine ⟨_, b, msmChunkCount scalarSize b, rfl, hr.1, hr.2, ?_, ?_⟩
  · rw [msmChunkCount, show 8 * scalarSize + b - 1 = (scalarSize * 8 - 1) + b by omega, Nat.add_div_right _ (by omega)]
  have := msmMain_rel hG hσ (by omega) (hr.2.trans (by norm_num)) hs ha scalars memM memC memS
  convert this using 1
  refine Finset.sum_congr rfl fun i hi => congrArg (fun z : ℤ => ((scalarVal scalars scalarSize i : ℤ) - z) • a i) ?_
  have hbnd : scalarSize * 8 ≤ msmChunkCount scalarSize b * b := by
    have h1 := Nat.lt_mul_div_succ (scalarSize * 8 - 1) (show 0 < b by omega)
    rw [msmChunkCount, mul_comm _ b]; exact Nat.le_of_pred_lt h1
  have hlt : scalarVal scalars scalarSize i < 2 ^ (msmChunkCount scalarSize b * b) :=
    lt_of_lt_of_le (scalarVal_lt _ _ _) (Nat.pow_le_pow_right (by norm_num) hbnd)
  rw [msmCarry_iff _ _ (by omega), Nat.mod_eq_of_lt hlt, ← msmMax_closed]
  have hpos : 0 < 2 ^ b - 1 := by
    have : 2 ^ 3 ≤ 2 ^ b := Nat.pow_le_pow_right (by norm_num) hr.1
    omega
  by_cases h : scalarVal scalars scalarSize i > msmMax b (msmChunkCount scalarSize b)
  · rw [if_pos h, if_pos (Nat.mul_lt_mul_of_pos_left h hpos)]; simp
  · rw [if_neg h, if_neg (by intro h'; exact h (Nat.lt_of_mul_lt_mul_left h'))]; simp

/-- Three BN254-sized scalars. -/
example : ∃ r, msmRun intCode altSched (fun _ => 77) (fun _ => 78) (fun _ => 79) (fun i => (i : ℤ) - 2)
      (fun i => if i % 32 = 31 then 0x2F else BitVec.ofNat 8 i) 32 3 = some r ∧
    r = ∑ i ∈ Finset.range 3, scalarVal (fun i => if i % 32 = 31 then 0x2F else BitVec.ofNat 8 i) 32 i • ((i : ℤ) - 2) :=
  C38_msm_partial intCode_sound altSched_valid (fun _ _ => rfl) (by norm_num) _ _ _ _ (by norm_num) (by norm_num) (by decide +kernel)

/-- C38 fails: two points, 9-byte scalars equal to `2^72-1`; the code returns -2 times the point instead of `2^73-2` times. -/
theorem C38_violation : ∃ r, msmRun intCode seqSched (fun _ => 0) (fun _ => 0) (fun _ => 0) (fun _ => 1) (fun _ => 0xFF) 9 2 = some r ∧
    r = -2 ∧ ∑ i ∈ Finset.range 2, scalarVal (fun _ => 0xFF) 9 i • (1 : ℤ) = 2 ^ 73 - 2 := by
  have := msmMain_rel (n := 2) (b := 3) (size := 9) (bases := fun _ => (1 : ℤ)) (a := fun _ => (1 : ℤ)) intCode_sound seqSched_valid
    (by norm_num) (by norm_num) (by norm_num) (fun _ _ => rfl) (fun _ => 0xFF) (fun _ => 0) (fun _ => 0) (fun _ => 0)
  refine ⟨_, ?_, this.trans ?_, by decide +kernel⟩
  · rw [msmRun, if_neg (by norm_num), if_neg (by norm_num), if_neg (by norm_num), show msmBitsPerChunk 2 9 = 3 by decide +kernel]
  · decide +kernel

/-! ## C39 -/

/-- C39. -/
theorem C39_agree (hG : G.Sound D DA) (hσ : σ.Valid nThreads) (hT : 1 ≤ nThreads) (hσ' : σ'.Valid nThreads') (ha : ∀ i < n, DA (bases i) (a i))
    (hn : n < 2 ^ 31) (mem mem' memM memC : Nat → P) (memS : Nat → ℤ) (scalars : Nat → BitVec 8) {scalarSize : Nat} (hs : 8 ≤ scalarSize) (hs' : scalarSize < 2 ^ 28)
    (hsc : ∀ i < n, scalarVal scalars scalarSize i < 2 ^ (8 * scalarSize - 2)) :
    ∃ r r' x, multiexp G σ nThreads mem mem' bases scalars scalarSize n = some r ∧
      msmRun G σ' memM memC memS bases scalars scalarSize n = some r' ∧ D r x ∧ D r' x := by
  obtain ⟨r, h1, h2⟩ := C36_multiexp hG hσ hT ha mem mem' scalars hs hs'
  obtain ⟨r', h1', h2'⟩ := C38_msm_partial hG hσ' ha hn memM memC memS scalars hs hs' hsc
  exact ⟨r, r', _, h1, h1', h2, h2'⟩

/-- C39 on the curve: `eq` accepts the two results. -/
theorem C39_agree_curve {K : Type} [Field K] [DecidableEq K] {a b : K} (hb : b ≠ 0) {bases : Nat → PtA K} {Q : Nat → Curve.GPoint a b}
    (hσ : σ.Valid nThreads) (hT : 1 ≤ nThreads) (hσ' : σ'.Valid nThreads') (hQ : ∀ i < n, Curve.ARep (bases i) (Q i))
    (hn : n < 2 ^ 31) (mem mem' memM memC : Nat → Pt K) (memS : Nat → ℤ) (scalars : Nat → BitVec 8) {scalarSize : Nat} (hs : 8 ≤ scalarSize) (hs' : scalarSize < 2 ^ 28)
    (hsc : ∀ i < n, scalarVal scalars scalarSize i < 2 ^ (8 * scalarSize - 2)) :
    ∃ r r', multiexp (Curve.code a) σ nThreads mem mem' bases scalars scalarSize n = some r ∧
      msmRun (Curve.code a) σ' memM memC memS bases scalars scalarSize n = some r' ∧ Curve.eq r r' = true := by
  obtain ⟨r, h1, h2⟩ := C36_multiexp_curve hb hσ hT hQ mem mem' scalars hs hs'
  obtain ⟨r', h1', h2'⟩ := C38_msm_partial (Curve.code_sound' hb) hσ' hQ hn memM memC memS scalars hs hs' hsc
  exact ⟨r, r', h1, by rw [← h1']; exact (msmRun_memz (Curve.code a) Curve.zero _ _ _ _ _ _ _ _).symm, (Curve.eq_iff h2 h2'.1 h2'.2).mpr rfl⟩

example : ∃ r r' x, multiexp intCode altSched 2 (fun _ => 5) (fun _ => 6) (fun i => (i : ℤ) + 1) (fun _ => 7) 8 4 = some r ∧
    msmRun intCode seqSched (fun _ => 1) (fun _ => 2) (fun _ => 3) (fun i => (i : ℤ) + 1) (fun _ => 7) 8 4 = some r' ∧ r = x ∧ r' = x :=
  C39_agree intCode_sound altSched_valid (by norm_num) seqSched_valid (fun _ _ => rfl) (by norm_num) _ _ _ _ _ _ (by norm_num) (by norm_num) (by decide +kernel)

/-! ## C47 -/

/-- C47, 32-bit: `2^k ≤ v < 2^(k+1)` for the returned `k`. -/
theorem C47_log2 (v : BitVec 32) (hv : v ≠ 0) : 2 ^ log2w v ≤ v.toNat ∧ v.toNat < 2 ^ (log2w v + 1) := by
  have hv0 : v.toNat ≠ 0 := fun e => hv (BitVec.eq_of_toNat_eq (by simpa using e))
  rw [log2w_eq v hv]
  exact ⟨Nat.log2_self_le hv0, Nat.lt_log2_self⟩

/-- C47, FFT: the same for 64-bit numbers; zero is refused. -/
theorem C47_fftLog2 (n : BitVec 64) : (n = 0 → fftLog2 n = none) ∧
    (n ≠ 0 → ∃ k, fftLog2 n = some k ∧ 2 ^ k ≤ n.toNat ∧ n.toNat < 2 ^ (k + 1)) := by
  refine ⟨fun h => by rw [fftLog2, if_pos h], fun hn => ?_⟩
  have hn0 : n.toNat ≠ 0 := fun e => hn (BitVec.eq_of_toNat_eq (by simpa using e))
  exact ⟨_, fftLog2_eq n hn, Nat.log2_self_le hn0, Nat.lt_log2_self⟩

example : log2w 0x80000001 = 31 ∧ log2w 7 = 2 ∧ fftLog2 0x8000000000000000 = some 63 := by decide +kernel

end FF.Props
