import Verif.Multiexp

/-!
# Windowed signed multi-scalar multiplication: `c/msm.hpp`, `c/msm.cpp`

Arrays are functions from indices with arbitrary initial contents, as in `Multiexp.lean`.  `int` and `int32_t` values stay within
`[-2^16, 2^31)`, so they are integers.  `parallelFor` is a schedule; C44 shows that the thread pool produces a valid one.
-/

set_option linter.unusedSimpArgs false
set_option linter.unusedSectionVars false

namespace FF

variable {P PA : Type}

/-- `calcChunkCount`, `msm.hpp:37-39`. -/
def msmChunkCount (scalarSize bitsPerChunk : Nat) : Nat := (scalarSize * 8 - 1) / bitsPerChunk + 1

/-- `calcAddsCount`, `msm.hpp:17-20`.  No wrap-around for fewer than `2^31` points and scalars of fewer than `2^24` bytes. -/
def msmAddsCount (nPoints scalarSize bitsPerChunk : Nat) : Nat :=
  msmChunkCount scalarSize bitsPerChunk * (nPoints + 1 <<< bitsPerChunk + bitsPerChunk + 1)

/-- `calcBitsPerChunk`, `msm.hpp:22-35`: the state is `(bitsPerChunk, minAdds)`. -/
def msmBitsPerChunk (n scalarSize : Nat) : Nat :=
  ((List.range' 4 13).foldl (fun (s : Nat × Nat) k =>
    let curAdds := msmAddsCount n scalarSize k
    if curAdds < s.2 then (k, curAdds) else s) (3, msmAddsCount n scalarSize 3)).1

/-- `calcBucketCount`, `msm.hpp:41-43`. -/
def msmBucketCount (bitsPerChunk : Nat) : Nat := 1 <<< (bitsPerChunk - 1)

/-- Body of the loop over the chunks of one scalar, `msm.cpp:51-62`; the state is `(carry, slicedScalars)`. -/
def msmSliceStep (scalars : Nat → BitVec 8) (scalarSize b nChunks nBuckets i : Nat) (s : Nat × (Nat → ℤ)) (j : Nat) : Nat × (Nat → ℤ) :=
  let bucketIndex : Nat := getChunk scalars scalarSize b i j + s.1
  if bucketIndex ≥ nBuckets then (1, Function.update s.2 (i * nChunks + j) (bucketIndex - nBuckets * 2))
  else (0, Function.update s.2 (i * nChunks + j) bucketIndex)

/-- Slicing of all the scalars, `msm.cpp:46-64`. -/
def msmSlice (σ : Sched) (scalars : Nat → BitVec 8) (scalarSize b nChunks nBuckets n : Nat) (sl : Nat → ℤ) : Nat → ℤ :=
  (σ [0] 0 n).foldl (fun sl e => ((List.range nChunks).foldl (msmSliceStep scalars scalarSize b nChunks nBuckets e.1) (0, sl)).2) sl

/-- Body of the loop over the points, `msm.cpp:76-85`; `off` is the offset of `buckets` in `bucketMatrix`. -/
def msmBucketStep (G : GroupCode P PA) (bases : Nat → PA) (sl : Nat → ℤ) (nChunks j off : Nat) (m : Nat → P) (i : Nat) : Nat → P :=
  let bucketIndex := sl (i * nChunks + j)
  if bucketIndex > 0 then
    let k := off + (bucketIndex - 1).toNat
    Function.update m k (G.addMix (m k) (bases i))
  else if bucketIndex < 0 then
    let k := off + (-bucketIndex - 1).toNat
    Function.update m k (G.subMix (m k) (bases i))
  else m

/-- The loop `for (i = nBuckets-2; i >= 0; i--)`, `msm.cpp:92-95`: iterations left, `t`, `tmp`. -/
def msmSum (G : GroupCode P PA) (buckets : Nat → P) : Nat → P → P → P
  | 0, t, _ => t
  | i + 1, t, tmp =>
    let tmp := G.add tmp (buckets i)
    let t := G.add t tmp
    msmSum G buckets i t tmp

/-- Body of the loop over the chunks, `msm.cpp:68-98`; the state is `(bucketMatrix, chunks)`, `e` is the chunk and its thread. -/
def msmChunkOne (G : GroupCode P PA) (bases : Nat → PA) (sl : Nat → ℤ) (nChunks nBuckets n : Nat) (s : (Nat → P) × (Nat → P)) (e : Nat × Nat) :
    (Nat → P) × (Nat → P) :=
  let off := e.2 * nBuckets
  let m := (List.range nBuckets).foldl (fun m i => Function.update m (off + i) G.zero) s.1
  let m := (List.range n).foldl (msmBucketStep G bases sl nChunks e.1 off) m
  let t := m (off + (nBuckets - 1))
  (m, Function.update s.2 e.1 (msmSum G (fun i => m (off + i)) (nBuckets - 1) t t))

/-- `MSM::run` for two or more points with `bitsPerChunk = b`, `msm.cpp:37-107`. -/
def msmMain (G : GroupCode P PA) (σ : Sched) (memM memC : Nat → P) (memS : Nat → ℤ)
    (bases : Nat → PA) (scalars : Nat → BitVec 8) (scalarSize n b : Nat) : P :=
  let nChunks := msmChunkCount scalarSize b
  let nBuckets := msmBucketCount b
  let sl := msmSlice σ scalars scalarSize b nChunks nBuckets n memS
  let s := (σ [1] 0 nChunks).foldl (msmChunkOne G bases sl nChunks nBuckets n) (memM, memC)
  G.combine b s.2 (nChunks - 1) (s.2 (nChunks - 1))

/-- `MSM::run`, `msm.cpp:5-108`, without the `MSM_BITS_PER_CHUNK` override (that build is `MsmAtP`).  `memM memC memS`: contents of the uninitialised arrays.
`none`: read outside the scalar array (as in `pmeRun`), or a point count that does not fit the `int` arguments of `parallelFor`. -/
def msmRun (G : GroupCode P PA) (σ : Sched) (memM memC : Nat → P) (memS : Nat → ℤ)
    (bases : Nat → PA) (scalars : Nat → BitVec 8) (scalarSize n : Nat) : Option P :=
  if n = 0 then some G.zero
  else if n = 1 then G.mulByScalar (bases 0) (scalarBytes scalars scalarSize 0)
  else if scalarSize < 8 ∨ n ≥ 2 ^ 31 then none
  else some (msmMain G σ memM memC memS bases scalars scalarSize n (msmBitsPerChunk n scalarSize))

/-! ## Signed digits -/

/-- The carry after `j` windows of width `b` of `v`. -/
def msmCarry (v b : Nat) : Nat → Nat
  | 0 => 0
  | j + 1 => if v / 2 ^ (j * b) % 2 ^ b + msmCarry v b j ≥ 2 ^ (b - 1) then 1 else 0

/-- The `j`-th signed digit. -/
def msmDigit (v b j : Nat) : ℤ :=
  (v / 2 ^ (j * b) % 2 ^ b + msmCarry v b j : Nat) - (msmCarry v b (j + 1) : ℤ) * 2 ^ b

theorem msmCarry_le (v b j : Nat) : msmCarry v b j ≤ 1 := by
  cases j with
  | zero => simp [msmCarry]
  | succ j => rw [msmCarry]; split_ifs <;> omega

theorem msmDigit_range (v b j : Nat) (hb : 1 ≤ b) : -(2 ^ (b - 1) : ℤ) ≤ msmDigit v b j ∧ msmDigit v b j < 2 ^ (b - 1) := by
  have h2 : (2 : Nat) ^ b = 2 * 2 ^ (b - 1) := by rw [← pow_succ']; congr 1; omega
  have hm := Nat.mod_lt (v / 2 ^ (j * b)) (show 0 < 2 ^ b by positivity)
  have hc := msmCarry_le v b j
  have e : ((2 : ℤ) ^ b) = ((2 ^ b : Nat) : ℤ) := by push_cast; rfl
  have e' : ((2 : ℤ) ^ (b - 1)) = ((2 ^ (b - 1) : Nat) : ℤ) := by push_cast; rfl
  unfold msmDigit
  rw [e, e', msmCarry]
  rw [h2] at *
  generalize v / 2 ^ (j * b) % (2 * 2 ^ (b - 1)) = w at *
  generalize 2 ^ (b - 1) = Q at *
  split_ifs <;> push_cast <;> omega

theorem msmDigit_sum (v b : Nat) : ∀ m, ∑ j ∈ Finset.range m, 2 ^ (j * b) * msmDigit v b j =
    (v % 2 ^ (m * b) : Nat) - (msmCarry v b m : ℤ) * 2 ^ (m * b) := by
  intro m
  induction m with
  | zero => simp [msmCarry, Nat.mod_one]
  | succ m ih =>
    rw [Finset.sum_range_succ, ih, Nat.succ_mul, pow_add 2 (m * b) b, Nat.mod_mul, msmDigit]
    push_cast
    rw [pow_add]
    ring

/-- The largest value all of whose windows yield no final carry: every digit equal to `2^(b-1)-1`. -/
def msmMax (b : Nat) : Nat → Nat
  | 0 => 0
  | m + 1 => msmMax b m + 2 ^ (m * b) * (2 ^ (b - 1) - 1)

theorem msmCarry_iff (v b : Nat) (hb : 1 ≤ b) : ∀ m, msmCarry v b m = if v % 2 ^ (m * b) > msmMax b m then 1 else 0 := by
  intro m
  induction m with
  | zero => simp [msmCarry, msmMax, Nat.mod_one]
  | succ m ih =>
    have h2 : (2 : Nat) ^ b = 2 * 2 ^ (b - 1) := by rw [← pow_succ']; congr 1; omega
    have hQ : 0 < 2 ^ (b - 1) := by positivity
    have hmax : msmMax b m < 2 ^ (m * b) := by
      clear ih
      induction m with
      | zero => simp [msmMax]
      | succ m ih =>
        rw [msmMax, Nat.succ_mul, pow_add]
        calc msmMax b m + 2 ^ (m * b) * (2 ^ (b - 1) - 1) < 2 ^ (m * b) + 2 ^ (m * b) * (2 ^ (b - 1) - 1) := by omega
          _ = 2 ^ (m * b) * (1 + (2 ^ (b - 1) - 1)) := by ring
          _ ≤ 2 ^ (m * b) * 2 ^ b := Nat.mul_le_mul_left _ (by omega)
    rw [msmCarry, ih, msmMax, Nat.succ_mul, pow_add 2 (m * b) b, Nat.mod_mul]
    have hr := Nat.mod_lt v (show 0 < 2 ^ (m * b) by positivity)
    generalize v / 2 ^ (m * b) % 2 ^ b = w
    generalize v % 2 ^ (m * b) = u at *
    generalize 2 ^ (m * b) = X at *
    generalize 2 ^ (b - 1) = Q at *
    generalize msmMax b m = M at *
    by_cases h1 : w + 1 ≤ Q - 1
    · have : X * (w + 1) ≤ X * (Q - 1) := Nat.mul_le_mul_left _ h1
      have e : X * (w + 1) = X * w + X := by ring
      rw [if_neg (show ¬ (u + X * w > M + X * (Q - 1)) by omega), if_neg]
      split_ifs <;> omega
    · by_cases h3 : w = Q - 1
      · subst h3
        by_cases h4 : u > M
        · rw [if_pos h4, if_pos (by omega), if_pos (by omega)]
        · rw [if_neg h4, if_neg (by omega), if_neg (by omega)]
      · have h5 : Q ≤ w := by omega
        have : X * Q ≤ X * w := Nat.mul_le_mul_left _ h5
        have e : X * Q = X * (Q - 1) + X := by
          conv_lhs => rw [show Q = (Q - 1) + 1 by omega]
          ring
        rw [if_pos (show u + X * w > M + X * (Q - 1) by omega), if_pos (show _ ≥ Q by omega)]

theorem msmMax_closed (b : Nat) : ∀ m, (2 ^ b - 1) * msmMax b m = (2 ^ (b - 1) - 1) * (2 ^ (m * b) - 1) := by
  intro m
  have hb : 1 ≤ 2 ^ b := Nat.one_le_two_pow
  induction m with
  | zero => simp [msmMax]
  | succ m ih =>
    rw [msmMax, mul_add, ih, Nat.succ_mul, pow_add 2 (m * b) b]
    have hX : 1 ≤ 2 ^ (m * b) := Nat.one_le_two_pow
    have hXB : 1 ≤ 2 ^ (m * b) * 2 ^ b := Nat.one_le_iff_ne_zero.mpr (by positivity)
    zify [hX, hXB, hb]
    ring

/-- With windows of at least three bits, a value below a quarter of the range leaves no carry. -/
theorem msmCarry_zero (v b m : Nat) (hb : 3 ≤ b) (hv : 4 * v < 2 ^ (m * b)) : msmCarry v b m = 0 := by
  rw [msmCarry_iff v b (by omega), if_neg]
  have h1 := msmMax_closed b m
  have h2 : (2 : Nat) ^ b = 2 * 2 ^ (b - 1) := by rw [← pow_succ']; congr 1; omega
  have h3 : (4 : Nat) ≤ 2 ^ (b - 1) := by
    calc 4 = 2 ^ 2 := rfl
      _ ≤ 2 ^ (b - 1) := Nat.pow_le_pow_right (by norm_num) (by omega)
  rw [Nat.mod_eq_of_lt (by omega)]
  rw [h2] at h1
  generalize 2 ^ (b - 1) = Q at *
  generalize 2 ^ (m * b) = X at *
  generalize msmMax b m = M at *
  intro h
  by_cases hX1 : X = 1
  · subst hX1; omega
  have hX0 : 1 ≤ X := by omega
  obtain ⟨q, rfl⟩ : ∃ q, Q = q + 4 := ⟨Q - 4, by omega⟩
  obtain ⟨x, rfl⟩ : ∃ x, X = x + 1 := ⟨X - 1, by omega⟩
  have e1 : 2 * (q + 4) - 1 = 2 * q + 7 := by omega
  have e2 : q + 4 - 1 = q + 3 := by omega
  rw [e1, e2, Nat.add_sub_cancel] at h1
  -- 4 (M + 1) ≤ x, so 4 (q+3) x = 4 (2q+7) M ≤ (2q+7) (x - 4)
  have h4 : 4 * (M + 1) ≤ x := by omega
  nlinarith [Nat.mul_le_mul_left (2 * q + 7) h4]

/-! ## Slices -/

theorem msmSlice_inner (sc : Nat → BitVec 8) (size b nC i : Nat) (hb : 1 ≤ b)
    (hget : ∀ j < nC, getChunk sc size b i j = scalarVal sc size i / 2 ^ (j * b) % 2 ^ b) (sl : Nat → ℤ) : ∀ m, m ≤ nC →
    let r := (List.range m).foldl (msmSliceStep sc size b nC (msmBucketCount b) i) (0, sl)
    r.1 = msmCarry (scalarVal sc size i) b m ∧
    (∀ j < m, r.2 (i * nC + j) = msmDigit (scalarVal sc size i) b j) ∧
    ∀ k, (∀ j < nC, k ≠ i * nC + j) → r.2 k = sl k := by
  intro m
  have h2 : (2 : Nat) ^ b = 2 ^ (b - 1) * 2 := by rw [← pow_succ]; congr 1; omega
  have hbc : msmBucketCount b = 2 ^ (b - 1) := by rw [msmBucketCount, Nat.shiftLeft_eq, one_mul]
  induction m with
  | zero => intro _; exact ⟨rfl, by simp, fun _ _ => rfl⟩
  | succ m ih =>
    intro hm
    obtain ⟨i1, i2, i3⟩ := ih (by omega)
    simp only [List.range_succ, List.foldl_append, List.foldl_cons, List.foldl_nil]
    generalize (List.range m).foldl (msmSliceStep sc size b nC (msmBucketCount b) i) (0, sl) = r at *
    have hd : msmDigit (scalarVal sc size i) b m = if getChunk sc size b i m + r.1 ≥ msmBucketCount b
        then ((getChunk sc size b i m + r.1 : Nat) : ℤ) - (msmBucketCount b : ℤ) * 2 else ((getChunk sc size b i m + r.1 : Nat) : ℤ) := by
      rw [msmDigit, msmCarry, ← hget m (by omega), ← i1, hbc]
      split_ifs
      · have : ((2 : ℤ) ^ b) = ((2 ^ b : Nat) : ℤ) := by push_cast; rfl
        rw [this, h2]; push_cast; ring
      · simp
    have hc : (msmSliceStep sc size b nC (msmBucketCount b) i r m).1 = msmCarry (scalarVal sc size i) b (m + 1) := by
      rw [msmCarry, ← hget m (by omega), ← i1, ← hbc]
      unfold msmSliceStep
      simp only []
      split_ifs <;> rfl
    have hs : (msmSliceStep sc size b nC (msmBucketCount b) i r m).2 =
        Function.update r.2 (i * nC + m) (msmDigit (scalarVal sc size i) b m) := by
      rw [hd]
      unfold msmSliceStep
      simp only []
      split_ifs <;> rfl
    refine ⟨hc, fun j hj => ?_, fun k hk => ?_⟩
    · rw [hs]
      by_cases e : j = m
      · subst e; rw [Function.update_self]
      · rw [Function.update_of_ne (by omega)]; exact i2 j (by omega)
    · rw [hs, Function.update_of_ne (hk m (by omega))]; exact i3 k hk

theorem msmSlice_eq {σ : Sched} {nT : Nat} (hσ : σ.Valid nT) (sc : Nat → BitVec 8) (size b nC n : Nat) (hb : 1 ≤ b)
    (hget : ∀ i, ∀ j < nC, getChunk sc size b i j = scalarVal sc size i / 2 ^ (j * b) % 2 ^ b) (sl : Nat → ℤ) :
    ∀ i < n, ∀ j < nC, msmSlice σ sc size b nC (msmBucketCount b) n sl (i * nC + j) = msmDigit (scalarVal sc size i) b j := by
  intro i hi j hj
  have hm := hσ.mem_fst (tag := [0]) (Nat.zero_le i) hi
  unfold msmSlice
  revert hm
  generalize σ [0] 0 n = l
  have key : ∀ (l : List (Nat × Nat)) (sl : Nat → ℤ), (i ∈ l.map Prod.fst ∨ sl (i * nC + j) = msmDigit (scalarVal sc size i) b j) →
      l.foldl (fun sl e => ((List.range nC).foldl (msmSliceStep sc size b nC (msmBucketCount b) e.1) (0, sl)).2) sl (i * nC + j) =
        msmDigit (scalarVal sc size i) b j := by
    intro l
    induction l with
    | nil => intro sl h; simpa using h
    | cons e l ih =>
      intro sl h
      rw [List.foldl_cons]
      apply ih
      obtain ⟨-, h2, h3⟩ := msmSlice_inner sc size b nC e.1 hb (hget e.1) sl nC le_rfl
      by_cases e1 : i = e.1
      · right; rw [e1]; exact h2 j hj
      · rw [List.map_cons, List.mem_cons] at h
        rcases h with (h | h) | h
        · exact absurd h e1
        · exact Or.inl h
        · right; rw [h3 _ _, h]
          intro j' hj' e2
          exact e1 (PME.idx_inj hj hj' e2).1
  exact fun hm => key l sl (Or.inl hm)

/-! ## Buckets -/

section
variable {A : Type} [AddCommGroup A] {G : GroupCode P PA} {D : P → A → Prop} {DA : PA → A → Prop}

/-- What a digit contributes to bucket `v`. -/
def bucketContrib (d : ℤ) (v : Nat) (x : A) : A := if d = v + 1 then x else if d = -(v + 1 : ℤ) then -x else 0

theorem msmBuckets_zero (hG : G.Sound D DA) (off : Nat) (nB : Nat) (m : Nat → P) :
    ∀ v < nB, D ((List.range nB).foldl (fun m i => Function.update m (off + i) G.zero) m (off + v)) 0 := by
  induction nB with
  | zero => intro v hv; omega
  | succ nB ih =>
    intro v hv
    rw [List.range_succ, List.foldl_append, List.foldl_cons, List.foldl_nil]
    by_cases e : v = nB
    · subst e; rw [Function.update_self]; exact hG.zero
    · rw [Function.update_of_ne (by omega)]; exact ih v (by omega)

theorem msmBuckets_fold (hG : G.Sound D DA) {bases : Nat → PA} {a : Nat → A} {sl : Nat → ℤ} {nC j off nB n : Nat}
    (hd : ∀ i < n, -(nB : ℤ) ≤ sl (i * nC + j) ∧ sl (i * nC + j) ≤ nB) (ha : ∀ i < n, DA (bases i) (a i)) (m : Nat → P)
    (h : ∀ v < nB, D (m (off + v)) 0) : ∀ k, k ≤ n → ∀ v < nB,
    D ((List.range k).foldl (msmBucketStep G bases sl nC j off) m (off + v)) (∑ i ∈ Finset.range k, bucketContrib (sl (i * nC + j)) v (a i)) := by
  intro k
  induction k with
  | zero => intro _ v hv; simpa using h v hv
  | succ k ih =>
    intro hk v hv
    have ih' := ih (by omega)
    rw [List.range_succ, List.foldl_append, List.foldl_cons, List.foldl_nil, Finset.sum_range_succ]
    generalize (List.range k).foldl (msmBucketStep G bases sl nC j off) m = m1 at *
    have hdk := hd k (by omega)
    have hak := ha k (by omega)
    unfold msmBucketStep
    simp only []
    unfold bucketContrib
    generalize sl (k * nC + j) = d at *
    by_cases h1 : d > 0
    · rw [if_pos h1]
      by_cases e : d = v + 1
      · rw [if_pos e]
        have e2 : (d - 1).toNat = v := by omega
        rw [e2, Function.update_self]
        exact hG.addMix (ih' v hv) hak
      · rw [if_neg e, if_neg (show ¬ d = -(v + 1 : ℤ) by omega), add_zero]
        rw [Function.update_of_ne (by omega)]
        exact ih' v hv
    · rw [if_neg h1]
      rw [if_neg (show ¬ d = v + 1 by omega)]
      by_cases h2 : d < 0
      · rw [if_pos h2]
        by_cases e : d = -(v + 1 : ℤ)
        · rw [if_pos e]
          have e2 : (-d - 1).toNat = v := by omega
          rw [e2, Function.update_self, ← sub_eq_add_neg]
          exact hG.subMix (ih' v hv) hak
        · rw [if_neg e, add_zero, Function.update_of_ne (by omega)]
          exact ih' v hv
      · rw [if_neg h2, if_neg (by omega), add_zero]
        exact ih' v hv

theorem msmSum_rel (hG : G.Sound D DA) {buckets : Nat → P} {β : Nat → A} : ∀ i {t tmp : P} {x y : A},
    (∀ v < i, D (buckets v) (β v)) → D t x → D tmp y →
    D (msmSum G buckets i t tmp) (x + i • y + ∑ v ∈ Finset.range i, (v + 1) • β v) := by
  intro i
  induction i with
  | zero => intro t tmp x y _ h1 h2; simpa [msmSum] using h1
  | succ i ih =>
    intro t tmp x y hb h1 h2
    have ht := hG.add h2 (hb i (by omega))
    have := ih (fun v hv => hb v (by omega)) (hG.add h1 ht) ht
    rw [msmSum]
    convert this using 1
    rw [Finset.sum_range_succ]
    simp only [add_smul, one_smul, smul_add]
    abel

theorem msmSum_all (hG : G.Sound D DA) {buckets : Nat → P} {β : Nat → A} {nB : Nat} (hB : 1 ≤ nB) (h : ∀ v < nB, D (buckets v) (β v)) :
    D (msmSum G buckets (nB - 1) (buckets (nB - 1)) (buckets (nB - 1))) (∑ v ∈ Finset.range nB, (v + 1) • β v) := by
  have := msmSum_rel hG (nB - 1) (fun v hv => h v (by omega)) (h (nB - 1) (by omega)) (h (nB - 1) (by omega))
  convert this using 1
  conv_lhs => rw [show nB = nB - 1 + 1 by omega, Finset.sum_range_succ, add_smul, one_smul]
  abel

theorem bucketContrib_sum {d : ℤ} {nB : Nat} (hd : -(nB : ℤ) ≤ d ∧ d ≤ nB) (x : A) :
    ∑ v ∈ Finset.range nB, (v + 1) • bucketContrib d v x = d • x := by
  unfold bucketContrib
  by_cases h1 : d > 0
  · rw [Finset.sum_eq_single (d - 1).toNat]
    · rw [if_pos (by omega), ← natCast_zsmul]
      congr 1; push_cast; omega
    · intro v _ hv
      rw [if_neg (by omega), if_neg (by omega), smul_zero]
    · intro h; exfalso; apply h; rw [Finset.mem_range]; omega
  · by_cases h2 : d < 0
    · rw [Finset.sum_eq_single (-d - 1).toNat]
      · rw [if_neg (by omega), if_pos (by omega), ← natCast_zsmul, smul_neg, ← neg_smul]
        congr 1; push_cast; omega
      · intro v _ hv
        rw [if_neg (by omega), if_neg (by omega), smul_zero]
      · intro h; exfalso; apply h; rw [Finset.mem_range]; omega
    · have : d = 0 := by omega
      rw [this, zero_smul]
      apply Finset.sum_eq_zero
      intro v _
      rw [if_neg (by omega), if_neg (by omega), smul_zero]

theorem msmChunkOne_rel (hG : G.Sound D DA) {bases : Nat → PA} {a : Nat → A} {sl : Nat → ℤ} {nC nB n : Nat} (hB : 1 ≤ nB) (e : Nat × Nat)
    (hd : ∀ i < n, -(nB : ℤ) ≤ sl (i * nC + e.1) ∧ sl (i * nC + e.1) ≤ nB) (ha : ∀ i < n, DA (bases i) (a i)) (s : (Nat → P) × (Nat → P)) :
    D ((msmChunkOne G bases sl nC nB n s e).2 e.1) (∑ i ∈ Finset.range n, sl (i * nC + e.1) • a i) := by
  unfold msmChunkOne
  simp only [Function.update_self]
  have h1 := msmBuckets_fold hG hd ha _ (msmBuckets_zero hG (e.2 * nB) nB s.1) n le_rfl
  have h2 := msmSum_all hG hB h1
  convert h2 using 1
  simp only [Finset.smul_sum]
  rw [Finset.sum_comm]
  exact Finset.sum_congr rfl fun i hi => (bucketContrib_sum (hd i (Finset.mem_range.mp hi)) _).symm

theorem msmChunks_rel (hG : G.Sound D DA) {σ : Sched} {nT : Nat} (hσ : σ.Valid nT) {bases : Nat → PA} {a : Nat → A} {sl : Nat → ℤ} {nC nB n : Nat} (hB : 1 ≤ nB)
    (hd : ∀ i < n, ∀ j < nC, -(nB : ℤ) ≤ sl (i * nC + j) ∧ sl (i * nC + j) ≤ nB) (ha : ∀ i < n, DA (bases i) (a i)) (s : (Nat → P) × (Nat → P)) :
    ∀ j < nC, D (((σ [1] 0 nC).foldl (msmChunkOne G bases sl nC nB n) s).2 j) (∑ i ∈ Finset.range n, sl (i * nC + j) • a i) := by
  intro j hj
  have hm := hσ.mem_fst (tag := [1]) (Nat.zero_le j) hj
  have hlt : ∀ e ∈ σ [1] 0 nC, e.1 < nC := fun e he => (hσ.mem he).2.1
  revert hm hlt
  generalize σ [1] 0 nC = l
  have key : ∀ (l : List (Nat × Nat)) (s : (Nat → P) × (Nat → P)), (∀ e ∈ l, e.1 < nC) →
      (j ∈ l.map Prod.fst ∨ D (s.2 j) (∑ i ∈ Finset.range n, sl (i * nC + j) • a i)) →
      D ((l.foldl (msmChunkOne G bases sl nC nB n) s).2 j) (∑ i ∈ Finset.range n, sl (i * nC + j) • a i) := by
    intro l
    induction l with
    | nil => intro s _ h; simpa using h
    | cons e l ih =>
      intro s hl h
      rw [List.foldl_cons]
      apply ih _ (fun e he => hl e (by simp [he]))
      by_cases e1 : j = e.1
      · right; rw [e1]; exact msmChunkOne_rel hG hB e (fun i hi => hd i hi e.1 (hl e (by simp))) ha s
      · rw [List.map_cons, List.mem_cons] at h
        rcases h with (h | h) | h
        · exact absurd h e1
        · exact Or.inl h
        · right
          unfold msmChunkOne
          simp only [Function.update_of_ne e1]
          exact h
  exact fun hm hlt => key l s hlt (Or.inl hm)

/-- The value computed, for every scalar: each scalar minus its final carry. -/
theorem msmMain_rel (hG : G.Sound D DA) {σ : Sched} {nT : Nat} (hσ : σ.Valid nT) {bases : Nat → PA} {a : Nat → A} {n b size : Nat}
    (hb : 1 ≤ b) (hb' : b ≤ 30) (hs : 8 ≤ size) (ha : ∀ i < n, DA (bases i) (a i)) (scalars : Nat → BitVec 8) (memM memC : Nat → P) (memS : Nat → ℤ) :
    D (msmMain G σ memM memC memS bases scalars size n b) (∑ i ∈ Finset.range n,
      ((scalarVal scalars size i : ℤ) - (msmCarry (scalarVal scalars size i) b (msmChunkCount size b) : ℤ) * 2 ^ (msmChunkCount size b * b)) • a i) := by
  set nC := msmChunkCount size b with hnC
  have hjb : ∀ j < nC, j * b < size * 8 := by
    intro j hj
    have h1 : j ≤ (size * 8 - 1) / b := Nat.le_of_lt_succ hj
    have := (Nat.le_div_iff_mul_le (by omega)).mp h1
    omega
  have hbnd : size * 8 ≤ nC * b := by
    have h1 := Nat.lt_mul_div_succ (size * 8 - 1) (show 0 < b by omega)
    rw [hnC, msmChunkCount, mul_comm _ b]; exact Nat.le_of_pred_lt h1
  have hget : ∀ i, ∀ j < nC, getChunk scalars size b i j = scalarVal scalars size i / 2 ^ (j * b) % 2 ^ b :=
    fun i j hj => getChunk_eq _ _ _ _ _ hs (by omega) (hjb j hj)
  have hsl := msmSlice_eq hσ scalars size b nC n hb hget memS
  have hbc : msmBucketCount b = 2 ^ (b - 1) := by rw [msmBucketCount, Nat.shiftLeft_eq, one_mul]
  have hB : 1 ≤ msmBucketCount b := by rw [hbc]; exact Nat.one_le_two_pow
  have hd : ∀ i < n, ∀ j < nC,
      -(msmBucketCount b : ℤ) ≤ msmSlice σ scalars size b nC (msmBucketCount b) n memS (i * nC + j) ∧
      msmSlice σ scalars size b nC (msmBucketCount b) n memS (i * nC + j) ≤ msmBucketCount b := by
    intro i hi j hj
    rw [hsl i hi j hj, hbc]
    have := msmDigit_range (scalarVal scalars size i) b j hb
    push_cast
    exact ⟨this.1, this.2.le⟩
  have h1 := msmChunks_rel hG hσ hB hd ha (memM, memC)
  have h2 := hG.combine_all (b := b) (show 1 ≤ nC from Nat.le_add_left _ _) h1
  unfold msmMain
  convert h2 using 1
  simp only [Finset.smul_sum]
  rw [Finset.sum_comm]
  refine Finset.sum_congr rfl fun i hi => ?_
  have e : ∀ j ∈ Finset.range nC, 2 ^ (j * b) • msmSlice σ scalars size b nC (msmBucketCount b) n memS (i * nC + j) • a i =
      ((2 ^ (j * b) : ℤ) * msmDigit (scalarVal scalars size i) b j) • a i := by
    intro j hj
    rw [hsl i (Finset.mem_range.mp hi) j (Finset.mem_range.mp hj), ← natCast_zsmul, ← mul_smul]
    push_cast; rfl
  rw [Finset.sum_congr rfl e, ← Finset.sum_smul, msmDigit_sum, Nat.mod_eq_of_lt]
  exact lt_of_lt_of_le (scalarVal_lt _ _ _) (Nat.pow_le_pow_right (by norm_num) hbnd)

end

/-! ## `MSM` does not use the all-zero point -/

theorem dblN_memz (G : GroupCode P PA) (z : P) : ∀ k p, ({ G with memz := z } : GroupCode P PA).dblN k p = G.dblN k p := by
  intro k
  induction k with
  | zero => intro p; rfl
  | succ k ih => intro p; exact ih _

theorem combine_memz (G : GroupCode P PA) (z : P) (b : Nat) (res : Nat → P) : ∀ m r,
    ({ G with memz := z } : GroupCode P PA).combine b res m r = G.combine b res m r := by
  intro m
  induction m with
  | zero => intro r; rfl
  | succ m ih => intro r; rw [GroupCode.combine, ih, dblN_memz]; rfl

theorem msmSum_memz (G : GroupCode P PA) (z : P) (bk : Nat → P) : ∀ i t tmp,
    msmSum ({ G with memz := z } : GroupCode P PA) bk i t tmp = msmSum G bk i t tmp := by
  intro i
  induction i with
  | zero => intro t tmp; rfl
  | succ i ih => intro t tmp; rw [msmSum, ih]; rfl

theorem msmRun_memz (G : GroupCode P PA) (z : P) (σ : Sched) (memM memC : Nat → P) (memS : Nat → ℤ) (bases : Nat → PA)
    (scalars : Nat → BitVec 8) (size n : Nat) : msmRun ({ G with memz := z } : GroupCode P PA) σ memM memC memS bases scalars size n =
      msmRun G σ memM memC memS bases scalars size n := by
  have h : ∀ sl nC nB, msmChunkOne ({ G with memz := z } : GroupCode P PA) bases sl nC nB n = msmChunkOne G bases sl nC nB n := by
    intro sl nC nB
    funext s e
    unfold msmChunkOne
    simp only [msmSum_memz]
    rfl
  unfold msmRun msmMain
  simp only [h, combine_memz]
  rfl

theorem msmBitsPerChunk_range (n size : Nat) : 3 ≤ msmBitsPerChunk n size ∧ msmBitsPerChunk n size ≤ 16 := by
  unfold msmBitsPerChunk
  have key : ∀ (l : List Nat) (s : Nat × Nat), (∀ k ∈ l, 3 ≤ k ∧ k ≤ 16) → 3 ≤ s.1 ∧ s.1 ≤ 16 →
      3 ≤ (l.foldl (fun (s : Nat × Nat) k =>
        let curAdds := msmAddsCount n size k
        if curAdds < s.2 then (k, curAdds) else s) s).1 ∧ (l.foldl (fun (s : Nat × Nat) k =>
        let curAdds := msmAddsCount n size k
        if curAdds < s.2 then (k, curAdds) else s) s).1 ≤ 16 := by
    intro l
    induction l with
    | nil => intro s _ h; exact h
    | cons k l ih =>
      intro s hl h
      rw [List.foldl_cons]
      apply ih _ (fun k hk => hl k (by simp [hk]))
      simp only []
      split_ifs
      · exact hl k (by simp)
      · exact h
  apply key
  · intro k hk; rw [List.mem_range'_1] at hk; omega
  · simp

end FF
