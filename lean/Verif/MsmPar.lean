import Verif.MultiexpPar
import Verif.Msm

/-!
# `c/msm.cpp` with interleaved threads

The two `parallelFor` loops of `MSM::run` as `Omp.For`: loads and stores of different threads interleave in any order, and the ranges
may be handed to the threads in any way (`Omp.assign_calls`: those of the thread pool are one way).  `MsmP.lin`: each such run gives
the result of `msmMain` under some valid schedule.

First loop: one cell per element of `slicedScalars`.  Second loop: `bucketMatrix[k]` is cell `2k` and `chunks[j]` is cell `2j+1`;
`slicedScalars` and the bases are only read by then (`parallelFor` returns after all its calls).
-/

set_option linter.unusedSectionVars false

namespace FF

namespace Msm

open Par PME

variable {P PA : Type}

/-- Body of the first loop, `msm.cpp:48-63`; the local is `carry`. -/
def sliceBody (scalars : Nat → BitVec 8) (scalarSize b nChunks nBuckets : Nat) (_t i : Nat) : List (Act Nat ℤ) :=
  (fun p => (0, p.2)) :: (List.range nChunks).map fun j p =>
    let bucketIndex : Nat := getChunk scalars scalarSize b i j + p.1
    if bucketIndex ≥ nBuckets then (1, Function.update p.2 (i * nChunks + j) (bucketIndex - nBuckets * 2))
    else (0, Function.update p.2 (i * nChunks + j) bucketIndex)

/-- One point of the bucket loop, `msm.cpp:76-85`; with the digit zero nothing happens. -/
def bucketActs (G : GroupCode P PA) (bases : Nat → PA) (sl : Nat → ℤ) (nChunks j off i : Nat) : List (Act (PLoc P) P) :=
  let bucketIndex := sl (i * nChunks + j)
  if bucketIndex > 0 then
    let k := off + (bucketIndex - 1).toNat
    [ld (fun l x => { l with u := x }) (acc k), stIf (fun _ => true) (acc k) (fun l => G.addMix l.u (bases i))]
  else if bucketIndex < 0 then
    let k := off + (-bucketIndex - 1).toNat
    [ld (fun l x => { l with u := x }) (acc k), stIf (fun _ => true) (acc k) (fun l => G.subMix l.u (bases i))]
  else [id, id]

/-- The loop `for (i = nBuckets-2; i >= 0; i--)`, `msm.cpp:92-95`; `t` and `tmp` are the locals `t` and `w`. -/
def sumActs (G : GroupCode P PA) (off : Nat) : Nat → List (Act (PLoc P) P)
  | 0 => []
  | i + 1 => ld (fun l x => { l with t := G.add l.t (G.add l.w x), w := G.add l.w x }) (acc (off + i)) :: sumActs G off i

/-- Body of the second loop, `msm.cpp:68-98`. -/
def chunkBody (G : GroupCode P PA) (bases : Nat → PA) (sl : Nat → ℤ) (nChunks nBuckets n t j : Nat) : List (Act (PLoc P) P) :=
  let off := t * nBuckets
  (List.range nBuckets).flatMap (fun i => [stIf (fun _ => true) (acc (off + i)) (fun _ => G.zero)]) ++
  ((List.range n).flatMap (bucketActs G bases sl nChunks j off) ++
  (ld (fun l x => { l with t := x, w := x }) (acc (off + (nBuckets - 1))) ::
  (sumActs G off (nBuckets - 1) ++ [stIf (fun _ => true) (sal j) (fun l => l.t)])))

/-- `MSM::run` for two or more points with `bitsPerChunk = b`, `msm.cpp:37-107`; `mem` holds the fresh `bucketMatrix` and `chunks`, `memS`
the fresh `slicedScalars`. -/
def MsmP (G : GroupCode P PA) (nThreads : Nat) (mem : Nat → P) (memS : Nat → ℤ) (bases : Nat → PA) (scalars : Nat → BitVec 8)
    (scalarSize n b : Nat) (r : P) : Prop :=
  let nChunks := msmChunkCount scalarSize b
  let nBuckets := msmBucketCount b
  ∃ sl, Omp.For nThreads 0 n (sliceBody scalars scalarSize b nChunks nBuckets) memS sl ∧
  ∃ m1, Omp.For nThreads 0 nChunks (chunkBody G bases sl nChunks nBuckets n) mem m1 ∧
    r = G.combine b (sallOf m1) (nChunks - 1) (sallOf m1 (nChunks - 1))

/-! ## Footprints -/

theorem slice_disjoint {scalars : Nat → BitVec 8} {scalarSize b nC nB nT n : Nat} :
    Omp.Disjoint nT 0 n (fun _ i k => ∃ j < nC, k = i * nC + j) (fun _ => False) (sliceBody scalars scalarSize b nC nB) where
  dis := by
    rintro t t' i i' k _ _ _ _ _ _ _ hne ⟨j, hj, rfl⟩ ⟨j', hj', h⟩
    exact hne (PME.idx_inj hj hj' h).1
  ro := fun _ _ _ _ _ _ _ => id
  foot := by
    intro t i _ _ _ a ha
    rw [sliceBody, List.mem_cons, List.mem_map] at ha
    rcases ha with rfl | ⟨j, hj, rfl⟩
    · exact ⟨fun _ _ _ _ => rfl, fun _ _ _ h => ⟨rfl, fun c hc => h c (Or.inl hc)⟩⟩
    · have hj := List.mem_range.1 hj
      refine ⟨fun l m k hk => ?_, fun l m m' h => ?_⟩
      · have : k ≠ i * nC + j := fun e => hk ⟨j, hj, e⟩
        dsimp only
        split <;> exact Function.update_of_ne this _ _
      · dsimp only
        split
        · refine ⟨rfl, fun k hk => ?_⟩
          by_cases e : k = i * nC + j
          · subst e; simp
          · simp only [Function.update_of_ne e]; exact h k (Or.inl hk)
        · refine ⟨rfl, fun k hk => ?_⟩
          by_cases e : k = i * nC + j
          · subst e; simp
          · simp only [Function.update_of_ne e]; exact h k (Or.inl hk)

theorem sumActs_mem {G : GroupCode P PA} {off : Nat} : ∀ {n : Nat} {a : Act (PLoc P) P}, a ∈ sumActs G off n →
    ∃ i < n, ∃ f, a = ld f (acc (off + i)) := by
  intro n
  induction n with
  | zero => intro a h; simp [sumActs] at h
  | succ n ih =>
    intro a h
    rw [sumActs, List.mem_cons] at h
    rcases h with rfl | h
    · exact ⟨n, Nat.lt_succ_self n, _, rfl⟩
    · obtain ⟨i, hi, f, rfl⟩ := ih h
      exact ⟨i, Nat.lt_succ_of_lt hi, f, rfl⟩

/-- The digits name buckets. -/
def Digits (sl : Nat → ℤ) (n nC nB : Nat) : Prop := ∀ i < n, ∀ j < nC, -(nB : ℤ) ≤ sl (i * nC + j) ∧ sl (i * nC + j) ≤ nB

theorem chunk_disjoint {G : GroupCode P PA} {bases : Nat → PA} {sl : Nat → ℤ} {nC nB nT n : Nat} (hB : 1 ≤ nB) (hsl : Digits sl n nC nB) :
    Omp.Disjoint nT 0 nC (fun t j k => (∃ v < nB, k = acc (t * nB + v)) ∨ k = sal j) (fun _ => False) (chunkBody G bases sl nC nB n) where
  dis := by
    rintro t t' j j' k _ _ _ _ _ _ hne hne' (⟨v, hv, rfl⟩ | rfl) (⟨v', hv', h⟩ | h)
    · exact hne (PME.idx_inj hv hv' (by simp only [acc] at h; omega)).1
    · simp only [acc, sal] at h; omega
    · simp only [acc, sal] at h; omega
    · simp only [sal] at h; omega
  ro := fun _ _ _ _ _ _ _ => id
  foot := by
    intro t j _ _ hj a ha
    have hin : ∀ v, v < nB → (∃ v' < nB, acc (t * nB + v) = acc (t * nB + v')) ∨ acc (t * nB + v) = sal j := fun v hv => Or.inl ⟨v, hv, rfl⟩
    simp only [chunkBody, List.mem_append, List.mem_cons, List.mem_flatMap, List.not_mem_nil, or_false] at ha
    rcases ha with ⟨i, hi, rfl⟩ | ⟨i, hi, ha⟩ | rfl | ha | rfl
    · exact foot_stIf (hin i (List.mem_range.1 hi))
    · have hd := hsl i (List.mem_range.1 hi) j hj
      unfold bucketActs at ha
      simp only [] at ha
      split at ha
      · have := hin (sl (i * nC + j) - 1).toNat (by omega)
        simp only [List.mem_cons, List.not_mem_nil, or_false] at ha
        rcases ha with rfl | rfl
        · exact foot_ld this
        · exact foot_stIf this
      split at ha
      · have := hin (-sl (i * nC + j) - 1).toNat (by omega)
        simp only [List.mem_cons, List.not_mem_nil, or_false] at ha
        rcases ha with rfl | rfl
        · exact foot_ld this
        · exact foot_stIf this
      · simp only [List.mem_cons, List.not_mem_nil, or_false, or_self] at ha
        subst ha
        exact ⟨fun _ _ _ _ => rfl, fun _ _ _ h => ⟨rfl, fun k hk => h k (Or.inl hk)⟩⟩
    · exact foot_ld (hin _ (by omega))
    · obtain ⟨i, hi, f, rfl⟩ := sumActs_mem ha
      exact foot_ld (hin _ (by omega))
    · exact foot_stIf (Or.inr rfl)

/-! ## Whole iterations -/

theorem sliceBody_solo (scalars : Nat → BitVec 8) (scalarSize b nC nB t i l : Nat) (m : Nat → ℤ) :
    (solo (sliceBody scalars scalarSize b nC nB t i) (l, m)).2 = ((List.range nC).foldl (msmSliceStep scalars scalarSize b nC nB i) (0, m)).2 := by
  rw [sliceBody, solo, List.foldl_cons, List.foldl_map]
  rfl

theorem sumActs_solo (G : GroupCode P PA) (off : Nat) : ∀ n (l : PLoc P) (m : Nat → P),
    (solo (sumActs G off n) (l, m)).1.t = msmSum G (fun i => accsOf m (off + i)) n l.t l.w ∧ (solo (sumActs G off n) (l, m)).2 = m := by
  intro n
  induction n with
  | zero => intro l m; exact ⟨rfl, rfl⟩
  | succ n ih => intro l m; exact ih _ m

/-- One iteration of the second loop on the arrays. -/
theorem chunkBody_solo {G : GroupCode P PA} {bases : Nat → PA} {sl : Nat → ℤ} {nC nB n : Nat} (t j : Nat) (l : PLoc P) (m : Nat → P) :
    ((accsOf (solo (chunkBody G bases sl nC nB n t j) (l, m)).2), (sallOf (solo (chunkBody G bases sl nC nB n t j) (l, m)).2)) =
      msmChunkOne G bases sl nC nB n (accsOf m, sallOf m) (j, t) := by
  have z := Omp.solo_flatMap (body := fun i => [stIf (fun _ => true) (acc (t * nB + i)) (fun _ => G.zero)])
    (one := fun m i => Function.update m (acc (t * nB + i)) G.zero) (List.range nB) (fun i _ (l : PLoc P) m => by simp [solo, stIf]) l m
  set st1 := solo ((List.range nB).flatMap fun i => [stIf (fun _ => true) (acc (t * nB + i)) (fun _ => G.zero)]) (l, m) with hst1
  have az : accsOf st1.2 = (List.range nB).foldl (fun m i => Function.update m (t * nB + i) G.zero) (accsOf m) := by
    rw [z]; exact foldl_proj (f := accsOf) _ (fun i _ m => accsOf_acc m _ _) m
  have sz : sallOf st1.2 = sallOf m := by
    rw [z]
    have := foldl_proj (f := sallOf) (h := fun s _ => s) (g := fun m i => Function.update m (acc (t * nB + i)) G.zero) (List.range nB) (fun i _ m => sallOf_acc m _ _) m
    rw [this]
    exact List.foldl_fixed (List.range nB)
  have step : ∀ i ∈ List.range n, ∀ (l : PLoc P) (m : Nat → P), (solo (bucketActs G bases sl nC j (t * nB) i) (l, m)).2 =
      if sl (i * nC + j) > 0 then Function.update m (acc (t * nB + (sl (i * nC + j) - 1).toNat)) (G.addMix (m (acc (t * nB + (sl (i * nC + j) - 1).toNat))) (bases i))
      else if sl (i * nC + j) < 0 then Function.update m (acc (t * nB + (-sl (i * nC + j) - 1).toNat)) (G.subMix (m (acc (t * nB + (-sl (i * nC + j) - 1).toNat))) (bases i))
      else m := by
    intro i _ l m
    unfold bucketActs
    simp only []
    split
    · simp [solo, ld, stIf]
    split
    · simp [solo, ld, stIf]
    · rfl
  have b := Omp.solo_flatMap (body := bucketActs G bases sl nC j (t * nB)) (List.range n) step st1.1 st1.2
  set st2 := solo ((List.range n).flatMap (bucketActs G bases sl nC j (t * nB))) st1 with hst2
  have ab : accsOf st2.2 = (List.range n).foldl (msmBucketStep G bases sl nC j (t * nB)) (accsOf st1.2) := by
    rw [show st2 = solo ((List.range n).flatMap (bucketActs G bases sl nC j (t * nB))) (st1.1, st1.2) from rfl, b]
    refine foldl_proj (f := accsOf) _ (fun i _ m => ?_) st1.2
    unfold msmBucketStep
    simp only []
    split
    · rw [accsOf_acc]; rfl
    split
    · rw [accsOf_acc]; rfl
    · rfl
  have sb : sallOf st2.2 = sallOf st1.2 := by
    rw [show st2 = solo ((List.range n).flatMap (bucketActs G bases sl nC j (t * nB))) (st1.1, st1.2) from rfl, b]
    rw [foldl_proj (f := sallOf) (h := fun s _ => s) _ (fun i _ m => ?_) st1.2]
    · exact List.foldl_fixed (List.range n)
    · split
      · rw [sallOf_acc]
      split
      · rw [sallOf_acc]
      · rfl
  obtain ⟨s1, s2⟩ := sumActs_solo G (t * nB) (nB - 1) { st2.1 with t := st2.2 (acc (t * nB + (nB - 1))), w := st2.2 (acc (t * nB + (nB - 1))) } st2.2
  have e : (solo (chunkBody G bases sl nC nB n t j) (l, m)).2 = Function.update st2.2 (sal j)
      (msmSum G (fun i => accsOf st2.2 (t * nB + i)) (nB - 1) (st2.2 (acc (t * nB + (nB - 1)))) (st2.2 (acc (t * nB + (nB - 1))))) := by
    unfold chunkBody
    simp only []
    rw [Omp.solo_append, ← hst1, Omp.solo_append, ← hst2]
    show (solo (_ ++ _) _).2 = _
    rw [Omp.solo_append]
    show Function.update _ _ _ = _
    exact congrArg₂ (fun m x => Function.update m (sal j) x) s2 s1
  rw [e, accsOf_sal, sallOf_sal, show st2.2 (acc (t * nB + (nB - 1))) = accsOf st2.2 (t * nB + (nB - 1)) from rfl, ab, az, sb, sz]
  rfl

variable {G : GroupCode P PA} {nT : Nat} {mem : Nat → P} {memS : Nat → ℤ} {bases : Nat → PA} {scalars : Nat → BitVec 8} {size n b : Nat} {r : P}

theorem slice_lin {sl : Nat → ℤ} {nC nB : Nat} (h : Omp.For nT 0 n (sliceBody scalars size b nC nB) memS sl) :
    ∃ l : List (Nat × Nat), (l.map Prod.fst).Perm (List.range' 0 (n - 0)) ∧ (∀ e ∈ l, e.2 < nT) ∧
      ∀ σ : Sched, σ [0] 0 n = l → msmSlice σ scalars size b nC nB n memS = sl := by
  obtain ⟨l, h1, h2, rfl⟩ := h.lin slice_disjoint (one := fun sl e => ((List.range nC).foldl (msmSliceStep scalars size b nC nB e.1) (0, sl)).2)
    (fun t i _ _ _ l m => sliceBody_solo ..)
  exact ⟨l, h1, h2, fun σ hσ => by rw [msmSlice, hσ]⟩

theorem digits (hT : 1 ≤ nT) (hb : 1 ≤ b) (hb' : b ≤ 30) (hs : 8 ≤ size) {sl : Nat → ℤ}
    (h : Omp.For nT 0 n (sliceBody scalars size b (msmChunkCount size b) (msmBucketCount b)) memS sl) :
    Digits sl n (msmChunkCount size b) (msmBucketCount b) := by
  obtain ⟨l, l1, l2, l3⟩ := slice_lin h
  have hσ : (Sched.put seqSched [0] 0 n l).Valid nT := put_valid (seqSched_valid' hT) l1 l2
  have hjb : ∀ j < msmChunkCount size b, j * b < size * 8 := by
    intro j hj
    have h1 : j ≤ (size * 8 - 1) / b := Nat.le_of_lt_succ hj
    have := (Nat.le_div_iff_mul_le (by omega)).mp h1
    omega
  have hsl := msmSlice_eq hσ scalars size b _ n hb (fun i j hj => getChunk_eq _ _ _ _ _ hs (by omega) (hjb j hj)) memS
  rw [l3 _ (put_same _ _ _ _ _)] at hsl
  have hbc : msmBucketCount b = 2 ^ (b - 1) := by rw [msmBucketCount, Nat.shiftLeft_eq, one_mul]
  intro i hi j hj
  rw [hsl i hi j hj, hbc]
  have := msmDigit_range (scalarVal scalars size i) b j hb
  push_cast
  exact ⟨this.1, this.2.le⟩

theorem bucketCount_pos (b : Nat) : 1 ≤ msmBucketCount b := by
  rw [msmBucketCount, Nat.shiftLeft_eq, one_mul]; exact Nat.one_le_two_pow

/-- Every interleaving gives the result of the sequential model under some valid schedule. -/
theorem MsmP.lin (hT : 1 ≤ nT) (hb : 1 ≤ b) (hb' : b ≤ 30) (hs : 8 ≤ size) (h : MsmP G nT mem memS bases scalars size n b r) :
    ∃ σ : Sched, σ.Valid nT ∧ msmMain G σ (accsOf mem) (sallOf mem) memS bases scalars size n b = r := by
  obtain ⟨sl, h1, m1, h2, rfl⟩ := h
  obtain ⟨l, l1, l2, l3⟩ := slice_lin h1
  have hd := digits hT hb hb' hs h1
  obtain ⟨l', a1, a2, rfl⟩ := h2.lin (chunk_disjoint (bucketCount_pos b) hd)
    (one := fun m e => (solo (chunkBody G bases sl (msmChunkCount size b) (msmBucketCount b) n e.2 e.1) (⟨G.zero, G.zero, G.zero, G.zero⟩, m)).2)
    (fun t i ht h0 hi l m => by
      have e1 := chunkBody_solo (G := G) (bases := bases) (sl := sl) (nC := msmChunkCount size b) (nB := msmBucketCount b) (n := n) t i l m
      have e2 := chunkBody_solo (G := G) (bases := bases) (sl := sl) (nC := msmChunkCount size b) (nB := msmBucketCount b) (n := n) t i
        ⟨G.zero, G.zero, G.zero, G.zero⟩ m
      rw [← e2, Prod.mk.injEq] at e1
      funext k
      obtain ⟨q, hq | hq⟩ : ∃ q, k = 2 * q ∨ k = 2 * q + 1 := ⟨k / 2, by omega⟩
      · subst hq; exact congrFun e1.1 q
      · subst hq; exact congrFun e1.2 q)
  refine ⟨Sched.put (Sched.put seqSched [0] 0 n l) [1] 0 (msmChunkCount size b) l', put_valid (put_valid (seqSched_valid' hT) l1 l2) a1 a2, ?_⟩
  unfold msmMain
  simp only []
  rw [l3 _ (by rw [put_tag _ (by simp), put_same]), put_same]
  have e := foldl_proj (f := fun m => (accsOf m, sallOf m)) l' (fun e _ m => chunkBody_solo (G := G) (bases := bases) (sl := sl)
    (nC := msmChunkCount size b) (nB := msmBucketCount b) (n := n) e.2 e.1 ⟨G.zero, G.zero, G.zero, G.zero⟩ m) mem
  rw [Prod.mk.injEq] at e
  rw [e.2]

/-- Some execution ends. -/
theorem MsmP.exists (hT : 1 ≤ nT) (mem : Nat → P) (memS : Nat → ℤ) (bases : Nat → PA) (scalars : Nat → BitVec 8) (size n b : Nat) :
    ∃ r, MsmP G nT mem memS bases scalars size n b r := by
  obtain ⟨sl, h1⟩ := Omp.For.exists (lo := 0) (hi := n) hT (sliceBody scalars size b (msmChunkCount size b) (msmBucketCount b)) 0 memS
  obtain ⟨m1, h2⟩ := Omp.For.exists (lo := 0) (hi := msmChunkCount size b) hT (chunkBody G bases sl (msmChunkCount size b) (msmBucketCount b) n)
    ⟨G.zero, G.zero, G.zero, G.zero⟩ mem
  exact ⟨_, sl, h1, m1, h2, rfl⟩

end Msm

variable {P PA : Type}

/-- Both `multiexp` overloads after the member assignments, as a relation: `r` is the outcome of some execution (`none`: read outside
the scalar array, see `pmeRun`). -/
def PmeP (G : GroupCode P PA) (nThreads : Nat) (inc : Nat → Bool) (mem mem' : Nat → P)
    (bases : Nat → PA) (scalars : Nat → BitVec 8) (scalarSize n : Nat) (r : Option P) : Prop :=
  if n = 0 then r = some G.zero
  else if n = 1 then r = G.mulByScalar (bases 0) (scalarBytes scalars scalarSize 0)
  else if scalarSize < 8 then r = none
  else ∃ x, (⟨G, bases, scalars, scalarSize, n, nThreads, pmeBits n⟩ : PME P PA).RunP inc mem mem' x ∧ r = some x

/-- `multiexp(r, bases, scalars, scalarSize, n, nThreads)`, `multiexp.cpp:132-185`. -/
def MultiexpP (G : GroupCode P PA) (nThreads : Nat) (mem mem' : Nat → P)
    (bases : Nat → PA) (scalars : Nat → BitVec 8) (scalarSize n : Nat) (r : Option P) : Prop :=
  PmeP G nThreads (fun _ => true) mem mem' bases scalars scalarSize n r

/-- `multiexp(r, bases, scalars, scalarSize, n, nx, x, nThreads)`, `multiexp.cpp:187-243`. -/
def MultiexpStridedP (G : GroupCode P PA) (nThreads : Nat) (mem mem' : Nat → P)
    (bases : Nat → PA) (scalars : Nat → BitVec 8) (scalarSize n nX : Nat) (size : Nat → BitVec 64) (r : Option P) : Prop :=
  if n ≥ 2 ∧ nX = 0 then r = none
  else PmeP G nThreads (stridedInc nX size) mem mem' bases scalars scalarSize n r

/-- `MSM::run`, `msm.cpp:5-108`. -/
def MsmRunP (G : GroupCode P PA) (nThreads : Nat) (mem : Nat → P) (memS : Nat → ℤ)
    (bases : Nat → PA) (scalars : Nat → BitVec 8) (scalarSize n : Nat) (r : Option P) : Prop :=
  if n = 0 then r = some G.zero
  else if n = 1 then r = G.mulByScalar (bases 0) (scalarBytes scalars scalarSize 0)
  else if scalarSize < 8 ∨ n ≥ 2 ^ 31 then r = none
  else ∃ x, Msm.MsmP G nThreads mem memS bases scalars scalarSize n (msmBitsPerChunk n scalarSize) x ∧ r = some x

variable {G : GroupCode P PA} {nT : Nat} {bases : Nat → PA} {scalars : Nat → BitVec 8} {size n : Nat} {r : Option P}

theorem PmeP.lin (hT : 1 ≤ nT) {inc : Nat → Bool} {mem mem' : Nat → P} (h : PmeP G nT inc mem mem' bases scalars size n r) :
    ∃ σ : Sched, σ.Valid nT ∧ pmeRun G σ nT inc (PME.accsOf mem) mem' bases scalars size n = r := by
  have hb := pmeBits_range n
  unfold PmeP at h
  unfold pmeRun
  by_cases e0 : n = 0
  · rw [if_pos e0] at h; exact ⟨seqSched, PME.seqSched_valid' hT, by rw [if_pos e0, h]⟩
  rw [if_neg e0] at h
  by_cases e1 : n = 1
  · rw [if_pos e1] at h; exact ⟨seqSched, PME.seqSched_valid' hT, by rw [if_neg e0, if_pos e1, h]⟩
  rw [if_neg e1] at h
  by_cases e2 : size < 8
  · rw [if_pos e2] at h; exact ⟨seqSched, PME.seqSched_valid' hT, by rw [if_neg e0, if_neg e1, if_pos e2, h]⟩
  rw [if_neg e2] at h
  obtain ⟨x, hx, rfl⟩ := h
  obtain ⟨σ, hσ, e⟩ := hx.lin hT (show 1 ≤ pmeBits n by omega) hb.2 (Nat.le_of_not_lt e2)
  exact ⟨σ, hσ, by rw [if_neg e0, if_neg e1, if_neg e2, e]⟩

theorem PmeP.exists (hT : 1 ≤ nT) (inc : Nat → Bool) (mem mem' : Nat → P) : ∃ r, PmeP G nT inc mem mem' bases scalars size n r := by
  unfold PmeP
  split_ifs
  · exact ⟨_, rfl⟩
  · exact ⟨_, rfl⟩
  · exact ⟨_, rfl⟩
  · obtain ⟨x, hx⟩ := PME.RunP.exists (⟨G, bases, scalars, size, n, nT, pmeBits n⟩ : PME P PA) hT inc mem mem'
    exact ⟨_, x, hx, rfl⟩

theorem MsmRunP.lin (hT : 1 ≤ nT) {mem : Nat → P} {memS : Nat → ℤ} (h : MsmRunP G nT mem memS bases scalars size n r) :
    ∃ σ : Sched, σ.Valid nT ∧ msmRun G σ (PME.accsOf mem) (PME.sallOf mem) memS bases scalars size n = r := by
  have hb := msmBitsPerChunk_range n size
  unfold MsmRunP at h
  unfold msmRun
  by_cases e0 : n = 0
  · rw [if_pos e0] at h; exact ⟨seqSched, PME.seqSched_valid' hT, by rw [if_pos e0, h]⟩
  rw [if_neg e0] at h
  by_cases e1 : n = 1
  · rw [if_pos e1] at h; exact ⟨seqSched, PME.seqSched_valid' hT, by rw [if_neg e0, if_pos e1, h]⟩
  rw [if_neg e1] at h
  by_cases e2 : size < 8 ∨ n ≥ 2 ^ 31
  · rw [if_pos e2] at h; exact ⟨seqSched, PME.seqSched_valid' hT, by rw [if_neg e0, if_neg e1, if_pos e2, h]⟩
  rw [if_neg e2] at h
  obtain ⟨x, hx, rfl⟩ := h
  obtain ⟨σ, hσ, e⟩ := hx.lin hT (by omega) (by omega) (by omega)
  exact ⟨σ, hσ, by rw [if_neg e0, if_neg e1, if_neg e2, e]⟩

theorem MsmRunP.exists (hT : 1 ≤ nT) (mem : Nat → P) (memS : Nat → ℤ) : ∃ r, MsmRunP G nT mem memS bases scalars size n r := by
  unfold MsmRunP
  split_ifs
  · exact ⟨_, rfl⟩
  · exact ⟨_, rfl⟩
  · exact ⟨_, rfl⟩
  · obtain ⟨x, hx⟩ := Msm.MsmP.exists (G := G) hT mem memS bases scalars size n (msmBitsPerChunk n size)
    exact ⟨_, x, hx, rfl⟩

end FF
