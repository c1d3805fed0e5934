import Verif.Chunk

/-!
# Parallel multi-exponentiation: `c/multiexp.cpp`

The class members are the fields of `PME`.  The accumulator array is a function from indices (its initial contents are an arbitrary
argument); the proofs use no cell outside `nThreads*accsPerChunk`.  Parallel loops run in the order and on the threads given by a
schedule `σ`.  `idThread` is `omp_get_thread_num()`, below `nThreads` because of `ThreadLimit` (`misc.hpp`); without OpenMP it is 0 and
`nThreads` is 1.
-/

set_option linter.unusedSimpArgs false
set_option linter.unusedSectionVars false

namespace FF

/-- `class ParallelMultiexp`, `multiexp.hpp:11-37`. -/
structure PME (P PA : Type) where
  g : GroupCode P PA
  bases : Nat → PA
  scalars : Nat → BitVec 8
  scalarSize : Nat
  n : Nat
  nThreads : Nat
  bitsPerChunk : Nat

namespace PME

variable {P PA : Type} (c : PME P PA)

/-- `accsPerChunk = 1 << bitsPerChunk`, `multiexp.cpp:159`. -/
def accsPerChunk : Nat := 1 <<< c.bitsPerChunk

/-- `nChunks`, `multiexp.cpp:158`. -/
def nChunks : Nat := (c.scalarSize * 8 - 1) / c.bitsPerChunk + 1

/-- `initAccs`, `multiexp.cpp:18-23`. -/
def initAccs (σ : Sched) (accs : Nat → P) : Nat → P :=
  (σ [0] 0 (c.nThreads * c.accsPerChunk)).foldl (fun accs e => Function.update accs e.1 c.g.zero) accs

/-- Body of the loop of `processChunk`, `multiexp.cpp:43-55` and `61-76`: iteration `e.1` on thread `e.2`.  `inc i` is the test of the
strided version that lets point `i` through (`multiexp.cpp:62-64`); constant `true` in the plain version. -/
def processOne (inc : Nat → Bool) (idChunk : Nat) (accs : Nat → P) (e : Nat × Nat) : Nat → P :=
  if ¬ inc e.1 then accs
  else if c.g.isZeroA (c.bases e.1) then accs
  else
    let chunkValue := getChunk c.scalars c.scalarSize c.bitsPerChunk e.1 idChunk
    if chunkValue ≠ 0 then
      let k := e.2 * c.accsPerChunk + chunkValue
      Function.update accs k (c.g.addMix (accs k) (c.bases e.1))
    else accs

/-- `processChunk`, `multiexp.cpp:40-56` and `58-77`. -/
def processChunk (σ : Sched) (inc : Nat → Bool) (idChunk : Nat) (accs : Nat → P) : Nat → P :=
  (σ [idChunk, 0] 0 c.n).foldl (c.processOne inc idChunk) accs

/-- Body of the inner loop of `packThreads`, `multiexp.cpp:85-88`. -/
def packOne (i : Nat) (accs : Nat → P) (j : Nat) : Nat → P :=
  if ¬ c.g.isZero (accs (j * c.accsPerChunk + i)) then
    let accs := Function.update accs i (c.g.add (accs i) (accs (j * c.accsPerChunk + i)))
    Function.update accs (j * c.accsPerChunk + i) c.g.zero
  else accs

/-- `packThreads`, `multiexp.cpp:80-91`. -/
def packThreads (σ : Sched) (idChunk : Nat) (accs : Nat → P) : Nat → P :=
  (σ [idChunk, 1] 0 c.accsPerChunk).foldl (fun accs e => (List.range' 1 (c.nThreads - 1)).foldl (c.packOne e.1) accs) accs

/-- Body of the parallel loop of `reduce`, `multiexp.cpp:107-117`; the state is `accs` and `sall`. -/
def reduceOne (ndiv2 : Nat) (s : (Nat → P) × (Nat → P)) (e : Nat × Nat) : (Nat → P) × (Nat → P) :=
  if ¬ c.g.isZero (s.1 (ndiv2 + e.1)) then
    let accs := Function.update s.1 e.1 (c.g.add (s.1 e.1) (s.1 (ndiv2 + e.1)))
    let sall := Function.update s.2 e.2 (c.g.add (s.2 e.2) (accs (ndiv2 + e.1)))
    let accs := Function.update accs (ndiv2 + e.1) c.g.zero
    (accs, sall)
  else s

/-- `reduce`, `multiexp.cpp:93-130`, with `nBits = k + 1` (the code calls it with `nBits ≥ 2`, and itself with `nBits ≥ 1`).  Returns
`res` and the array. -/
def reduce (σ : Sched) (idChunk : Nat) : Nat → (Nat → P) → P × (Nat → P)
  | 0, accs => (accs 1, Function.update accs 1 c.g.zero)
  | k + 1, accs =>
    let ndiv2 := 1 <<< (k + 1)
    let s := (σ [idChunk, 2, k] 1 ndiv2).foldl (c.reduceOne ndiv2) (accs, fun _ => c.g.memz)
    let accs := (List.range c.nThreads).foldl (fun accs i => Function.update accs ndiv2 (c.g.add (accs ndiv2) (s.2 i))) s.1
    let p1 := reduce σ idChunk k accs
    let accs := p1.2
    let accs := Function.update accs ndiv2 (c.g.dblN (k + 1) (accs ndiv2))
    (c.g.add p1.1 (accs ndiv2), Function.update accs ndiv2 c.g.zero)

/-- Body of the loop over chunks, `multiexp.cpp:166-174`; the state is `accs` and `chunkResults`. -/
def chunkOne (σ : Sched) (inc : Nat → Bool) (s : (Nat → P) × (Nat → P)) (i : Nat) : (Nat → P) × (Nat → P) :=
  let accs := c.processChunk σ inc i s.1
  let accs := c.packThreads σ i accs
  let r := c.reduce σ i (c.bitsPerChunk - 1) accs
  (r.2, Function.update s.2 i r.1)

/-- The part of both `multiexp` overloads for `n ≥ 2`, `multiexp.cpp:161-184` and `218-242`.  `mem` and `mem'` are the contents of the
freshly allocated, uninitialised arrays. -/
def run (σ : Sched) (inc : Nat → Bool) (mem mem' : Nat → P) : P :=
  let accs := c.initAccs σ mem
  let s := (List.range c.nChunks).foldl (c.chunkOne σ inc) (accs, mem')
  c.g.combine c.bitsPerChunk s.2 (c.nChunks - 1) (s.2 (c.nChunks - 1))

end PME

variable {P PA : Type}

/-- `bitsPerChunk`, `multiexp.cpp:154-157` and `213-215`; `PME2_PACK_FACTOR` is 2, the bounds are 2 and 16 (`multiexp.hpp:4-6`). -/
def pmeBits (n : Nat) : Nat :=
  let bitsPerChunk := log2w (BitVec.ofNat 32 (n / 2))
  let bitsPerChunk := if bitsPerChunk > 16 then 16 else bitsPerChunk
  if bitsPerChunk < 2 then 2 else bitsPerChunk

/-- `g.mulByScalar(r, bases[0], scalars, scalarSize)`, `curve.hpp:119-121`, `exp.hpp:6-28`. -/
def GroupCode.mulByScalar (G : GroupCode P PA) (base : PA) (scalar : List (BitVec 8)) : Option P :=
  nafMulByScalar G.zero G.dbl G.addMix G.subMix base scalar

/-- Both `multiexp` overloads after the member assignments, for scalars of fewer than `2^28` bytes (above that `mulByScalar` truncates the
size to 32 bits, and the `int j` of lines 179 and 237 can overflow).  `none`: a read outside the scalar array, which happens for a scalar size
of 0 with one point, and below 8 with two or more (`scalarSize-8` wraps and `getChunk` reads eight bytes). -/
def pmeRun (G : GroupCode P PA) (σ : Sched) (nThreads : Nat) (inc : Nat → Bool) (mem mem' : Nat → P)
    (bases : Nat → PA) (scalars : Nat → BitVec 8) (scalarSize n : Nat) : Option P :=
  if n = 0 then some G.zero
  else if n = 1 then G.mulByScalar (bases 0) (scalarBytes scalars scalarSize 0)
  else if scalarSize < 8 then none
  else some ((⟨G, bases, scalars, scalarSize, n, nThreads, pmeBits n⟩ : PME P PA).run σ inc mem mem')

/-- `multiexp(r, bases, scalars, scalarSize, n, nThreads)`, `multiexp.cpp:132-185`. -/
def multiexp (G : GroupCode P PA) (σ : Sched) (nThreads : Nat) (mem mem' : Nat → P)
    (bases : Nat → PA) (scalars : Nat → BitVec 8) (scalarSize n : Nat) : Option P :=
  pmeRun G σ nThreads (fun _ => true) mem mem' bases scalars scalarSize n

/-- The test of the strided `processChunk`, `multiexp.cpp:62-64`: `mod` and `len` are `uint` (32 bits), the product is 64-bit. -/
def stridedInc (nX : Nat) (size : Nat → BitVec 64) (i : Nat) : Bool :=
  let mod : BitVec 32 := BitVec.ofNat 32 (i % nX)
  let len : BitVec 32 := (size mod.toNat - 1).setWidth 32
  ¬ (i > (len.setWidth 64 * BitVec.ofNat 64 nX + mod.setWidth 64).toNat)

/-- `multiexp(r, bases, scalars, scalarSize, n, nx, x, nThreads)`, `multiexp.cpp:187-243`; `none` also for the division by zero
when `nx = 0` and there are two or more points. -/
def multiexpStrided (G : GroupCode P PA) (σ : Sched) (nThreads : Nat) (mem mem' : Nat → P)
    (bases : Nat → PA) (scalars : Nat → BitVec 8) (scalarSize n nX : Nat) (size : Nat → BitVec 64) : Option P :=
  if 2 ≤ n ∧ nX = 0 then none
  else pmeRun G σ nThreads (stridedInc nX size) mem mem' bases scalars scalarSize n

/-! ## Proofs -/

namespace PME

variable {A : Type} [AddCommGroup A] {c : PME P PA} {D : P → A → Prop} {DA : PA → A → Prop}

/-- The cells below `N` stand for the values `α`. -/
def Rel (D : P → A → Prop) (N : Nat) (accs : Nat → P) (α : Nat → A) : Prop := ∀ k < N, D (accs k) (α k)

theorem Rel.update {N : Nat} {accs : Nat → P} {α : Nat → A} (h : Rel D N accs α) (k : Nat) {p : P} {x : A} (hp : D p x) :
    Rel D N (Function.update accs k p) (Function.update α k x) := by
  intro j hj
  by_cases e : j = k
  · subst e; simpa using hp
  · simpa [e] using h j hj

/-- Column sums over the threads. -/
def col (nT apc : Nat) (α : Nat → A) (v : Nat) : A := ∑ t ∈ Finset.range nT, α (t * apc + v)

theorem idx_inj {apc t v t' v' : Nat} (hv : v < apc) (hv' : v' < apc) (h : t * apc + v = t' * apc + v') : t = t' ∧ v = v' := by
  have h1 : (t * apc + v) / apc = t := by
    rw [mul_comm, Nat.mul_add_div (by omega), Nat.div_eq_of_lt hv, add_zero]
  have h2 : (t' * apc + v') / apc = t' := by
    rw [mul_comm, Nat.mul_add_div (by omega), Nat.div_eq_of_lt hv', add_zero]
  have : t = t' := by rw [← h1, ← h2, h]
  subst this
  exact ⟨rfl, by omega⟩

theorem idx_lt {apc t v nT : Nat} (ht : t < nT) (hv : v < apc) : t * apc + v < nT * apc := by
  have : (t + 1) * apc ≤ nT * apc := Nat.mul_le_mul_right _ ht
  rw [Nat.succ_mul] at this; omega

theorem col_update {nT apc : Nat} {α : Nat → A} {t v w : Nat} (ht : t < nT) (hv : v < apc) (hw : w < apc) (x : A) :
    col nT apc (Function.update α (t * apc + v) (α (t * apc + v) + x)) w = col nT apc α w + if w = v then x else 0 := by
  unfold col
  by_cases e : w = v
  · subst e
    rw [if_pos rfl, ← Finset.add_sum_erase _ _ (Finset.mem_range.mpr ht), ← Finset.add_sum_erase _ _ (Finset.mem_range.mpr ht)]
    rw [Function.update_self]
    have : ∑ s ∈ (Finset.range nT).erase t, Function.update α (t * apc + w) (α (t * apc + w) + x) (s * apc + w)
        = ∑ s ∈ (Finset.range nT).erase t, α (s * apc + w) := by
      apply Finset.sum_congr rfl
      intro s hs
      rw [Function.update_of_ne]
      intro e
      exact (Finset.mem_erase.mp hs).1 (idx_inj hv hv e).1
    rw [this]; abel
  · rw [if_neg e, add_zero]
    apply Finset.sum_congr rfl
    intro s hs
    rw [Function.update_of_ne]
    intro e'
    exact e (idx_inj hw hv e').2

theorem initAccs_rel (hG : c.g.Sound D DA) {σ : Sched} (hσ : σ.Valid c.nThreads) (accs : Nat → P) :
    Rel D (c.nThreads * c.accsPerChunk) (c.initAccs σ accs) (fun _ => 0) := by
  intro k hk
  have hm := hσ.mem_fst (tag := [0]) (Nat.zero_le k) hk
  unfold initAccs
  revert hm
  generalize σ [0] 0 (c.nThreads * c.accsPerChunk) = l
  have key : ∀ (l : List (Nat × Nat)) (accs : Nat → P), (k ∈ l.map Prod.fst ∨ D (accs k) 0) →
      D (l.foldl (fun accs e => Function.update accs e.1 c.g.zero) accs k) 0 := by
    intro l
    induction l with
    | nil => intro accs h; simpa using h
    | cons e l ih =>
      intro accs h
      rw [List.foldl_cons]
      apply ih
      by_cases e1 : k = e.1
      · right; rw [e1, Function.update_self]; exact hG.zero
      · rw [Function.update_of_ne e1]
        rw [List.map_cons, List.mem_cons] at h
        tauto
  exact fun hm => key l accs (Or.inl hm)

theorem processChunk_fold (hG : c.g.Sound D DA) {a : Nat → A} (inc : Nat → Bool) (idChunk : Nat) (ha : ∀ i < c.n, DA (c.bases i) (a i))
    (hch : ∀ i, getChunk c.scalars c.scalarSize c.bitsPerChunk i idChunk < c.accsPerChunk) : ∀ (l : List (Nat × Nat)) (accs : Nat → P) (α : Nat → A),
    (∀ e ∈ l, e.1 < c.n ∧ e.2 < c.nThreads) → Rel D (c.nThreads * c.accsPerChunk) accs α →
    ∃ α', Rel D (c.nThreads * c.accsPerChunk) (l.foldl (c.processOne inc idChunk) accs) α' ∧
      ∀ v < c.accsPerChunk, col c.nThreads c.accsPerChunk α' v = col c.nThreads c.accsPerChunk α v +
        (l.map fun e => if inc e.1 ∧ v ≠ 0 ∧ getChunk c.scalars c.scalarSize c.bitsPerChunk e.1 idChunk = v then a e.1 else 0).sum := by
  intro l
  induction l with
  | nil => intro accs α _ h; exact ⟨α, h, by simp⟩
  | cons e l ih =>
    intro accs α hl h
    have he := hl e (by simp)
    have step : ∃ α1, Rel D (c.nThreads * c.accsPerChunk) (c.processOne inc idChunk accs e) α1 ∧
        ∀ v < c.accsPerChunk, col c.nThreads c.accsPerChunk α1 v = col c.nThreads c.accsPerChunk α v +
          if inc e.1 ∧ v ≠ 0 ∧ getChunk c.scalars c.scalarSize c.bitsPerChunk e.1 idChunk = v then a e.1 else 0 := by
      unfold processOne
      by_cases h1 : inc e.1 = true
      · rw [if_neg (by simp [h1])]
        by_cases h2 : c.g.isZeroA (c.bases e.1) = true
        · rw [if_pos h2]
          have := (hG.isZeroA (ha _ he.1)).mp h2
          exact ⟨α, h, by simp [this]⟩
        · rw [if_neg h2]
          simp only []
          by_cases h3 : getChunk c.scalars c.scalarSize c.bitsPerChunk e.1 idChunk = 0
          · rw [if_neg (by simp [h3])]
            refine ⟨α, h, fun v hv => ?_⟩
            rw [if_neg, add_zero]
            rw [h3]; tauto
          · rw [if_pos h3]
            refine ⟨_, h.update _ (hG.addMix (h _ (idx_lt he.2 (hch e.1))) (ha _ he.1)), fun v hv => ?_⟩
            rw [col_update he.2 (hch e.1) hv]
            congr 1
            by_cases h4 : v = getChunk c.scalars c.scalarSize c.bitsPerChunk e.1 idChunk
            · rw [if_pos h4, if_pos]
              exact ⟨h1, by rw [h4]; exact h3, h4.symm⟩
            · rw [if_neg h4, if_neg]
              tauto
      · rw [if_pos h1]
        exact ⟨α, h, by simp [h1]⟩
    obtain ⟨α1, r1, s1⟩ := step
    obtain ⟨α2, r2, s2⟩ := ih _ α1 (fun e he => hl e (by simp [he])) r1
    refine ⟨α2, by rw [List.foldl_cons]; exact r2, fun v hv => ?_⟩
    rw [s2 v hv, s1 v hv, List.map_cons, List.sum_cons, add_assoc]

theorem packOne_rel (hG : c.g.Sound D DA) {i j : Nat} (hi : i < c.accsPerChunk) (hj : 1 ≤ j) (hj' : j < c.nThreads) {accs : Nat → P}
    {α : Nat → A} (h : Rel D (c.nThreads * c.accsPerChunk) accs α) :
    ∃ α', Rel D (c.nThreads * c.accsPerChunk) (c.packOne i accs j) α' ∧
      (∀ v < c.accsPerChunk, col c.nThreads c.accsPerChunk α' v = col c.nThreads c.accsPerChunk α v) ∧
      α' (j * c.accsPerChunk + i) = 0 ∧ ∀ k, c.accsPerChunk ≤ k → α k = 0 → α' k = 0 := by
  have hij : j * c.accsPerChunk + i < c.nThreads * c.accsPerChunk := idx_lt hj' hi
  have h0i : i < c.nThreads * c.accsPerChunk := by simpa using idx_lt (t := 0) (by omega) hi
  have hap : c.accsPerChunk ≤ j * c.accsPerChunk + i := by
    have := Nat.mul_le_mul_right c.accsPerChunk hj; omega
  unfold packOne
  by_cases h1 : c.g.isZero (accs (j * c.accsPerChunk + i)) = true
  · rw [if_neg (by simp [h1])]
    exact ⟨α, h, fun _ _ => rfl, (hG.isZero (h _ hij)).mp h1, fun _ _ h => h⟩
  · rw [if_pos h1]
    simp only []
    refine ⟨_, (h.update i (hG.add (h _ h0i) (h _ hij))).update (j * c.accsPerChunk + i) hG.zero, fun v hv => ?_,
      by rw [Function.update_self], fun k hk hk0 => ?_⟩
    · set α1 := Function.update α i (α i + α (j * c.accsPerChunk + i)) with hα1
      have e1 : (0 : A) = α1 (j * c.accsPerChunk + i) + -α (j * c.accsPerChunk + i) := by
        rw [hα1, Function.update_of_ne (by omega)]; abel
      rw [e1, col_update hj' hi hv]
      have e2 : α1 = Function.update α (0 * c.accsPerChunk + i) (α (0 * c.accsPerChunk + i) + α (j * c.accsPerChunk + i)) := by
        rw [hα1]; simp
      rw [e2, col_update (by omega) hi hv]
      split_ifs <;> abel
    · by_cases e : k = j * c.accsPerChunk + i
      · rw [e, Function.update_self]
      · rw [Function.update_of_ne e, Function.update_of_ne (by omega), hk0]

theorem packInner (hG : c.g.Sound D DA) {i : Nat} (hi : i < c.accsPerChunk) : ∀ (js : List Nat) (accs : Nat → P) (α : Nat → A),
    (∀ j ∈ js, 1 ≤ j ∧ j < c.nThreads) → Rel D (c.nThreads * c.accsPerChunk) accs α →
    ∃ α', Rel D (c.nThreads * c.accsPerChunk) (js.foldl (c.packOne i) accs) α' ∧
      (∀ v < c.accsPerChunk, col c.nThreads c.accsPerChunk α' v = col c.nThreads c.accsPerChunk α v) ∧
      (∀ j ∈ js, α' (j * c.accsPerChunk + i) = 0) ∧ ∀ k, c.accsPerChunk ≤ k → α k = 0 → α' k = 0 := by
  intro js
  induction js with
  | nil => intro accs α _ h; exact ⟨α, h, fun _ _ => rfl, by simp, fun _ _ h => h⟩
  | cons j js ih =>
    intro accs α hjs h
    have hj := hjs j (by simp)
    obtain ⟨α1, r1, s1, z1, k1⟩ := packOne_rel hG hi hj.1 hj.2 h
    obtain ⟨α2, r2, s2, z2, k2⟩ := ih _ α1 (fun j hj => hjs j (by simp [hj])) r1
    refine ⟨α2, by rw [List.foldl_cons]; exact r2, fun v hv => by rw [s2 v hv, s1 v hv], ?_, fun k hk h0 => k2 k hk (k1 k hk h0)⟩
    intro j' hj'
    rcases List.mem_cons.mp hj' with rfl | h'
    · exact k2 _ (by have := Nat.mul_le_mul_right c.accsPerChunk hj.1; omega) z1
    · exact z2 _ h'

theorem packThreads_rel (hG : c.g.Sound D DA) {σ : Sched} (hσ : σ.Valid c.nThreads) (idChunk : Nat) {accs : Nat → P} {α : Nat → A}
    (h : Rel D (c.nThreads * c.accsPerChunk) accs α) (hT : 1 ≤ c.nThreads) :
    ∃ α', Rel D (c.nThreads * c.accsPerChunk) (c.packThreads σ idChunk accs) α' ∧
      (∀ v < c.accsPerChunk, α' v = col c.nThreads c.accsPerChunk α v) ∧
      ∀ k, c.accsPerChunk ≤ k → k < c.nThreads * c.accsPerChunk → α' k = 0 := by
  have key : ∀ (l : List (Nat × Nat)) (accs : Nat → P) (α : Nat → A), (∀ e ∈ l, e.1 < c.accsPerChunk) →
      Rel D (c.nThreads * c.accsPerChunk) accs α →
      ∃ α', Rel D (c.nThreads * c.accsPerChunk) (l.foldl (fun accs e => (List.range' 1 (c.nThreads - 1)).foldl (c.packOne e.1) accs) accs) α' ∧
        (∀ v < c.accsPerChunk, col c.nThreads c.accsPerChunk α' v = col c.nThreads c.accsPerChunk α v) ∧
        (∀ i ∈ l.map Prod.fst, ∀ j, 1 ≤ j → j < c.nThreads → α' (j * c.accsPerChunk + i) = 0) ∧
        ∀ k, c.accsPerChunk ≤ k → α k = 0 → α' k = 0 := by
    intro l
    induction l with
    | nil => intro accs α _ h; exact ⟨α, h, fun _ _ => rfl, by simp, fun _ _ h => h⟩
    | cons e l ih =>
      intro accs α hl h
      obtain ⟨α1, r1, s1, z1, k1⟩ := packInner hG (hl e (by simp)) (List.range' 1 (c.nThreads - 1)) accs α
        (fun j hj => by rw [List.mem_range'_1] at hj; omega) h
      obtain ⟨α2, r2, s2, z2, k2⟩ := ih _ α1 (fun e he => hl e (by simp [he])) r1
      refine ⟨α2, by rw [List.foldl_cons]; exact r2, fun v hv => by rw [s2 v hv, s1 v hv], ?_, fun k hk h0 => k2 k hk (k1 k hk h0)⟩
      intro i hi j hj hj'
      rcases List.mem_cons.mp hi with rfl | h'
      · exact k2 _ (by have := Nat.mul_le_mul_right c.accsPerChunk hj; omega) (z1 j (by rw [List.mem_range'_1]; omega))
      · exact z2 i h' j hj hj'
  obtain ⟨α', r, s, z, -⟩ := key (σ [idChunk, 1] 0 c.accsPerChunk) accs α (fun e he => (hσ.mem he).2.1) h
  have hz : ∀ k, c.accsPerChunk ≤ k → k < c.nThreads * c.accsPerChunk → α' k = 0 := by
    intro k hk hk'
    have h0 : 0 < c.accsPerChunk := by
      by_contra h0
      have : c.accsPerChunk = 0 := by omega
      rw [this] at hk'; omega
    have hmod := Nat.mod_lt k h0
    have hdiv := Nat.div_add_mod k c.accsPerChunk
    rw [mul_comm] at hdiv
    rw [← hdiv]
    apply z _ (hσ.mem_fst (Nat.zero_le _) hmod)
    · exact (Nat.one_le_div_iff h0).mpr hk
    · exact (Nat.div_lt_iff_lt_mul h0).mpr hk'
  refine ⟨α', r, fun v hv => ?_, hz⟩
  rw [← s v hv, col, ← Finset.add_sum_erase _ _ (Finset.mem_range.mpr (show 0 < c.nThreads by omega))]
  rw [Finset.sum_eq_zero, zero_mul, zero_add, add_zero]
  intro t ht
  have ht' := Finset.mem_erase.mp ht
  have ht2 := Finset.mem_range.mp ht'.2
  exact hz _ (by have := Nat.mul_le_mul_right c.accsPerChunk (Nat.one_le_iff_ne_zero.mpr ht'.1); omega) (idx_lt ht2 hv)

theorem reduceOne_fold (hG : c.g.Sound D DA) {N nd : Nat} (hN : 2 * nd ≤ N) : ∀ (l : List (Nat × Nat)) (accs sall : Nat → P) (α β : Nat → A),
    (∀ e ∈ l, 1 ≤ e.1 ∧ e.1 < nd ∧ e.2 < c.nThreads) → (l.map Prod.fst).Nodup → Rel D N accs α → Rel D c.nThreads sall β →
    ∃ α' β', Rel D N (l.foldl (c.reduceOne nd) (accs, sall)).1 α' ∧ Rel D c.nThreads (l.foldl (c.reduceOne nd) (accs, sall)).2 β' ∧
      ∑ t ∈ Finset.range c.nThreads, β' t = ∑ t ∈ Finset.range c.nThreads, β t + (l.map fun e => α (nd + e.1)).sum ∧
      (∀ i ∈ l.map Prod.fst, α' i = α i + α (nd + i) ∧ α' (nd + i) = 0) ∧
      ∀ k, k ∉ l.map Prod.fst → (∀ i ∈ l.map Prod.fst, k ≠ nd + i) → α' k = α k := by
  intro l
  induction l with
  | nil => intro accs sall α β _ _ h h'; exact ⟨α, β, h, h', by simp, by simp, fun _ _ _ => rfl⟩
  | cons e l ih =>
    intro accs sall α β hl hnd h h'
    obtain ⟨he1, he2, he3⟩ := hl e (by simp)
    have hn1 : e.1 < N := by omega
    have hn2 : nd + e.1 < N := by omega
    have step : ∃ α1 β1, Rel D N (c.reduceOne nd (accs, sall) e).1 α1 ∧ Rel D c.nThreads (c.reduceOne nd (accs, sall) e).2 β1 ∧
        ∑ t ∈ Finset.range c.nThreads, β1 t = ∑ t ∈ Finset.range c.nThreads, β t + α (nd + e.1) ∧
        α1 e.1 = α e.1 + α (nd + e.1) ∧ α1 (nd + e.1) = 0 ∧ ∀ k, k ≠ e.1 → k ≠ nd + e.1 → α1 k = α k := by
      unfold reduceOne
      by_cases h1 : c.g.isZero (accs (nd + e.1)) = true
      · rw [if_neg (by simp [h1])]
        have := (hG.isZero (h _ hn2)).mp h1
        exact ⟨α, β, h, h', by simp [this], by simp [this], this, fun _ _ _ => rfl⟩
      · rw [if_pos h1]
        simp only []
        have hr := h.update e.1 (hG.add (h _ hn1) (h _ hn2))
        refine ⟨_, _, hr.update (nd + e.1) hG.zero, h'.update e.2 (hG.add (h' _ he3) (hr _ hn2)), ?_, ?_, ?_, ?_⟩
        · rw [Function.update_of_ne (show nd + e.1 ≠ e.1 by omega)]
          have hm := Finset.mem_range.mpr he3
          rw [← Finset.add_sum_erase _ _ hm, ← Finset.add_sum_erase _ β hm, Function.update_self]
          have : ∑ t ∈ (Finset.range c.nThreads).erase e.2, Function.update β e.2 (β e.2 + α (nd + e.1)) t =
              ∑ t ∈ (Finset.range c.nThreads).erase e.2, β t :=
            Finset.sum_congr rfl fun t ht => by rw [Function.update_of_ne (Finset.mem_erase.mp ht).1]
          rw [this]; abel
        · rw [Function.update_of_ne (by omega), Function.update_self]
        · rw [Function.update_self]
        · intro k hk1 hk2
          rw [Function.update_of_ne hk2, Function.update_of_ne hk1]
    obtain ⟨α1, β1, r1, s1, b1, x1, y1, k1⟩ := step
    rw [List.map_cons, List.nodup_cons] at hnd
    obtain ⟨α2, β2, r2, s2, b2, x2, k2⟩ := ih (c.reduceOne nd (accs, sall) e).1 (c.reduceOne nd (accs, sall) e).2 α1 β1
      (fun e he => hl e (by simp [he])) hnd.2 r1 s1
    have hne : ∀ i ∈ l.map Prod.fst, i ≠ e.1 ∧ 1 ≤ i ∧ i < nd := by
      intro i hi
      obtain ⟨e', he', rfl⟩ := List.mem_map.mp hi
      have := hl e' (by simp [he'])
      exact ⟨fun h => hnd.1 (by rw [← h]; exact hi), this.1, this.2.1⟩
    refine ⟨α2, β2, by rw [List.foldl_cons]; exact r2, by rw [List.foldl_cons]; exact s2, ?_, ?_, ?_⟩
    · rw [b2, b1, List.map_cons, List.sum_cons, add_assoc]
      congr 2
      apply congrArg
      apply List.map_congr_left
      intro e' he'
      have := hne e'.1 (List.mem_map_of_mem he')
      exact k1 _ (by omega) (by omega)
    · intro i hi
      rw [List.map_cons, List.mem_cons] at hi
      rcases hi with rfl | hi
      · constructor
        · rw [k2 _ hnd.1 (fun i hi => by have := hne i hi; omega), x1]
        · rw [k2 _ _ _, y1]
          · intro hm; have := hne _ hm; omega
          · intro i hi; have := hne i hi; omega
      · have := hne i hi
        rw [(x2 i hi).1, (x2 i hi).2, k1 _ (by omega) (by omega), k1 _ (by omega) (by omega)]
        exact ⟨rfl, rfl⟩
    · intro k hk1 hk2
      rw [List.map_cons, List.mem_cons, not_or] at hk1
      rw [k2 k hk1.2 (fun i hi => hk2 i (by simp [hi])), k1 k hk1.1 (hk2 e.1 (by simp))]

theorem addSall (hG : c.g.Sound D DA) {N nd : Nat} (hN : nd < N) {sall : Nat → P} {β : Nat → A} (hs : Rel D c.nThreads sall β) :
    ∀ m, m ≤ c.nThreads → ∀ (accs : Nat → P) (α : Nat → A), Rel D N accs α →
    Rel D N ((List.range m).foldl (fun accs i => Function.update accs nd (c.g.add (accs nd) (sall i))) accs)
      (Function.update α nd (α nd + ∑ t ∈ Finset.range m, β t)) := by
  intro m
  induction m with
  | zero => intro _ accs α h; simpa using h
  | succ m ih =>
    intro hm accs α h
    rw [List.range_succ, List.foldl_append, List.foldl_cons, List.foldl_nil, Finset.sum_range_succ, ← add_assoc]
    have h1 := ih (by omega) accs α h
    have h2 := h1 nd hN
    rw [Function.update_self] at h2
    have h3 := h1.update nd (hG.add h2 (hs m (by omega)))
    rwa [Function.update_idem] at h3

theorem sum_split (N : Nat) (α : Nat → A) :
    ∑ i ∈ Finset.range (2 * N), i • α i =
      ∑ i ∈ Finset.range N, i • (α i + α (N + i)) + N • ∑ i ∈ Finset.range N, α (N + i) := by
  rw [two_mul, Finset.sum_range_add, Finset.smul_sum, ← Finset.sum_add_distrib, ← Finset.sum_add_distrib]
  refine Finset.sum_congr rfl fun i _ => ?_
  rw [add_smul, smul_add]; abel

theorem reduce_rel (hG : c.g.Sound D DA) {σ : Sched} (hσ : σ.Valid c.nThreads) (idChunk : Nat) {N : Nat} : ∀ k (accs : Nat → P) (α : Nat → A),
    2 ^ (k + 1) ≤ N → Rel D N accs α →
    ∃ α', D (c.reduce σ idChunk k accs).1 (∑ i ∈ Finset.range (2 ^ (k + 1)), i • α i) ∧ Rel D N (c.reduce σ idChunk k accs).2 α' ∧
      ∀ i, α' i = if 1 ≤ i ∧ i < 2 ^ (k + 1) then 0 else α i := by
  intro k
  induction k with
  | zero =>
    intro accs α hN h
    refine ⟨_, ?_, h.update 1 hG.zero, fun i => ?_⟩
    · simpa [reduce, Finset.sum_range_succ] using h 1 (by omega)
    · by_cases h1 : i = 1
      · subst h1; simp
      · rw [Function.update_of_ne h1, if_neg (by omega)]
  | succ k ih =>
    intro accs α hN h
    unfold reduce
    simp only [Nat.shiftLeft_eq, one_mul]
    have hpos : 0 < 2 ^ (k + 1) := by positivity
    have h2 : 2 ^ (k + 1 + 1) = 2 * 2 ^ (k + 1) := by rw [pow_succ _ (k + 1)]; ring
    rw [h2] at hN
    have hS : Rel D c.nThreads (fun _ => c.g.memz) (fun _ => (0 : A)) := fun _ _ => hG.memz
    obtain ⟨α1, β1, r1, s1, b1, x1, k1⟩ := reduceOne_fold hG (nd := 2 ^ (k + 1)) hN (σ [idChunk, 2, k] 1 (2 ^ (k + 1))) accs _ α _
      (fun e he => by have := hσ.mem he; exact this) (hσ.nodup _ _ _) h hS
    have hα1 : ∀ i, α1 i = if 1 ≤ i ∧ i < 2 ^ (k + 1) then α i + α (2 ^ (k + 1) + i)
        else if 2 ^ (k + 1) < i ∧ i < 2 * 2 ^ (k + 1) then 0 else α i := by
      intro i
      split_ifs with c1 c2
      · exact (x1 i (hσ.mem_fst c1.1 c1.2)).1
      · have := (x1 (i - 2 ^ (k + 1)) (hσ.mem_fst (by omega) (by omega))).2
        rwa [show 2 ^ (k + 1) + (i - 2 ^ (k + 1)) = i by omega] at this
      · apply k1
        · intro hm
          obtain ⟨e, he, rfl⟩ := List.mem_map.mp hm
          have := hσ.mem he; omega
        · intro j hm
          obtain ⟨e, he, rfl⟩ := List.mem_map.mp hm
          have := hσ.mem he; omega
    have hβ : ∑ t ∈ Finset.range c.nThreads, β1 t = ∑ i ∈ Finset.Ico 1 (2 ^ (k + 1)), α (2 ^ (k + 1) + i) := by
      rw [b1, Finset.sum_const_zero, zero_add]
      exact hσ.sum _ _ _ (fun i => α (2 ^ (k + 1) + i))
    have r2 := addSall hG (nd := 2 ^ (k + 1)) (by omega) s1 c.nThreads le_rfl _ _ r1
    obtain ⟨α3, d3, r3, x3⟩ := ih _ _ (by omega) r2
    have hnd : α3 (2 ^ (k + 1)) = ∑ i ∈ Finset.range (2 ^ (k + 1)), α (2 ^ (k + 1) + i) := by
      rw [x3, if_neg (by omega), Function.update_self, hβ, hα1, if_neg (by omega), if_neg (by omega)]
      rw [Finset.range_eq_Ico, Finset.sum_eq_sum_Ico_succ_bot hpos, add_zero]
    have r4 := hG.dblN (k + 1) (r3 (2 ^ (k + 1)) (by omega))
    refine ⟨_, ?_, (r3.update (2 ^ (k + 1)) r4).update (2 ^ (k + 1)) hG.zero, fun i => ?_⟩
    · rw [Function.update_self]
      have := hG.add d3 r4
      rw [h2, sum_split, ← hnd]
      convert this using 2
      refine Finset.sum_congr rfl fun i hi => ?_
      have hi' := Finset.mem_range.mp hi
      rw [Function.update_of_ne (by omega), hα1]
      by_cases h0 : i = 0
      · subst h0; simp
      · rw [if_pos (by omega)]
    · rw [Function.update_idem, h2]
      by_cases e : i = 2 ^ (k + 1)
      · rw [e, Function.update_self, if_pos (by omega)]
      · rw [Function.update_of_ne e, x3, Function.update_of_ne e, hα1]
        split_ifs <;> first | rfl | omega

theorem chunkOne_rel (hG : c.g.Sound D DA) {σ : Sched} (hσ : σ.Valid c.nThreads) (hT : 1 ≤ c.nThreads) (hb : 1 ≤ c.bitsPerChunk)
    {a : Nat → A} (inc : Nat → Bool) (ha : ∀ i < c.n, DA (c.bases i) (a i)) (idChunk : Nat)
    (hch : ∀ i, getChunk c.scalars c.scalarSize c.bitsPerChunk i idChunk < c.accsPerChunk)
    (s : (Nat → P) × (Nat → P)) (h : Rel D (c.nThreads * c.accsPerChunk) s.1 (fun _ => 0)) :
    Rel D (c.nThreads * c.accsPerChunk) (c.chunkOne σ inc s idChunk).1 (fun _ => 0) ∧
      D ((c.chunkOne σ inc s idChunk).2 idChunk) (∑ i ∈ Finset.range c.n,
        if inc i then getChunk c.scalars c.scalarSize c.bitsPerChunk i idChunk • a i else 0) ∧
      ∀ j, j ≠ idChunk → (c.chunkOne σ inc s idChunk).2 j = s.2 j := by
  obtain ⟨α1, r1, s1⟩ := processChunk_fold hG inc idChunk ha hch (σ [idChunk, 0] 0 c.n) s.1 _
    (fun e he => by have := hσ.mem he; exact this.2) h
  rw [← processChunk] at r1
  obtain ⟨α2, r2, s2, z2⟩ := packThreads_rel hG hσ idChunk r1 hT
  have hapc : c.accsPerChunk = 2 ^ (c.bitsPerChunk - 1 + 1) := by
    rw [accsPerChunk, Nat.shiftLeft_eq, one_mul, Nat.sub_add_cancel hb]
  have hle : c.accsPerChunk ≤ c.nThreads * c.accsPerChunk := Nat.le_mul_of_pos_left _ hT
  obtain ⟨α3, d3, r3, x3⟩ := reduce_rel hG hσ idChunk (c.bitsPerChunk - 1) _ α2 (by rw [← hapc]; exact hle) r2
  have hcol : ∀ v < c.accsPerChunk, α2 v =
      ∑ i ∈ Finset.range c.n, if inc i ∧ v ≠ 0 ∧ getChunk c.scalars c.scalarSize c.bitsPerChunk i idChunk = v then a i else 0 := by
    intro v hv
    rw [s2 v hv, s1 v hv]
    have : col c.nThreads c.accsPerChunk (fun _ => (0 : A)) v = 0 := by simp [col]
    rw [this, zero_add, Finset.range_eq_Ico]
    exact hσ.sum _ _ _ (fun i => if inc i ∧ v ≠ 0 ∧ getChunk c.scalars c.scalarSize c.bitsPerChunk i idChunk = v then a i else 0)
  refine ⟨?_, ?_, ?_⟩
  · intro k hk
    have := r3 k hk
    rw [x3, ← hapc] at this
    by_cases h1 : 1 ≤ k ∧ k < c.accsPerChunk
    · rwa [if_pos h1] at this
    · rw [if_neg h1] at this
      by_cases h2 : k = 0
      · subst h2
        have h0 : 0 < c.accsPerChunk := by rw [hapc]; positivity
        rw [hcol 0 h0] at this
        simp only [ne_eq, not_true_eq_false, false_and, and_false, if_false, Finset.sum_const_zero] at this
        exact this
      · rwa [z2 k (by omega) hk] at this
  · rw [chunkOne]
    simp only [Function.update_self]
    convert d3 using 1
    rw [← hapc]
    have : ∀ v ∈ Finset.range c.accsPerChunk, v • α2 v = ∑ i ∈ Finset.range c.n,
        if inc i ∧ getChunk c.scalars c.scalarSize c.bitsPerChunk i idChunk = v then v • a i else 0 := by
      intro v hv
      rw [hcol v (Finset.mem_range.mp hv), Finset.smul_sum]
      refine Finset.sum_congr rfl fun i _ => ?_
      by_cases h0 : v = 0
      · subst h0; simp
      · by_cases h1 : inc i = true ∧ getChunk c.scalars c.scalarSize c.bitsPerChunk i idChunk = v
        · rw [if_pos h1, if_pos ⟨h1.1, h0, h1.2⟩]
        · rw [if_neg h1, if_neg (by tauto), smul_zero]
    rw [Finset.sum_congr rfl this, Finset.sum_comm]
    refine Finset.sum_congr rfl fun i _ => ?_
    by_cases h1 : inc i = true
    · rw [if_pos h1]
      rw [Finset.sum_eq_single (getChunk c.scalars c.scalarSize c.bitsPerChunk i idChunk)]
      · rw [if_pos ⟨h1, rfl⟩]
      · intro v _ hv; rw [if_neg (by tauto)]
      · intro hv; exact absurd (Finset.mem_range.mpr (hch i)) hv
    · rw [if_neg h1, Finset.sum_eq_zero]
      intro v _; rw [if_neg (by tauto)]
  · intro j hj
    rw [chunkOne]
    simp only [Function.update_of_ne hj]

theorem run_rel (hG : c.g.Sound D DA) {σ : Sched} (hσ : σ.Valid c.nThreads) (hT : 1 ≤ c.nThreads) (hb : 1 ≤ c.bitsPerChunk) (hb' : c.bitsPerChunk ≤ 16)
    (hs : 8 ≤ c.scalarSize) {a : Nat → A} (inc : Nat → Bool) (ha : ∀ i < c.n, DA (c.bases i) (a i)) (mem mem' : Nat → P) :
    D (c.run σ inc mem mem') (∑ i ∈ Finset.range c.n, if inc i then scalarVal c.scalars c.scalarSize i • a i else 0) := by
  have hjb : ∀ j < c.nChunks, j * c.bitsPerChunk < c.scalarSize * 8 := by
    intro j hj
    have h1 : j ≤ (c.scalarSize * 8 - 1) / c.bitsPerChunk := Nat.le_of_lt_succ hj
    have := (Nat.le_div_iff_mul_le (by omega)).mp h1
    omega
  have hbnd : c.scalarSize * 8 ≤ c.nChunks * c.bitsPerChunk := by
    have h1 := Nat.lt_mul_div_succ (c.scalarSize * 8 - 1) (show 0 < c.bitsPerChunk by omega)
    rw [nChunks, mul_comm _ c.bitsPerChunk]; exact Nat.le_of_pred_lt h1
  have hget : ∀ i, ∀ j < c.nChunks, getChunk c.scalars c.scalarSize c.bitsPerChunk i j =
      scalarVal c.scalars c.scalarSize i / 2 ^ (j * c.bitsPerChunk) % 2 ^ c.bitsPerChunk :=
    fun i j hj => getChunk_eq _ _ _ _ _ hs (by omega) (hjb j hj)
  have hch : ∀ j < c.nChunks, ∀ i, getChunk c.scalars c.scalarSize c.bitsPerChunk i j < c.accsPerChunk := by
    intro j hj i
    rw [hget i j hj, accsPerChunk, Nat.shiftLeft_eq, one_mul]
    exact Nat.mod_lt _ (by positivity)
  have key : ∀ m ≤ c.nChunks,
      let s := (List.range m).foldl (c.chunkOne σ inc) (c.initAccs σ mem, mem')
      Rel D (c.nThreads * c.accsPerChunk) s.1 (fun _ => 0) ∧
      ∀ j < m, D (s.2 j) (∑ i ∈ Finset.range c.n, if inc i then getChunk c.scalars c.scalarSize c.bitsPerChunk i j • a i else 0) := by
    intro m
    induction m with
    | zero => intro _; exact ⟨initAccs_rel hG hσ mem, by simp⟩
    | succ m ih =>
      intro hm
      have ih' := ih (by omega)
      simp only [List.range_succ, List.foldl_append, List.foldl_cons, List.foldl_nil] at ih' ⊢
      obtain ⟨h1, h2, h3⟩ := chunkOne_rel hG hσ hT hb inc ha m (hch m (by omega)) _ ih'.1
      refine ⟨h1, fun j hj => ?_⟩
      by_cases e : j = m
      · subst e; exact h2
      · rw [h3 j e]; exact ih'.2 j (by omega)
  have h1 := (key c.nChunks le_rfl).2
  have h2 := hG.combine_all (b := c.bitsPerChunk) (show 1 ≤ c.nChunks from Nat.le_add_left _ _) h1
  unfold run
  convert h2 using 1
  simp only [Finset.smul_sum]
  rw [Finset.sum_comm]
  refine Finset.sum_congr rfl fun i _ => ?_
  by_cases hi : inc i = true
  · simp only [if_pos hi]
    have e : ∀ j ∈ Finset.range c.nChunks, 2 ^ (j * c.bitsPerChunk) • getChunk c.scalars c.scalarSize c.bitsPerChunk i j • a i =
        (2 ^ (j * c.bitsPerChunk) * (scalarVal c.scalars c.scalarSize i / 2 ^ (j * c.bitsPerChunk) % 2 ^ c.bitsPerChunk)) • a i := by
      intro j hj
      rw [hget i j (Finset.mem_range.mp hj), ← mul_smul]
    rw [Finset.sum_congr rfl e, ← Finset.sum_smul, windows_sum, Nat.mod_eq_of_lt]
    exact lt_of_lt_of_le (scalarVal_lt _ _ _) (Nat.pow_le_pow_right (by norm_num) hbnd)
  · simp [if_neg hi]

end PME

theorem pmeBits_range (n : Nat) : 2 ≤ pmeBits n ∧ pmeBits n ≤ 16 := by
  unfold pmeBits
  simp only []
  split_ifs <;> omega

section
variable {A : Type} [AddCommGroup A] {G : GroupCode P PA} {D : P → A → Prop} {DA : PA → A → Prop}

theorem GroupCode.Sound.mulByScalar (hG : G.Sound D DA) {base : PA} {a : A} (h : DA base a) (s : List (BitVec 8)) (hs : s ≠ []) (hl : s.length < 2 ^ 28) :
    ∃ r, G.mulByScalar base s = some r ∧ D r (valLE s • a) :=
  nafMulByScalar_spec hG.zero (fun _ _ h => hG.dbl h) (fun _ _ h' => hG.addMix h' h) (fun _ _ h' => hG.subMix h' h) s hs hl

theorem pmeRun_rel (hG : G.Sound D DA) {σ : Sched} {nThreads : Nat} (hσ : σ.Valid nThreads) (hT : 1 ≤ nThreads) {bases : Nat → PA}
    {a : Nat → A} {n : Nat} (ha : ∀ i < n, DA (bases i) (a i)) (inc : Nat → Bool) (mem mem' : Nat → P) (scalars : Nat → BitVec 8)
    {scalarSize : Nat} (hs : 8 ≤ scalarSize) (hs' : scalarSize < 2 ^ 28) (h1 : n = 1 → inc 0 = true) :
    ∃ r, pmeRun G σ nThreads inc mem mem' bases scalars scalarSize n = some r ∧
      D r (∑ i ∈ Finset.range n, if inc i then scalarVal scalars scalarSize i • a i else 0) := by
  unfold pmeRun
  by_cases e0 : n = 0
  · rw [if_pos e0]; exact ⟨_, rfl, by subst e0; simpa using hG.zero⟩
  rw [if_neg e0]
  by_cases e1 : n = 1
  · rw [if_pos e1]
    obtain ⟨r, hr, hd⟩ := hG.mulByScalar (ha 0 (by omega)) (scalarBytes scalars scalarSize 0)
      (fun e => by have := scalarBytes_length scalars scalarSize 0; rw [e] at this; simp at this; omega)
      (by rw [scalarBytes_length]; exact hs')
    refine ⟨r, hr, ?_⟩
    subst e1
    simpa [h1 rfl, scalarVal] using hd
  rw [if_neg e1, if_neg (by omega)]
  have := pmeBits_range n
  exact ⟨_, rfl, PME.run_rel (c := ⟨G, bases, scalars, scalarSize, n, nThreads, pmeBits n⟩) hG hσ hT (by simp only; omega) this.2 hs inc ha mem mem'⟩

end

theorem stridedInc_iff {nX : Nat} {size : Nat → BitVec 64} {i : Nat} (hX : 0 < nX) (hX' : nX < 2 ^ 32) (h1 : 1 ≤ (size (i % nX)).toNat)
    (h2 : (size (i % nX)).toNat ≤ 2 ^ 32) : stridedInc nX size i = true ↔ i / nX < (size (i % nX)).toNat := by
  have hm := Nat.mod_lt i hX
  have e1 : (BitVec.ofNat 32 (i % nX)).toNat = i % nX := by rw [BitVec.toNat_ofNat, Nat.mod_eq_of_lt (by omega)]
  unfold stridedInc
  simp only []
  rw [e1]
  have e2 : (size (i % nX) - 1).toNat = (size (i % nX)).toNat - 1 := by
    rw [BitVec.toNat_sub_of_le (by rw [BitVec.le_def]; exact h1)]; rfl
  have e3 : (((size (i % nX) - 1).setWidth 32).setWidth 64 : BitVec 64).toNat = (size (i % nX)).toNat - 1 := by
    rw [BitVec.toNat_setWidth, BitVec.toNat_setWidth, e2]
    rw [Nat.mod_eq_of_lt (a := (size (i % nX)).toNat - 1) (by omega), Nat.mod_eq_of_lt (by omega)]
  have hlt : ((size (i % nX)).toNat - 1) * nX + i % nX < 2 ^ 64 := by
    have : ((size (i % nX)).toNat - 1) * nX ≤ (2 ^ 32 - 1) * nX := Nat.mul_le_mul_right _ (by omega)
    omega
  rw [BitVec.toNat_add, BitVec.toNat_mul, e3, BitVec.toNat_setWidth, e1, BitVec.toNat_ofNat, Nat.mod_eq_of_lt (a := nX) (by omega),
    Nat.mod_eq_of_lt (a := i % nX) (by omega), Nat.mod_eq_of_lt (a := _ * nX) (by omega), Nat.mod_eq_of_lt hlt]
  simp only [gt_iff_lt, not_lt, decide_eq_true_eq]
  have hd := Nat.div_add_mod i nX
  constructor
  · intro h
    have h' : nX * (i / nX) ≤ ((size (i % nX)).toNat - 1) * nX := by omega
    rw [mul_comm] at h'
    have := Nat.le_of_mul_le_mul_right h' hX
    omega
  · intro h
    have : (i / nX) * nX ≤ ((size (i % nX)).toNat - 1) * nX := Nat.mul_le_mul_right _ (by omega)
    rw [mul_comm] at this
    omega

end FF
