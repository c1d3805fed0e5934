import Verif.Omp
import Verif.Multiexp

/-!
# `c/multiexp.cpp` with interleaved threads

`Multiexp.lean` runs the parallel loops one whole iteration after the other.  Here the loops are `Omp.For`: the loads and stores of the
point objects by different threads interleave in any order.  The theorem `RunP.lin` says that each such run gives the result of
`PME.run` under some valid schedule.

The shared memory holds `accs[k].p` in cell `2k` and `sall[t].p` in cell `2t+1`.  Each call of `reduce` allocates its own `sall`; the
array of the outer call is not read after the inner call starts (`multiexp.cpp:118-130`), so one region of cells serves for all.  A
point object is one cell: a thread that is inside `g.add` on an object is the only one that touches it, as the disjointness of the
footprints shows.  `bases` and `scalars` are only read.
-/

set_option linter.unusedSectionVars false

namespace FF

namespace PME

open Par

variable {P PA : Type}

/-- Registers of a thread: the values loaded from shared point objects. -/
structure PLoc (P : Type) where
  t : P
  u : P
  v : P
  w : P

/-- Load of cell `k`. -/
def ld (f : PLoc P → P → PLoc P) (k : Nat) : Act (PLoc P) P := fun p => (f p.1 (p.2 k), p.2)
/-- Store to cell `k`, if the test on the locals succeeds. -/
def stIf (b : PLoc P → Bool) (k : Nat) (v : PLoc P → P) : Act (PLoc P) P :=
  fun p => (p.1, if b p.1 then Function.update p.2 k (v p.1) else p.2)

/-- Cells of `accs` and `sall`. -/
abbrev acc (k : Nat) : Nat := 2 * k
abbrev sal (t : Nat) : Nat := 2 * t + 1

variable (c : PME P PA)

/-- Body of `initAccs`, `multiexp.cpp:20-22`. -/
def initBody (_t i : Nat) : List (Act (PLoc P) P) := [stIf (fun _ => true) (acc i) (fun _ => c.g.zero)]

/-- Body of `processChunk`, `multiexp.cpp:43-55` and `61-76`. -/
def processBody (inc : Nat → Bool) (idChunk t i : Nat) : List (Act (PLoc P) P) :=
  if ¬ inc i then []
  else if c.g.isZeroA (c.bases i) then []
  else
    let chunkValue := getChunk c.scalars c.scalarSize c.bitsPerChunk i idChunk
    if chunkValue ≠ 0 then
      let k := t * c.accsPerChunk + chunkValue
      [ld (fun l x => { l with u := x }) (acc k), stIf (fun _ => true) (acc k) (fun l => c.g.addMix l.u (c.bases i))]
    else []

/-- Inner loop body of `packThreads`, `multiexp.cpp:85-88`. -/
def packActs (i j : Nat) : List (Act (PLoc P) P) :=
  let k := j * c.accsPerChunk + i
  [ld (fun l x => { l with t := x }) (acc k), ld (fun l x => { l with u := x }) (acc i), ld (fun l x => { l with v := x }) (acc k),
   stIf (fun l => !c.g.isZero l.t) (acc i) (fun l => c.g.add l.u l.v), stIf (fun l => !c.g.isZero l.t) (acc k) (fun _ => c.g.zero)]

/-- Body of `packThreads`, `multiexp.cpp:83-90`. -/
def packBody (_t i : Nat) : List (Act (PLoc P) P) := (List.range' 1 (c.nThreads - 1)).flatMap (c.packActs i)

/-- Body of the loop of `reduce`, `multiexp.cpp:106-117`. -/
def reduceBody (ndiv2 t i : Nat) : List (Act (PLoc P) P) :=
  let b := fun l : PLoc P => !c.g.isZero l.t
  [ld (fun l x => { l with t := x }) (acc (ndiv2 + i)),
   ld (fun l x => { l with u := x }) (acc i), ld (fun l x => { l with v := x }) (acc (ndiv2 + i)), stIf b (acc i) (fun l => c.g.add l.u l.v),
   ld (fun l x => { l with w := x }) (sal t), ld (fun l x => { l with v := x }) (acc (ndiv2 + i)), stIf b (sal t) (fun l => c.g.add l.w l.v),
   stIf b (acc (ndiv2 + i)) (fun _ => c.g.zero)]

/-- `memset(sall, 0, …)`, `multiexp.cpp:103`. -/
def clearSall (m : Nat → P) : Nat → P := fun k => if k % 2 = 1 then c.g.memz else m k

/-- The sequential loop `multiexp.cpp:119-121`. -/
def addSalls (ndiv2 : Nat) (m : Nat → P) : Nat → P :=
  (List.range c.nThreads).foldl (fun m i => Function.update m (acc ndiv2) (c.g.add (m (acc ndiv2)) (m (sal i)))) m

/-- `reduce`, `multiexp.cpp:93-130`, with `nBits = k + 1`: the returned point and the memory afterwards. -/
def ReduceP : Nat → (Nat → P) → P → (Nat → P) → Prop
  | 0, m, r, m' => r = m (acc 1) ∧ m' = Function.update m (acc 1) c.g.zero
  | k + 1, m, r, m' =>
    let ndiv2 := 1 <<< (k + 1)
    ∃ m1, Omp.For c.nThreads 1 ndiv2 (c.reduceBody ndiv2) (c.clearSall m) m1 ∧
      ∃ p1 m2, ReduceP k (c.addSalls ndiv2 m1) p1 m2 ∧
        r = c.g.add p1 (c.g.dblN (k + 1) (m2 (acc ndiv2))) ∧ m' = Function.update m2 (acc ndiv2) c.g.zero

/-- Body of the loop over chunks, `multiexp.cpp:166-174`: the chunk result and the memory afterwards. -/
def ChunkP (inc : Nat → Bool) (i : Nat) (m : Nat → P) (r : P) (m' : Nat → P) : Prop :=
  ∃ m1, Omp.For c.nThreads 0 c.n (c.processBody inc i) m m1 ∧
  ∃ m2, Omp.For c.nThreads 0 c.accsPerChunk c.packBody m1 m2 ∧ c.ReduceP (c.bitsPerChunk - 1) m2 r m'

/-- The loop over chunks; `s` is `chunkResults`. -/
def ChunksP (inc : Nat → Bool) : List Nat → (Nat → P) → (Nat → P) → (Nat → P) → Prop
  | [], _, s, s' => s' = s
  | i :: is, m, s, s' => ∃ r m', c.ChunkP inc i m r m' ∧ ChunksP inc is m' (Function.update s i r) s'

/-- The part of both `multiexp` overloads for `n ≥ 2`, `multiexp.cpp:161-184` and `218-242`; `mem`, `mem'` are the contents of the
allocated arrays. -/
def RunP (inc : Nat → Bool) (mem mem' : Nat → P) (r : P) : Prop :=
  ∃ m1, Omp.For c.nThreads 0 (c.nThreads * c.accsPerChunk) c.initBody mem m1 ∧
  ∃ s, c.ChunksP inc (List.range c.nChunks) m1 mem' s ∧ r = c.g.combine c.bitsPerChunk s (c.nChunks - 1) (s (c.nChunks - 1))

/-! ## Footprints -/

theorem foot_ld {F RO : Nat → Prop} {f : PLoc P → P → PLoc P} {k : Nat} (hk : F k) : Foot F RO (ld f k) :=
  ⟨fun _ _ _ _ => rfl, fun _ _ _ hm => ⟨by simp only [ld]; rw [hm k (Or.inl hk)], fun j hj => hm j (Or.inl hj)⟩⟩

theorem foot_stIf {F RO : Nat → Prop} {b : PLoc P → Bool} {v : PLoc P → P} {k : Nat} (hk : F k) : Foot F RO (stIf b k v) := by
  refine ⟨fun l m j hj => ?_, fun l m m' hm => ⟨rfl, fun j hj => ?_⟩⟩
  · have : j ≠ k := fun e => hj (e ▸ hk)
    simp only [stIf]
    split <;> simp [this]
  · simp only [stIf]
    split
    · by_cases e : j = k
      · subst e; simp
      · simp [e, hm j (Or.inl hj)]
    · exact hm j (Or.inl hj)

variable {c}

theorem init_disjoint {hi : Nat} : Omp.Disjoint c.nThreads 0 hi (fun _ i k => k = acc i) (fun _ => False) c.initBody where
  dis := by intro t t' i i' k _ _ _ _ _ _ _ hne h1 h2; simp only [acc] at *; omega
  ro := fun _ _ _ _ _ _ _ => id
  foot := by
    intro t i _ _ _ a ha
    simp only [initBody, List.mem_singleton] at ha
    subst ha
    exact foot_stIf rfl

theorem process_disjoint {inc : Nat → Bool} {idChunk : Nat}
    (hch : ∀ i, getChunk c.scalars c.scalarSize c.bitsPerChunk i idChunk < c.accsPerChunk) :
    Omp.Disjoint c.nThreads 0 c.n (fun t _ k => ∃ v < c.accsPerChunk, k = acc (t * c.accsPerChunk + v)) (fun _ => False)
      (c.processBody inc idChunk) where
  dis := by
    rintro t t' i i' k _ _ _ _ _ _ hne _ ⟨v, hv, rfl⟩ ⟨v', hv', h2⟩
    exact hne (idx_inj hv hv' (by simp only [acc] at h2; omega)).1
  ro := fun _ _ _ _ _ _ _ => id
  foot := by
    intro t i _ _ _ a ha
    unfold processBody at ha
    split at ha
    · simp at ha
    split at ha
    · simp at ha
    simp only [] at ha
    split at ha
    · simp only [List.mem_cons, List.not_mem_nil, or_false] at ha
      rcases ha with rfl | rfl
      · exact foot_ld ⟨_, hch i, rfl⟩
      · exact foot_stIf ⟨_, hch i, rfl⟩
    · simp at ha

theorem pack_disjoint :
    Omp.Disjoint c.nThreads 0 c.accsPerChunk (fun _ i k => ∃ j, k = acc (j * c.accsPerChunk + i)) (fun _ => False) c.packBody where
  dis := by
    rintro t t' i i' k _ _ _ hi _ hi' _ hne ⟨v, rfl⟩ ⟨v', h2⟩
    exact hne (idx_inj (t := v) (t' := v') hi hi' (by simp only [acc] at h2; omega)).2
  ro := fun _ _ _ _ _ _ _ => id
  foot := by
    intro t i _ _ _ a ha
    obtain ⟨j, -, ha⟩ := List.mem_flatMap.1 ha
    have h0 : ∃ j, acc i = acc (j * c.accsPerChunk + i) := ⟨0, by simp⟩
    simp only [packActs, List.mem_cons, List.not_mem_nil, or_false] at ha
    rcases ha with rfl | rfl | rfl | rfl | rfl
    · exact foot_ld ⟨j, rfl⟩
    · exact foot_ld h0
    · exact foot_ld ⟨j, rfl⟩
    · exact foot_stIf h0
    · exact foot_stIf ⟨j, rfl⟩

theorem reduce_disjoint (nd : Nat) :
    Omp.Disjoint c.nThreads 1 nd (fun t i k => k = acc i ∨ k = acc (nd + i) ∨ k = sal t) (fun _ => False) (c.reduceBody nd) where
  dis := by
    intro t t' i i' k _ _ _ _ _ _ hne hne' h1 h2
    simp only [acc, sal] at *
    omega
  ro := fun _ _ _ _ _ _ _ => id
  foot := by
    intro t i _ _ _ a ha
    simp only [reduceBody, List.mem_cons, List.not_mem_nil, or_false] at ha
    have h1 : ∀ k, k = acc i → (k = acc i ∨ k = acc (nd + i) ∨ k = sal t) := fun _ h => Or.inl h
    have h2 : ∀ k, k = acc (nd + i) → (k = acc i ∨ k = acc (nd + i) ∨ k = sal t) := fun _ h => Or.inr (Or.inl h)
    have h3 : ∀ k, k = sal t → (k = acc i ∨ k = acc (nd + i) ∨ k = sal t) := fun _ h => Or.inr (Or.inr h)
    rcases ha with rfl | rfl | rfl | rfl | rfl | rfl | rfl | rfl
    · exact foot_ld (h2 _ rfl)
    · exact foot_ld (h1 _ rfl)
    · exact foot_ld (h2 _ rfl)
    · exact foot_stIf (h1 _ rfl)
    · exact foot_ld (h3 _ rfl)
    · exact foot_ld (h2 _ rfl)
    · exact foot_stIf (h3 _ rfl)
    · exact foot_stIf (h2 _ rfl)

/-! ## Whole iterations -/

/-- The two arrays in the shared memory. -/
def accsOf (m : Nat → P) : Nat → P := fun k => m (acc k)
def sallOf (m : Nat → P) : Nat → P := fun t => m (sal t)

theorem accsOf_acc (m : Nat → P) (k : Nat) (v : P) : accsOf (Function.update m (acc k) v) = Function.update (accsOf m) k v := by
  funext j
  simp only [accsOf]
  by_cases e : j = k
  · subst e; simp
  · rw [Function.update_of_ne (by simp only [acc]; omega), Function.update_of_ne e]; rfl

theorem accsOf_sal (m : Nat → P) (k : Nat) (v : P) : accsOf (Function.update m (sal k) v) = accsOf m := by
  funext j
  simp only [accsOf]
  rw [Function.update_of_ne (by simp only [acc, sal]; omega)]

theorem sallOf_sal (m : Nat → P) (k : Nat) (v : P) : sallOf (Function.update m (sal k) v) = Function.update (sallOf m) k v := by
  funext j
  simp only [sallOf]
  by_cases e : j = k
  · subst e; simp
  · rw [Function.update_of_ne (by simp only [sal]; omega), Function.update_of_ne e]; rfl

theorem sallOf_acc (m : Nat → P) (k : Nat) (v : P) : sallOf (Function.update m (acc k) v) = sallOf m := by
  funext j
  simp only [sallOf]
  rw [Function.update_of_ne (by simp only [acc, sal]; omega)]

/-- Schedule that runs one given loop in one given order. -/
def Sched.put (σ : Sched) (tag : List Nat) (lo hi : Nat) (l : List (Nat × Nat)) : Sched :=
  fun tag' lo' hi' => if tag' = tag ∧ lo' = lo ∧ hi' = hi then l else σ tag' lo' hi'

theorem put_same (σ : Sched) (tag : List Nat) (lo hi : Nat) (l : List (Nat × Nat)) : Sched.put σ tag lo hi l tag lo hi = l :=
  if_pos ⟨rfl, rfl, rfl⟩

theorem put_tag (σ : Sched) {tag tag' : List Nat} (h : tag' ≠ tag) (lo hi lo' hi' : Nat) (l : List (Nat × Nat)) :
    Sched.put σ tag lo hi l tag' lo' hi' = σ tag' lo' hi' := if_neg fun h' => h h'.1

theorem put_valid {σ : Sched} {nT : Nat} (hσ : σ.Valid nT) {tag : List Nat} {lo hi : Nat} {l : List (Nat × Nat)}
    (h1 : (l.map Prod.fst).Perm (List.range' lo (hi - lo))) (h2 : ∀ e ∈ l, e.2 < nT) : (Sched.put σ tag lo hi l).Valid nT := by
  intro tag' lo' hi'
  unfold Sched.put
  split
  · rename_i h; obtain ⟨-, rfl, rfl⟩ := h; exact ⟨h1, h2⟩
  · exact hσ tag' lo' hi'

theorem seqSched_valid' {nT : Nat} (hT : 1 ≤ nT) : seqSched.Valid nT := fun tag lo hi =>
  ⟨(seqSched_valid tag lo hi).1, fun e he => lt_of_lt_of_le ((seqSched_valid tag lo hi).2 e he) hT⟩

/-- Iterations on the memory, projected to the arrays. -/
theorem foldl_proj {α β γ : Type} {f : α → β} {g : α → γ → α} {h : β → γ → β} (l : List γ) (H : ∀ e ∈ l, ∀ m, f (g m e) = h (f m) e) (m : α) :
    f (l.foldl g m) = l.foldl h (f m) := by
  induction l generalizing m with
  | nil => rfl
  | cons e l ih =>
    rw [List.foldl_cons, List.foldl_cons, ih (fun e' he' => H e' (by simp [he'])), H e (by simp)]

theorem initP_lin (m m1 : Nat → P) (h : Omp.For c.nThreads 0 (c.nThreads * c.accsPerChunk) c.initBody m m1) :
    ∃ l : List (Nat × Nat), (l.map Prod.fst).Perm (List.range' 0 (c.nThreads * c.accsPerChunk - 0)) ∧ (∀ e ∈ l, e.2 < c.nThreads) ∧
      ∀ σ : Sched, σ [0] 0 (c.nThreads * c.accsPerChunk) = l → c.initAccs σ (accsOf m) = accsOf m1 := by
  obtain ⟨l, h1, h2, rfl⟩ := h.lin init_disjoint (one := fun m e => Function.update m (acc e.1) c.g.zero)
    (fun t i _ _ _ l m => by simp [initBody, solo, stIf])
  refine ⟨l, h1, h2, fun σ hσ => ?_⟩
  rw [initAccs, hσ]
  exact (foldl_proj (f := accsOf) l (fun e _ m => accsOf_acc m _ _) m).symm

theorem processP_lin {inc : Nat → Bool} {idChunk : Nat}
    (hch : ∀ i, getChunk c.scalars c.scalarSize c.bitsPerChunk i idChunk < c.accsPerChunk) (m m1 : Nat → P)
    (h : Omp.For c.nThreads 0 c.n (c.processBody inc idChunk) m m1) :
    ∃ l : List (Nat × Nat), (l.map Prod.fst).Perm (List.range' 0 (c.n - 0)) ∧ (∀ e ∈ l, e.2 < c.nThreads) ∧
      ∀ σ : Sched, σ [idChunk, 0] 0 c.n = l → c.processChunk σ inc idChunk (accsOf m) = accsOf m1 := by
  obtain ⟨l, h1, h2, rfl⟩ := h.lin (process_disjoint hch) (one := fun m e => (solo (c.processBody inc idChunk e.2 e.1) (⟨c.g.zero, c.g.zero, c.g.zero, c.g.zero⟩, m)).2)
    (fun t i _ _ _ l m => by
      unfold processBody
      split
      · rfl
      split
      · rfl
      simp only []
      split
      · simp [solo, ld, stIf]
      · rfl)
  refine ⟨l, h1, h2, fun σ hσ => ?_⟩
  rw [processChunk, hσ]
  refine (foldl_proj (f := accsOf) l (fun e _ m => ?_) m).symm
  unfold processBody processOne
  split
  · rfl
  split
  · rfl
  simp only []
  split
  · simp only [solo, ld, stIf, List.foldl_cons, List.foldl_nil, if_true]
    rw [accsOf_acc]
    rfl
  · rfl

/-- One step of the inner loop of `packThreads` on the memory. -/
theorem packActs_solo (i j : Nat) (l : PLoc P) (m : Nat → P) :
    (solo (c.packActs i j) (l, m)).2 = if ¬ c.g.isZero (m (acc (j * c.accsPerChunk + i))) then
      Function.update (Function.update m (acc i) (c.g.add (m (acc i)) (m (acc (j * c.accsPerChunk + i))))) (acc (j * c.accsPerChunk + i)) c.g.zero
      else m := by
  by_cases h : c.g.isZero (m (acc (j * c.accsPerChunk + i))) = true
  · simp [packActs, solo, ld, stIf, h]
  · simp [packActs, solo, ld, stIf, h]

theorem packP_lin (idChunk : Nat) (m m1 : Nat → P)
    (h : Omp.For c.nThreads 0 c.accsPerChunk c.packBody m m1) :
    ∃ l : List (Nat × Nat), (l.map Prod.fst).Perm (List.range' 0 (c.accsPerChunk - 0)) ∧ (∀ e ∈ l, e.2 < c.nThreads) ∧
      ∀ σ : Sched, σ [idChunk, 1] 0 c.accsPerChunk = l → c.packThreads σ idChunk (accsOf m) = accsOf m1 := by
  let step : Nat → (Nat → P) → Nat → Nat → P := fun i m j => if ¬ c.g.isZero (m (acc (j * c.accsPerChunk + i))) then
      Function.update (Function.update m (acc i) (c.g.add (m (acc i)) (m (acc (j * c.accsPerChunk + i))))) (acc (j * c.accsPerChunk + i)) c.g.zero
      else m
  obtain ⟨l, h1, h2, rfl⟩ := h.lin pack_disjoint (one := fun m e => (List.range' 1 (c.nThreads - 1)).foldl (step e.1) m)
    (fun t i _ _ _ l m => Omp.solo_flatMap (one := step i) _ (fun j _ l m => packActs_solo i j l m) l m)
  refine ⟨l, h1, h2, fun σ hσ => ?_⟩
  rw [packThreads, hσ]
  refine (foldl_proj (f := accsOf) l (fun e _ m => ?_) m).symm
  refine foldl_proj (f := accsOf) _ (fun j _ m => ?_) m
  simp only [step, packOne]
  split
  · rename_i h
    have h' : ¬ c.g.isZero (accsOf m (j * c.accsPerChunk + e.1)) = true := h
    rw [if_pos h', accsOf_acc, accsOf_acc]; rfl
  · rename_i h
    have h' : ¬ ¬ c.g.isZero (accsOf m (j * c.accsPerChunk + e.1)) = true := h
    rw [if_neg h']

/-- One iteration of `reduce` on the memory. -/
theorem reduceBody_solo {nd t i : Nat} (hi : 1 ≤ i) (hnd : i < nd) (l : PLoc P) (m : Nat → P) :
    (solo (c.reduceBody nd t i) (l, m)).2 = if ¬ c.g.isZero (m (acc (nd + i))) then
      Function.update (Function.update (Function.update m (acc i) (c.g.add (m (acc i)) (m (acc (nd + i))))) (sal t)
        (c.g.add (m (sal t)) (m (acc (nd + i))))) (acc (nd + i)) c.g.zero
      else m := by
  have e1 : nd + i ≠ i := by omega
  have e2 : ¬ 2 * t + 1 = 2 * i := by omega
  by_cases h : c.g.isZero (m (acc (nd + i))) = true
  · simp [reduceBody, solo, ld, stIf, h]
  · have n1 : sal t ≠ acc i := by simp only [acc, sal]; omega
    have n2 : acc (nd + i) ≠ acc i := by simp only [acc]; omega
    simp only [reduceBody, solo, ld, stIf, List.foldl_cons, List.foldl_nil, h, Bool.not_false, if_pos, not_false_eq_true,
      Bool.false_eq_true, Function.update_of_ne n1, Function.update_of_ne n2]

theorem reduceP_loop {nd : Nat} (m m1 : Nat → P) (h : Omp.For c.nThreads 1 nd (c.reduceBody nd) m m1) :
    ∃ l : List (Nat × Nat), (l.map Prod.fst).Perm (List.range' 1 (nd - 1)) ∧ (∀ e ∈ l, e.2 < c.nThreads) ∧
      l.foldl (c.reduceOne nd) (accsOf m, sallOf m) = (accsOf m1, sallOf m1) := by
  obtain ⟨l, h1, h2, rfl⟩ := h.lin (reduce_disjoint nd) (one := fun m e => if ¬ c.g.isZero (m (acc (nd + e.1))) then
      Function.update (Function.update (Function.update m (acc e.1) (c.g.add (m (acc e.1)) (m (acc (nd + e.1))))) (sal e.2)
        (c.g.add (m (sal e.2)) (m (acc (nd + e.1))))) (acc (nd + e.1)) c.g.zero
      else m) (fun t i _ h1 h2 l m => reduceBody_solo h1 h2 l m)
  refine ⟨l, h1, h2, ?_⟩
  refine (foldl_proj (f := fun m => (accsOf m, sallOf m)) l (fun e he m => ?_) m).symm
  have hr : 1 ≤ e.1 ∧ e.1 < nd := by
    have := (h1.mem_iff).1 (List.mem_map_of_mem he)
    rw [List.mem_range'_1] at this; omega
  simp only [reduceOne]
  split
  · rename_i h
    have h' : ¬ c.g.isZero (accsOf m (nd + e.1)) = true := h
    rw [if_pos h', accsOf_acc, accsOf_sal, accsOf_acc, sallOf_acc, sallOf_sal, sallOf_acc, Function.update_of_ne (by omega)]
    rfl
  · rename_i h
    have h' : ¬ ¬ c.g.isZero (accsOf m (nd + e.1)) = true := h
    rw [if_neg h']

theorem addSalls_accs (nd : Nat) (m : Nat → P) :
    accsOf (c.addSalls nd m) = (List.range c.nThreads).foldl (fun accs i => Function.update accs nd (c.g.add (accs nd) (sallOf m i))) (accsOf m) := by
  unfold addSalls
  generalize List.range c.nThreads = l
  have key : ∀ (l : List Nat) (m' : Nat → P), sallOf m' = sallOf m →
      accsOf (l.foldl (fun m i => Function.update m (acc nd) (c.g.add (m (acc nd)) (m (sal i)))) m') =
      l.foldl (fun accs i => Function.update accs nd (c.g.add (accs nd) (sallOf m i))) (accsOf m') := by
    intro l
    induction l with
    | nil => intro m' _; rfl
    | cons i l ih =>
      intro m' hm
      rw [List.foldl_cons, List.foldl_cons, ih _ (by rw [sallOf_acc, hm]), accsOf_acc, ← hm]
      rfl
  exact key l m rfl

/-- Two schedules that agree on the loops of `reduce`. -/
theorem reduce_congr {σ σ' : Sched} {idChunk : Nat} : ∀ k (accs : Nat → P), (∀ k' < k, σ [idChunk, 2, k'] = σ' [idChunk, 2, k']) →
    c.reduce σ idChunk k accs = c.reduce σ' idChunk k accs := by
  intro k
  induction k with
  | zero => intro _ _; rfl
  | succ k ih =>
    intro accs h
    simp only [reduce]
    rw [h k (Nat.lt_succ_self k), ih _ fun k' hk' => h k' (by omega)]

theorem reduceP_lin (hT : 1 ≤ c.nThreads) (idChunk : Nat) : ∀ k (m : Nat → P) (r : P) (m' : Nat → P), c.ReduceP k m r m' →
    ∃ σ : Sched, σ.Valid c.nThreads ∧ c.reduce σ idChunk k (accsOf m) = (r, accsOf m') := by
  intro k
  induction k with
  | zero =>
    rintro m r m' ⟨rfl, rfl⟩
    exact ⟨seqSched, seqSched_valid' hT, by simp only [reduce]; rw [accsOf_acc]; rfl⟩
  | succ k ih =>
    rintro m r m' ⟨m1, h1, p1, m2, h2, rfl, rfl⟩
    obtain ⟨σ, hσ, e⟩ := ih _ _ _ h2
    obtain ⟨l, l1, l2, l3⟩ := reduceP_loop _ _ h1
    refine ⟨Sched.put σ [idChunk, 2, k] 1 (1 <<< (k + 1)) l, put_valid hσ l1 l2, ?_⟩
    have ha : accsOf (c.clearSall m) = accsOf m := by
      funext j; simp only [accsOf, clearSall, acc]; rw [if_neg (by omega)]
    have hs : sallOf (c.clearSall m) = fun _ => c.g.memz := by
      funext j; simp only [sallOf, clearSall, sal]; rw [if_pos (by omega)]
    rw [ha, hs] at l3
    simp only [reduce]
    rw [put_same, l3, ← addSalls_accs, reduce_congr (σ' := σ) k _ (fun k' hk' => by
      funext lo hi
      exact put_tag σ (by simp; omega) _ _ _ _ _), e]
    simp only [Function.update_idem, Function.update_self]
    rw [accsOf_acc]
    rfl

/-- Two schedules that agree on the loops of one chunk. -/
theorem chunkOne_congr {σ σ' : Sched} {inc : Nat → Bool} {i : Nat} (h : ∀ x xs, σ (i :: x :: xs) = σ' (i :: x :: xs)) (s : (Nat → P) × (Nat → P)) :
    c.chunkOne σ inc s i = c.chunkOne σ' inc s i := by
  unfold chunkOne processChunk packThreads
  simp only [h]
  rw [reduce_congr _ _ fun k _ => h 2 [k]]

theorem chunkP_lin (hT : 1 ≤ c.nThreads) {inc : Nat → Bool} {i : Nat}
    (hch : ∀ j, getChunk c.scalars c.scalarSize c.bitsPerChunk j i < c.accsPerChunk) {m : Nat → P} {r : P} {m' : Nat → P} (s : Nat → P)
    (h : c.ChunkP inc i m r m') :
    ∃ σ : Sched, σ.Valid c.nThreads ∧ c.chunkOne σ inc (accsOf m, s) i = (accsOf m', Function.update s i r) := by
  obtain ⟨m1, h1, m2, h2, h3⟩ := h
  obtain ⟨l1, a1, b1, c1⟩ := processP_lin hch m m1 h1
  obtain ⟨l2, a2, b2, c2⟩ := packP_lin i m1 m2 h2
  obtain ⟨σ, hσ, e⟩ := reduceP_lin hT i _ _ _ _ h3
  refine ⟨Sched.put (Sched.put σ [i, 1] 0 c.accsPerChunk l2) [i, 0] 0 c.n l1, put_valid (put_valid hσ a2 b2) a1 b1, ?_⟩
  unfold chunkOne
  simp only []
  rw [c1 _ (put_same _ _ _ _ _), c2 _ (by rw [put_tag _ (by simp), put_same]), reduce_congr (σ' := σ) _ _ (fun k _ => by
    funext lo hi
    rw [put_tag _ (by simp), put_tag _ (by simp)]), e]

theorem chunksP_lin (hT : 1 ≤ c.nThreads) {inc : Nat → Bool} : ∀ (is : List Nat), is.Nodup →
    (∀ i ∈ is, ∀ j, getChunk c.scalars c.scalarSize c.bitsPerChunk j i < c.accsPerChunk) → ∀ (m s s' : Nat → P), c.ChunksP inc is m s s' →
    ∃ σ : Sched, σ.Valid c.nThreads ∧ (is.foldl (c.chunkOne σ inc) (accsOf m, s)).2 = s' := by
  intro is
  induction is with
  | nil => rintro - - m s s' rfl; exact ⟨seqSched, seqSched_valid' hT, rfl⟩
  | cons i is ih =>
    rintro hnd hch m s s' ⟨r, m', h1, h2⟩
    rw [List.nodup_cons] at hnd
    obtain ⟨σ1, v1, e1⟩ := chunkP_lin hT (hch i (by simp)) s h1
    obtain ⟨σ2, v2, e2⟩ := ih hnd.2 (fun j hj => hch j (by simp [hj])) _ _ _ h2
    let σ : Sched := fun tag lo hi => if tag.head? = some i then σ1 tag lo hi else σ2 tag lo hi
    refine ⟨σ, fun tag lo hi => ?_, ?_⟩
    · simp only [σ]; split
      · exact v1 tag lo hi
      · exact v2 tag lo hi
    · rw [List.foldl_cons, chunkOne_congr (σ' := σ1) (fun x xs => by funext lo hi; simp [σ]), e1, ← e2]
      congr 1
      apply List.foldl_ext
      intro s j hj
      exact chunkOne_congr (fun x xs => by
        funext lo hi
        simp only [σ, List.head?_cons, Option.some.injEq]
        rw [if_neg (by rintro rfl; exact hnd.1 hj)]) s

/-- Windows of the scalars fit the accumulator array. -/
theorem chunk_lt (hb : 1 ≤ c.bitsPerChunk) (hb' : c.bitsPerChunk ≤ 16) (hs : 8 ≤ c.scalarSize) :
    ∀ j ∈ List.range c.nChunks, ∀ i, getChunk c.scalars c.scalarSize c.bitsPerChunk i j < c.accsPerChunk := by
  intro j hj i
  have h1 : j ≤ (c.scalarSize * 8 - 1) / c.bitsPerChunk := Nat.le_of_lt_succ (List.mem_range.1 hj)
  have := (Nat.le_div_iff_mul_le (by omega)).mp h1
  rw [getChunk_eq _ _ _ _ _ hs (by omega) (by omega), accsPerChunk, Nat.shiftLeft_eq, one_mul]
  exact Nat.mod_lt _ (by positivity)

/-- Every interleaving gives the result of the sequential model under some valid schedule. -/
theorem RunP.lin (hT : 1 ≤ c.nThreads) (hb : 1 ≤ c.bitsPerChunk) (hb' : c.bitsPerChunk ≤ 16) (hs : 8 ≤ c.scalarSize) {inc : Nat → Bool}
    {mem mem' : Nat → P} {r : P} (h : c.RunP inc mem mem' r) :
    ∃ σ : Sched, σ.Valid c.nThreads ∧ c.run σ inc (accsOf mem) mem' = r := by
  obtain ⟨m1, h1, s, h2, rfl⟩ := h
  obtain ⟨l, a, b, e⟩ := initP_lin mem m1 h1
  obtain ⟨σ, hσ, e'⟩ := chunksP_lin hT (List.range c.nChunks) List.nodup_range (chunk_lt hb hb' hs) _ _ _ h2
  refine ⟨Sched.put σ [0] 0 (c.nThreads * c.accsPerChunk) l, put_valid hσ a b, ?_⟩
  unfold run
  simp only []
  rw [e _ (put_same _ _ _ _ _)]
  have e2 : (List.range c.nChunks).foldl (c.chunkOne (Sched.put σ [0] 0 (c.nThreads * c.accsPerChunk) l) inc) (accsOf m1, mem') =
      (List.range c.nChunks).foldl (c.chunkOne σ inc) (accsOf m1, mem') := by
    apply List.foldl_ext
    intro s j _
    exact chunkOne_congr (fun x xs => by funext lo hi; exact put_tag σ (by simp) _ _ _ _ _) s
  rw [e2, e']

/-! ## Executions exist -/

theorem for_exists {nT lo hi : Nat} (hT : 1 ≤ nT) (body : Nat → Nat → List (Act (PLoc P) P)) (m : Nat → P) : ∃ m', Omp.For nT lo hi body m m' :=
  Omp.For.exists hT body ⟨m 0, m 0, m 0, m 0⟩ m

variable (c) in
theorem ReduceP.exists (hT : 1 ≤ c.nThreads) : ∀ k (m : Nat → P), ∃ r m', c.ReduceP k m r m' := by
  intro k
  induction k with
  | zero => intro m; exact ⟨_, _, rfl, rfl⟩
  | succ k ih =>
    intro m
    obtain ⟨m1, h1⟩ := for_exists (lo := 1) (hi := 1 <<< (k + 1)) hT (c.reduceBody (1 <<< (k + 1))) (c.clearSall m)
    obtain ⟨p, m2, h2⟩ := ih (c.addSalls (1 <<< (k + 1)) m1)
    exact ⟨_, _, m1, h1, p, m2, h2, rfl, rfl⟩

variable (c) in
/-- Some execution ends. -/
theorem RunP.exists (hT : 1 ≤ c.nThreads) (inc : Nat → Bool) (mem mem' : Nat → P) : ∃ r, c.RunP inc mem mem' r := by
  obtain ⟨m1, h1⟩ := for_exists (lo := 0) (hi := c.nThreads * c.accsPerChunk) hT c.initBody mem
  have key : ∀ (is : List Nat) (m s : Nat → P), ∃ s', c.ChunksP inc is m s s' := by
    intro is
    induction is with
    | nil => intro m s; exact ⟨_, rfl⟩
    | cons i is ih =>
      intro m s
      obtain ⟨m1, h1⟩ := for_exists (lo := 0) (hi := c.n) hT (c.processBody inc i) m
      obtain ⟨m2, h2⟩ := for_exists (lo := 0) (hi := c.accsPerChunk) hT c.packBody m1
      obtain ⟨r, m3, h3⟩ := ReduceP.exists c hT (c.bitsPerChunk - 1) m2
      obtain ⟨s', h4⟩ := ih m3 (Function.update s i r)
      exact ⟨s', r, m3, ⟨m1, h1, m2, h2, h3⟩, h4⟩
  obtain ⟨s, h2⟩ := key (List.range c.nChunks) m1 mem'
  exact ⟨_, m1, h1, s, h2, rfl⟩

end PME

end FF
