import Verif.Race
import Verif.FftProof
import Verif.MsmPar

/-!
# Which array elements the parallel loops use: helper lemmas for C86
-/

namespace FF

namespace Par

variable {L E : Type}

theorem Foot.weaken {F F' : Nat → Prop} {a : Act L E} (h : Foot F (fun _ => False) a) (hF : ∀ k, F k → F' k) : Foot F' (fun _ => False) a := h.mono hF

/-- Two runs of the same threads from memories that agree on `F`. -/
theorem run_agree {F : Nat → Prop} : ∀ (sched : List Nat) (rest : Nat → List (Act L E)) (loc : Nat → L) (m m1 : Nat → E),
    (∀ j, ∀ a ∈ rest j, Foot F (fun _ => False) a) → (∀ k, F k → m1 k = m k) →
    ((State.mk rest loc m1).run sched).rest = ((State.mk rest loc m).run sched).rest ∧
    (∀ k, F k → ((State.mk rest loc m1).run sched).mem k = ((State.mk rest loc m).run sched).mem k) ∧
    (∀ k, ¬F k → ((State.mk rest loc m).run sched).mem k = m k) := by
  intro sched
  induction sched with
  | nil => intro rest loc m m1 _ hm; exact ⟨rfl, hm, fun _ _ => rfl⟩
  | cons j sched ih =>
    intro rest loc m m1 hf hm
    simp only [State.run, List.foldl_cons, State.step]
    cases hr : rest j with
    | nil => exact ih rest loc m m1 hf hm
    | cons a r =>
      dsimp only
      have ha := hf j a (by rw [hr]; exact List.mem_cons_self)
      have h1 := ha.reads (loc j) m1 m (fun k hk => hm k (hk.resolve_right id))
      have hf' : ∀ i, ∀ b ∈ Function.update rest j r i, Foot F (fun _ => False) b := by
        intro i b hb
        by_cases e : i = j
        · subst e; rw [Function.update_self] at hb; exact hf i b (by rw [hr]; exact List.mem_cons_of_mem _ hb)
        · rw [Function.update_of_ne e] at hb; exact hf i b hb
      have := ih (Function.update rest j r) (Function.update loc j (a (loc j, m)).1) (a (loc j, m)).2 (a (loc j, m1)).2 hf' h1.2
      rw [h1.1]
      refine ⟨this.1, this.2.1, fun k hk => ?_⟩
      exact (this.2.2 k hk).trans (ha.writes _ _ k hk)

theorem Exec.frame {F : Nat → Prop} {progs : Nat → List (Act L E)} (hf : ∀ j, ∀ a ∈ progs j, Foot F (fun _ => False) a) {m m' : Nat → E}
    (h : Exec progs m m') : ∀ k, ¬F k → m' k = m k := by
  obtain ⟨loc, sched, -, rfl⟩ := h
  exact (run_agree sched progs loc m m hf (fun _ _ => rfl)).2.2

theorem Exec.agree {F : Nat → Prop} {progs : Nat → List (Act L E)} (hf : ∀ j, ∀ a ∈ progs j, Foot F (fun _ => False) a) {m m' m1 : Nat → E}
    (h : Exec progs m m') (hm : ∀ k, F k → m1 k = m k) : ∃ m1', Exec progs m1 m1' ∧ ∀ k, F k → m1' k = m' k := by
  obtain ⟨loc, sched, hd, rfl⟩ := h
  have := run_agree sched progs loc m m1 hf hm
  exact ⟨_, ⟨loc, sched, fun j => by rw [this.1]; exact hd j, rfl⟩, this.2.1⟩

end Par

namespace Pool

open Par

variable {L E : Type}

theorem calls_range {T : Nat} {lo hi : Nat} {calls : List Call} (hc : parallelFor T lo hi = some calls) (j : Nat) (c : Call)
    (hj : calls[j]? = some c) : ∀ i ∈ c.indices, lo ≤ i ∧ i < hi := by
  obtain ⟨_, _, _, _, hcov⟩ := parallelFor_some hc
  have hflat : (calls.map Call.indices).flatten = List.range' lo (hi - lo) := by
    rw [← ints_toNat, ← hcov, List.flatMap_def, List.map_flatten, List.map_map]
    rfl
  intro i hi'
  have : i ∈ (calls.map Call.indices).flatten := List.mem_flatten.2 ⟨c.indices, List.mem_map.2 ⟨c, List.mem_of_getElem? hj, rfl⟩, hi'⟩
  rw [hflat, List.mem_range'_1] at this
  omega

theorem threads_mem {T : Nat} {lo hi : Nat} {calls : List Call} (hc : parallelFor T lo hi = some calls) {prog : Nat → List (Act L E)}
    {j : Nat} {a : Act L E} (ha : a ∈ threads calls prog j) : ∃ i, lo ≤ i ∧ i < hi ∧ a ∈ prog i := by
  unfold threads at ha
  cases hcj : calls[j]? with
  | none => rw [hcj] at ha; simp at ha
  | some c =>
    rw [hcj] at ha
    obtain ⟨i, hi', ha⟩ := List.mem_flatMap.1 ha
    exact ⟨i, (calls_range hc j c hcj i hi').1, (calls_range hc j c hcj i hi').2, ha⟩

theorem threads_congr {T : Nat} {lo hi : Nat} {calls : List Call} (hc : parallelFor T lo hi = some calls) {prog prog' : Nat → List (Act L E)}
    (h : ∀ i, lo ≤ i → i < hi → prog' i = prog i) : threads calls prog' = threads calls prog := by
  funext j
  unfold threads
  cases hcj : calls[j]? with
  | none => rfl
  | some c =>
    dsimp only
    have := calls_range hc j c hcj
    rw [List.flatMap_def, List.flatMap_def, List.map_congr_left fun i hi' => h i (this i hi').1 (this i hi').2]

end Pool

namespace Fft

open Par Pool

variable {K : Type} [Field K]

theorem BR_lt (x : BitVec 64) {k : Nat} (hk : k ≤ 32) : (BR x k).toNat < 2 ^ k := by
  unfold BR
  dsimp only
  rw [BitVec.toNat_ushiftRight, Nat.shiftRight_eq_div_pow]
  generalize ((((_ : BitVec 64) &&& 0xCCCCCCCC#64) >>> 2) ||| ((_ &&& 0x33333333#64) <<< 2)) = y
  have h : (((y &&& 0xAAAAAAAA#64) >>> 1) ||| ((y &&& 0x55555555#64) <<< 1)).toNat < 2 ^ 32 := by
    rw [BitVec.toNat_or]
    apply Nat.or_lt_two_pow
    · rw [BitVec.toNat_ushiftRight, Nat.shiftRight_eq_div_pow, BitVec.toNat_and]
      have : y.toNat &&& (0xAAAAAAAA#64).toNat ≤ (0xAAAAAAAA#64).toNat := Nat.and_le_right
      have e : (0xAAAAAAAA#64).toNat = 0xAAAAAAAA := rfl
      omega
    · rw [BitVec.toNat_shiftLeft, Nat.shiftLeft_eq, BitVec.toNat_and]
      have : y.toNat &&& (0x55555555#64).toNat ≤ (0x55555555#64).toNat := Nat.and_le_right
      have e : (0x55555555#64).toNat = 0x55555555 := rfl
      refine lt_of_le_of_lt (Nat.mod_le _ _) ?_
      omega
  rw [Nat.div_lt_iff_lt_mul (by positivity), ← pow_add, show k + (32 - k) = 32 by omega]
  exact h

omit [Field K] in
theorem rev_in {k n : Nat} (hk : k ≤ 32) (hn : 2 ^ k ≤ n) {i : Nat} (hi : i < n) :
    ∀ a ∈ revIter (K := K) k i, Foot (fun c => c < n) (fun _ => False) a := by
  intro a ha
  have hr : (BR (BitVec.ofNat 64 i) k).toNat < n := lt_of_lt_of_le (BR_lt _ hk) hn
  unfold revIter at ha
  dsimp only at ha
  split at ha
  · simp only [List.mem_cons, List.not_mem_nil, or_false] at ha
    rcases ha with rfl | rfl | rfl
    · exact foot_read (f := fun (l : Loc K) a => { l with t := a i }) fun l m m' hm => by simp only [hm i (Or.inl hi)]
    · exact foot_write (v := fun (_ : Loc K) a => a (BR (BitVec.ofNat 64 i) k).toNat) hi fun l m m' hm => hm _ (Or.inl hr)
    · exact foot_write (v := fun (l : Loc K) _ => l.t) hr fun l m m' hm => rfl
  · simp at ha

theorem bf_in (F : Obj K) {s k i : Nat} (hs : 1 ≤ s) (hsk : s ≤ k) (hi : i < 2 ^ (k - 1)) :
    ∀ a ∈ butterfly F s i, Foot (fun c => c < 2 ^ k) (fun _ => False) a := by
  obtain ⟨s, rfl⟩ : ∃ s', s = s' + 1 := ⟨s - 1, by omega⟩
  obtain ⟨d, rfl⟩ : ∃ d, k = s + 1 + d := ⟨k - (s + 1), by omega⟩
  have hq : i / 2 ^ s < 2 ^ d := by
    rw [Nat.div_lt_iff_lt_mul (by positivity), ← pow_add]
    rwa [show s + 1 + d - 1 = d + s by omega] at hi
  have hm : i % 2 ^ s < 2 ^ s := Nat.mod_lt _ (by positivity)
  have hb : i / 2 ^ s * (2 ^ s * 2) + i % 2 ^ s + 2 ^ s < 2 ^ (s + 1 + d) := by
    have : (i / 2 ^ s + 1) * (2 ^ s * 2) ≤ 2 ^ d * (2 ^ s * 2) := Nat.mul_le_mul_right _ hq
    have e : 2 ^ (s + 1 + d) = 2 ^ d * (2 ^ s * 2) := by rw [pow_add, pow_succ, mul_comm]
    rw [e]
    rw [Nat.add_mul] at this
    omega
  intro a ha
  refine (bf_foot (bf_eq F s) i a ha).mono fun c hc => ?_
  rcases hc with rfl | rfl
  · omega
  · exact hb

theorem root_index {S s j : Nat} (hs : 1 ≤ s) (hS : s ≤ S) (hj : j < 2 ^ (s - 1)) : j <<< (S - s) < 2 ^ S := by
  rw [Nat.shiftLeft_eq]
  calc j * 2 ^ (S - s) < 2 ^ (s - 1) * 2 ^ (S - s) := Nat.mul_lt_mul_of_pos_right hj (by positivity)
    _ = 2 ^ (s - 1 + (S - s)) := (pow_add ..).symm
    _ ≤ 2 ^ S := Nat.pow_le_pow_right (by norm_num) (by omega)

theorem butterfly_table {F F' : Obj K} (he : F'.s = F.s) (hr : ∀ i < 2 ^ F.s, F'.roots i = F.roots i) {s : Nat} (hs : 1 ≤ s) (hS : s ≤ F.s) (i : Nat) :
    butterfly F' s i = butterfly F s i := by
  obtain ⟨s, rfl⟩ : ∃ s', s = s' + 1 := ⟨s - 1, by omega⟩
  have : F'.root (s + 1) (i % 2 ^ s) = F.root (s + 1) (i % 2 ^ s) := by
    unfold Obj.root
    rw [he]
    exact hr _ (root_index (by omega) hS (by simpa using Nat.mod_lt _ (by positivity)))
  rw [bf_eq, bf_eq, this]

theorem ifft_in (F : Obj K) {n dp i : Nat} (h1 : 1 ≤ i) (hi : i < n / 2) : ∀ a ∈ ifftIter F n dp i, Foot (fun c => c < n) (fun _ => False) a :=
  fun a ha => (ifft_foot i h1 hi a ha).mono fun c hc => by rcases hc with rfl | rfl <;> omega

theorem ctor_in {n T : Nat} (hT : 0 < T) (hn : 2 ≤ n) (j : Nat) : ∀ a ∈ ctorThreads (K := K) n T j, Foot (fun c => c < n) (fun _ => False) a := by
  intro a ha
  rw [ctorThreads_eq hT] at ha
  split at ha
  · rename_i h
    obtain ⟨hj, hlt⟩ := h
    have hstop : bStop n T j ≤ n := by
      unfold bStop
      split
      · exact le_refl _
      · calc (j + 1) * (n / T) ≤ T * (n / T) := Nat.mul_le_mul_right _ hj
          _ ≤ n := Nat.mul_div_le n T
    rcases List.mem_append.1 ha with ha | ha
    · exact expProg_foot (by omega) (Or.inl (by omega)) _ a ha
    · obtain ⟨i, hi, rfl⟩ := List.mem_map.1 ha
      rw [List.mem_range'_1] at hi
      exact foot_write (v := fun (_ : Loc K) a => a (i - 1) * a 1) (by omega) fun l m m' hm => by
        show m (i - 1) * m 1 = m' (i - 1) * m' 1
        rw [hm (i - 1) (Or.inl (by omega)), hm 1 (Or.inl (by omega))]
  · simp at ha

theorem powLoop_frame (p : Nat → K) (s c : Nat) (hc : s < c) : powLoop p s c = p c := by
  unfold powLoop
  have : ∀ (l : List Nat) (p : Nat → K), (∀ i ∈ l, i ≤ s) → l.foldl (fun p i => Function.update p i (p (i - 1) * p 1)) p c = p c := by
    intro l
    induction l with
    | nil => intro p _; rfl
    | cons i l ih =>
      intro p h
      rw [List.foldl_cons, ih _ fun j hj => h j (List.mem_cons_of_mem _ hj), Function.update_of_ne]
      have := h i List.mem_cons_self
      omega
  exact this _ _ fun i hi => by rw [List.mem_range'_1] at hi; omega

theorem powLoop_agree {p p' : Nat → K} {s : Nat} (hs : 1 ≤ s) (h : ∀ c ≤ s, p' c = p c) : ∀ c ≤ s, powLoop p' s c = powLoop p s c := by
  unfold powLoop
  have : ∀ (l : List Nat) (p p' : Nat → K), (∀ i ∈ l, i ≤ s) → (∀ c ≤ s, p' c = p c) →
      ∀ c ≤ s, l.foldl (fun p i => Function.update p i (p (i - 1) * p 1)) p' c = l.foldl (fun p i => Function.update p i (p (i - 1) * p 1)) p c := by
    intro l
    induction l with
    | nil => intro p p' _ h; exact h
    | cons i l ih =>
      intro p p' hl h
      refine ih _ _ (fun j hj => hl j (List.mem_cons_of_mem _ hj)) fun c hc => ?_
      have hi := hl i List.mem_cons_self
      by_cases e : c = i
      · subst e; simp only [Function.update_self, h (c - 1) (by omega), h 1 hs]
      · simp only [Function.update_of_ne e, h c hc]
  exact this _ _ _ (fun i hi => by rw [List.mem_range'_1] at hi; omega) h

end Fft

namespace Omp

open Par

variable {L E : Type}

theorem team_mem {nT lo hi : Nat} {w : Nat → List Nat} (hw : Assign nT lo hi w) {body : Nat → Nat → List (Act L E)} {t : Nat} {a : Act L E}
    (ha : a ∈ team nT w body t) : ∃ i, t < nT ∧ lo ≤ i ∧ i < hi ∧ a ∈ body t i := by
  unfold team at ha
  split at ha
  · rename_i ht
    obtain ⟨i, hi', ha⟩ := List.mem_flatMap.1 ha
    exact ⟨i, ht, (hw.mem ht hi').1, (hw.mem ht hi').2, ha⟩
  · simp at ha

theorem For.congr {nT lo hi : Nat} {body body' : Nat → Nat → List (Act L E)} (h : ∀ t i, t < nT → lo ≤ i → i < hi → body' t i = body t i) {m m' : Nat → E} :
    For nT lo hi body' m m' ↔ For nT lo hi body m m' := by
  have key : ∀ w, Assign nT lo hi w → team nT w body' = team nT w body := by
    intro w hw
    funext t
    unfold team
    split
    · rename_i ht
      rw [List.flatMap_def, List.flatMap_def, List.map_congr_left fun i hi' => h t i ht (hw.mem ht hi').1 (hw.mem ht hi').2]
    · rfl
  constructor
  · rintro ⟨w, hw, he⟩; exact ⟨w, hw, key w hw ▸ he⟩
  · rintro ⟨w, hw, he⟩; exact ⟨w, hw, (key w hw).symm ▸ he⟩

end Omp

/-- `getChunk` reads inside the scalar. -/
theorem getChunk_agree {sc sc' : Nat → BitVec 8} {size b i : Nat} (hs : 8 ≤ size) (h : ∀ k < size, sc' (i * size + k) = sc (i * size + k)) (j : Nat) :
    getChunk sc' size b i j = getChunk sc size b i j := by
  unfold getChunk
  dsimp only
  set byteStart := (if j * b / 8 > size - 8 then size - 8 else j * b / 8) with hbs
  have h1 : byteStart + 8 ≤ size := by rw [hbs]; split_ifs <;> omega
  have e : (List.range 8).map (fun k => sc' (i * size + byteStart + k)) = (List.range 8).map (fun k => sc (i * size + byteStart + k)) := by
    refine List.map_congr_left fun k hk => ?_
    have := List.mem_range.1 hk
    rw [Nat.add_assoc]
    exact h _ (by omega)
  rw [e]

theorem scalar_index {size n i k : Nat} (hi : i < n) (hk : k < size) : i * size + k < n * size := by
  calc i * size + k < i * size + size := by omega
    _ = (i + 1) * size := by rw [Nat.add_mul, Nat.one_mul]
    _ ≤ n * size := Nat.mul_le_mul_right _ hi

theorem combine_agree {P PA : Type} (G : GroupCode P PA) (b : Nat) {s s' : Nat → P} : ∀ (k : Nat) (r : P), (∀ j < k, s' j = s j) →
    G.combine b s' k r = G.combine b s k r := by
  intro k
  induction k with
  | zero => intro r _; rfl
  | succ k ih =>
    intro r h
    rw [GroupCode.combine, GroupCode.combine, h k (Nat.lt_succ_self k), ih _ fun j hj => h j (Nat.lt_succ_of_lt hj)]

namespace PME

open Par

variable {P PA : Type} {c c' : PME P PA}

theorem acc_index {n t v : Nat} {nT : Nat} (ht : t < nT) (hv : v < n) : ∃ i < nT * n, acc (t * n + v) = acc i :=
  ⟨t * n + v, scalar_index ht hv, rfl⟩

theorem pack_in {t i : Nat} (hi : i < c.accsPerChunk) (hT : 1 ≤ c.nThreads) : ∀ a ∈ c.packBody t i,
    Foot (fun x => ∃ k < c.nThreads * c.accsPerChunk, x = acc k) (fun _ => False) a := by
  intro a ha
  obtain ⟨j, hj, ha⟩ := List.mem_flatMap.1 ha
  rw [List.mem_range'_1] at hj
  have h1 : ∃ k < c.nThreads * c.accsPerChunk, acc (j * c.accsPerChunk + i) = acc k := acc_index (by omega) hi
  have h2 : ∃ k < c.nThreads * c.accsPerChunk, acc i = acc k := ⟨i, by have := scalar_index (n := c.nThreads) (i := 0) hT hi; omega, rfl⟩
  simp only [packActs, List.mem_cons, List.not_mem_nil, or_false] at ha
  rcases ha with rfl | rfl | rfl | rfl | rfl
  · exact foot_ld h1
  · exact foot_ld h2
  · exact foot_ld h1
  · exact foot_stIf h2
  · exact foot_stIf h1

/-- The arguments of a run that differ in what the loops do not read. -/
structure Same (c c' : PME P PA) (inc inc' : Nat → Bool) : Prop where
  g : c'.g = c.g
  size : c'.scalarSize = c.scalarSize
  n : c'.n = c.n
  nT : c'.nThreads = c.nThreads
  bits : c'.bitsPerChunk = c.bitsPerChunk
  inc : ∀ i < c.n, inc' i = inc i
  bases : ∀ i < c.n, c'.bases i = c.bases i
  scalars : ∀ k < c.n * c.scalarSize, c'.scalars k = c.scalars k

variable {inc inc' : Nat → Bool}

theorem Same.reduce (h : Same c c' inc inc') : ∀ k m r m', c'.ReduceP k m r m' ↔ c.ReduceP k m r m' := by
  have e1 : c'.reduceBody = c.reduceBody := by funext a b d; simp only [reduceBody, h.g]
  have e2 : c'.clearSall = c.clearSall := by funext a b; simp only [clearSall, h.g]
  have e3 : c'.addSalls = c.addSalls := by funext a b; simp only [addSalls, h.g, h.nT]
  intro k
  induction k with
  | zero => intro m r m'; simp only [ReduceP, h.g]
  | succ k ih => intro m r m'; simp only [ReduceP, e1, e2, e3, h.g, h.nT, ih]

theorem Same.process (h : Same c c' inc inc') (hs : 8 ≤ c.scalarSize) (chunk t : Nat) {i : Nat} (hi : i < c.n) :
    c'.processBody inc' chunk t i = c.processBody inc chunk t i := by
  have e : getChunk c'.scalars c.scalarSize c.bitsPerChunk i chunk = getChunk c.scalars c.scalarSize c.bitsPerChunk i chunk :=
    getChunk_agree hs (fun k hk => h.scalars _ (scalar_index hi hk)) chunk
  simp only [processBody, accsPerChunk, h.g, h.size, h.bits, h.inc i hi, h.bases i hi, e]

theorem Same.chunk (h : Same c c' inc inc') (hs : 8 ≤ c.scalarSize) (i : Nat) (m : Nat → P) (r : P) (m' : Nat → P) :
    c'.ChunkP inc' i m r m' ↔ c.ChunkP inc i m r m' := by
  have e0 : c'.packActs = c.packActs := by funext a b; simp only [packActs, accsPerChunk, h.g, h.bits]
  have e1 : c'.packBody = c.packBody := by funext a b; simp only [packBody, e0, h.nT]
  have e2 : ∀ m m1, Omp.For c.nThreads 0 c.n (c'.processBody inc' i) m m1 ↔ Omp.For c.nThreads 0 c.n (c.processBody inc i) m m1 :=
    fun m m1 => Omp.For.congr fun t j _ _ hj => h.process hs i t hj
  simp only [ChunkP, h.nT, h.n, e2, e1, accsPerChunk, h.bits, h.reduce]

theorem Same.chunks (h : Same c c' inc inc') (hs : 8 ≤ c.scalarSize) : ∀ is m s s', c'.ChunksP inc' is m s s' ↔ c.ChunksP inc is m s s' := by
  intro is
  induction is with
  | nil => intro m s s'; rfl
  | cons i is ih => intro m s s'; simp only [ChunksP, h.chunk hs, ih]

theorem Same.run (h : Same c c' inc inc') (hs : 8 ≤ c.scalarSize) (mem mem' : Nat → P) (r : P) : c'.RunP inc' mem mem' r ↔ c.RunP inc mem mem' r := by
  have e1 : c'.initBody = c.initBody := by funext a b; simp only [initBody, h.g]
  simp only [RunP, h.nT, accsPerChunk, nChunks, h.bits, h.size, e1, h.chunks hs, h.g]

end PME

theorem PmeP.agree {P PA : Type} {G : GroupCode P PA} {nT : Nat} {inc inc' : Nat → Bool} {mem mem' : Nat → P} {bases bases' : Nat → PA}
    {scalars scalars' : Nat → BitVec 8} {size n : Nat} (hi : ∀ i < n, inc' i = inc i) (hb : ∀ i < n, bases' i = bases i)
    (hs : ∀ k < n * size, scalars' k = scalars k) (r : Option P) :
    PmeP G nT inc' mem mem' bases' scalars' size n r ↔ PmeP G nT inc mem mem' bases scalars size n r := by
  unfold PmeP
  by_cases e0 : n = 0
  · rw [if_pos e0, if_pos e0]
  rw [if_neg e0, if_neg e0]
  by_cases e1 : n = 1
  · have : scalarBytes scalars' size 0 = scalarBytes scalars size 0 :=
      List.map_congr_left fun k hk => hs _ (scalar_index (by omega) (List.mem_range.1 hk))
    rw [if_pos e1, if_pos e1, hb 0 (by omega), this]
  rw [if_neg e1, if_neg e1]
  by_cases e8 : size < 8
  · rw [if_pos e8, if_pos e8]
  rw [if_neg e8, if_neg e8]
  have hS : PME.Same (⟨G, bases, scalars, size, n, nT, pmeBits n⟩ : PME P PA) ⟨G, bases', scalars', size, n, nT, pmeBits n⟩ inc inc' :=
    ⟨rfl, rfl, rfl, rfl, rfl, hi, hb, hs⟩
  exact exists_congr fun x => and_congr_left' (hS.run (by show 8 ≤ size; omega) mem mem' x)

namespace Msm

open Par PME

variable {P PA : Type} {G : GroupCode P PA}

theorem slice_agree {scalars scalars' : Nat → BitVec 8} {size b nC nB n : Nat} (h8 : 8 ≤ size) (hs : ∀ k < n * size, scalars' k = scalars k)
    (t : Nat) {i : Nat} (hi : i < n) : sliceBody scalars' size b nC nB t i = sliceBody scalars size b nC nB t i := by
  have e : ∀ j, getChunk scalars' size b i j = getChunk scalars size b i j := getChunk_agree h8 fun k hk => hs _ (scalar_index hi hk)
  simp only [sliceBody, e]

theorem chunk_agree {bases bases' : Nat → PA} {sl sl' : Nat → ℤ} {nC nB n : Nat} (hb : ∀ i < n, bases' i = bases i) (hsl : ∀ k < n * nC, sl' k = sl k)
    (t : Nat) {j : Nat} (hj : j < nC) : chunkBody G bases' sl' nC nB n t j = chunkBody G bases sl nC nB n t j := by
  have e : (List.range n).flatMap (bucketActs G bases' sl' nC j (t * nB)) = (List.range n).flatMap (bucketActs G bases sl nC j (t * nB)) := by
    rw [List.flatMap_def, List.flatMap_def, List.map_congr_left]
    intro i hi
    have hi := List.mem_range.1 hi
    simp only [bucketActs, hb i hi, hsl _ (scalar_index hi hj)]
  simp only [chunkBody, e]

end Msm

theorem MsmRunP.agree {P PA : Type} {G : GroupCode P PA} {nT : Nat} {mem : Nat → P} {memS : Nat → ℤ} {bases bases' : Nat → PA}
    {scalars scalars' : Nat → BitVec 8} {size n : Nat} (hb : ∀ i < n, bases' i = bases i) (hs : ∀ k < n * size, scalars' k = scalars k) (r : Option P) :
    MsmRunP G nT mem memS bases' scalars' size n r ↔ MsmRunP G nT mem memS bases scalars size n r := by
  unfold MsmRunP
  by_cases e0 : n = 0
  · rw [if_pos e0, if_pos e0]
  rw [if_neg e0, if_neg e0]
  by_cases e1 : n = 1
  · have : scalarBytes scalars' size 0 = scalarBytes scalars size 0 :=
      List.map_congr_left fun k hk => hs _ (scalar_index (by omega) (List.mem_range.1 hk))
    rw [if_pos e1, if_pos e1, hb 0 (by omega), this]
  rw [if_neg e1, if_neg e1]
  by_cases e8 : size < 8 ∨ n ≥ 2 ^ 31
  · rw [if_pos e8, if_pos e8]
  rw [if_neg e8, if_neg e8]
  refine exists_congr fun x => and_congr_left' ?_
  unfold Msm.MsmP
  dsimp only
  refine exists_congr fun sl => and_congr (Omp.For.congr fun t i _ _ hi => Msm.slice_agree (by omega) hs t hi) ?_
  exact exists_congr fun m1 => and_congr_left' (Omp.For.congr fun t j _ _ hj => Msm.chunk_agree hb (fun _ _ => rfl) t hj)

end FF
