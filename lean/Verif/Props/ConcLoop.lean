import Verif.Props.ConcPoly

/-!
# C94: parallel loops of raw operations, instruction by instruction

`parallelFor` of `c/misc.hpp` with a body that performs, for each index, any sequence of raw field operations (C91).  If an element that one index sets is not used by
another one, the loop leaves in memory what the loop written with `for` computes, whatever the order of the instructions of the threads and whenever their stores reach
the memory.
-/

namespace FF.Props

open FF.Conc FF.Fft FF.Pool
open FF.X86 (State InArr InStk rd Sep rawFrame)

/-- The loop written with `for (i = lo; i < hi; i++)`, on field elements. -/
def forLoop {K : Type} [Zero K] [Add K] [Sub K] [Neg K] [Mul K] (lo hi : Nat) (body : Nat → List RawInstr) (σ : Nat → K) : Nat → K :=
  (List.range' lo (hi - lo)).foldl (fun σ i => rawSpec (body i) σ) σ

/-- The body is within `E` elements and sets for one index nothing that it uses for another one. -/
structure LoopOk (E lo hi : Nat) (body : Nat → List RawInstr) : Prop where
  range : ∀ i, lo ≤ i → i < hi → ∀ p, RawNames (body i) p → p < E
  apart : ∀ i i', lo ≤ i → i < hi → lo ≤ i' → i' < hi → i ≠ i' → ∀ p, RawSets (body i) p → ¬ RawNames (body i') p

section
variable {K : Type} [Zero K] [Add K] [Sub K] [Neg K] [Mul K]

theorem sets_names {prog : List RawInstr} {p : Nat} (h : RawSets prog p) : RawNames prog p := by
  obtain ⟨i, hi, e⟩ := h
  exact ⟨i, hi, .inl e⟩

/-- A program depends on the elements it names. -/
theorem rawSpec_congr (prog : List RawInstr) {σ σ' : Nat → K} {p : Nat} (h : ∀ p, RawNames prog p → σ p = σ' p) (hp : σ p = σ' p) :
    rawSpec prog σ p = rawSpec prog σ' p := by
  induction prog generalizing σ σ' with
  | nil => exact hp
  | cons x xs ih =>
    have hv : x.op.den (σ x.a) (σ x.b) = x.op.den (σ' x.a) (σ' x.b) := by
      have h1 : 1 ≤ x.op.arity → σ x.a = σ' x.a := fun hx => h _ ⟨x, by simp, .inr (.inl ⟨hx, rfl⟩)⟩
      have h2 : x.op.arity = 2 → σ x.b = σ' x.b := fun hx => h _ ⟨x, by simp, .inr (.inr ⟨hx, rfl⟩)⟩
      revert h1 h2
      cases x.op <;> intro h1 h2 <;> simp_all [RawOp.arity, RawOp.den]
    refine ih (fun p' h' => ?_) ?_
    · simp only [hv]
      split
      · rfl
      · obtain ⟨r, hr, hu⟩ := h'
        exact h p' ⟨r, by simp [hr], hu⟩
    · simp only [hv, hp]

theorem forLoop_eq (lo hi : Nat) (body : Nat → List RawInstr) (σ : Nat → K) : forLoop lo hi body σ = rawSpec ((List.range' lo (hi - lo)).flatMap body) σ := by
  unfold forLoop
  generalize List.range' lo (hi - lo) = is
  induction is generalizing σ with
  | nil => rfl
  | cons i is ih => rw [List.foldl_cons, List.flatMap_cons, rawSpec_append, ih]

/-- In a list of indices each does what it does alone. -/
theorem LoopOk.alone {E lo hi : Nat} {body : Nat → List RawInstr} (h : LoopOk E lo hi body) {i p : Nat} (hs : RawSets (body i) p) (is : List Nat) (hi' : i ∈ is)
    (hnd : is.Nodup) (hr : ∀ i ∈ is, lo ≤ i ∧ i < hi) (σ : Nat → K) : rawSpec (is.flatMap body) σ p = rawSpec (body i) σ p := by
  induction is generalizing σ with
  | nil => cases hi'
  | cons i0 is ih =>
    obtain ⟨n1, n2⟩ := List.nodup_cons.1 hnd
    obtain ⟨a1, a2⟩ := hr i hi'
    obtain ⟨b1, b2⟩ := hr i0 (by simp)
    rw [List.flatMap_cons, rawSpec_append]
    by_cases e : i = i0
    · subst e
      refine rawSpec_kept _ _ ?_
      rintro ⟨r, hrm, hrp⟩
      obtain ⟨i', m1, m2⟩ := List.mem_flatMap.1 hrm
      obtain ⟨c1, c2⟩ := hr i' (by simp [m1])
      exact h.apart i i' a1 a2 c1 c2 (fun e => n1 (e ▸ m1)) p hs (sets_names ⟨r, m2, hrp⟩)
    · rw [ih ((List.mem_cons.1 hi').resolve_left e) n2 (fun i' h' => hr i' (by simp [h']))]
      have hk : ∀ p', RawNames (body i) p' → rawSpec (body i0) σ p' = σ p' := fun p' hp' =>
        rawSpec_kept _ _ fun hs' => h.apart i0 i b1 b2 a1 a2 (Ne.symm e) p' hs' hp'
      exact rawSpec_congr _ hk (hk p (sets_names hs))

end

section
variable {q E T lo hi : Nat} [Fact q.Prime] [Fact (q % 2 = 1)] {loc : Nat → BitVec 64} {y : X86.Sym → BitVec 64} {σ : Nat → El q} {m m' : Conc.Mem}
  {body : Nat → List RawInstr} {calls : List Call}

omit [Fact q.Prime] [Fact (q % 2 = 1)] in
theorem LoopOk.conditions (h : LoopOk E lo hi body) (hc : parallelFor T lo hi = some calls)
    (hσ : ∀ i, lo ≤ i → i < hi → ∀ p, RawNeeds (body i) p → rd m (loc p) (n64 q) = (σ p).v) :
    (∀ j : Fin T, ∀ r ∈ rawBlock calls (fun _ => body) j, ∃ i, lo ≤ i ∧ i < hi ∧ r ∈ body i) ∧
    (∀ j : Fin T, ∀ r ∈ rawBlock calls (fun _ => body) j, ∀ p, r.uses p → p < E) ∧
    (∀ j j' : Fin T, j ≠ j' → ∀ p, RawSets (rawBlock calls (fun _ => body) j) p → ¬ RawNames (rawBlock calls (fun _ => body) j') p) ∧
    ∀ (j : Fin T) p, RawNeeds (rawBlock calls (fun _ => body) j) p → rd m (loc p) (n64 q) = (σ p).v := by
  have hform : ∀ j : Fin T, ∀ r ∈ rawBlock calls (fun _ => body) j, ∃ c, calls[j.val]? = some c ∧ ∃ i ∈ c.indices, lo ≤ i ∧ i < hi ∧ r ∈ body i := by
    intro j r hr
    obtain ⟨c, hj, i, hi, h⟩ := block_mem hr
    obtain ⟨a1, a2⟩ := calls_range hc hj hi
    exact ⟨c, hj, i, hi, a1, a2, h⟩
  refine ⟨fun j r hr => ?_, fun j r hr p hp => ?_, ?_, fun j p hp => ?_⟩
  · obtain ⟨-, -, i, -, h⟩ := hform j r hr
    exact ⟨i, h⟩
  · obtain ⟨-, -, i, -, a1, a2, hm⟩ := hform j r hr
    exact h.range i a1 a2 p ⟨r, hm, hp⟩
  · rintro j j' hne p ⟨r, hr, hp⟩ ⟨r', hr', hp'⟩
    obtain ⟨c, hj, i, hi, a1, a2, hm⟩ := hform j r hr
    obtain ⟨c', hj', i', hi', b1, b2, hm'⟩ := hform j' r' hr'
    by_cases e : i = i'
    · subst e
      exact hne (Fin.ext (calls_inj hc hj hj' hi hi'))
    · exact h.apart i i' a1 a2 b1 b2 e p ⟨r, hm, hp⟩ ⟨r', hm', hp'⟩
  · obtain ⟨c, hj, i, hi, h'⟩ := block_needs hp
    obtain ⟨a1, a2⟩ := calls_range hc hj hi
    exact hσ i a1 a2 p h'

/-- C94: a parallel loop of raw operations on `T` threads.  It comes to an end, it goes on under every schedule without a data race until all threads have returned, and
every run leaves in the elements that it sets the limbs that the `for` loop computes; all other elements keep their limbs.  Only what the body reads before it sets it
has to hold an array below the modulus. -/
theorem C94_loop (hT : 0 < T) (hT31 : T < 2 ^ 31) (hlt : lo < hi) (hi31 : hi < 2 ^ 31) (h : LoopOk E lo hi body) (ht : Printed q y m)
    (hσ : ∀ i, lo ≤ i → i < hi → ∀ p, RawNeeds (body i) p → rd m (loc p) (n64 q) = (σ p).v) :
    (∀ stack : Fin T → BitVec 64, Place q E loc stack y → ∃ m', RawLoop q E T loc y lo hi (fun _ => body) m m') ∧
    (∃ calls, parallelFor T lo hi = some calls ∧ Orderly q E loc y (fun j : Fin T => rawBlock calls (fun _ => body) j) m) ∧
    ∀ m', RawLoop q E T loc y lo hi (fun _ => body) m m' →
      (∀ i, lo ≤ i → i < hi → ∀ p, RawSets (body i) p → rd m' (loc p) (n64 q) = (forLoop lo hi body σ p).v) ∧
      (∀ p < E, (∀ i, lo ≤ i → i < hi → ¬ RawSets (body i) p) → rd m' (loc p) (n64 q) = rd m (loc p) (n64 q)) ∧ Printed q y m' := by
  obtain ⟨calls, hc, -⟩ := parallelFor_spec (lo := lo) (hi := hi) hT hT31 (by exact_mod_cast hlt) (by omega)
  obtain ⟨c0, c1, c2, c3⟩ := h.conditions (m := m) (loc := loc) hc hσ
  refine ⟨fun stack hp => ?_, ⟨calls, hc, orderly ht c1 c2 c3⟩, fun m' hr => ?_⟩
  · obtain ⟨m', hm'⟩ := phase_exists hp ht c1 c2 c3
    exact ⟨m', calls, hc, hm'⟩
  · obtain ⟨calls', hc', hph⟩ := hr
    obtain rfl : calls = calls' := Option.some.inj (hc.symm.trans hc')
    obtain ⟨r1, r2, r3⟩ := hph.result ht c1 c2 c3
    refine ⟨fun i a1 a2 p hs => ?_, fun p hpE hn => r2 p hpE fun j ⟨r, hr, hrp⟩ => ?_, r3⟩
    · have hfl := calls_flat hc
      have hnd : (calls.map Call.indices).flatten.Nodup := by rw [hfl]; exact List.nodup_range'
      have hmem : i ∈ (calls.map Call.indices).flatten := by rw [hfl, List.mem_range'_1]; omega
      obtain ⟨is, h1, h2⟩ := List.mem_flatten.1 hmem
      have hndi := (List.nodup_flatten.1 hnd).1 is h1
      obtain ⟨c, hcm, rfl⟩ := List.mem_map.1 h1
      obtain ⟨j, hj⟩ := List.mem_iff_getElem?.1 hcm
      have hjT : j < T := lt_of_lt_of_le (List.getElem?_eq_some_iff.1 hj).1 (parallelFor_some hc).2.1
      have eb : rawBlock calls (fun _ => body) j = c.indices.flatMap body := by unfold rawBlock; rw [hj]
      obtain ⟨r, hrm, hrp⟩ := hs
      have e1 := r1 ⟨j, hjT⟩ p (by
        rw [eb]
        exact ⟨r, List.mem_flatMap.2 ⟨i, h2, hrm⟩, hrp⟩)
      rw [e1, eb, h.alone ⟨r, hrm, hrp⟩ _ h2 hndi (fun i' hi' => calls_range hc hj hi'), forLoop_eq,
        h.alone ⟨r, hrm, hrp⟩ _ (List.mem_range'_1.2 (by omega)) List.nodup_range' (fun i' hi' => by have := List.mem_range'_1.1 hi'; omega)]
    · obtain ⟨i, a1, a2, hm⟩ := c0 j r hr
      exact hn i a1 a2 ⟨r, hm, hrp⟩

/-- C94: two runs, also with different numbers of threads, leave the same limbs in all elements. -/
theorem C94_deterministic {T' : Nat} (hT : 0 < T) (hT31 : T < 2 ^ 31) (hT' : 0 < T') (hT31' : T' < 2 ^ 31) (hlt : lo < hi) (hi31 : hi < 2 ^ 31)
    (h : LoopOk E lo hi body) (ht : Printed q y m) (hσ : ∀ i, lo ≤ i → i < hi → ∀ p, RawNeeds (body i) p → rd m (loc p) (n64 q) = (σ p).v) (m1 m2 : Conc.Mem)
    (h1 : RawLoop q E T loc y lo hi (fun _ => body) m m1) (h2 : RawLoop q E T' loc y lo hi (fun _ => body) m m2) :
    ∀ p < E, rd m1 (loc p) (n64 q) = rd m2 (loc p) (n64 q) := by
  intro p hp
  obtain ⟨-, -, r1⟩ := C94_loop hT hT31 hlt hi31 h ht hσ
  obtain ⟨-, -, r2⟩ := C94_loop hT' hT31' hlt hi31 h ht hσ
  obtain ⟨s1, k1, -⟩ := r1 m1 h1
  obtain ⟨s2, k2, -⟩ := r2 m2 h2
  by_cases e : ∃ i, lo ≤ i ∧ i < hi ∧ RawSets (body i) p
  · obtain ⟨i, a1, a2, hs⟩ := e
    rw [s1 i a1 a2 p hs, s2 i a1 a2 p hs]
  · have hn : ∀ i, lo ≤ i → i < hi → ¬ RawSets (body i) p := fun i a1 a2 hs => e ⟨i, a1, a2, hs⟩
    rw [k1 p hp hn, k2 p hp hn]

/-- A parallel loop: the bounds and the body. -/
structure ParLoop where
  lo : Nat
  hi : Nat
  body : Nat → List RawInstr

/-- Parallel loops one after the other: a loop starts on the memory that the previous one left. -/
def RawLoops (q E T : Nat) (loc : Nat → BitVec 64) (y : X86.Sym → BitVec 64) : List ParLoop → Conc.Mem → Conc.Mem → Prop
  | [], m, m' => m' = m
  | l :: ls, m, m' => ∃ m1, RawLoop q E T loc y l.lo l.hi (fun _ => l.body) m m1 ∧ RawLoops q E T loc y ls m1 m'

/-- C94: parallel loops one after the other leave in all elements what the `for` loops compute one after the other, and come to an end.  An element that one loop sets
for one index may be used by later loops for any index. -/
theorem C94_sequence (hT : 0 < T) (hT31 : T < 2 ^ 31) (ls : List ParLoop) (hls : ∀ l ∈ ls, l.lo < l.hi ∧ l.hi < 2 ^ 31 ∧ LoopOk E l.lo l.hi l.body)
    (ht : Printed q y m) (hσ : ∀ p < E, rd m (loc p) (n64 q) = (σ p).v) :
    (∀ stack : Fin T → BitVec 64, Place q E loc stack y → ∃ m', RawLoops q E T loc y ls m m') ∧
    ∀ m', RawLoops q E T loc y ls m m' →
      (∀ p < E, rd m' (loc p) (n64 q) = (ls.foldl (fun σ l => forLoop l.lo l.hi l.body σ) σ p).v) ∧ Printed q y m' := by
  induction ls generalizing m σ with
  | nil => exact ⟨fun _ _ => ⟨m, rfl⟩, fun m' h => by rw [show m' = m from h]; exact ⟨hσ, ht⟩⟩
  | cons l ls ih =>
    obtain ⟨h1, h2, h3⟩ := hls l (by simp)
    obtain ⟨e1, -, e2⟩ := C94_loop (m := m) (loc := loc) (y := y) (σ := σ) hT hT31 h1 h2 h3 ht fun i a1 a2 p hn =>
      hσ p (RawNeeds.lt (fun x hx p hp => h3.range i a1 a2 p ⟨x, hx, hp⟩) hn)
    have step : ∀ m1, RawLoop q E T loc y l.lo l.hi (fun _ => l.body) m m1 →
        (∀ p < E, rd m1 (loc p) (n64 q) = (forLoop l.lo l.hi l.body σ p).v) ∧ Printed q y m1 := by
      intro m1 hr
      obtain ⟨s1, k1, p1⟩ := e2 m1 hr
      refine ⟨fun p hp => ?_, p1⟩
      by_cases e : ∃ i, l.lo ≤ i ∧ i < l.hi ∧ RawSets (l.body i) p
      · obtain ⟨i, a1, a2, hs⟩ := e
        exact s1 i a1 a2 p hs
      · rw [k1 p hp fun i a1 a2 hs => e ⟨i, a1, a2, hs⟩, hσ p hp, forLoop_eq, rawSpec_kept]
        rintro ⟨r, hr, hrp⟩
        obtain ⟨i, hi, hrm⟩ := List.mem_flatMap.1 hr
        have := List.mem_range'_1.1 hi
        exact e ⟨i, by omega, by omega, r, hrm, hrp⟩
    have hls' : ∀ l ∈ ls, l.lo < l.hi ∧ l.hi < 2 ^ 31 ∧ LoopOk E l.lo l.hi l.body := fun l' hl' => hls l' (by simp [hl'])
    refine ⟨fun stack hp => ?_, ?_⟩
    · obtain ⟨m1, r1⟩ := e1 stack hp
      obtain ⟨d1, d2⟩ := step m1 r1
      obtain ⟨m', r2⟩ := (ih hls' d2 d1).1 stack hp
      exact ⟨m', m1, r1, r2⟩
    · rintro m' ⟨m1, r1, r2⟩
      obtain ⟨d1, d2⟩ := step m1 r1
      exact (ih hls' d2 d1).2 m' r2

end

/-! ## The hypotheses are met: `a[i] = a[i] * b[i] - c[i]` -/

section sample

local instance : Fact (bnR % 2 = 1) := ⟨by decide +kernel⟩

/-- The step between the transforms of a prover, with the three arrays one behind the other. -/
def mulSub (n i : Nat) : List RawInstr := [⟨.mul, i, i, n + i⟩, ⟨.sub, i, i, 2 * n + i⟩]

theorem mulSub_ok (n : Nat) : LoopOk (3 * n) 0 n (mulSub n) := by
  refine ⟨fun i _ hi p ⟨r, hr, hp⟩ => ?_, fun i i' _ hi _ hi' hne p ⟨r, hr, hp⟩ ⟨r', hr', hp'⟩ => ?_⟩
  · rcases List.mem_pair.1 hr with rfl | rfl <;> rcases hp with h | ⟨-, h⟩ | ⟨-, h⟩ <;> simp only at h <;> omega
  · have e : p = i := by rcases List.mem_pair.1 hr with rfl | rfl <;> exact hp.symm
    rcases List.mem_pair.1 hr' with rfl | rfl <;> rcases hp' with h | ⟨-, h⟩ | ⟨-, h⟩ <;> simp only at h <;> omega

theorem mulSub_needs {n i p : Nat} (hi : i < n) (h : RawNeeds (mulSub n i) p) : p ≤ 3 * n := by
  rcases h with (⟨-, h⟩ | ⟨-, h⟩) | ⟨-, (⟨-, h⟩ | ⟨-, h⟩) | ⟨-, h⟩⟩
  all_goals first | exact h.elim | (simp only at h; omega)

/-- On a million cells of the scalar field of BN254 and five threads the loop ends with these values. -/
example (x : Nat → El bnR) : ∃ m m', (∀ p < 3 * 2 ^ 20, rd m (sampleLoc p) (n64 bnR) = (x p).v) ∧
    RawLoop bnR (3 * 2 ^ 20) 5 sampleLoc sampleSym (0 : Nat) (2 ^ 20 : Nat) (fun _ => mulSub (2 ^ 20)) m m' ∧
    ∀ i < 2 ^ 20, rd m' (sampleLoc i) (n64 bnR) = (x i * x (2 ^ 20 + i) - x (2 * 2 ^ 20 + i)).v := by
  have hp : Place bnR (3 * 2 ^ 20) sampleLoc (sampleStack 5) sampleSym := sample_place (by norm_num) (by norm_num)
  have ok := mulSub_ok (2 ^ 20)
  obtain ⟨h1, -, h2⟩ := C94_loop (q := bnR) (T := 5) (m := sampleMem x) (σ := x) (loc := sampleLoc) (y := sampleSym) (by norm_num) (by norm_num) (by norm_num) (by norm_num) ok
    (sample_printed x) fun i _ hi p hn => sample_rd (by have := mulSub_needs hi hn; omega)
  obtain ⟨m', hr⟩ := h1 _ hp
  refine ⟨sampleMem x, m', fun p hp => sample_rd (by omega), hr, fun i hi => ?_⟩
  have hs : RawSets (mulSub (2 ^ 20) i) i := ⟨_, List.mem_cons_self, rfl⟩
  rw [(h2 m' hr).1 i (Nat.zero_le _) hi i hs, forLoop_eq,
    ok.alone hs _ (List.mem_range'_1.2 (by omega)) List.nodup_range' (fun i' hi' => by have := List.mem_range'_1.1 hi'; omega)]
  refine congrArg El.v ?_
  simp only [mulSub, rawSpec, RawOp.den, if_true, if_neg (show 2 * 2 ^ 20 + i ≠ i by omega)]

/-- `b[i] = b[n - 1 - i]` is not such a loop, but with a copy between it is: two loops that reverse a million cells into another array and multiply. -/
def copyRev (n i : Nat) : List RawInstr := [⟨.copy, n + i, n - 1 - i, 0⟩]

theorem copyRev_ok (n : Nat) : LoopOk (3 * n) 0 n (copyRev n) := by
  refine ⟨fun i _ hi p ⟨r, hr, hp⟩ => ?_, fun i i' _ hi _ hi' hne p ⟨r, hr, hp⟩ ⟨r', hr', hp'⟩ => ?_⟩
  · rw [List.mem_singleton.1 hr] at hp
    rcases hp with h | ⟨-, h⟩ | ⟨h, -⟩ <;> [skip; skip; cases h] <;> simp only at h <;> omega
  · rw [List.mem_singleton.1 hr] at hp
    rw [List.mem_singleton.1 hr'] at hp'
    simp only at hp
    rcases hp' with h | ⟨-, h⟩ | ⟨h, -⟩ <;> [skip; skip; cases h] <;> simp only at h <;> omega

example (x : Nat → El bnR) : ∃ m m', (∀ p < 3 * 2 ^ 20, rd m (sampleLoc p) (n64 bnR) = (x p).v) ∧
    RawLoops bnR (3 * 2 ^ 20) 5 sampleLoc sampleSym [⟨0, 2 ^ 20, copyRev (2 ^ 20)⟩, ⟨0, 2 ^ 20, mulSub (2 ^ 20)⟩] m m' := by
  have hm : ∀ p < 3 * 2 ^ 20, rd (sampleMem x) (sampleLoc p) (n64 bnR) = (x p).v := fun p hp => sample_rd (by omega)
  obtain ⟨m', h⟩ := (C94_sequence (T := 5) (by norm_num) (by norm_num) [⟨0, 2 ^ 20, copyRev (2 ^ 20)⟩, ⟨0, 2 ^ 20, mulSub (2 ^ 20)⟩] (fun l hl => by
    rcases List.mem_pair.1 hl with rfl | rfl
    · exact ⟨by norm_num, by norm_num, copyRev_ok _⟩
    · exact ⟨by norm_num, by norm_num, mulSub_ok _⟩) (sample_printed x) hm).1 _ (sample_place (by norm_num) (by norm_num))
  exact ⟨_, m', hm, h⟩

end sample

end FF.Props
