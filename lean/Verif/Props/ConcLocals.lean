import Verif.Props.ConcLoop

/-!
# C95: parallel loops whose body has locals

As C94 (`parallelFor`, `c/misc.hpp:147`), for bodies that keep intermediate results in field elements declared in the body, as the loops of `c/fft.cpp:162-209` do
(`Element tmp`, `t`, `u`).  The body is written with elements `0 … S - 1` that the threads share and
`S … S + w - 1` for its locals; each thread has its own `w` elements for them.
-/

namespace FF.Props

open FF.Conc FF.Fft FF.Pool
open FF.X86 (State InArr InStk rd Sep rawFrame)

/-- Where thread `j` has the elements of the body: the shared ones are the same for all, the locals one behind the other (the stack of the thread, `c/fft.cpp:187-188`;
simplified: a thread keeps the same place for all its indices). -/
def placeOf (S w j p : Nat) : Nat := if p < S then p else p + w * j

/-- A call with its elements at other places. -/
def RawInstr.at (f : Nat → Nat) (x : RawInstr) : RawInstr := ⟨x.op, f x.r, f x.a, f x.b⟩

/-- The body as thread `j` of `parallelFor` runs it (`c/misc.hpp:147`). -/
def onThread (S w : Nat) (body : Nat → List RawInstr) (j i : Nat) : List RawInstr := (body i).map (RawInstr.at (placeOf S w j))

/-- The body uses `S` shared elements and `w` locals; it sets its locals before it reads them; it sets for one index no shared element that it uses for another one. -/
structure LocalsOk (S w lo hi : Nat) (body : Nat → List RawInstr) : Prop where
  range : ∀ i, lo ≤ i → i < hi → ∀ p, RawNames (body i) p → p < S + w
  fresh : ∀ i, lo ≤ i → i < hi → ∀ p, RawNeeds (body i) p → p < S
  apart : ∀ i i', lo ≤ i → i < hi → lo ≤ i' → i' < hi → i ≠ i' → ∀ p < S, RawSets (body i) p → ¬ RawNames (body i') p

theorem placeOf_inj {S w j p p' : Nat} (h : placeOf S w j p = placeOf S w j p') : p = p' := by
  unfold placeOf at h
  split at h <;> split at h <;> omega

theorem placeOf_shared {S w j p : Nat} (h : p < S) : placeOf S w j p = p := if_pos h

theorem placeOf_lt {S w T j p : Nat} (hj : j < T) (h : p < S + w) : placeOf S w j p < S + w * T := by
  have : w * j + w ≤ w * T := by rw [← Nat.mul_succ]; exact Nat.mul_le_mul_left _ hj
  unfold placeOf; split <;> omega

theorem placeOf_small {S w j p : Nat} (h : placeOf S w j p < S) : p < S := by
  unfold placeOf at h; split at h <;> omega

/-- Locals of different threads are different elements. -/
theorem placeOf_apart {S w j j' p p' : Nat} (hne : j ≠ j') (h : p < S + w) (h' : p' < S + w) (e : placeOf S w j p = placeOf S w j' p') : p = p' ∧ p < S := by
  unfold placeOf at e
  split at e <;> split at e
  · exact ⟨e, by assumption⟩
  · omega
  · omega
  · exfalso
    rcases Nat.lt_or_gt_of_ne hne with hl | hl
    · have : w * j + w ≤ w * j' := by rw [← Nat.mul_succ]; exact Nat.mul_le_mul_left _ hl
      omega
    · have : w * j' + w ≤ w * j := by rw [← Nat.mul_succ]; exact Nat.mul_le_mul_left _ hl
      omega

section
variable {S w j : Nat} {prog : List RawInstr} {p : Nat}

theorem sets_at (h : RawSets (prog.map (RawInstr.at (placeOf S w j))) p) : ∃ p0, p = placeOf S w j p0 ∧ RawSets prog p0 := by
  obtain ⟨r, hr, hp⟩ := h
  obtain ⟨x, hx, rfl⟩ := List.mem_map.1 hr
  exact ⟨x.r, hp.symm, x, hx, rfl⟩

theorem names_at (h : RawNames (prog.map (RawInstr.at (placeOf S w j))) p) : ∃ p0, p = placeOf S w j p0 ∧ RawNames prog p0 := by
  obtain ⟨r, hr, hp⟩ := h
  obtain ⟨x, hx, rfl⟩ := List.mem_map.1 hr
  rcases hp with e | ⟨ha, e⟩ | ⟨ha, e⟩
  · exact ⟨x.r, e.symm, x, hx, .inl rfl⟩
  · exact ⟨x.a, e.symm, x, hx, .inr (.inl ⟨ha, rfl⟩)⟩
  · exact ⟨x.b, e.symm, x, hx, .inr (.inr ⟨ha, rfl⟩)⟩

theorem needs_at (h : RawNeeds (prog.map (RawInstr.at (placeOf S w j))) p) : ∃ p0, p = placeOf S w j p0 ∧ RawNeeds prog p0 := by
  induction prog with
  | nil => exact h.elim
  | cons x xs ih =>
    rcases h with (⟨ha, e⟩ | ⟨ha, e⟩) | ⟨hne, h⟩
    · exact ⟨x.a, e.symm, .inl (.inl ⟨ha, rfl⟩)⟩
    · exact ⟨x.b, e.symm, .inl (.inr ⟨ha, rfl⟩)⟩
    · obtain ⟨p0, rfl, h0⟩ := ih h
      exact ⟨p0, rfl, .inr ⟨fun e => hne (congrArg (placeOf S w j) e), h0⟩⟩

theorem needs_names (h : RawNeeds prog p) : RawNames prog p := by
  induction prog with
  | nil => exact h.elim
  | cons x xs ih =>
    rcases h with h | ⟨-, h⟩
    · exact ⟨x, by simp, .inr h⟩
    · obtain ⟨r, hr, hp⟩ := ih h
      exact ⟨r, by simp [hr], hp⟩

variable {K : Type} [Zero K] [Add K] [Sub K] [Neg K] [Mul K]

/-- What a program sets depends on what it reads before it sets it. -/
theorem rawSpec_needs {σ σ' : Nat → K} (h : ∀ p, RawNeeds prog p → σ p = σ' p) (hp : RawSets prog p) : rawSpec prog σ p = rawSpec prog σ' p := by
  induction prog generalizing σ σ' with
  | nil => obtain ⟨x, hx, -⟩ := hp; cases hx
  | cons x xs ih =>
    have hv : x.op.den (σ x.a) (σ x.b) = x.op.den (σ' x.a) (σ' x.b) := by
      have h1 : 1 ≤ x.op.arity → σ x.a = σ' x.a := fun hx => h _ (.inl (.inl ⟨hx, rfl⟩))
      have h2 : x.op.arity = 2 → σ x.b = σ' x.b := fun hx => h _ (.inl (.inr ⟨hx, rfl⟩))
      revert h1 h2
      cases x.op <;> intro h1 h2 <;> simp_all [RawOp.arity, RawOp.den]
    rw [rawSpec, rawSpec]
    by_cases hs : RawSets xs p
    · refine ih (fun p' h' => ?_) hs
      simp only [hv]
      by_cases e : p' = x.r
      · rw [if_pos e, if_pos e]
      · rw [if_neg e, if_neg e]
        exact h p' (.inr ⟨e, h'⟩)
    · have e : p = x.r := by
        obtain ⟨r, hr, hrp⟩ := hp
        rcases List.mem_cons.1 hr with rfl | hr
        · exact hrp.symm
        · exact absurd ⟨r, hr, hrp⟩ hs
      rw [rawSpec_kept _ _ hs, rawSpec_kept _ _ hs, if_pos e, if_pos e, hv]

/-- A program with its elements at other places. -/
theorem rawSpec_at (σ : Nat → K) (p : Nat) :
    rawSpec (prog.map (RawInstr.at (placeOf S w j))) σ (placeOf S w j p) = rawSpec prog (fun p => σ (placeOf S w j p)) p := by
  induction prog generalizing σ with
  | nil => rfl
  | cons x xs ih =>
    rw [List.map_cons, rawSpec, ih, rawSpec]
    congr 1
    funext p'
    by_cases e : p' = x.r
    · rw [if_pos e, if_pos (by rw [e]; rfl)]; rfl
    · rw [if_neg e, if_neg (fun h => e (placeOf_inj h) : ¬ placeOf S w j p' = (RawInstr.at (placeOf S w j) x).r)]

variable {lo hi : Nat} {body : Nat → List RawInstr}

/-- In a list of indices each does to the shared elements what it does alone. -/
theorem LocalsOk.alone (h : LocalsOk S w lo hi body) {i : Nat} (hpS : p < S) (hs : RawSets (body i) p) (is : List Nat) (hi' : i ∈ is)
    (hnd : is.Nodup) (hr : ∀ i ∈ is, lo ≤ i ∧ i < hi) (σ : Nat → K) : rawSpec (is.flatMap body) σ p = rawSpec (body i) σ p := by
  induction is generalizing σ with
  | nil => cases hi'
  | cons i0 is ih =>
    obtain ⟨n1, n2⟩ := List.nodup_cons.1 hnd
    obtain ⟨a1, a2⟩ := hr i hi'
    obtain ⟨b1, b2⟩ := hr i0 (by simp)
    rw [List.flatMap_cons, rawSpec_append]
    by_cases e : i = i0
    · subst e
      refine rawSpec_kept _ _ ?_
      rintro ⟨r, hrm, hrp⟩
      obtain ⟨i', m1, m2⟩ := List.mem_flatMap.1 hrm
      obtain ⟨c1, c2⟩ := hr i' (by simp [m1])
      exact h.apart i i' a1 a2 c1 c2 (fun e => n1 (e ▸ m1)) p hpS hs (sets_names ⟨r, m2, hrp⟩)
    · rw [ih ((List.mem_cons.1 hi').resolve_left e) n2 (fun i' h' => hr i' (by simp [h']))]
      exact rawSpec_needs (fun p' hp' => rawSpec_kept _ _ fun hs' =>
        h.apart i0 i b1 b2 a1 a2 (Ne.symm e) p' (h.fresh i a1 a2 p' hp') hs' (needs_names hp')) hs

/-- The body of thread `j` is such a body, too. -/
theorem LocalsOk.thread {T : Nat} (h : LocalsOk S w lo hi body) (hj : j < T) : LocalsOk S (w * T) lo hi (onThread S w body j) := by
  refine ⟨fun i a1 a2 p hp => ?_, fun i a1 a2 p hp => ?_, fun i i' a1 a2 b1 b2 hne p hpS hs hn => ?_⟩
  · obtain ⟨p0, rfl, h0⟩ := names_at hp
    exact placeOf_lt hj (h.range i a1 a2 p0 h0)
  · obtain ⟨p0, rfl, h0⟩ := needs_at hp
    have := h.fresh i a1 a2 p0 h0
    rw [placeOf_shared this]; exact this
  · obtain ⟨p0, rfl, h0⟩ := sets_at hs
    obtain ⟨p1, e, h1⟩ := names_at hn
    obtain rfl := placeOf_inj e
    exact h.apart i i' a1 a2 b1 b2 hne p0 (placeOf_small hpS) h0 h1

/-- What it sets of the shared elements is what the body sets. -/
theorem LocalsOk.same (h : LocalsOk S w lo hi body) {i : Nat} (a1 : lo ≤ i) (a2 : i < hi) (hpS : p < S) (hs : RawSets (body i) p) (σ : Nat → K) :
    rawSpec (onThread S w body j i) σ p = rawSpec (body i) σ p := by
  have e := rawSpec_at (prog := body i) (S := S) (w := w) (j := j) σ p
  rw [placeOf_shared hpS] at e
  unfold onThread
  rw [e]
  exact rawSpec_needs (fun p' hp' => by rw [placeOf_shared (h.fresh i a1 a2 p' hp')]) hs

end

section
variable {q S w E T lo hi : Nat} [Fact q.Prime] [Fact (q % 2 = 1)] {loc : Nat → BitVec 64} {y : X86.Sym → BitVec 64} {σ : Nat → El q} {m m' : Conc.Mem}
  {body : Nat → List RawInstr} {calls : List Call}

omit [Fact q.Prime] [Fact (q % 2 = 1)] in
theorem LocalsOk.conditions (h : LocalsOk S w lo hi body) (hc : parallelFor T lo hi = some calls)
    (hσ : ∀ i, lo ≤ i → i < hi → ∀ p, RawNeeds (body i) p → rd m (loc p) (n64 q) = (σ p).v) :
    (∀ j : Fin T, ∀ r ∈ rawBlock calls (onThread S w body) j, ∃ i, lo ≤ i ∧ i < hi ∧ r ∈ onThread S w body j i) ∧
    (∀ j : Fin T, ∀ r ∈ rawBlock calls (onThread S w body) j, ∀ p, r.uses p → p < S + w * T) ∧
    (∀ j j' : Fin T, j ≠ j' → ∀ p, RawSets (rawBlock calls (onThread S w body) j) p → ¬ RawNames (rawBlock calls (onThread S w body) j') p) ∧
    ∀ (j : Fin T) p, RawNeeds (rawBlock calls (onThread S w body) j) p → rd m (loc p) (n64 q) = (σ p).v := by
  have hform : ∀ j : Fin T, ∀ r ∈ rawBlock calls (onThread S w body) j, ∃ c, calls[j.val]? = some c ∧ ∃ i ∈ c.indices, lo ≤ i ∧ i < hi ∧ r ∈ onThread S w body j i := by
    intro j r hr
    obtain ⟨c, hj, i, hi, h⟩ := block_mem hr
    obtain ⟨a1, a2⟩ := calls_range hc hj hi
    exact ⟨c, hj, i, hi, a1, a2, h⟩
  refine ⟨fun j r hr => ?_, fun j r hr p hp => ?_, ?_, fun j p hp => ?_⟩
  · obtain ⟨-, -, i, -, h⟩ := hform j r hr
    exact ⟨i, h⟩
  · obtain ⟨-, -, i, -, a1, a2, hm⟩ := hform j r hr
    exact (h.thread j.2).range i a1 a2 p ⟨r, hm, hp⟩
  · rintro j j' hne p ⟨r, hr, hp⟩ ⟨r', hr', hp'⟩
    obtain ⟨c, hj, i, hi, a1, a2, hm⟩ := hform j r hr
    obtain ⟨c', hj', i', hi', b1, b2, hm'⟩ := hform j' r' hr'
    obtain ⟨p0, rfl, h0⟩ := sets_at ⟨r, hm, hp⟩
    obtain ⟨p1, e, h1⟩ := names_at ⟨r', hm', hp'⟩
    obtain ⟨rfl, hpS⟩ := placeOf_apart (fun e => hne (Fin.ext e)) (h.range i a1 a2 p0 (sets_names h0)) (h.range i' b1 b2 p1 h1) e
    by_cases e' : i = i'
    · subst e'
      exact hne (Fin.ext (calls_inj hc hj hj' hi hi'))
    · exact h.apart i i' a1 a2 b1 b2 e' p0 hpS h0 h1
  · obtain ⟨c, hj, i, hi, h'⟩ := block_needs hp
    obtain ⟨a1, a2⟩ := calls_range hc hj hi
    obtain ⟨p0, rfl, h0⟩ := needs_at h'
    rw [placeOf_shared (h.fresh i a1 a2 p0 h0)]
    exact hσ i a1 a2 p0 h0

/-- C95: a parallel loop with locals comes to an end, goes on under every schedule without a data race until all threads have returned, and every run leaves in the
shared elements that it sets the limbs that the `for` loop computes; all other elements except the locals keep their limbs.  The locals may hold anything at the start. -/
theorem C95_locals (hT : 0 < T) (hT31 : T < 2 ^ 31) (hlt : lo < hi) (hi31 : hi < 2 ^ 31) (h : LocalsOk S w lo hi body) (hE : S + w * T ≤ E) (ht : Printed q y m)
    (hσ : ∀ i, lo ≤ i → i < hi → ∀ p, RawNeeds (body i) p → rd m (loc p) (n64 q) = (σ p).v) :
    (∀ stack : Fin T → BitVec 64, Place q E loc stack y → ∃ m', RawLoop q E T loc y lo hi (onThread S w body) m m') ∧
    (∃ calls, parallelFor T lo hi = some calls ∧ Orderly q E loc y (fun j : Fin T => rawBlock calls (onThread S w body) j) m) ∧
    ∀ m', RawLoop q E T loc y lo hi (onThread S w body) m m' →
      (∀ i, lo ≤ i → i < hi → ∀ p < S, RawSets (body i) p → rd m' (loc p) (n64 q) = (forLoop lo hi body σ p).v) ∧
      (∀ p < E, p < S ∨ S + w * T ≤ p → (∀ i, lo ≤ i → i < hi → ¬ RawSets (body i) p) → rd m' (loc p) (n64 q) = rd m (loc p) (n64 q)) ∧ Printed q y m' := by
  obtain ⟨calls, hc, -⟩ := parallelFor_spec (lo := lo) (hi := hi) hT hT31 (by exact_mod_cast hlt) (by omega)
  obtain ⟨c0, c1', c2, c3⟩ := h.conditions (m := m) (loc := loc) hc hσ
  have c1 : ∀ j : Fin T, ∀ r ∈ rawBlock calls (onThread S w body) j, ∀ p, r.uses p → p < E := fun j r hr p hp => lt_of_lt_of_le (c1' j r hr p hp) hE
  refine ⟨fun stack hp => ?_, ⟨calls, hc, orderly ht c1 c2 c3⟩, fun m' hr => ?_⟩
  · obtain ⟨m', hm'⟩ := phase_exists hp ht c1 c2 c3
    exact ⟨m', calls, hc, hm'⟩
  · obtain ⟨calls', hc', hph⟩ := hr
    obtain rfl : calls = calls' := Option.some.inj (hc.symm.trans hc')
    obtain ⟨r1, r2, r3⟩ := hph.result ht c1 c2 c3
    refine ⟨fun i a1 a2 p hpS hs => ?_, fun p hpE hp hn => r2 p hpE fun j ⟨r, hr, hrp⟩ => ?_, r3⟩
    · have hfl := calls_flat hc
      have hnd : (calls.map Call.indices).flatten.Nodup := by rw [hfl]; exact List.nodup_range'
      have hmem : i ∈ (calls.map Call.indices).flatten := by rw [hfl, List.mem_range'_1]; omega
      obtain ⟨is, h1, h2⟩ := List.mem_flatten.1 hmem
      have hndi := (List.nodup_flatten.1 hnd).1 is h1
      obtain ⟨c, hcm, rfl⟩ := List.mem_map.1 h1
      obtain ⟨j, hj⟩ := List.mem_iff_getElem?.1 hcm
      have hjT : j < T := lt_of_lt_of_le (List.getElem?_eq_some_iff.1 hj).1 (parallelFor_some hc).2.1
      have eb : rawBlock calls (onThread S w body) j = c.indices.flatMap (onThread S w body j) := by unfold rawBlock; rw [hj]
      have hsj : RawSets (onThread S w body j i) p := by
        obtain ⟨r, hrm, rfl⟩ := hs
        exact ⟨_, List.mem_map.2 ⟨r, hrm, rfl⟩, placeOf_shared hpS⟩
      obtain ⟨r, hrm, hrp⟩ := hsj
      have e1 := r1 ⟨j, hjT⟩ p (by
        rw [eb]
        exact ⟨r, List.mem_flatMap.2 ⟨i, h2, hrm⟩, hrp⟩)
      rw [e1, eb, (h.thread hjT).alone hpS ⟨r, hrm, hrp⟩ _ h2 hndi (fun i' hi' => calls_range hc hj hi'), h.same a1 a2 hpS hs, forLoop_eq,
        h.alone hpS hs _ (List.mem_range'_1.2 (by omega)) List.nodup_range' (fun i' hi' => by have := List.mem_range'_1.1 hi'; omega)]
    · obtain ⟨i, a1, a2, hm⟩ := c0 j r hr
      obtain ⟨p0, e, h0⟩ := sets_at ⟨r, hm, hrp⟩
      rcases hp with hp | hp
      · rw [e] at hp
        have := placeOf_small hp
        rw [placeOf_shared this] at e
        exact hn i a1 a2 (e ▸ h0)
      · have := c1' j r hr p (.inl hrp)
        omega

/-- C95: two runs, also with different numbers of threads, leave the same limbs in all shared elements. -/
theorem C95_deterministic {T' : Nat} (hT : 0 < T) (hT31 : T < 2 ^ 31) (hT' : 0 < T') (hT31' : T' < 2 ^ 31) (hlt : lo < hi) (hi31 : hi < 2 ^ 31)
    (h : LocalsOk S w lo hi body) (hE : S + w * T ≤ E) (hE' : S + w * T' ≤ E) (ht : Printed q y m)
    (hσ : ∀ i, lo ≤ i → i < hi → ∀ p, RawNeeds (body i) p → rd m (loc p) (n64 q) = (σ p).v) (m1 m2 : Conc.Mem)
    (h1 : RawLoop q E T loc y lo hi (onThread S w body) m m1) (h2 : RawLoop q E T' loc y lo hi (onThread S w body) m m2) :
    ∀ p < S, rd m1 (loc p) (n64 q) = rd m2 (loc p) (n64 q) := by
  intro p hp
  obtain ⟨-, -, r1⟩ := C95_locals hT hT31 hlt hi31 h hE ht hσ
  obtain ⟨-, -, r2⟩ := C95_locals hT' hT31' hlt hi31 h hE' ht hσ
  obtain ⟨s1, k1, -⟩ := r1 m1 h1
  obtain ⟨s2, k2, -⟩ := r2 m2 h2
  by_cases e : ∃ i, lo ≤ i ∧ i < hi ∧ RawSets (body i) p
  · obtain ⟨i, a1, a2, hs⟩ := e
    rw [s1 i a1 a2 p hp hs, s2 i a1 a2 p hp hs]
  · have hn : ∀ i, lo ≤ i → i < hi → ¬ RawSets (body i) p := fun i a1 a2 hs => e ⟨i, a1, a2, hs⟩
    rw [k1 p (by omega) (.inl hp) hn, k2 p (by omega) (.inl hp) hn]

/-- Parallel loops with locals one after the other, each with its number of locals (as the steps of `fft`, `c/fft.cpp:181-198`): a loop starts on the memory that the
previous one left, locals included. -/
def LocalLoops (q S E T : Nat) (loc : Nat → BitVec 64) (y : X86.Sym → BitVec 64) : List (Nat × ParLoop) → Conc.Mem → Conc.Mem → Prop
  | [], m, m' => m' = m
  | (w, l) :: ls, m, m' => ∃ m1, RawLoop q E T loc y l.lo l.hi (onThread S w l.body) m m1 ∧ LocalLoops q S E T loc y ls m1 m'

/-- C95: parallel loops with locals one after the other come to an end and leave in all shared elements what the `for` loops compute one after the other. -/
theorem C95_sequence (hT : 0 < T) (hT31 : T < 2 ^ 31) (ls : List (Nat × ParLoop))
    (hls : ∀ l ∈ ls, l.2.lo < l.2.hi ∧ l.2.hi < 2 ^ 31 ∧ S + l.1 * T ≤ E ∧ LocalsOk S l.1 l.2.lo l.2.hi l.2.body)
    (ht : Printed q y m) (hσ : ∀ p < S, rd m (loc p) (n64 q) = (σ p).v) :
    (∀ stack : Fin T → BitVec 64, Place q E loc stack y → ∃ m', LocalLoops q S E T loc y ls m m') ∧
    ∀ m', LocalLoops q S E T loc y ls m m' →
      (∀ p < S, rd m' (loc p) (n64 q) = (ls.foldl (fun σ l => forLoop l.2.lo l.2.hi l.2.body σ) σ p).v) ∧ Printed q y m' := by
  induction ls generalizing m σ with
  | nil => exact ⟨fun _ _ => ⟨m, rfl⟩, fun m' h => by rw [show m' = m from h]; exact ⟨hσ, ht⟩⟩
  | cons l ls ih =>
    obtain ⟨w, l⟩ := l
    obtain ⟨h1, h2, hE, h3⟩ := hls (w, l) (by simp)
    dsimp only at h1 h2 hE h3
    obtain ⟨e1, -, e2⟩ := C95_locals (m := m) (loc := loc) (y := y) (σ := σ) hT hT31 h1 h2 h3 hE ht fun i a1 a2 p hn => hσ p (h3.fresh i a1 a2 p hn)
    have step : ∀ m1, RawLoop q E T loc y l.lo l.hi (onThread S w l.body) m m1 →
        (∀ p < S, rd m1 (loc p) (n64 q) = (forLoop l.lo l.hi l.body σ p).v) ∧ Printed q y m1 := by
      intro m1 hr
      obtain ⟨s1, k1, p1⟩ := e2 m1 hr
      refine ⟨fun p hp => ?_, p1⟩
      by_cases e : ∃ i, l.lo ≤ i ∧ i < l.hi ∧ RawSets (l.body i) p
      · obtain ⟨i, a1, a2, hs⟩ := e
        exact s1 i a1 a2 p hp hs
      · rw [k1 p (by omega) (.inl hp) fun i a1 a2 hs => e ⟨i, a1, a2, hs⟩, hσ p hp, forLoop_eq, rawSpec_kept]
        rintro ⟨r, hr, hrp⟩
        obtain ⟨i, hi, hrm⟩ := List.mem_flatMap.1 hr
        have := List.mem_range'_1.1 hi
        exact e ⟨i, by omega, by omega, r, hrm, hrp⟩
    have hls' : ∀ l ∈ ls, l.2.lo < l.2.hi ∧ l.2.hi < 2 ^ 31 ∧ S + l.1 * T ≤ E ∧ LocalsOk S l.1 l.2.lo l.2.hi l.2.body := fun l' hl' => hls l' (by simp [hl'])
    refine ⟨fun stack hp => ?_, ?_⟩
    · obtain ⟨m1, r1⟩ := e1 stack hp
      obtain ⟨d1, d2⟩ := step m1 r1
      obtain ⟨m', r2⟩ := (ih hls' d2 d1).1 stack hp
      exact ⟨m', m1, r1, r2⟩
    · rintro m' ⟨m1, r1, r2⟩
      obtain ⟨d1, d2⟩ := step m1 r1
      exact (ih hls' d2 d1).2 m' r2

end

/-! ## The hypotheses are met: exchanging two arrays -/

section sample

local instance : Fact (bnR % 2 = 1) := ⟨by decide +kernel⟩

/-- `tmp = a[i]; a[i] = b[i]; b[i] = tmp * tmp` with the arrays one behind the other. -/
def exchange (n i : Nat) : List RawInstr := [⟨.copy, 2 * n, i, 0⟩, ⟨.copy, i, n + i, 0⟩, ⟨.square, n + i, 2 * n, 0⟩]

theorem exchange_ok (n : Nat) : LocalsOk (2 * n) 1 0 n (exchange n) := by
  have hn : ∀ i p, RawNames (exchange n i) p → p = 2 * n ∨ p = i ∨ p = n + i := by
    rintro i p ⟨r, hr, hp⟩
    simp only [exchange, List.mem_cons, List.not_mem_nil, or_false] at hr
    rcases hr with rfl | rfl | rfl <;> rcases hp with h | ⟨-, h⟩ | ⟨h, -⟩ <;> first | (cases h; done) | (simp only at h; omega)
  refine ⟨fun i _ hi p hp => by rcases hn i p hp with h | h | h <;> omega, fun i _ hi p hp => ?_, fun i i' _ hi _ hi' hne p hpS hs hp => ?_⟩
  · rcases hp with (⟨-, h⟩ | ⟨h, -⟩) | ⟨h0, (⟨-, h⟩ | ⟨h, -⟩) | ⟨-, (⟨-, h⟩ | ⟨h, -⟩) | ⟨-, h⟩⟩⟩
    all_goals first | (cases h; done) | (simp only at h h0; omega) | (simp only at h; omega)
  · have h1 := hn i p (sets_names hs)
    have h2 := hn i' p hp
    omega

/-- Arrays of a million cells of the scalar field of BN254, five threads. -/
example (x : Nat → El bnR) : ∃ m m', (∀ p < 2 * 2 ^ 20, rd m (sampleLoc p) (n64 bnR) = (x p).v) ∧
    RawLoop bnR (2 * 2 ^ 20 + 5) 5 sampleLoc sampleSym (0 : Nat) (2 ^ 20 : Nat) (onThread (2 * 2 ^ 20) 1 (exchange (2 ^ 20))) m m' ∧
    ∀ i < 2 ^ 20, rd m' (sampleLoc (2 ^ 20 + i)) (n64 bnR) = (x i * x i).v := by
  have ok := exchange_ok (2 ^ 20)
  obtain ⟨h1, -, h2⟩ := C95_locals (q := bnR) (T := 5) (E := 2 * 2 ^ 20 + 5) (m := sampleMem x) (σ := x) (loc := sampleLoc) (y := sampleSym) (by norm_num) (by norm_num)
    (by norm_num) (by norm_num) ok (by norm_num) (sample_printed x) fun i a1 a2 p hn => sample_rd (by have := ok.fresh i a1 a2 p hn; omega)
  obtain ⟨m', hr⟩ := h1 _ (sample_place (by norm_num) (by norm_num))
  refine ⟨sampleMem x, m', fun p hp => sample_rd (by omega), hr, fun i hi => ?_⟩
  have hs : RawSets (exchange (2 ^ 20) i) (2 ^ 20 + i) := ⟨_, List.mem_cons_of_mem _ (List.mem_cons_of_mem _ List.mem_cons_self), rfl⟩
  rw [(h2 m' hr).1 i (Nat.zero_le _) hi _ (by omega) hs, forLoop_eq,
    ok.alone (by omega) hs _ (List.mem_range'_1.2 (by omega)) List.nodup_range' (fun i' hi' => by have := List.mem_range'_1.1 hi'; omega)]
  refine congrArg El.v ?_
  simp only [exchange, rawSpec, RawOp.den, if_true, if_neg (show 2 * 2 ^ 20 ≠ i by omega)]

/-- The loop three times, one after the other, on arrays of any length up to a million: the locals hold what the loop before left. -/
example (n : Nat) (h0 : 0 < n) (hn : n ≤ 2 ^ 20) (x : Nat → El bnR) : ∃ m m', (∀ p < 2 * n, rd m (sampleLoc p) (n64 bnR) = (x p).v) ∧
    LocalLoops bnR (2 * n) (2 * n + 5) 5 sampleLoc sampleSym [(1, ⟨0, n, exchange n⟩), (1, ⟨0, n, exchange n⟩), (1, ⟨0, n, exchange n⟩)] m m' ∧
    ∀ p < 2 * n, rd m' (sampleLoc p) (n64 bnR) = (forLoop 0 n (exchange n) (forLoop 0 n (exchange n) (forLoop 0 n (exchange n) x)) p).v := by
  obtain ⟨h1, h2⟩ := C95_sequence (q := bnR) (S := 2 * n) (T := 5) (E := 2 * n + 5) (m := sampleMem x) (σ := x) (loc := sampleLoc) (y := sampleSym)
    (by norm_num) (by norm_num) [(1, ⟨0, n, exchange n⟩), (1, ⟨0, n, exchange n⟩), (1, ⟨0, n, exchange n⟩)]
    (fun l hl => by
      have e : l = (1, ⟨0, n, exchange n⟩) := by simpa using hl
      subst e
      exact ⟨h0, by dsimp only; omega, by dsimp only; omega, exchange_ok n⟩)
    (sample_printed x) fun p hp => sample_rd (by omega)
  obtain ⟨m', hr⟩ := h1 _ (sample_place (by omega) (by norm_num))
  exact ⟨sampleMem x, m', fun p hp => sample_rd (by omega), hr, fun p hp => (h2 m' hr).1 p hp⟩

end sample

end FF.Props
