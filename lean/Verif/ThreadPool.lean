import Verif.Par
import Mathlib.Tactic.Linarith
import Mathlib.Tactic.Ring

/-!
# Parallel loops: `ThreadPool`, `c/misc.hpp:100-179`

`begin` and `end` are integers in the range of `int` (the callers convert).  The conversion of the thread count to `int` and the
overflow of `end - begin` are modelled; the other sums stay between `begin` and `end`.
-/

set_option linter.unusedSimpArgs false

namespace FF.Pool

/-- The loop `for (i = 0; i < elementRest; i++) jobs[i] += 1`, `misc.hpp:139-141`. -/
def addOnes (jobs : List Int) (n : Nat) : List Int := (List.range n).foldl (fun jobs i => jobs.set i (jobs.getD i 0 + 1)) jobs

/-- `divideWork`, `misc.hpp:126-144`; `none` when an assertion fails. -/
def divideWork (elementCount threadCount : Int) : Option (List Int) :=
  if ¬(elementCount > 0) then none
  else if ¬(threadCount > 0) then none
  else if elementCount ≤ threadCount then some (List.replicate elementCount.toNat 1)
  else
    let jobSize := elementCount.tdiv threadCount
    let elementRest := elementCount.tmod threadCount
    let jobs := List.replicate threadCount.toNat jobSize
    some (addOnes jobs elementRest.toNat)

/-- A call `func(begin, end, k)`: by worker `k`, or by the calling thread for the last one. -/
structure Call where
  lo : Int
  hi : Int
  k : Nat
deriving DecidableEq

/-- The submitting loop, `misc.hpp:154-156`; the first argument counts the iterations left.  The last call is line 158. -/
def submitLoop (jobs : List Int) : Nat → Int → Nat → List Call
  | 0, jobBegin, k => [⟨jobBegin, jobBegin + jobs.getD k 0, k⟩]
  | n + 1, jobBegin, k => ⟨jobBegin, jobBegin + jobs.getD k 0, k⟩ :: submitLoop jobs n (jobBegin + jobs.getD k 0) (k + 1)

/-- The calls made by `parallelFor`, `misc.hpp:147-163`; `none` when an assertion fails or `end - begin` overflows.  The thread count, an
`unsigned int`, is converted to `int` for `divideWork`. -/
def parallelFor (nThreads : Nat) (lo hi : Int) : Option (List Call) :=
  let elementCount := hi - lo
  if 2 ^ 31 ≤ elementCount then none
  else (divideWork elementCount ((nThreads : Int).bmod (2 ^ 32))).map fun jobs => submitLoop jobs (jobs.length - 1) lo 0

/-- The calls `func(k, nThreads)` made by `parallelBlock`, `misc.hpp:166-178`. -/
def parallelBlock (nThreads : Nat) : List Nat := (List.range (nThreads - 1)) ++ [nThreads - 1]

/-! ## Lemmas -/

theorem addOnes_length (jobs : List Int) (n : Nat) : (addOnes jobs n).length = jobs.length := by
  unfold addOnes
  induction n with
  | zero => rfl
  | succ n ih =>
    rw [List.range_succ, List.foldl_append]
    simp only [List.foldl_cons, List.foldl_nil, List.length_set, ih]

theorem addOnes_getD (jobs : List Int) (n i : Nat) (hn : n ≤ jobs.length) :
    (addOnes jobs n).getD i 0 = if i < n then jobs.getD i 0 + 1 else jobs.getD i 0 := by
  induction n with
  | zero => simp [addOnes]
  | succ n ih =>
    have e : addOnes jobs (n + 1) = (addOnes jobs n).set n ((addOnes jobs n).getD n 0 + 1) := by
      unfold addOnes; rw [List.range_succ, List.foldl_append]; rfl
    have ih := ih (by omega)
    have hl := addOnes_length jobs n
    rw [e, List.getD_eq_getElem?_getD, List.getElem?_set]
    by_cases h : n = i
    · subst h
      simp only [if_true, hl, if_pos (show n < jobs.length by omega), Option.getD_some, lt_irrefl, if_false,
        if_pos (Nat.lt_succ_self n), ih]
    · rw [if_neg h, ← List.getD_eq_getElem?_getD, ih]
      by_cases h' : i < n
      · rw [if_pos h', if_pos (by omega)]
      · rw [if_neg h', if_neg (by omega)]

/-- The integers from `lo` up to but not including `hi`. -/
def ints (lo hi : Int) : List Int := (List.range (hi - lo).toNat).map fun i : Nat => lo + (i : Int)

theorem ints_append {a b c : Int} (h1 : a ≤ b) (h2 : b ≤ c) : ints a b ++ ints b c = ints a c := by
  unfold ints
  have e : (c - a).toNat = (b - a).toNat + (c - b).toNat := by omega
  rw [e, List.range_add, List.map_append, List.map_map]
  congr 1
  apply List.map_congr_left
  intro i _
  simp only [Function.comp_apply]
  omega

theorem submitLoop_spec (jobs : List Int) : ∀ n k lo, n + k + 1 = jobs.length → (∀ i < jobs.length, 0 < jobs.getD i 0) →
    (submitLoop jobs n lo k).length = n + 1 ∧
    (∀ i c, (submitLoop jobs n lo k)[i]? = some c → c.k = k + i ∧ c.hi - c.lo = jobs.getD (k + i) 0) ∧
    (submitLoop jobs n lo k).flatMap (fun c => ints c.lo c.hi) = ints lo (lo + ((jobs.drop k).sum)) := by
  intro n
  induction n with
  | zero =>
    intro k lo hl hpos
    refine ⟨rfl, ?_, ?_⟩
    · intro i c h
      rcases i with _ | i
      · simp only [submitLoop, List.getElem?_cons_zero, Option.some.injEq] at h
        subst h; simp
      · simp [submitLoop] at h
    · have hd : jobs.drop k = [jobs.getD k 0] := by
        rw [List.drop_eq_getElem_cons (by omega : k < jobs.length), List.drop_eq_nil_of_le (by omega)]
        simp [List.getD_eq_getElem?_getD, List.getElem?_eq_getElem (by omega : k < jobs.length)]
      rw [hd]
      simp [submitLoop]
  | succ n ih =>
    intro k lo hl hpos
    obtain ⟨h1, h2, h3⟩ := ih (k + 1) (lo + jobs.getD k 0) (by omega) hpos
    refine ⟨by simp only [submitLoop, List.length_cons, h1], ?_, ?_⟩
    · intro i c h
      rcases i with _ | i
      · simp only [submitLoop, List.getElem?_cons_zero, Option.some.injEq] at h
        subst h; simp
      · simp only [submitLoop, List.getElem?_cons_succ] at h
        obtain ⟨g1, g2⟩ := h2 i c h
        refine ⟨by omega, ?_⟩
        rw [g2]; congr 1; omega
    · have hd : jobs.drop k = jobs.getD k 0 :: jobs.drop (k + 1) := by
        rw [List.drop_eq_getElem_cons (by omega : k < jobs.length)]
        simp [List.getD_eq_getElem?_getD, List.getElem?_eq_getElem (by omega : k < jobs.length)]
      simp only [submitLoop, List.flatMap_cons, h3]
      rw [hd, List.sum_cons]
      have hp := hpos k (by omega)
      have hs : 0 ≤ (jobs.drop (k + 1)).sum := by
        have hnn : ∀ l : List Int, (∀ x ∈ l, 0 ≤ x) → 0 ≤ l.sum := by
          intro l
          induction l with
          | nil => intro _; simp
          | cons x l ih =>
            intro hx
            rw [List.sum_cons]
            exact Int.add_nonneg (hx x (by simp)) (ih fun y hy => hx y (by simp [hy]))
        apply hnn
        intro x hx
        obtain ⟨i, hi, rfl⟩ := List.mem_iff_getElem.1 (List.mem_of_mem_drop hx)
        have := hpos i hi
        rw [List.getD_eq_getElem?_getD, List.getElem?_eq_getElem hi] at this
        exact le_of_lt this
      rw [ints_append (by omega) (by omega)]
      congr 1; omega

theorem replicate_getD (n : Nat) (v : Int) (i : Nat) (h : i < n) : (List.replicate n v).getD i 0 = v := by
  simp [List.getD_eq_getElem?_getD, List.getElem?_replicate, h]

/-- The sizes add up, are positive, and differ by at most one; there are at most `threadCount` of them. -/
theorem divideWork_spec {e t : Int} (he : 0 < e) (ht : 0 < t) : ∃ jobs, divideWork e t = some jobs ∧ 0 < jobs.length ∧
    (jobs.length : Int) ≤ t ∧ jobs.sum = e ∧ (∀ i < jobs.length, 0 < jobs.getD i 0) ∧
    (∀ i < jobs.length, ∀ j < jobs.length, jobs.getD i 0 ≤ jobs.getD j 0 + 1) := by
  unfold divideWork
  rw [if_neg (by omega : ¬¬(e > 0)), if_neg (by omega : ¬¬(t > 0))]
  split
  · rename_i h
    refine ⟨_, rfl, by simp; omega, by simp; omega, by simp; omega, ?_, ?_⟩
    · intro i hi
      rw [List.length_replicate] at hi
      rw [replicate_getD _ _ _ hi]; norm_num
    · intro i hi j hj
      rw [List.length_replicate] at hi hj
      rw [replicate_getD _ _ _ hi, replicate_getD _ _ _ hj]; norm_num
  · rename_i h
    obtain ⟨e, rfl⟩ := Int.eq_ofNat_of_zero_le (le_of_lt he)
    obtain ⟨t, rfl⟩ := Int.eq_ofNat_of_zero_le (le_of_lt ht)
    have het : t < e := by omega
    have ht' : 0 < t := by omega
    have eq1 : ((e : Int).tdiv (t : Int)) = ((e / t : Nat) : Int) := by rw [Int.ofNat_tdiv]
    have eq2 : ((e : Int).tmod (t : Int)).toNat = e % t := by rw [← Int.ofNat_tmod, Int.toNat_natCast]
    simp only [eq1, eq2, Int.toNat_natCast]
    have hm := Nat.mod_lt e ht'
    have hq : 0 < e / t := Nat.div_pos (le_of_lt het) ht'
    have hrl : (List.replicate t ((e / t : Nat) : Int)).length = t := by simp
    have hg := fun i => addOnes_getD (List.replicate t ((e / t : Nat) : Int)) (e % t) i (by rw [hrl]; omega)
    refine ⟨_, rfl, by rw [addOnes_length, hrl]; exact ht', by rw [addOnes_length, hrl], ?_, ?_, ?_⟩
    · have hsum : ∀ (l : List Int) n, n ≤ l.length → (addOnes l n).sum = l.sum + n := by
        intro l n
        induction n with
        | zero => intro _; simp [addOnes]
        | succ n ih =>
          intro hn
          have e : addOnes l (n + 1) = (addOnes l n).set n ((addOnes l n).getD n 0 + 1) := by
            unfold addOnes; rw [List.range_succ, List.foldl_append]; rfl
          rw [e]
          have hlen : n < (addOnes l n).length := by rw [addOnes_length]; omega
          have hset : ∀ (l : List Int) n, n < l.length → (l.set n (l.getD n 0 + 1)).sum = l.sum + 1 := by
            intro l
            induction l with
            | nil => intro n h; simp at h
            | cons x l ih =>
              intro n h
              rcases n with _ | n
              · simp; omega
              · simp only [List.set_cons_succ, List.getD_cons_succ, List.sum_cons]
                rw [ih n (by simpa using h)]; omega
          rw [hset _ _ hlen, ih (by omega)]
          push_cast; omega
      have hrep : ∀ (n : Nat) (v : Int), (List.replicate n v).sum = n * v := by
        intro n v
        induction n with
        | zero => simp
        | succ n ih => rw [List.replicate_succ, List.sum_cons, ih]; push_cast; ring
      rw [hsum _ _ (by rw [hrl]; omega), hrep]
      have := Nat.div_add_mod e t
      exact_mod_cast this
    · intro i hi
      rw [addOnes_length, hrl] at hi
      rw [hg, replicate_getD _ _ _ hi]
      split <;> omega
    · intro i hi j hj
      rw [addOnes_length, hrl] at hi hj
      rw [hg, hg, replicate_getD _ _ _ hi, replicate_getD _ _ _ hj]
      split <;> split <;> omega

/-! ## Loops executed by the pool -/

/-- The indices a call runs through. -/
def Call.indices (c : Call) : List Nat := (ints c.lo c.hi).map Int.toNat

variable {L E : Type}

open Par

/-- The threads of a parallel loop: the `j`-th call runs through its indices. -/
def threads (calls : List Call) (prog : Nat → List (Act L E)) (j : Nat) : List (Act L E) :=
  match calls[j]? with
  | some c => c.indices.flatMap prog
  | none => []

/-- A complete run of `parallelFor(lo, hi, ...)` on `nThreads` threads whose body performs, for index `i`, the actions `prog i`:
the calls are the threads, interleaved in any order; `parallelFor` returns when all have ended (C45). -/
def ParFor (nThreads : Nat) (lo hi : Int) (prog : Nat → List (Act L E)) (m m' : Nat → E) : Prop :=
  ∃ calls, parallelFor nThreads lo hi = some calls ∧
    Exec (threads calls prog) m m'

/-- When `parallelFor` gets past its assertions. -/
theorem parallelFor_bounds {nThreads : Nat} {lo hi : Int} {calls : List Call} (hc : parallelFor nThreads lo hi = some calls) :
    lo < hi ∧ hi - lo < 2 ^ 31 ∧ 0 < (nThreads : Int).bmod (2 ^ 32) := by
  unfold parallelFor at hc
  dsimp only at hc
  split at hc
  · cases hc
  · rename_i h1
    unfold divideWork at hc
    split at hc
    · cases hc
    · rename_i h2
      split at hc
      · cases hc
      · rename_i h3
        exact ⟨by omega, by omega, by omega⟩

theorem parallelFor_some {nThreads : Nat} {lo hi : Int} {calls : List Call} (hc : parallelFor nThreads lo hi = some calls) :
    0 < calls.length ∧ calls.length ≤ nThreads ∧ (∀ (i : Nat) (c : Call), calls[i]? = some c → c.k = i ∧ c.lo < c.hi) ∧
    (∀ c ∈ calls, ∀ d ∈ calls, c.hi - c.lo ≤ d.hi - d.lo + 1) ∧
    calls.flatMap (fun c => ints c.lo c.hi) = ints lo hi := by
  obtain ⟨h, h31, ht⟩ := parallelFor_bounds hc
  obtain ⟨jobs, hj, hl, hlt, hs, hp, hd⟩ := divideWork_spec (e := hi - lo) (t := (nThreads : Int).bmod (2 ^ 32)) (by omega) ht
  obtain ⟨s1, s2, s3⟩ := submitLoop_spec jobs (jobs.length - 1) 0 lo (by omega) hp
  have hle : (nThreads : Int).bmod (2 ^ 32) ≤ nThreads := by unfold Int.bmod; dsimp only; split <;> omega
  have e : calls = submitLoop jobs (jobs.length - 1) lo 0 := by
    unfold parallelFor at hc
    dsimp only at hc
    rw [if_neg (by omega), hj] at hc
    exact (Option.some.inj hc).symm
  subst e
  refine ⟨by rw [s1]; omega, by rw [s1]; omega, ?_, ?_, ?_⟩
  · intro i c hc
    obtain ⟨g1, g2⟩ := s2 i c hc
    have hi' : i < jobs.length := by
      have := (List.getElem?_eq_some_iff.1 hc).1
      rw [s1] at this; omega
    have := hp i hi'
    rw [zero_add] at g1 g2
    exact ⟨g1, by omega⟩
  · intro c hc d hd'
    obtain ⟨i, hi1, hi2⟩ := List.mem_iff_getElem.1 hc
    obtain ⟨j, hj1, hj2⟩ := List.mem_iff_getElem.1 hd'
    have g1 := (s2 i c (List.getElem?_eq_some_iff.2 ⟨hi1, hi2⟩)).2
    have g2 := (s2 j d (List.getElem?_eq_some_iff.2 ⟨hj1, hj2⟩)).2
    rw [zero_add] at g1 g2
    rw [s1] at hi1 hj1
    rw [g1, g2]
    exact hd i (by omega) j (by omega)
  · rw [s3]
    simp only [List.drop_zero, hs]
    congr 1; omega

theorem parallelFor_spec {nThreads : Nat} {lo hi : Int} (ht : 0 < nThreads) (ht' : nThreads < 2 ^ 31) (h : lo < hi) (h' : hi - lo < 2 ^ 31) :
    ∃ calls : List Call, parallelFor nThreads lo hi = some calls ∧
    0 < calls.length ∧ calls.length ≤ nThreads ∧ (∀ (i : Nat) (c : Call), calls[i]? = some c → c.k = i ∧ c.lo < c.hi) ∧
    (∀ c ∈ calls, ∀ d ∈ calls, c.hi - c.lo ≤ d.hi - d.lo + 1) ∧
    calls.flatMap (fun c => ints c.lo c.hi) = ints lo hi := by
  have hb : (nThreads : Int).bmod (2 ^ 32) = nThreads := by unfold Int.bmod; dsimp only; split <;> omega
  obtain ⟨jobs, hj, -⟩ := divideWork_spec (e := hi - lo) (t := (nThreads : Int).bmod (2 ^ 32)) (by omega) (by omega)
  have hc : parallelFor nThreads lo hi = some (submitLoop jobs (jobs.length - 1) lo 0) := by
    unfold parallelFor
    dsimp only
    rw [if_neg (by omega), hj]
    rfl
  exact ⟨_, hc, parallelFor_some hc⟩

theorem ints_toNat {lo hi : Nat} : (ints lo hi).map Int.toNat = List.range' lo (hi - lo) := by
  unfold ints
  rw [List.map_map, List.range'_eq_map_range]
  have e : ((hi : Int) - (lo : Int)).toNat = hi - lo := by omega
  rw [e]
  apply List.map_congr_left
  intro i _
  simp only [Function.comp_apply]
  omega

theorem nodup_flatMap_getElem {α : Type} {ls : List (List α)} (h : ls.flatten.Nodup) {i j : Nat} {a b : List α} {x : α}
    (hi : ls[i]? = some a) (hj : ls[j]? = some b) (ha : x ∈ a) (hb : x ∈ b) : i = j := by
  induction ls generalizing i j with
  | nil => simp at hi
  | cons l ls ih =>
    rw [List.flatten_cons, List.nodup_append] at h
    obtain ⟨h1, h2, h3⟩ := h
    rcases i with _ | i <;> rcases j with _ | j
    · rfl
    · simp only [List.getElem?_cons_zero, Option.some.injEq, List.getElem?_cons_succ] at hi hj
      subst hi
      exact absurd rfl (h3 x ha x (List.mem_flatten.2 ⟨b, List.mem_of_getElem? hj, hb⟩))
    · simp only [List.getElem?_cons_zero, Option.some.injEq, List.getElem?_cons_succ] at hi hj
      subst hj
      exact absurd rfl (h3 x hb x (List.mem_flatten.2 ⟨a, List.mem_of_getElem? hi, ha⟩))
    · simp only [List.getElem?_cons_succ] at hi hj
      rw [ih h2 hi hj]

/-- A parallel loop whose iterations have disjoint footprints: whatever the number of threads and the interleaving, each cell ends
with what its iteration computes from the initial memory. -/
theorem parFor_spec {nThreads : Nat} {lo hi : Nat} {prog : Nat → List (Act L E)} {m m' : Nat → E} (_ht : 0 < nThreads) (hlt : lo < hi)
    {G : Nat → Nat → Prop} {RO : Nat → Prop} (hdis : ∀ i j k, G i k → G j k → i = j) (hro : ∀ j k, G j k → ¬RO k)
    (hf : ∀ i, ∀ a ∈ prog i, Foot (G i) RO a) {res : Nat → (Nat → E) → Nat → E}
    (hres : ∀ i l m k, G i k → (solo (prog i) (l, m)).2 k = res i m k) (h : ParFor nThreads lo hi prog m m') :
    (∀ i, lo ≤ i → i < hi → ∀ k, G i k → m' k = res i m k) ∧ ∀ k, (∀ i, lo ≤ i → i < hi → ¬G i k) → m' k = m k := by
  obtain ⟨calls, hc, loc, sched, hdone, hm⟩ := h
  obtain ⟨hl0, _, hk, _, hcov⟩ := parallelFor_some hc
  -- the indices of all calls
  have hflat : (calls.map Call.indices).flatten = List.range' lo (hi - lo) := by
    rw [← ints_toNat, ← hcov, List.flatMap_def, List.map_flatten, List.map_map]
    rfl
  have hnd : (calls.map Call.indices).flatten.Nodup := by rw [hflat]; exact List.nodup_range'
  let F : Nat → Nat → Prop := fun j k => ∃ c, calls[j]? = some c ∧ ∃ i ∈ c.indices, G i k
  have hFdis : ∀ i j k, F i k → F j k → i = j := by
    rintro i j k ⟨c, hc1, x, hx, hg⟩ ⟨d, hd1, y, hy, hg'⟩
    obtain rfl := hdis _ _ _ hg hg'
    exact nodup_flatMap_getElem hnd (i := i) (j := j) (by rw [List.getElem?_map, hc1]; rfl) (by rw [List.getElem?_map, hd1]; rfl) hx hy
  have hFro : ∀ j k, F j k → ¬RO k := by rintro j k ⟨c, _, x, _, hg⟩; exact hro _ _ hg
  obtain ⟨r1, r2⟩ := run_spec hFdis hFro sched ⟨_, loc, m⟩ (by
    intro j a ha
    simp only [threads] at ha
    cases hcj : calls[j]? with
    | none => rw [hcj] at ha; simp at ha
    | some c =>
      rw [hcj] at ha
      obtain ⟨i, hi', ha⟩ := List.mem_flatMap.1 ha
      exact (hf i a ha).mono (fun k hk => ⟨c, hcj, i, hi', hk⟩)) hdone
  rw [hm] at r1 r2
  refine ⟨fun i h1 h2 k hg => ?_, fun k hg => ?_⟩
  · have hmem : i ∈ (calls.map Call.indices).flatten := by rw [hflat, List.mem_range'_1]; omega
    obtain ⟨l, hl, hil⟩ := List.mem_flatten.1 hmem
    obtain ⟨c, hcm, rfl⟩ := List.mem_map.1 hl
    obtain ⟨j, hj⟩ := List.getElem?_of_mem hcm
    rw [r1 j k ⟨c, hj, i, hil, hg⟩]
    simp only [threads, hj]
    have hndc : c.indices.Nodup := by
      have := List.nodup_flatten.1 hnd
      exact this.1 _ hl
    exact (solo_iterations hdis hro hf hres c.indices hndc (loc j) m).1 i hil k hg
  · rw [r2 k]
    rintro j ⟨c, hc1, i, hi', hg'⟩
    have : i ∈ (calls.map Call.indices).flatten := List.mem_flatten.2 ⟨c.indices, List.mem_map.2 ⟨c, List.mem_of_getElem? hc1, rfl⟩, hi'⟩
    rw [hflat, List.mem_range'_1] at this
    exact hg i (by omega) (by omega) hg'

/-- The same with the hypotheses only for the indices of the loop. -/
theorem parFor_spec' {nThreads : Nat} {lo hi : Nat} {prog : Nat → List (Act L E)} {m m' : Nat → E} (ht : 0 < nThreads) (hlt : lo < hi)
    {G : Nat → Nat → Prop} {RO : Nat → Prop} (hdis : ∀ i j k, lo ≤ i → i < hi → lo ≤ j → j < hi → G i k → G j k → i = j)
    (hro : ∀ j k, lo ≤ j → j < hi → G j k → ¬RO k) (hf : ∀ i, lo ≤ i → i < hi → ∀ a ∈ prog i, Foot (G i) RO a)
    {res : Nat → (Nat → E) → Nat → E} (hres : ∀ i l m k, lo ≤ i → i < hi → G i k → (solo (prog i) (l, m)).2 k = res i m k)
    (h : ParFor nThreads lo hi prog m m') :
    (∀ i, lo ≤ i → i < hi → ∀ k, G i k → m' k = res i m k) ∧ ∀ k, (∀ i, lo ≤ i → i < hi → ¬G i k) → m' k = m k := by
  classical
  have hcong : ParFor nThreads lo hi (fun i => if lo ≤ i ∧ i < hi then prog i else []) m m' := by
    obtain ⟨calls, hc, hx⟩ := h
    refine ⟨calls, hc, ?_⟩
    obtain ⟨_, _, _, _, hcov⟩ := parallelFor_some hc
    have hflat : (calls.map Call.indices).flatten = List.range' lo (hi - lo) := by
      rw [← ints_toNat, ← hcov, List.flatMap_def, List.map_flatten, List.map_map]
      rfl
    refine (congrArg (fun t => Exec t m m') (funext fun j => ?_)).mpr hx
    unfold threads
    cases hj : calls[j]? with
    | none => rfl
    | some c =>
      simp only
      rw [List.flatMap_def, List.flatMap_def]
      congr 1
      apply List.map_congr_left
      intro i hi'
      have : i ∈ (calls.map Call.indices).flatten := List.mem_flatten.2 ⟨c.indices, List.mem_map.2 ⟨c, List.mem_of_getElem? hj, rfl⟩, hi'⟩
      rw [hflat, List.mem_range'_1] at this
      rw [if_pos ⟨by omega, by omega⟩]
  obtain ⟨r1, r2⟩ := parFor_spec (G := fun i k => (lo ≤ i ∧ i < hi) ∧ G i k) (RO := RO) (res := res) ht hlt
    (fun i j k h1 h2 => hdis i j k h1.1.1 h1.1.2 h2.1.1 h2.1.2 h1.2 h2.2) (fun j k h1 => hro j k h1.1.1 h1.1.2 h1.2)
    (fun i a ha => by
      by_cases hi' : lo ≤ i ∧ i < hi
      · rw [if_pos hi'] at ha
        exact (hf i hi'.1 hi'.2 a ha).mono fun k hk => ⟨hi', hk⟩
      · rw [if_neg hi'] at ha; simp at ha)
    (fun i l m k hk => by simp only [if_pos hk.1]; exact hres i l m k hk.1.1 hk.1.2 hk.2) hcong
  exact ⟨fun i h1 h2 k hk => r1 i h1 h2 k ⟨⟨h1, h2⟩, hk⟩, fun k hk => r2 k fun i h1 h2 hh => hk i h1 h2 hh.2⟩

/-- Such a loop always has a complete run. -/
theorem parFor_exists {nThreads : Nat} {lo hi : Nat} (prog : Nat → List (Act L E)) (l : L) (m : Nat → E) (ht : 0 < nThreads) (ht' : nThreads < 2 ^ 31)
    (hlt : lo < hi) (hlt' : hi < 2 ^ 31) : ∃ m', ParFor nThreads lo hi prog m m' := by
  obtain ⟨calls, hc, -⟩ := parallelFor_spec (lo := lo) (hi := hi) ht ht' (by exact_mod_cast hlt) (by omega)
  obtain ⟨m', hm⟩ := exec_exists (threads calls prog) calls.length
    (by intro j hj; simp [threads, List.getElem?_eq_none hj]) l m
  exact ⟨m', calls, hc, hm⟩

end FF.Pool
