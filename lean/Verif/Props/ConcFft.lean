import Verif.Props.ConcRaw
import Verif.Props.FftLimb

/-!
# C92: the transform, instruction by instruction on several x86-64 threads

`fft` and `ifft` of `c/fft.cpp` with the printed x86-64 code of the field operations.  What they call does not depend on the values in the array, so the part of a
parallel loop that one thread runs is a straight program of calls (C91).  A loop ends when all threads have returned and their stores have reached the memory (the
pool hands over under a lock); then the next one starts on the memory that was left.
-/

namespace FF.Props

open FF.Conc FF.Fft FF.Pool
open FF.X86 (State InArr InStk rd Sep rawFrame)

/-! ## Phases -/

/-- Room for `E` elements, the tables and a stack for each thread, all apart. -/
structure Place {ι : Type} (q E : Nat) (loc : Nat → BitVec 64) (stack : ι → BitVec 64) (y : X86.Sym → BitVec 64) : Prop where
  fits : 8 * (n64 q + 8) ≤ 2 ^ 64
  apart : ∀ p < E, ∀ p' < E, p ≠ p' → Sep (loc p) (loc p') (n64 q)
  elemTables : ∀ p < E, ∀ a, InArr (loc p) (n64 q) a → ¬ InRawData q y a
  elemStack : ∀ i, ∀ p < E, ∀ a, InArr (loc p) (n64 q) a → ¬ InStk (stack i) (rawFrame q + 1) a
  tablesStack : ∀ i, ∀ a, InRawData q y a → ¬ InStk (stack i) (rawFrame q + 1) a
  ret : ∀ i, ∀ p < E, ¬ InArr (loc p) (n64 q) (stack i)
  stackOff : ∀ i j, i ≠ j → ∀ a, InStk (stack i) (rawFrame q + 1) a → ¬ InStk (stack j) (rawFrame q + 1) a ∧ a ≠ stack j

/-- The modulus and `np` as the generator prints them, `src/fr.asm.ejs:70-81`. -/
structure Printed (q : Nat) (y : X86.Sym → BitVec 64) (m : Conc.Mem) : Prop where
  table : rd m (y .q) (n64 q) = rawq q
  np : m (y .np) = np q

/-- The threads run their programs on the memory `m`, their instructions in any order and with store buffers; when all have returned and the buffers are empty the
memory is `m'`. -/
def RawPhase {ι : Type} [DecidableEq ι] (q E : Nat) (loc : Nat → BitVec 64) (y : X86.Sym → BitVec 64) (prog : ι → List RawInstr) (m m' : Conc.Mem) : Prop :=
  ∃ (s : ι → State) (ra : BitVec 64) (N : Nat) (cs : ι → X86.Core), (∀ i, (s i).mem = m) ∧ (∀ i, (s i).sym = y) ∧ Place q E loc (fun i => (s i).reg .rsp) y ∧
    Buffered (X86.lineMachine (linkRaw q) ra) (fun i => X86.core [rawCaller loc (prog i)] (s i)) m N cs (fun _ => []) m' ∧ ∀ i, ∃ t, cs i = X86.core [] t

section
variable {ι : Type} {q E : Nat} {loc : Nat → BitVec 64} {y : X86.Sym → BitVec 64} {prog : ι → List RawInstr} {m m' : Conc.Mem}

theorem Place.threads {s : ι → State} (h : Place q E loc (fun i => (s i).reg .rsp) y) (ht : Printed q y m) (hm : ∀ i, (s i).mem = m) (hy : ∀ i, (s i).sym = y)
    (range : ∀ i, ∀ x ∈ prog i, ∀ p, x.uses p → p < E) (elems : ∀ i j, i ≠ j → ∀ p, RawSets (prog i) p → ¬ RawNames (prog j) p) :
    RawThreads q E loc prog s m y :=
  ⟨hm, hy, fun i => ⟨h.fits, h.apart, by rw [hy i]; exact h.elemTables, h.elemStack i, by rw [hy i]; exact h.tablesStack i, by rw [hm i, hy i]; exact ht.table,
    by rw [hm i, hy i]; exact ht.np⟩, range, h.ret, h.stackOff, elems⟩

variable [DecidableEq ι] [Fintype ι] [Fact q.Prime] [Fact (q % 2 = 1)] {σ : Nat → El q}

/-- What a phase leaves. -/
theorem RawPhase.result (h : RawPhase q E loc y prog m m') (ht : Printed q y m) (range : ∀ i, ∀ x ∈ prog i, ∀ p, x.uses p → p < E)
    (elems : ∀ i j, i ≠ j → ∀ p, RawSets (prog i) p → ¬ RawNames (prog j) p) (hσ : ∀ i p, RawNeeds (prog i) p → rd m (loc p) (n64 q) = (σ p).v) :
    (∀ i p, RawSets (prog i) p → rd m' (loc p) (n64 q) = (rawSpec (prog i) σ p).v) ∧
    (∀ p < E, (∀ i, ¬ RawSets (prog i) p) → rd m' (loc p) (n64 q) = rd m (loc p) (n64 q)) ∧ Printed q y m' := by
  obtain ⟨s, ra, N, cs, hm, hy, hp, hb, hd⟩ := h
  obtain ⟨L, t, -, h⟩ := C91_buffered (ra := ra) (hp.threads ht hm hy range elems) hσ
  obtain ⟨h1, h2, h3, h4⟩ := h N cs _ m' hb
  have hfin : ∀ i, cs i = X86.core [] (t i) := fun i => by
    rcases h1.goes i with e | ⟨c1, m1, e⟩
    · exact e
    · obtain ⟨t', e'⟩ := hd i
      rw [e'] at e
      exact nomatch e
  refine ⟨fun i p hs => (h2 i (hfin i) p hs).2 rfl, h3, ⟨?_, ?_⟩⟩
  · rw [← ht.table]
    exact X86.rd_congr fun i hi => h4 _ (.inl ⟨i, hi, rfl⟩)
  · rw [h4 _ (.inr rfl), ht.np]

omit [Fintype ι] in
/-- The stores of a thread can reach the memory. -/
theorem drain_one {M : Machine} {cs0 cs : ι → M.Core} {m0 : Conc.Mem} {N : Nat} (i : ι) (l : Buf) : ∀ {b : ι → Buf} {m : Conc.Mem}, Buffered M cs0 m0 N cs b m →
    b i = l → ∃ m', Buffered M cs0 m0 N cs (Function.update b i []) m' := by
  induction l with
  | nil => intro b m h hb; exact ⟨m, by rw [← hb, Function.update_eq_self]; exact h⟩
  | cons x l ih =>
    intro b m h hb
    have h1 := Buffered.drain (u := []) (a := x.1) (v := x.2) (w := l) h i (by rw [hb]; rfl) nofun
    obtain ⟨m', h2⟩ := ih h1 (by rw [Function.update_self]; rfl)
    rw [Function.update_idem] at h2
    exact ⟨m', h2⟩

/-- A phase comes to an end. -/
theorem phase_exists {stack : ι → BitVec 64} (hp : Place q E loc stack y) (ht : Printed q y m) (range : ∀ i, ∀ x ∈ prog i, ∀ p, x.uses p → p < E)
    (elems : ∀ i j, i ≠ j → ∀ p, RawSets (prog i) p → ¬ RawNames (prog j) p) (hσ : ∀ i p, RawNeeds (prog i) p → rd m (loc p) (n64 q) = (σ p).v) :
    ∃ m', RawPhase q E loc y prog m m' := by
  let s : ι → State := fun i => ⟨fun r => if r = .rsp then stack i else 0, ⟨false, false, false, false⟩, m, y⟩
  have hp' : Place q E loc (fun i => (s i).reg .rsp) y := hp
  have hT := hp'.threads ht (fun _ => rfl) (fun _ => rfl) range elems
  obtain ⟨L, t, -, h⟩ := C91_buffered (ra := 0) hT hσ
  have go : ∀ N ≤ L, ∃ cs m', Buffered (X86.lineMachine (linkRaw q) 0) (fun i => X86.core [rawCaller loc (prog i)] (s i)) m N cs (fun _ => []) m' := by
    intro N
    induction N with
    | zero => exact fun _ => ⟨_, m, .nil⟩
    | succ N ih =>
      intro hN
      obtain ⟨cs, m1, h1⟩ := ih (by omega)
      obtain ⟨ha, -⟩ := h N cs _ m1 h1
      have hnot : ¬ ∀ i, cs i = X86.core [] (t i) := fun hh => by have := ha.done.2 hh; omega
      obtain ⟨i, hi⟩ := not_forall.1 hnot
      obtain ⟨c, m2, h2⟩ := (ha.goes i).resolve_left hi
      obtain ⟨m3, h3⟩ := drain_one i _ (Buffered.instr h1 i h2) rfl
      rw [Function.update_idem, Function.update_eq_self_iff.2 rfl] at h3
      exact ⟨_, m3, h3⟩
  obtain ⟨cs, m', h1⟩ := go L le_rfl
  exact ⟨m', s, 0, L, cs, fun _ => rfl, fun _ => rfl, hp', h1, fun i => ⟨t i, ((h L cs _ m' h1).1.done.1 rfl) i⟩⟩

end

/-! ## The loops

Elements `0 … n - 1` are the array, `n … n + R - 1` the tables of the object, and each thread has two more for its locals. -/

/-- `tmp` or `t` of thread `j`. -/
def tElem (n R j : Nat) : Nat := n + R + 2 * j
/-- `u` of thread `j`. -/
def uElem (n R j : Nat) : Nat := n + R + 2 * j + 1
/-- All elements. -/
def fftElems (n R T : Nat) : Nat := n + R + 2 * T

/-- The program of thread `j` in a parallel loop whose body performs, for index `i`, the calls `body j i`; the `j`-th part of the range is run by the `j`-th thread
(`misc.hpp:147-163`), threads without a part return at once. -/
def rawBlock (calls : List Call) (body : Nat → Nat → List RawInstr) (j : Nat) : List RawInstr :=
  match calls[j]? with
  | some c => c.indices.flatMap (body j)
  | none => []

/-- A complete run of `parallelFor(lo, hi, …)` on `T` threads. -/
def RawLoop (q E T : Nat) (loc : Nat → BitVec 64) (y : X86.Sym → BitVec 64) (lo hi : Int) (body : Nat → Nat → List RawInstr) (m m' : Conc.Mem) : Prop :=
  ∃ calls, parallelFor T lo hi = some calls ∧ RawPhase q E loc y (fun j : Fin T => rawBlock calls body j) m m'

/-- The elements agree with the locals of thread `j` and the array. -/
structure SimT {K : Type} (n R : Nat) (tab : Nat → K) (j : Nat) (σ : Nat → K) (l : Loc K) (a : Nat → K) : Prop where
  arr : ∀ c < n, σ c = a c
  tab : ∀ i < R, σ (n + i) = tab i
  t : σ (tElem n R j) = l.t
  u : σ (uElem n R j) = l.u

section
variable {K : Type} {n R : Nat} {tab : Nat → K} {j : Nat} {σ : Nat → K} {l : Loc K} {a : Nat → K}

theorem SimT.setT (h : SimT n R tab j σ l a) (v : K) : SimT n R tab j (fun p => if p = tElem n R j then v else σ p) { l with t := v } a :=
  ⟨fun c hc => by rw [if_neg (by unfold tElem; omega)]; exact h.arr c hc, fun i hi => by rw [if_neg (by unfold tElem; omega)]; exact h.tab i hi, if_pos rfl,
    by rw [if_neg (by unfold tElem uElem; omega)]; exact h.u⟩

theorem SimT.setU (h : SimT n R tab j σ l a) (v : K) : SimT n R tab j (fun p => if p = uElem n R j then v else σ p) { l with u := v } a :=
  ⟨fun c hc => by rw [if_neg (by unfold uElem; omega)]; exact h.arr c hc, fun i hi => by rw [if_neg (by unfold uElem; omega)]; exact h.tab i hi,
    by rw [if_neg (by unfold tElem uElem; omega)]; exact h.t, if_pos rfl⟩

theorem SimT.set (h : SimT n R tab j σ l a) {c : Nat} (hc : c < n) (v : K) : SimT n R tab j (fun p => if p = c then v else σ p) l (Function.update a c v) :=
  ⟨fun c' hc' => by
      by_cases e : c' = c
      · subst e; rw [if_pos rfl, Function.update_self]
      · rw [if_neg e, Function.update_of_ne e]; exact h.arr c' hc',
    fun i hi => by rw [if_neg (by omega)]; exact h.tab i hi, by rw [if_neg (by unfold tElem; omega)]; exact h.t,
    by rw [if_neg (by unfold uElem; omega)]; exact h.u⟩

theorem rawSpec_append [Zero K] [Add K] [Sub K] [Neg K] [Mul K] (xs ys : List RawInstr) (σ : Nat → K) : rawSpec (xs ++ ys) σ = rawSpec ys (rawSpec xs σ) := by
  induction xs generalizing σ with
  | nil => rfl
  | cons x xs ih => exact ih _

end

/-- A body `B` of calls for the body `P` of a loop over `lo … hi - 1` with the cells `G`. -/
structure Body {K : Type} [Field K] (n R T lo hi : Nat) (tab : Nat → K) (G : Nat → Nat → Prop) (P : Nat → List (Par.Act (Loc K) K))
    (B : Nat → Nat → List RawInstr) : Prop where
  dis : ∀ i i' c, lo ≤ i → i < hi → lo ≤ i' → i' < hi → G i c → G i' c → i = i'
  cells : ∀ i c, lo ≤ i → i < hi → G i c → c < n
  foot : ∀ i, lo ≤ i → i < hi → ∀ a ∈ P i, Par.Foot (G i) (fun _ => False) a
  sim : ∀ i, lo ≤ i → i < hi → ∀ j < T, ∀ σ l a, SimT n R tab j σ l a → SimT n R tab j (rawSpec (B j i) σ) (Par.solo (P i) (l, a)).1 (Par.solo (P i) (l, a)).2
  sets : ∀ i, lo ≤ i → i < hi → ∀ j p, RawSets (B j i) p → G i p ∨ p = tElem n R j ∨ p = uElem n R j
  names : ∀ i, lo ≤ i → i < hi → ∀ j p, RawNames (B j i) p → G i p ∨ p = tElem n R j ∨ p = uElem n R j ∨ (n ≤ p ∧ p < n + R)
  needs : ∀ i, lo ≤ i → i < hi → ∀ j p, RawNeeds (B j i) p → p < n + R

/-- The memory holds the printed tables, the tables of the object and the array. -/
structure Holds (q n R : Nat) (loc : Nat → BitVec 64) (y : X86.Sym → BitVec 64) (tab x : Nat → El q) (m : Conc.Mem) : Prop where
  printed : Printed q y m
  tab : ∀ i < R, rd m (loc (n + i)) (n64 q) = (tab i).v
  arr : ∀ i < n, rd m (loc i) (n64 q) = (x i).v

/-- Further elements keep their contents. -/
def Kept (q A E : Nat) (loc : Nat → BitVec 64) (m m' : Conc.Mem) : Prop := ∀ p, A ≤ p → p < E → rd m' (loc p) (n64 q) = rd m (loc p) (n64 q)

theorem Kept.trans {q A E : Nat} {loc : Nat → BitVec 64} {m m1 m' : Conc.Mem} (h : Kept q A E loc m m1) (h' : Kept q A E loc m1 m') : Kept q A E loc m m' :=
  fun p h1 h2 => (h' p h1 h2).trans (h p h1 h2)

section
variable {xs ys : List RawInstr} {p : Nat}

theorem needs_append (h : RawNeeds (xs ++ ys) p) : RawNeeds xs p ∨ RawNeeds ys p := by
  induction xs with
  | nil => exact .inr h
  | cons x xs ih =>
    rcases h with h | ⟨h1, h2⟩
    · exact .inl (.inl h)
    · exact (ih h2).imp_left fun h => .inr ⟨h1, h⟩

theorem needs_flatMap {is : List Nat} {f : Nat → List RawInstr} (h : RawNeeds (is.flatMap f) p) : ∃ i ∈ is, RawNeeds (f i) p := by
  induction is with
  | nil => exact h.elim
  | cons i is ih =>
    rw [List.flatMap_cons] at h
    rcases needs_append h with h | h
    · exact ⟨i, by simp, h⟩
    · obtain ⟨i', h1, h2⟩ := ih h
      exact ⟨i', by simp [h1], h2⟩

end

section
variable {q n R T lo hi E : Nat} [Fact q.Prime] [Fact (q % 2 = 1)] {loc : Nat → BitVec 64} {y : X86.Sym → BitVec 64} {tab x : Nat → El q} {m m' : Conc.Mem}
  {G : Nat → Nat → Prop} {P : Nat → List (Par.Act (Loc (El q)) (El q))} {B : Nat → Nat → List RawInstr} {calls : List Call}

/-- The part of a thread. -/
theorem block_mem {j : Nat} {r : RawInstr} (h : r ∈ rawBlock calls B j) : ∃ c, calls[j]? = some c ∧ ∃ i ∈ c.indices, r ∈ B j i := by
  unfold rawBlock at h
  cases hc : calls[j]? with
  | none => rw [hc] at h; cases h
  | some c =>
    rw [hc] at h
    obtain ⟨i, h1, h2⟩ := List.mem_flatMap.1 h
    exact ⟨c, rfl, i, h1, h2⟩

theorem block_needs {j p : Nat} (h : RawNeeds (rawBlock calls B j) p) : ∃ c, calls[j]? = some c ∧ ∃ i ∈ c.indices, RawNeeds (B j i) p := by
  unfold rawBlock at h
  cases hc : calls[j]? with
  | none => rw [hc] at h; exact h.elim
  | some c => rw [hc] at h; exact ⟨c, rfl, needs_flatMap h⟩

theorem calls_flat (hc : parallelFor T lo hi = some calls) : (calls.map Call.indices).flatten = List.range' lo (hi - lo) := by
  obtain ⟨_, _, _, _, hcov⟩ := parallelFor_some hc
  rw [← ints_toNat, ← hcov, List.flatMap_def, List.map_flatten, List.map_map]
  rfl

theorem calls_range (hc : parallelFor T lo hi = some calls) {j i : Nat} {c : Call} (hj : calls[j]? = some c) (hi' : i ∈ c.indices) : lo ≤ i ∧ i < hi := by
  have : i ∈ (calls.map Call.indices).flatten := List.mem_flatten.2 ⟨c.indices, List.mem_map.2 ⟨c, List.mem_of_getElem? hj, rfl⟩, hi'⟩
  rw [calls_flat hc, List.mem_range'_1] at this
  omega

theorem calls_inj (hc : parallelFor T lo hi = some calls) {j j' i : Nat} {c c' : Call} (hj : calls[j]? = some c) (hj' : calls[j']? = some c') (h : i ∈ c.indices)
    (h' : i ∈ c'.indices) : j = j' := by
  have hnd : (calls.map Call.indices).flatten.Nodup := by rw [calls_flat hc]; exact List.nodup_range'
  exact nodup_flatMap_getElem hnd (i := j) (j := j') (by rw [List.getElem?_map, hj]; rfl) (by rw [List.getElem?_map, hj']; rfl) h h'

/-- The programs use their own elements. -/
theorem Body.range (h : Body n R T lo hi tab G P B) (hc : parallelFor T lo hi = some calls) :
    ∀ j : Fin T, ∀ r ∈ rawBlock calls B j, ∀ p, r.uses p → p < fftElems n R T := by
  intro j r hr p hp
  obtain ⟨c, hj, i, hi1, hi2⟩ := block_mem hr
  obtain ⟨a1, a2⟩ := calls_range hc hj hi1
  have := j.2
  rcases h.names i a1 a2 j p ⟨r, hi2, hp⟩ with h' | rfl | rfl | h'
  · have := h.cells i p a1 a2 h'; unfold fftElems; omega
  · unfold fftElems tElem; omega
  · unfold fftElems uElem; omega
  · unfold fftElems; omega

theorem Body.elems (h : Body n R T lo hi tab G P B) (hc : parallelFor T lo hi = some calls) :
    ∀ j j' : Fin T, j ≠ j' → ∀ p, RawSets (rawBlock calls B j) p → ¬ RawNames (rawBlock calls B j') p := by
  rintro j j' hne p ⟨r, hr, hrp⟩ ⟨r', hr', hrp'⟩
  obtain ⟨c, hj, i, hi1, hi2⟩ := block_mem hr
  obtain ⟨c', hj', i', hi1', hi2'⟩ := block_mem hr'
  obtain ⟨a1, a2⟩ := calls_range hc hj hi1
  obtain ⟨b1, b2⟩ := calls_range hc hj' hi1'
  have hne' : j.val ≠ j'.val := fun e => hne (Fin.ext e)
  have s1 := h.sets i a1 a2 j p ⟨r, hi2, hrp⟩
  have s2 := h.names i' b1 b2 j' p ⟨r', hi2', hrp'⟩
  have c1 := h.cells i p a1 a2
  have c2 := h.cells i' p b1 b2
  rcases s1 with s1 | s1
  · have := c1 s1
    rcases s2 with s2 | s2
    · obtain rfl := h.dis i i' p a1 a2 b1 b2 s1 s2
      exact hne' (calls_inj hc hj hj' hi1 hi1')
    · unfold tElem uElem at s2; omega
  · rcases s2 with s2 | s2
    · have := c2 s2; unfold tElem uElem at s1; omega
    · unfold tElem uElem at s1 s2; omega

/-- The simulation of a thread. -/
theorem Body.simBlock (h : Body n R T lo hi tab G P B) (hc : parallelFor T lo hi = some calls) {j : Nat} (hj : j < T) {σ : Nat → El q} {l : Loc (El q)} {a : Nat → El q}
    (hs : SimT n R tab j σ l a) : SimT n R tab j (rawSpec (rawBlock calls B j) σ) (Par.solo (threads calls P j) (l, a)).1 (Par.solo (threads calls P j) (l, a)).2 := by
  unfold rawBlock threads
  cases hcj : calls[j]? with
  | none => exact hs
  | some c =>
    have hr : ∀ i ∈ c.indices, lo ≤ i ∧ i < hi := fun i hi => calls_range hc hcj hi
    simp only
    generalize c.indices = is at hr
    induction is generalizing σ l a with
    | nil => exact hs
    | cons i is ih =>
      rw [List.flatMap_cons, List.flatMap_cons, rawSpec_append]
      have e : Par.solo (P i ++ is.flatMap P) (l, a) = Par.solo (is.flatMap P) (Par.solo (P i) (l, a)) := List.foldl_append
      rw [e]
      exact ih (h.sim i (hr i (by simp)).1 (hr i (by simp)).2 j hj σ l a hs) fun i' hi' => hr i' (by simp [hi'])

/-- The elements at the start; the locals may be anything. -/
def startElems (n R : Nat) (tab x : Nat → El q) (loc : Nat → Loc (El q)) (p : Nat) : El q :=
  if p < n then x p else if p < n + R then tab (p - n) else if (p - (n + R)) % 2 = 0 then (loc ((p - (n + R)) / 2)).t else (loc ((p - (n + R)) / 2)).u

omit [Fact q.Prime] [Fact (q % 2 = 1)] in
theorem start_sim (tab x : Nat → El q) (loc : Nat → Loc (El q)) (j : Nat) : SimT n R tab j (startElems n R tab x loc) (loc j) x := by
  refine ⟨fun c hc => if_pos hc, fun i hi => ?_, ?_, ?_⟩
  · unfold startElems
    rw [if_neg (by omega), if_pos (by omega), Nat.add_sub_cancel_left]
  · unfold startElems tElem
    rw [if_neg (by omega), if_neg (by omega), show n + R + 2 * j - (n + R) = 2 * j by omega, if_pos (by omega), show 2 * j / 2 = j by omega]
  · unfold startElems uElem
    rw [if_neg (by omega), if_neg (by omega), show n + R + 2 * j + 1 - (n + R) = 2 * j + 1 by omega, if_neg (by omega), show (2 * j + 1) / 2 = j by omega]

theorem Body.start (h : Body n R T lo hi tab G P B) (hc : parallelFor T lo hi = some calls) (hm : Holds q n R loc y tab x m) (l : Nat → Loc (El q)) :
    ∀ (j : Fin T) p, RawNeeds (rawBlock calls B j) p → rd m (loc p) (n64 q) = (startElems n R tab x l p).v := by
  intro j p hp
  obtain ⟨c, hj, i, h1, h2⟩ := block_needs hp
  obtain ⟨a1, a2⟩ := calls_range hc hj h1
  have hlt := h.needs i a1 a2 j p h2
  unfold startElems
  by_cases e : p < n
  · rw [if_pos e]; exact hm.arr p e
  · rw [if_neg e, if_pos hlt]
    have := hm.tab (p - n) (by omega)
    rwa [show n + (p - n) = p by omega] at this

/-- Every run of a loop is a run of the loop over arrays of limbs. -/
theorem loop_run (h : Body n R T lo hi tab G P B) (hT : 0 < T) (hT31 : T < 2 ^ 31) (hlt : lo < hi) (hi31 : hi < 2 ^ 31) (hm : Holds q n R loc y tab x m)
    (hE : fftElems n R T ≤ E) (hr : RawLoop q E T loc y lo hi B m m') :
    ∃ x', ParFor T lo hi P x x' ∧ Holds q n R loc y tab x' m' ∧ Kept q (fftElems n R T) E loc m m' := by
  obtain ⟨x', hx⟩ := parFor_exists P (⟨0, 0⟩ : Loc (El q)) x hT hT31 hlt hi31
  refine ⟨x', hx, ?_⟩
  obtain ⟨calls, hc, hph⟩ := hr
  have hrange : ∀ j : Fin T, ∀ r ∈ rawBlock calls B j, ∀ p, r.uses p → p < E := fun j r hr p hp => lt_of_lt_of_le (h.range hc j r hr p hp) hE
  obtain ⟨calls', hc', l, sched, hdone, hmem⟩ := hx
  obtain rfl : calls = calls' := Option.some.inj (hc.symm.trans hc')
  obtain ⟨r1, r2, r3⟩ := hph.result hm.printed hrange (h.elems hc) (h.start hc hm l)
  have hcl : calls.length ≤ T := (parallelFor_some hc).2.1
  let F : Nat → Nat → Prop := fun j k => ∃ c, calls[j]? = some c ∧ ∃ i ∈ c.indices, G i k
  have hFdis : ∀ j j' k, F j k → F j' k → j = j' := by
    rintro j j' k ⟨c, hj, i, hi1, hg⟩ ⟨c', hj', i', hi1', hg'⟩
    obtain ⟨a1, a2⟩ := calls_range hc hj hi1
    obtain ⟨b1, b2⟩ := calls_range hc hj' hi1'
    obtain rfl := h.dis i i' k a1 a2 b1 b2 hg hg'
    exact calls_inj hc hj hj' hi1 hi1'
  obtain ⟨g1, g2⟩ := Par.run_spec hFdis (RO := fun _ => False) (fun _ _ _ h => h) sched ⟨_, l, x⟩ (by
    intro j a ha
    simp only [threads] at ha
    cases hcj : calls[j]? with
    | none => rw [hcj] at ha; simp at ha
    | some c =>
      rw [hcj] at ha
      obtain ⟨i, hi', ha⟩ := List.mem_flatMap.1 ha
      obtain ⟨a1, a2⟩ := calls_range hc hcj hi'
      exact (h.foot i a1 a2 a ha).mono (fun k hk => ⟨c, hcj, i, hi', hk⟩)) hdone
  rw [hmem] at g1 g2
  have hsets : ∀ (j : Fin T) p, RawSets (rawBlock calls B j) p → F j p ∨ n + R ≤ p := by
    rintro j p ⟨r, hr, hrp⟩
    obtain ⟨c, hj, i, hi1, hi2⟩ := block_mem hr
    obtain ⟨a1, a2⟩ := calls_range hc hj hi1
    rcases h.sets i a1 a2 j p ⟨r, hi2, hrp⟩ with h' | h'
    · exact .inl ⟨c, hj, i, hi1, h'⟩
    · right; unfold tElem uElem at h'; omega
  have hFn : ∀ j p, F j p → p < n := by
    rintro j p ⟨c, hj, i, hi1, hg⟩
    obtain ⟨a1, a2⟩ := calls_range hc hj hi1
    exact h.cells i p a1 a2 hg
  refine ⟨⟨r3, fun i hi => ?_, fun c hcn => ?_⟩, fun p hp hpE => r2 p hpE fun j ⟨r, hr, hrp⟩ => ?_⟩
  rotate_right
  · have := h.range hc j r hr p (.inl hrp)
    omega
  · rw [r2 (n + i) (by unfold fftElems at hE; omega) fun j hs => ?_]
    · exact hm.tab i hi
    · rcases hsets j _ hs with h' | h'
      · have := hFn _ _ h'; omega
      · omega
  · by_cases hF : ∃ j, F j c
    · obtain ⟨j, hF⟩ := hF
      have hjT : j < T := by
        obtain ⟨d, hd, -⟩ := hF
        have := (List.getElem?_eq_some_iff.1 hd).1
        omega
      have hs := h.simBlock hc hjT (start_sim (n := n) (R := R) tab x l j)
      have e : x' c = rawSpec (rawBlock calls B j) (startElems n R tab x l) c := by rw [g1 j c hF, hs.arr c hcn]
      rw [e]
      by_cases hset : RawSets (rawBlock calls B j) c
      · exact r1 ⟨j, hjT⟩ c hset
      · rw [rawSpec_kept _ _ hset, r2 c (by unfold fftElems at hE; omega) fun j' hs' => ?_]
        · rw [(start_sim (n := n) (R := R) tab x l j).arr c hcn]; exact hm.arr c hcn
        · rcases hsets j' _ hs' with h' | h'
          · exact hset (hFdis _ _ _ h' hF ▸ hs')
          · omega
    · rw [g2 c fun j hj => hF ⟨j, hj⟩, r2 c (by unfold fftElems at hE; omega) fun j hs => ?_]
      · exact hm.arr c hcn
      · rcases hsets j _ hs with h' | h'
        · exact hF ⟨_, h'⟩
        · omega

/-- A loop comes to an end. -/
theorem loop_exists (h : Body n R T lo hi tab G P B) (hT : 0 < T) (hT31 : T < 2 ^ 31) (hlt : lo < hi) (hi31 : hi < 2 ^ 31) (hm : Holds q n R loc y tab x m)
    (hE : fftElems n R T ≤ E) {stack : Fin T → BitVec 64} (hp : Place q E loc stack y) : ∃ m', RawLoop q E T loc y lo hi B m m' := by
  obtain ⟨calls, hc, -⟩ := parallelFor_spec (lo := lo) (hi := hi) hT hT31 (by exact_mod_cast hlt) (by omega)
  obtain ⟨m', hm'⟩ := phase_exists hp hm.printed (fun j r hr p hp => lt_of_lt_of_le (h.range hc j r hr p hp) hE) (h.elems hc) (h.start hc hm fun _ => ⟨0, 0⟩)
  exact ⟨m', calls, hc, hm'⟩

end

/-! ## `fft` and `ifft` -/

/-- The tables of the object: `2 ^ s` roots and `s + 1` inverses of powers of two, `c/fft.hpp:9-12`. -/
def tabSize (S : Nat) : Nat := 2 ^ S + (S + 1)

/-- Their contents. -/
def fftTab {K : Type} (F : Obj K) (i : Nat) : K := if i < 2 ^ F.s then F.roots i else F.powTwoInv (i - 2 ^ F.s)

/-- The calls of the loop of `reversePermutation` for index `i` on thread `j`, `c/fft.cpp:163-171`. -/
def rawRev (n S domainPow : Nat) (j i : Nat) : List RawInstr :=
  let r := (BR (BitVec.ofNat 64 i) domainPow).toNat
  let tmp := tElem n (tabSize S) j
  if i > r then [⟨.copy, tmp, i, i⟩, ⟨.copy, i, r, r⟩, ⟨.copy, r, tmp, tmp⟩] else []

/-- The calls of the butterfly loop at stage `s`, `c/fft.cpp:186-196`; `root(s, j)` is `roots[j << (S - s)]`, `c/fft.hpp:28`. -/
def rawButterfly (n S s : Nat) (th i : Nat) : List RawInstr :=
  let m := 1 <<< s
  let mdiv2 := m >>> 1
  let k := (i / mdiv2) * m
  let j := i % mdiv2
  let t := tElem n (tabSize S) th
  let u := uElem n (tabSize S) th
  [⟨.mul, t, n + (j <<< (S - s)), k + j + mdiv2⟩, ⟨.copy, u, k + j, k + j⟩, ⟨.add, k + j, t, u⟩, ⟨.sub, k + j + mdiv2, u, t⟩]

/-- The element `powTwoInv[domainPow]`. -/
def invElem (n S domainPow : Nat) : Nat := n + (2 ^ S + domainPow)

/-- The calls of the loop of `ifft`, `c/fft.cpp:208-214`. -/
def rawInv (n S domainPow : Nat) (j i : Nat) : List RawInstr :=
  let r := n - i
  let tmp := tElem n (tabSize S) j
  [⟨.copy, tmp, i, i⟩, ⟨.mul, i, r, invElem n S domainPow⟩, ⟨.mul, r, tmp, invElem n S domainPow⟩]

/-- The last two calls of `ifft`, on one thread, `c/fft.cpp:216-217`. -/
def rawLast (n S domainPow : Nat) : List RawInstr :=
  [⟨.mul, 0, 0, invElem n S domainPow⟩, ⟨.mul, n >>> 1, n >>> 1, invElem n S domainPow⟩]

/-- The stage loop, `c/fft.cpp:181-198` (as `Stage`: `1 << s` is an `int` shift, and `root(s, _)` needs `s` at most the table order). -/
def RawStages (q E S T : Nat) (loc : Nat → BitVec 64) (y : X86.Sym → BitVec 64) (n : Nat) : List Nat → Conc.Mem → Conc.Mem → Prop
  | [], m, m' => m' = m
  | s :: ss, m, m' => ∃ m1, (s ≤ 30 ∧ s ≤ S ∧ RawLoop q E T loc y 0 (toInt32 (n >>> 1)) (rawButterfly n S s) m m1) ∧
      RawStages q E S T loc y n ss m1 m'

/-- `fft` on `T` threads, `c/fft.cpp:176-199`, in a memory with `E` elements. -/
def RawFft (q E S T : Nat) (loc : Nat → BitVec 64) (y : X86.Sym → BitVec 64) (n : BitVec 64) (m m' : Conc.Mem) : Prop :=
  ∃ domainPow, fftLog2 n = some domainPow ∧ ∃ m1, RawLoop q E T loc y 0 (toInt32 n.toNat) (rawRev n.toNat S domainPow) m m1 ∧
    (1#64 <<< domainPow) = n ∧ RawStages q E S T loc y n.toNat (List.range' 1 domainPow) m1 m'

/-- `ifft` on `T` threads, `c/fft.cpp:201-218`. -/
def RawIfft (q E S T : Nat) (loc : Nat → BitVec 64) (y : X86.Sym → BitVec 64) (n : BitVec 64) (m m' : Conc.Mem) : Prop :=
  ∃ m1, RawFft q E S T loc y n m m1 ∧ ∃ domainPow, fftLog2 n = some domainPow ∧
    ∃ m2, RawLoop q E T loc y 1 (toInt32 (n.toNat >>> 1)) (rawInv n.toNat S domainPow) m1 m2 ∧
      RawPhase q E loc y (fun j : Fin T => if j.val = 0 then rawLast n.toNat S domainPow else []) m2 m'

/-- How the threads of a phase that starts on `m` go on: whatever has been executed of it, in whatever order and with whatever stores still in the buffers, no thread
is stuck, no two are about to access a cell that one of them writes, and there is a number of instructions after which all have returned, and not before. -/
def Orderly {ι : Type} [DecidableEq ι] (q E : Nat) (loc : Nat → BitVec 64) (y : X86.Sym → BitVec 64) (prog : ι → List RawInstr) (m : Conc.Mem) : Prop :=
  ∀ (s : ι → State) (ra : BitVec 64), (∀ i, (s i).mem = m) → (∀ i, (s i).sym = y) → Place q E loc (fun i => (s i).reg .rsp) y →
    ∃ L, ∀ N cs b m', Buffered (X86.lineMachine (linkRaw q) ra) (fun i => X86.core [rawCaller loc (prog i)] (s i)) m N cs b m' →
      N ≤ L ∧ (N = L ↔ ∀ i, ∃ t, cs i = X86.core [] t) ∧
      (∀ i, (∃ t, cs i = X86.core [] t) ∨ ∃ c1 m1, (X86.lineMachine (linkRaw q) ra).step (cs i) (seen m' (b i)) = some (c1, m1)) ∧
      ∀ i j, i ≠ j → Apart ((X86.lineMachine (linkRaw q) ra).acc (cs i) (seen m' (b i))) ((X86.lineMachine (linkRaw q) ra).acc (cs j) (seen m' (b j)))

section
variable {ι : Type} [DecidableEq ι] [Fintype ι] {q E : Nat} [Fact q.Prime] [Fact (q % 2 = 1)] {loc : Nat → BitVec 64} {y : X86.Sym → BitVec 64}
  {prog : ι → List RawInstr} {m : Conc.Mem} {σ : Nat → El q}

theorem orderly (ht : Printed q y m) (range : ∀ i, ∀ x ∈ prog i, ∀ p, x.uses p → p < E)
    (elems : ∀ i j, i ≠ j → ∀ p, RawSets (prog i) p → ¬ RawNames (prog j) p) (hσ : ∀ i p, RawNeeds (prog i) p → rd m (loc p) (n64 q) = (σ p).v) :
    Orderly q E loc y prog m := by
  intro s ra hm hy hp
  obtain ⟨L, t, -, h⟩ := C91_buffered (ra := ra) (hp.threads ht hm hy range elems) hσ
  refine ⟨L, fun N cs b m' hb => ?_⟩
  obtain ⟨h1, -⟩ := h N cs b m' hb
  have hfin : ∀ i, (∃ t, cs i = X86.core [] t) → cs i = X86.core [] (t i) := fun i ⟨t', e'⟩ => by
    rcases h1.goes i with e | ⟨c1, m1, e⟩
    · exact e
    · rw [e'] at e
      exact nomatch e
  exact ⟨h1.steps, h1.done.trans ⟨fun h i => ⟨_, h i⟩, fun h i => hfin i (h i)⟩, fun i => (h1.goes i).imp_left fun e => ⟨_, e⟩, h1.race⟩

end

theorem loop_orderly {q n R T lo hi E : Nat} [Fact q.Prime] [Fact (q % 2 = 1)] {loc : Nat → BitVec 64} {y : X86.Sym → BitVec 64} {tab x : Nat → El q} {m : Conc.Mem}
    {G : Nat → Nat → Prop} {P : Nat → List (Par.Act (Loc (El q)) (El q))} {B : Nat → Nat → List RawInstr}
    (h : Body n R T lo hi tab G P B) (hT : 0 < T) (hT31 : T < 2 ^ 31) (hlt : lo < hi) (hi31 : hi < 2 ^ 31) (hm : Holds q n R loc y tab x m)
    (hE : fftElems n R T ≤ E) :
    (∃ calls, parallelFor T lo hi = some calls ∧ Orderly q E loc y (fun j : Fin T => rawBlock calls B j) m) ∧
    ∀ m', RawLoop q E T loc y lo hi B m m' → ∃ x', Holds q n R loc y tab x' m' ∧ Kept q (fftElems n R T) E loc m m' := by
  obtain ⟨calls, hc, -⟩ := parallelFor_spec (lo := lo) (hi := hi) hT hT31 (by exact_mod_cast hlt) (by omega)
  exact ⟨⟨calls, hc, orderly hm.printed (fun j r hr p hp => lt_of_lt_of_le (h.range hc j r hr p hp) hE) (h.elems hc) (h.start hc hm fun _ => ⟨0, 0⟩)⟩, fun m' hr => by
    obtain ⟨x', -, h'⟩ := loop_run h hT hT31 hlt hi31 hm hE hr
    exact ⟨x', h'⟩⟩

section
variable {K : Type} [Field K] {F : Obj K} {k T : Nat}

theorem rev_body (hk : k ≤ 30) : Body (2 ^ k) (tabSize F.s) T 0 (2 ^ k) (fftTab F) (revCells k) (revIter k) (rawRev (2 ^ k) F.s k) := by
  have hBR : ∀ i < 2 ^ k, (BR (BitVec.ofNat 64 i) k).toNat = revN k i := fun i hi => BR_toNat (by omega) hi
  refine ⟨rev_dis k, fun i c _ hi hc => ?_, rev_foot (by omega), fun i _ hi j _ σ l a hs => ?_, fun i _ hi j p hp => ?_, fun i _ hi j p hp => ?_, fun i _ hi j p hp => ?_⟩
  · have := revN_lt k i
    rcases hc.2 with rfl | rfl <;> omega
  · have hr := revN_lt k i
    unfold rawRev revIter
    simp only [hBR i hi]
    split
    · rename_i hgt
      have h1 := hs.setT (σ i)
      have h2 := h1.set hi (σ (revN k i))
      have h3 := h2.set hr (σ i)
      have e1 : i ≠ tElem (2 ^ k) (tabSize F.s) j := by unfold tElem; omega
      have e2 : revN k i ≠ tElem (2 ^ k) (tabSize F.s) j := by unfold tElem; omega
      simp only [rawSpec, RawOp.den, Par.solo, List.foldl_cons, List.foldl_nil, if_neg e2, if_neg e1.symm, if_true]
      rw [← hs.arr i hi, ← hs.arr _ hr]
      exact h3
    · exact hs
  · unfold rawRev at hp
    simp only [hBR i hi] at hp
    split at hp
    · rename_i hgt
      obtain ⟨r, hr, rfl⟩ := hp
      simp only [List.mem_cons, List.not_mem_nil, or_false] at hr
      rcases hr with rfl | rfl | rfl
      · exact .inr (.inl rfl)
      · exact .inl ⟨hgt, .inl rfl⟩
      · exact .inl ⟨hgt, .inr rfl⟩
    · obtain ⟨r, hr, rfl⟩ := hp; cases hr
  · unfold rawRev at hp
    simp only [hBR i hi] at hp
    split at hp
    · rename_i hgt
      obtain ⟨r, hr, hrp⟩ := hp
      simp only [List.mem_cons, List.not_mem_nil, or_false] at hr
      rcases hr with rfl | rfl | rfl <;> simp [RawInstr.uses, RawOp.arity] at hrp <;> rcases hrp with rfl | rfl <;>
        first | exact .inr (.inl rfl) | exact .inl ⟨hgt, .inl rfl⟩ | exact .inl ⟨hgt, .inr rfl⟩
    · obtain ⟨r, hr, hrp⟩ := hp; cases hr
  · have hr := revN_lt k i
    unfold rawRev at hp
    simp only [hBR i hi] at hp
    split at hp
    · simp [RawNeeds, RawInstr.reads, RawOp.arity] at hp
      omega
    · exact hp.elim

theorem bfly_body {s : Nat} (hs1 : 1 ≤ s) (hsk : s ≤ k) (hsS : s ≤ F.s) :
    Body (2 ^ k) (tabSize F.s) T 0 (2 ^ (k - 1)) (fftTab F) (bfCells (2 ^ (s - 1))) (butterfly F s) (rawButterfly (2 ^ k) F.s s) := by
  obtain ⟨s, rfl⟩ : ∃ s', s = s' + 1 := ⟨s - 1, by omega⟩
  simp only [Nat.add_sub_cancel]
  have hM : 0 < 2 ^ s := Nat.two_pow_pos s
  have e3 : 2 ^ (k - 1) = 2 ^ (k - (s + 1)) * 2 ^ s := by rw [← pow_add]; congr 1; omega
  have e4 : 2 ^ k = 2 ^ (k - (s + 1)) * (2 ^ s * 2) := by rw [← pow_succ, ← pow_add]; congr 1; omega
  have hb := bf_eq F s
  have x1 : (2 ^ s * 2) >>> 1 = 2 ^ s := by rw [Nat.shiftRight_eq_div_pow]; simp
  have x2 : 1 <<< (s + 1) = 2 ^ s * 2 := by rw [Nat.shiftLeft_eq, one_mul, pow_succ]
  have hraw : ∀ j i, rawButterfly (2 ^ k) F.s (s + 1) j i =
      [⟨.mul, tElem (2 ^ k) (tabSize F.s) j, 2 ^ k + ((i % 2 ^ s) <<< (F.s - (s + 1))), i / 2 ^ s * (2 ^ s * 2) + i % 2 ^ s + 2 ^ s⟩,
       ⟨.copy, uElem (2 ^ k) (tabSize F.s) j, i / 2 ^ s * (2 ^ s * 2) + i % 2 ^ s, i / 2 ^ s * (2 ^ s * 2) + i % 2 ^ s⟩,
       ⟨.add, i / 2 ^ s * (2 ^ s * 2) + i % 2 ^ s, tElem (2 ^ k) (tabSize F.s) j, uElem (2 ^ k) (tabSize F.s) j⟩,
       ⟨.sub, i / 2 ^ s * (2 ^ s * 2) + i % 2 ^ s + 2 ^ s, uElem (2 ^ k) (tabSize F.s) j, tElem (2 ^ k) (tabSize F.s) j⟩] := by
    intro j i
    unfold rawButterfly
    simp only [x1, x2]
  have hlt : ∀ i < 2 ^ (k - 1), i / 2 ^ s * (2 ^ s * 2) + i % 2 ^ s + 2 ^ s < 2 ^ k := by
    intro i hi
    rw [e3] at hi
    have h1 : i / 2 ^ s + 1 ≤ 2 ^ (k - (s + 1)) := Nat.div_lt_of_lt_mul (by rw [mul_comm]; exact hi)
    have h2 := Nat.mod_lt i hM
    have h3 := Nat.mul_le_mul_right (2 ^ s * 2) h1
    rw [← e4, Nat.add_mul, one_mul] at h3
    omega
  have hrt : ∀ i, (i % 2 ^ s) <<< (F.s - (s + 1)) < 2 ^ F.s := by
    intro i
    rw [Nat.shiftLeft_eq]
    have h1 : i % 2 ^ s < 2 ^ (s + 1) := lt_of_lt_of_le (Nat.mod_lt i hM) (Nat.pow_le_pow_right (by norm_num) (by omega))
    calc i % 2 ^ s * 2 ^ (F.s - (s + 1)) < 2 ^ (s + 1) * 2 ^ (F.s - (s + 1)) := Nat.mul_lt_mul_of_pos_right h1 (Nat.two_pow_pos _)
      _ = 2 ^ F.s := by rw [← pow_add]; congr 1; omega
  refine ⟨bf_dis hM, fun i c _ hi hc => ?_, fun i _ _ => bf_foot hb i, fun i _ hi j _ σ l a hs => ?_, fun i _ hi j p hp => ?_, fun i _ hi j p hp => ?_, fun i _ hi j p hp => ?_⟩
  · have := hlt i hi
    rcases hc with rfl | rfl <;> omega
  · rw [hraw, hb]
    have hA := hlt i hi
    have hR := hrt i
    generalize hca : i / 2 ^ s * (2 ^ s * 2) + i % 2 ^ s = c at hA ⊢
    have hroot : σ (2 ^ k + ((i % 2 ^ s) <<< (F.s - (s + 1)))) = F.root (s + 1) (i % 2 ^ s) := by
      rw [hs.tab _ (by unfold tabSize; omega)]
      unfold fftTab Obj.root
      rw [if_pos hR]
    have h1 := hs.setT (F.root (s + 1) (i % 2 ^ s) * a (c + 2 ^ s))
    have h2 := h1.setU (a c)
    have h3 := h2.set (c := c) (by omega) (F.root (s + 1) (i % 2 ^ s) * a (c + 2 ^ s) + a c)
    have h4 := h3.set hA (a c - F.root (s + 1) (i % 2 ^ s) * a (c + 2 ^ s))
    have e1 : tElem (2 ^ k) (tabSize F.s) j ≠ uElem (2 ^ k) (tabSize F.s) j := by unfold tElem uElem; omega
    have e2 : c ≠ tElem (2 ^ k) (tabSize F.s) j := by unfold tElem; omega
    have e3 : c ≠ uElem (2 ^ k) (tabSize F.s) j := by unfold uElem; omega
    simp only [rawSpec, RawOp.den, Par.solo, List.foldl_cons, List.foldl_nil, if_neg e1, if_neg e2, if_neg e2.symm, if_neg e3.symm, if_true, hroot,
      hs.arr _ hA, hs.arr c (by omega)]
    exact h4
  · rw [hraw] at hp
    obtain ⟨r, hr, rfl⟩ := hp
    simp only [List.mem_cons, List.not_mem_nil, or_false] at hr
    rcases hr with rfl | rfl | rfl | rfl
    · exact .inr (.inl rfl)
    · exact .inr (.inr rfl)
    · exact .inl (.inl rfl)
    · exact .inl (.inr rfl)
  · rw [hraw] at hp
    have hR := hrt i
    obtain ⟨r, hr, hrp⟩ := hp
    simp only [List.mem_cons, List.not_mem_nil, or_false] at hr
    rcases hr with rfl | rfl | rfl | rfl <;> rcases hrp with hrp | ⟨-, hrp⟩ | ⟨ha, hrp⟩ <;> simp only at hrp <;> subst hrp
    · exact .inr (.inl rfl)
    · exact .inr (.inr (.inr ⟨Nat.le_add_right _ _, Nat.add_lt_add_left (lt_of_lt_of_le hR (Nat.le_add_right _ _)) _⟩))
    · exact .inl (.inr rfl)
    · exact .inr (.inr (.inl rfl))
    · exact .inl (.inl rfl)
    · exact .inl (.inl rfl)
    · exact .inl (.inl rfl)
    · exact .inr (.inl rfl)
    · exact .inr (.inr (.inl rfl))
    · exact .inl (.inr rfl)
    · exact .inr (.inr (.inl rfl))
    · exact .inr (.inl rfl)
  · rw [hraw] at hp
    have hA := hlt i hi
    have hR := hrt i
    unfold tabSize
    clear hraw hlt hrt hb e3 e4
    generalize (i % 2 ^ s) <<< (F.s - (s + 1)) = w at hp hR
    generalize i / 2 ^ s * (2 ^ s * 2) + i % 2 ^ s = c at hp hA
    generalize 2 ^ F.s = Z at hp hR ⊢
    simp [RawNeeds, RawInstr.reads, RawOp.arity] at hp
    omega

theorem inv_body {d : Nat} (hd : d ≤ F.s) :
    Body (2 ^ k) (tabSize F.s) T 1 (2 ^ k / 2) (fftTab F) (fun i c => c = i ∨ c = 2 ^ k - i) (ifftIter F (2 ^ k) d) (rawInv (2 ^ k) F.s d) := by
  have hI : ∀ {σ l a j}, SimT (2 ^ k) (tabSize F.s) (fftTab F) j σ l a → σ (invElem (2 ^ k) F.s d) = F.powTwoInv d := by
    intro σ l a j hs
    have := hs.tab (2 ^ F.s + d) (by unfold tabSize; omega)
    rw [invElem, this]
    unfold fftTab
    rw [if_neg (by omega), Nat.add_sub_cancel_left]
  have hIlt : 2 ^ k ≤ invElem (2 ^ k) F.s d ∧ invElem (2 ^ k) F.s d < 2 ^ k + tabSize F.s :=
    ⟨Nat.le_add_right _ _, Nat.add_lt_add_left (Nat.add_lt_add_left (by omega) _) _⟩
  refine ⟨by intro i j c h1 h2 h3 h4 h5 h6; omega, by intro i c h1 h2 h3; omega, ifft_foot, fun i h1 h2 j _ σ l a hs => ?_, fun i h1 h2 j p hp => ?_,
    fun i h1 h2 j p hp => ?_, fun i h1 h2 j p hp => ?_⟩
  · have hr : 2 ^ k - i < 2 ^ k := by omega
    have hi : i < 2 ^ k := by omega
    have hv := hI hs
    have g1 := hs.setT (a i)
    have g2 := g1.set hi (a (2 ^ k - i) * F.powTwoInv d)
    have g3 := g2.set hr (a i * F.powTwoInv d)
    have e1 : i ≠ tElem (2 ^ k) (tabSize F.s) j := by unfold tElem; omega
    have e2 : 2 ^ k - i ≠ tElem (2 ^ k) (tabSize F.s) j := by unfold tElem; omega
    have e3 : invElem (2 ^ k) F.s d ≠ tElem (2 ^ k) (tabSize F.s) j := by unfold tElem; omega
    have e4 : invElem (2 ^ k) F.s d ≠ i := by omega
    have a1 := hs.arr i hi
    have a2 := hs.arr _ hr
    unfold rawInv ifftIter
    simp only [rawSpec, RawOp.den, Par.solo, List.foldl_cons, List.foldl_nil, if_neg e2, if_neg e3, if_neg e4, if_neg e1.symm, if_true, hv, a1, a2]
    exact g3
  · obtain ⟨r, hr, rfl⟩ := hp
    simp only [rawInv, List.mem_cons, List.not_mem_nil, or_false] at hr
    rcases hr with rfl | rfl | rfl
    · exact .inr (.inl rfl)
    · exact .inl (.inl rfl)
    · exact .inl (.inr rfl)
  · obtain ⟨r, hr, hrp⟩ := hp
    simp only [rawInv, List.mem_cons, List.not_mem_nil, or_false] at hr
    rcases hr with rfl | rfl | rfl <;> rcases hrp with hrp | ⟨-, hrp⟩ | ⟨ha, hrp⟩ <;> simp only at hrp <;> subst hrp
    · exact .inr (.inl rfl)
    · exact .inl (.inl rfl)
    · exact .inl (.inl rfl)
    · exact .inl (.inl rfl)
    · exact .inl (.inr rfl)
    · exact .inr (.inr (.inr hIlt))
    · exact .inl (.inr rfl)
    · exact .inr (.inl rfl)
    · exact .inr (.inr (.inr hIlt))
  · simp [rawInv, RawNeeds, RawInstr.reads, RawOp.arity] at hp
    omega

end

section
variable {q E : Nat} [Fact q.Prime] [Fact (q % 2 = 1)] {F : Obj (El q)} {k T : Nat} {loc : Nat → BitVec 64} {y : X86.Sym → BitVec 64} {x : Nat → El q} {m m' : Conc.Mem}

theorem half_int (hk : k ≤ 30) : toInt32 (2 ^ k >>> 1) = ((2 ^ k / 2 : Nat) : Int) := by
  have : 2 ^ k < 2 ^ 31 := Nat.pow_lt_pow_right (by norm_num) (by omega)
  rw [Nat.shiftRight_eq_div_pow, pow_one, toInt32_eq (by omega)]

theorem half_pow (hk : 1 ≤ k) : 2 ^ k / 2 = 2 ^ (k - 1) := by
  obtain ⟨d, rfl⟩ : ∃ d, k = d + 1 := ⟨k - 1, by omega⟩
  rw [pow_succ, Nat.add_sub_cancel]; omega

theorem stages_raw (hT : 0 < T) (hT31 : T < 2 ^ 31) (hk : k ≤ 30) (ss : List Nat) (hss : ∀ s ∈ ss, 1 ≤ s ∧ s ≤ k)
    (hE : fftElems (2 ^ k) (tabSize F.s) T ≤ E)
    (hm : Holds q (2 ^ k) (tabSize F.s) loc y (fftTab F) x m) (h : RawStages q E F.s T loc y (2 ^ k) ss m m') :
    ∃ x', Stages F T (2 ^ k) ss x x' ∧ Holds q (2 ^ k) (tabSize F.s) loc y (fftTab F) x' m' ∧ Kept q (fftElems (2 ^ k) (tabSize F.s) T) E loc m m' := by
  induction ss generalizing x m with
  | nil => exact ⟨x, rfl, by rw [show m' = m from h]; exact hm, by rw [show m' = m from h]; exact fun _ _ _ => rfl⟩
  | cons s ss ih =>
    obtain ⟨m1, ⟨h30, hS, hl⟩, h2⟩ := h
    obtain ⟨hs1, hsk⟩ := hss s (by simp)
    have hk31 : 2 ^ (k - 1) < 2 ^ 31 := Nat.pow_lt_pow_right (by norm_num) (by omega)
    rw [half_int hk, half_pow (by omega)] at hl
    obtain ⟨x1, p1, hm1, k1⟩ := loop_run (lo := 0) (bfly_body (F := F) hs1 hsk hS) hT hT31 (Nat.two_pow_pos _) hk31 hm hE (by exact_mod_cast hl)
    obtain ⟨x', p2, hm', k2⟩ := ih (fun s' hs' => hss s' (by simp [hs'])) hm1 h2
    refine ⟨x', ⟨x1, ⟨h30, hS, ?_⟩, p2⟩, hm', k1.trans k2⟩
    rw [half_int hk, half_pow (by omega)]
    exact_mod_cast p1

theorem stages_raw_exists (hT : 0 < T) (hT31 : T < 2 ^ 31) (hk : k ≤ 30) (hkS : k ≤ F.s) (ss : List Nat) (hss : ∀ s ∈ ss, 1 ≤ s ∧ s ≤ k)
    (hE : fftElems (2 ^ k) (tabSize F.s) T ≤ E)
    (hm : Holds q (2 ^ k) (tabSize F.s) loc y (fftTab F) x m) {stack : Fin T → BitVec 64} (hp : Place q E loc stack y) :
    ∃ m', RawStages q E F.s T loc y (2 ^ k) ss m m' := by
  induction ss generalizing x m with
  | nil => exact ⟨m, rfl⟩
  | cons s ss ih =>
    obtain ⟨hs1, hsk⟩ := hss s (by simp)
    have hk31 : 2 ^ (k - 1) < 2 ^ 31 := Nat.pow_lt_pow_right (by norm_num) (by omega)
    have hb := bfly_body (F := F) (T := T) hs1 hsk (by omega)
    obtain ⟨m1, hl⟩ := loop_exists (lo := 0) hb hT hT31 (Nat.two_pow_pos _) hk31 hm hE hp
    obtain ⟨x1, -, hm1, -⟩ := loop_run hb hT hT31 (Nat.two_pow_pos _) hk31 hm hE hl
    obtain ⟨m', h2⟩ := ih (fun s' hs' => hss s' (by simp [hs'])) hm1
    refine ⟨m', m1, ⟨by omega, by omega, ?_⟩, h2⟩
    rw [half_int hk, half_pow (by omega)]
    exact_mod_cast hl

/-- Every run of `fft` on the machine is a run on arrays of limbs. -/
theorem fft_raw (hT : 0 < T) (hT31 : T < 2 ^ 31) (hk : k ≤ 30) (hE : fftElems (2 ^ k) (tabSize F.s) T ≤ E) (hm : Holds q (2 ^ k) (tabSize F.s) loc y (fftTab F) x m)
    (h : RawFft q E F.s T loc y (BitVec.ofNat 64 (2 ^ k)) m m') :
    ∃ x', FftRun F T (BitVec.ofNat 64 (2 ^ k)) x x' ∧ Holds q (2 ^ k) (tabSize F.s) loc y (fftTab F) x' m' ∧ Kept q (fftElems (2 ^ k) (tabSize F.s) T) E loc m m' := by
  obtain ⟨d, hd, m1, h1, h2, h3⟩ := h
  have hd' := hd
  rw [fftLog2_two_pow (by omega)] at hd'
  obtain rfl := Option.some.inj hd'
  have hlt : 2 ^ k < 2 ^ 31 := Nat.pow_lt_pow_right (by norm_num) (by omega)
  rw [ofNat_toNat (by omega)] at h1 h3
  rw [toInt32_eq hlt] at h1
  obtain ⟨x1, p1, hm1, k1⟩ := loop_run (lo := 0) (rev_body (F := F) hk) hT hT31 (Nat.two_pow_pos _) hlt hm hE (by exact_mod_cast h1)
  obtain ⟨x', p2, hm', k2⟩ := stages_raw hT hT31 hk _ (fun s hs => by rw [List.mem_range'_1] at hs; omega) hE hm1 h3
  refine ⟨x', ⟨x1, ⟨k, hd, ?_⟩, k, hd, h2, ?_⟩, hm', k1.trans k2⟩
  · rw [ofNat_toNat (by omega), toInt32_eq hlt]; exact_mod_cast p1
  · rw [ofNat_toNat (by omega)]; exact p2

theorem fft_raw_exists (hT : 0 < T) (hT31 : T < 2 ^ 31) (hk : k ≤ 30) (hkS : k ≤ F.s) (hE : fftElems (2 ^ k) (tabSize F.s) T ≤ E) (hm : Holds q (2 ^ k) (tabSize F.s) loc y (fftTab F) x m)
    {stack : Fin T → BitVec 64} (hp : Place q E loc stack y) : ∃ m', RawFft q E F.s T loc y (BitVec.ofNat 64 (2 ^ k)) m m' := by
  have hlt : 2 ^ k < 2 ^ 31 := Nat.pow_lt_pow_right (by norm_num) (by omega)
  obtain ⟨m1, h1⟩ := loop_exists (lo := 0) (rev_body (F := F) hk) hT hT31 (Nat.two_pow_pos _) hlt hm hE hp
  obtain ⟨x1, -, hm1, -⟩ := loop_run (rev_body (F := F) hk) hT hT31 (Nat.two_pow_pos _) hlt hm hE h1
  obtain ⟨m', h2⟩ := stages_raw_exists hT hT31 hk hkS (List.range' 1 k) (fun s hs => by rw [List.mem_range'_1] at hs; omega) hE hm1 hp
  refine ⟨m', k, fftLog2_two_pow (by omega), m1, ?_, ?_, ?_⟩
  · rw [ofNat_toNat (by omega), toInt32_eq hlt]; exact_mod_cast h1
  · apply BitVec.eq_of_toNat_eq
    rw [ofNat_toNat (by omega), BitVec.toNat_shiftLeft, Nat.shiftLeft_eq]
    simp only [BitVec.toNat_ofNat]
    rw [Nat.mod_eq_of_lt (a := 1) (by norm_num), one_mul, Nat.mod_eq_of_lt (Nat.pow_lt_pow_right (by norm_num) (by omega))]
  · rw [ofNat_toNat (by omega)]; exact h2

omit [Fact q.Prime] in
/-- The conditions for the last phase of `ifft`. -/
theorem last_ok {d : Nat} (hd : d ≤ F.s) (hE : fftElems (2 ^ k) (tabSize F.s) T ≤ E) :
    (∀ j : Fin T, ∀ r ∈ (if j.val = 0 then rawLast (2 ^ k) F.s d else []), ∀ p, r.uses p → p < E) ∧
    (∀ j j' : Fin T, j ≠ j' → ∀ p, RawSets (if j.val = 0 then rawLast (2 ^ k) F.s d else []) p → ¬ RawNames (if j'.val = 0 then rawLast (2 ^ k) F.s d else []) p) ∧
    (Holds q (2 ^ k) (tabSize F.s) loc y (fftTab F) x m → ∀ (j : Fin T) p, RawNeeds (if j.val = 0 then rawLast (2 ^ k) F.s d else []) p →
      rd m (loc p) (n64 q) = (startElems (2 ^ k) (tabSize F.s) (fftTab F) x (fun _ => ⟨0, 0⟩) p).v) := by
  have hn : 0 < 2 ^ k := Nat.two_pow_pos k
  have hh : 2 ^ k >>> 1 = 2 ^ k / 2 := by rw [Nat.shiftRight_eq_div_pow, pow_one]
  have hI : invElem (2 ^ k) F.s d < 2 ^ k + tabSize F.s := Nat.add_lt_add_left (Nat.add_lt_add_left (by omega) _) _
  refine ⟨fun j r hr p hp => ?_, fun j j' hne p hp hp' => ?_, fun hm j p hp => ?_⟩
  · split at hr
    · simp only [rawLast, List.mem_cons, List.not_mem_nil, or_false, hh] at hr
      unfold fftElems at hE
      rcases hr with rfl | rfl <;> rcases hp with hp | ⟨-, hp⟩ | ⟨-, hp⟩ <;> simp only at hp <;> omega
    · cases hr
  · split at hp
    · rename_i h0
      rw [if_neg fun h => hne (Fin.ext (h0.trans h.symm))] at hp'
      obtain ⟨r, hr, -⟩ := hp'
      cases hr
    · obtain ⟨r, hr, -⟩ := hp
      cases hr
  · split at hp
    · have hlt : p < 2 ^ k + tabSize F.s := by
        simp only [rawLast, RawNeeds, RawInstr.reads, hh] at hp
        rcases hp with (⟨-, hp⟩ | ⟨-, hp⟩) | ⟨-, (⟨-, hp⟩ | ⟨-, hp⟩) | ⟨-, hp⟩⟩
        · omega
        · omega
        · omega
        · omega
        · exact hp.elim
      unfold startElems
      by_cases e : p < 2 ^ k
      · rw [if_pos e]; exact hm.arr p e
      · rw [if_neg e, if_pos hlt]
        have := hm.tab (p - 2 ^ k) (by omega)
        rwa [show 2 ^ k + (p - 2 ^ k) = p by omega] at this
    · exact hp.elim

/-- Every run of `ifft` on the machine is a run on arrays of limbs. -/
theorem ifft_raw (hT : 0 < T) (hT31 : T < 2 ^ 31) (hk : k ≤ 30) (hk2 : 2 ≤ k) (hkS : k ≤ F.s) (hE : fftElems (2 ^ k) (tabSize F.s) T ≤ E)
    (hm : Holds q (2 ^ k) (tabSize F.s) loc y (fftTab F) x m)
    (h : RawIfft q E F.s T loc y (BitVec.ofNat 64 (2 ^ k)) m m') :
    ∃ x', IfftRun F T (BitVec.ofNat 64 (2 ^ k)) x x' ∧ Holds q (2 ^ k) (tabSize F.s) loc y (fftTab F) x' m' ∧ Kept q (fftElems (2 ^ k) (tabSize F.s) T) E loc m m' := by
  obtain ⟨m1, h1, d, hd, m2, h2, h3⟩ := h
  have hd' := hd
  rw [fftLog2_two_pow (by omega)] at hd'
  obtain rfl := Option.some.inj hd'
  have hlt : 2 ^ k < 2 ^ 31 := Nat.pow_lt_pow_right (by norm_num) (by omega)
  have h4 : 4 ≤ 2 ^ k := le_trans (by norm_num) (Nat.pow_le_pow_right (show 0 < 2 by norm_num) hk2)
  have hh : 2 ^ k >>> 1 = 2 ^ k / 2 := by rw [Nat.shiftRight_eq_div_pow, pow_one]
  rw [ofNat_toNat (by omega)] at h2 h3
  rw [half_int hk] at h2
  obtain ⟨x1, p1, hm1, k1⟩ := fft_raw hT hT31 hk hE hm h1
  obtain ⟨x2, p2, hm2, k2⟩ := loop_run (lo := 1) (inv_body (F := F) hkS) hT hT31 (by omega) (by omega) hm1 hE (by exact_mod_cast h2)
  obtain ⟨ok1, ok2, ok3⟩ := last_ok (F := F) (T := T) (loc := loc) (y := y) (x := x2) (m := m2) (k := k) hkS hE
  obtain ⟨r1, r2, r3⟩ := h3.result hm2.printed ok1 ok2 (ok3 hm2)
  have hI : invElem (2 ^ k) F.s k < 2 ^ k + tabSize F.s := Nat.add_lt_add_left (Nat.add_lt_add_left (by omega) _) _
  have hI' : 2 ^ k ≤ invElem (2 ^ k) F.s k := Nat.le_add_right _ _
  set σ := startElems (2 ^ k) (tabSize F.s) (fftTab F) x2 (fun _ => ⟨0, 0⟩) with hσ
  have hs := start_sim (n := 2 ^ k) (R := tabSize F.s) (fftTab F) x2 (fun _ => ⟨0, 0⟩) 0
  rw [← hσ] at hs
  have hinv : σ (invElem (2 ^ k) F.s k) = F.powTwoInv k := by
    have := hs.tab (2 ^ F.s + k) (by unfold tabSize; omega)
    rw [invElem, this]
    unfold fftTab
    rw [if_neg (by omega), Nat.add_sub_cancel_left]
  have hnone : ∀ p, p ≠ 0 → p ≠ 2 ^ k / 2 → ∀ j : Fin T, ¬ RawSets (if j.val = 0 then rawLast (2 ^ k) F.s k else []) p := by
    intro p e1 e2 j ⟨r, hr, hrp⟩
    split at hr
    · simp only [rawLast, List.mem_cons, List.not_mem_nil, or_false, hh] at hr
      rcases hr with rfl | rfl <;> simp only at hrp <;> omega
    · cases hr
  refine ⟨_, ⟨x1, p1, k, hd, x2, ?_, rfl⟩, ⟨r3, fun i hi => ?_, fun i hi => ?_⟩, k1.trans (k2.trans fun p hp hpE => r2 p hpE (hnone p ?_ ?_))⟩
  · rw [ofNat_toNat (by omega), half_int hk]; exact_mod_cast p2
  · rw [r2 _ (by unfold fftElems at hE; omega) (hnone _ (by omega) (by omega))]
    exact hm2.tab i hi
  · rw [ofNat_toNat (by omega), hh]
    have hset : ∀ p, p = 0 ∨ p = 2 ^ k / 2 → RawSets (if ((⟨0, hT⟩ : Fin T)).val = 0 then rawLast (2 ^ k) F.s k else []) p := by
      rintro p (rfl | rfl)
      · exact ⟨_, List.mem_cons_self, rfl⟩
      · exact ⟨_, List.mem_cons_of_mem _ List.mem_cons_self, hh⟩
    have n1 : 2 ^ k / 2 ≠ 0 := by omega
    have n2 : invElem (2 ^ k) F.s k ≠ 0 := by omega
    by_cases e0 : i = 0
    · subst e0
      rw [r1 ⟨0, hT⟩ 0 (hset 0 (.inl rfl)), Function.update_of_ne n1.symm, Function.update_self]
      simp only [rawLast, rawSpec, RawOp.den, hh, if_true, if_neg n1.symm, hinv, hs.arr 0 hi]
    · by_cases eh : i = 2 ^ k / 2
      · subst eh
        rw [r1 ⟨0, hT⟩ _ (hset _ (.inr rfl)), Function.update_self, Function.update_of_ne n1]
        simp only [rawLast, rawSpec, RawOp.den, hh, if_true, if_neg n1, if_neg n2, hinv, hs.arr _ hi]
      · rw [r2 i (by unfold fftElems at hE; omega) (hnone _ e0 eh), Function.update_of_ne eh, Function.update_of_ne e0]
        exact hm2.arr i hi
  · unfold fftElems at hp; omega
  · unfold fftElems at hp; omega

theorem ifft_raw_exists (hT : 0 < T) (hT31 : T < 2 ^ 31) (hk : k ≤ 30) (hk2 : 2 ≤ k) (hkS : k ≤ F.s) (hE : fftElems (2 ^ k) (tabSize F.s) T ≤ E)
    (hm : Holds q (2 ^ k) (tabSize F.s) loc y (fftTab F) x m)
    {stack : Fin T → BitVec 64} (hp : Place q E loc stack y) : ∃ m', RawIfft q E F.s T loc y (BitVec.ofNat 64 (2 ^ k)) m m' := by
  have hlt : 2 ^ k < 2 ^ 31 := Nat.pow_lt_pow_right (by norm_num) (by omega)
  have h4 : 4 ≤ 2 ^ k := le_trans (by norm_num) (Nat.pow_le_pow_right (show 0 < 2 by norm_num) hk2)
  obtain ⟨m1, h1⟩ := fft_raw_exists hT hT31 hk hkS hE hm hp
  obtain ⟨x1, -, hm1, -⟩ := fft_raw hT hT31 hk hE hm h1
  obtain ⟨m2, h2⟩ := loop_exists (lo := 1) (inv_body (F := F) hkS) hT hT31 (by omega) (by omega) hm1 hE hp
  obtain ⟨x2, -, hm2, -⟩ := loop_run (inv_body (F := F) hkS) hT hT31 (by omega) (by omega) hm1 hE h2
  obtain ⟨ok1, ok2, ok3⟩ := last_ok (F := F) (T := T) (loc := loc) (y := y) (x := x2) (m := m2) (k := k) hkS hE
  obtain ⟨m', h3⟩ := phase_exists hp hm2.printed ok1 ok2 (ok3 hm2)
  refine ⟨m', m1, h1, k, fftLog2_two_pow (by omega), m2, ?_, ?_⟩
  · rw [ofNat_toNat (by omega), half_int hk]; exact_mod_cast h2
  · rw [ofNat_toNat (by omega)]; exact h3

/-- C92: for every object that the constructor returns, `fft` on any number of threads, whatever the order of their instructions and the delays of their stores:
it comes to an end, and leaves in cell `i` the array of the value at the `i`-th power of a primitive root of the polynomial whose coefficients were in the
cells; the tables keep their contents. -/
theorem C92_fft {T0 : Nat} (hT0 : 0 < T0) (N : BitVec 64) (hF : CtorL q T0 N (some F)) (hk : k ≤ F.s) (hk30 : k ≤ 30) :
    ∃ v : ZMod q, IsPrimitiveRoot v (2 ^ k) ∧ ∀ T > 0, T < 2 ^ 31 → ∀ E ≥ fftElems (2 ^ k) (tabSize F.s) T, ∀ loc y x m,
      Holds q (2 ^ k) (tabSize F.s) loc y (fftTab F) x m →
      (∀ stack : Fin T → BitVec 64, Place q E loc stack y → ∃ m', RawFft q E F.s T loc y (BitVec.ofNat 64 (2 ^ k)) m m') ∧
      ∀ m', RawFft q E F.s T loc y (BitVec.ofNat 64 (2 ^ k)) m m' → ∃ x', Holds q (2 ^ k) (tabSize F.s) loc y (fftTab F) x' m' ∧
        Kept q (fftElems (2 ^ k) (tabSize F.s) T) E loc m m' ∧
        ∀ i < 2 ^ k, (x' i).toZ = ∑ t ∈ Finset.range (2 ^ k), (x t).toZ * (v ^ i) ^ t := by
  obtain ⟨v, hv, h⟩ := C74_fft hT0 N F hF k hk hk30
  refine ⟨v, hv, fun T hT hT31 E hE loc y x m hm => ⟨fun stack hp => fft_raw_exists hT hT31 hk30 hk hE hm hp, fun m' hr => ?_⟩⟩
  obtain ⟨x', hx, hm', hk'⟩ := fft_raw hT hT31 hk30 hE hm hr
  exact ⟨x', hm', hk', ((h T hT hT31 x).2 x' hx).1⟩

/-- C92: each parallel loop of `fft` and `ifft` goes on under every schedule without a data race until all threads have returned, and leaves the printed tables, the
tables of the object and an array of elements for the next one. -/
theorem C92_loops (hT : 0 < T) (hT31 : T < 2 ^ 31) (hk30 : k ≤ 30) (hE : fftElems (2 ^ k) (tabSize F.s) T ≤ E)
    (hm : Holds q (2 ^ k) (tabSize F.s) loc y (fftTab F) x m) (lo hi : Nat)
    (body : Nat → Nat → List RawInstr)
    (hb : (lo = 0 ∧ hi = 2 ^ k ∧ body = rawRev (2 ^ k) F.s k) ∨ (∃ s, 1 ≤ s ∧ s ≤ k ∧ s ≤ F.s ∧ lo = 0 ∧ hi = 2 ^ k / 2 ∧ body = rawButterfly (2 ^ k) F.s s) ∨
      (2 ≤ k ∧ k ≤ F.s ∧ lo = 1 ∧ hi = 2 ^ k / 2 ∧ body = rawInv (2 ^ k) F.s k)) :
    (∃ calls, parallelFor T lo hi = some calls ∧ Orderly q E loc y (fun j : Fin T => rawBlock calls body j) m) ∧
    ∀ m', RawLoop q E T loc y lo hi body m m' → ∃ x', Holds q (2 ^ k) (tabSize F.s) loc y (fftTab F) x' m' ∧ Kept q (fftElems (2 ^ k) (tabSize F.s) T) E loc m m' := by
  have hlt : 2 ^ k < 2 ^ 31 := Nat.pow_lt_pow_right (by norm_num) (by omega)
  have key := fun {G P} (h : Body (2 ^ k) (tabSize F.s) T lo hi (fftTab F) G P body) => loop_orderly (E := E) h hT hT31 (loc := loc) (y := y) (x := x) (m := m)
  rcases hb with ⟨rfl, rfl, rfl⟩ | ⟨s, hs1, hsk, hsS, rfl, rfl, rfl⟩ | ⟨hk2, hkS, rfl, rfl, rfl⟩
  · exact key (rev_body hk30) (Nat.two_pow_pos _) hlt hm hE
  · have e := half_pow (k := k) (by omega)
    rw [e] at key ⊢
    exact key (bfly_body hs1 hsk hsS) (Nat.two_pow_pos _) (by omega) hm hE
  · have h4 : 4 ≤ 2 ^ k := le_trans (by norm_num) (Nat.pow_le_pow_right (show 0 < 2 by norm_num) hk2)
    exact key (inv_body hkS) (by omega) (by omega) hm hE

/-- C92: for sizes from four up `ifft` after `fft`, and `fft` after `ifft`, restores every limb of the array, and `ifft` comes to an end.  Missing: sizes one and
two, where `ifft` stops the program (`C42_violation_small`). -/
theorem C92_inverse_partial {T0 : Nat} (hT0 : 0 < T0) (N : BitVec 64) (hF : CtorL q T0 N (some F)) (hk : k ≤ F.s) (hk30 : k ≤ 30) (hk2 : 2 ≤ k) (hT : 0 < T)
    (hT31 : T < 2 ^ 31) (hE : fftElems (2 ^ k) (tabSize F.s) T ≤ E) (hm : Holds q (2 ^ k) (tabSize F.s) loc y (fftTab F) x m) :
    (∀ stack : Fin T → BitVec 64, Place q E loc stack y → ∃ m', RawIfft q E F.s T loc y (BitVec.ofNat 64 (2 ^ k)) m m') ∧
    (∀ m1 m2, RawFft q E F.s T loc y (BitVec.ofNat 64 (2 ^ k)) m m1 → RawIfft q E F.s T loc y (BitVec.ofNat 64 (2 ^ k)) m1 m2 →
      ∀ i < 2 ^ k, rd m2 (loc i) (n64 q) = rd m (loc i) (n64 q)) ∧
    (∀ m1 m2, RawIfft q E F.s T loc y (BitVec.ofNat 64 (2 ^ k)) m m1 → RawFft q E F.s T loc y (BitVec.ofNat 64 (2 ^ k)) m1 m2 →
      ∀ i < 2 ^ k, rd m2 (loc i) (n64 q) = rd m (loc i) (n64 q)) := by
  obtain ⟨-, h1, h2⟩ := C74_inverse_partial hT0 N F hF k hk hk30 hk2 hT hT31 x
  refine ⟨fun stack hp => ifft_raw_exists hT hT31 hk30 hk2 hk hE hm hp, fun m1 m2 r1 r2 i hi => ?_, fun m1 m2 r1 r2 i hi => ?_⟩
  · obtain ⟨x1, p1, hm1, -⟩ := fft_raw hT hT31 hk30 hE hm r1
    obtain ⟨x2, p2, hm2, -⟩ := ifft_raw hT hT31 hk30 hk2 hk hE hm1 r2
    rw [hm2.arr i hi, hm.arr i hi, h1 x1 x2 p1 p2]
  · obtain ⟨x1, p1, hm1, -⟩ := ifft_raw hT hT31 hk30 hk2 hk hE hm r1
    obtain ⟨x2, p2, hm2, -⟩ := fft_raw hT hT31 hk30 hE hm1 r2
    rw [hm2.arr i hi, hm.arr i hi, h2 x1 x2 p1 p2]

end

/-! ## The hypotheses are met: arrays, tables and stacks for the scalar field of BN254 -/

section sample

local instance : Fact (bnR % 2 = 1) := ⟨by decide +kernel⟩

def sampleLoc (p : Nat) : BitVec 64 := BitVec.ofNat 64 (4096 + 32 * p)
def sampleStack (T : Nat) (j : Fin T) : BitVec 64 := BitVec.ofNat 64 (2 ^ 40 + 4096 * (j.val + 1))
def sampleSym : X86.Sym → BitVec 64
  | .q => 256
  | _ => 512
def sampleMem (e : Nat → El bnR) (a : BitVec 64) : BitVec 64 :=
  if 4096 ≤ a.toNat then (e ((a.toNat - 4096) / 32)).v.getD ((a.toNat - 4096) % 32 / 8) 0
  else if a.toNat < 512 then (rawq bnR).getD ((a.toNat - 256) / 8) 0 else np bnR

theorem sample_cell {p i : Nat} (hp : p ≤ 2 ^ 30) (hi : i < 4) : (X86.cell (sampleLoc p) i).toNat = 4096 + 32 * p + 8 * i := by
  rw [X86.cell, sampleLoc, BitVec.toNat_add, BitVec.toNat_ofNat, BitVec.toNat_ofNat]
  omega

theorem sample_arr {p : Nat} (hp : p ≤ 2 ^ 30) {a : BitVec 64} (h : InArr (sampleLoc p) (n64 bnR) a) : 4096 + 32 * p ≤ a.toNat ∧ a.toNat < 4096 + 32 * p + 32 := by
  obtain ⟨i, hi, rfl⟩ := h
  rw [n64_bnR] at hi
  rw [sample_cell hp hi]
  omega

theorem sample_data {a : BitVec 64} (h : InRawData bnR sampleSym a) : a.toNat < 1024 := by
  rcases h with ⟨i, hi, rfl⟩ | rfl
  · rw [n64_bnR] at hi
    rw [X86.cell, BitVec.toNat_add, BitVec.toNat_ofNat, show (sampleSym .q).toNat = 256 from rfl]
    omega
  · decide

theorem sample_stk {T : Nat} (hT : T ≤ 2 ^ 20) {j : Fin T} {a : BitVec 64} (h : InStk (sampleStack T j) (rawFrame bnR + 1) a) :
    2 ^ 40 + 4096 * j.val < a.toNat ∧ a.toNat < 2 ^ 40 + 4096 * (j.val + 1) := by
  obtain ⟨i, hi, rfl⟩ := h
  have hF : rawFrame bnR ≤ 4 + 5 := by have := frame_small (n64_pos bnR) (canOpt bnR); rwa [n64_bnR] at this
  have := j.2
  rw [X86.stk, sampleStack, BitVec.toNat_sub, BitVec.toNat_ofNat, BitVec.toNat_ofNat]
  omega

theorem sample_place {E T : Nat} (hE : E ≤ 2 ^ 30) (hT : T ≤ 2 ^ 20) : Place bnR E sampleLoc (sampleStack T) sampleSym := by
  have hs : ∀ j : Fin T, (sampleStack T j).toNat = 2 ^ 40 + 4096 * (j.val + 1) := fun j => by
    have := j.2
    rw [sampleStack, BitVec.toNat_ofNat]; omega
  refine ⟨by rw [n64_bnR]; decide, fun p hp p' hp' hne x z hx hz e => ?_, fun p hp a ha hd => ?_, fun i p hp a ha h' => ?_, fun i a hd h' => ?_, fun i p hp ha => ?_,
    fun i j hij a ha => ?_⟩
  · have h1 := sample_arr (p := p) (by omega) ⟨x, hx, rfl⟩
    have h2 := sample_arr (p := p') (by omega) ⟨z, hz, rfl⟩
    rw [e] at h1; omega
  · have h1 := sample_arr (by omega) ha; have h2 := sample_data hd; omega
  · have h1 := sample_arr (by omega) ha; have h2 := sample_stk hT h'; omega
  · have h1 := sample_data hd; have h2 := sample_stk hT h'; omega
  · have h1 := sample_arr (by omega) ha; rw [hs] at h1; omega
  · have h1 := sample_stk hT ha
    have h3 : i.val ≠ j.val := fun e => hij (Fin.ext e)
    exact ⟨fun hb => by have := sample_stk hT hb; omega, fun e => by rw [e, hs] at h1; omega⟩

theorem sample_rd {e : Nat → El bnR} {p : Nat} (hp : p ≤ 2 ^ 30) : rd (sampleMem e) (sampleLoc p) (n64 bnR) = (e p).v := by
  have hn := n64_bnR
  refine List.ext_getElem (by rw [X86.rd_length, (e p).len]) fun i h1 h2 => ?_
  rw [X86.rd_getElem]
  rw [X86.rd_length, hn] at h1
  have hc := sample_cell hp h1
  unfold sampleMem
  rw [hc, if_pos (by omega), show (4096 + 32 * p + 8 * i - 4096) / 32 = p by omega, show (4096 + 32 * p + 8 * i - 4096) % 32 / 8 = i by omega]
  exact List.getD_eq_getElem _ _ h2

theorem sample_printed (e : Nat → El bnR) : Printed bnR sampleSym (sampleMem e) := by
  refine ⟨?_, rfl⟩
  refine List.ext_getElem (by rw [X86.rd_length, rawq_length]) fun i h1 h2 => ?_
  rw [X86.rd_getElem]
  rw [X86.rd_length, n64_bnR] at h1
  have hc : (X86.cell (sampleSym .q) i).toNat = 256 + 8 * i := by
    rw [X86.cell, BitVec.toNat_add, BitVec.toNat_ofNat, show (sampleSym .q).toNat = 256 from rfl]
    omega
  unfold sampleMem
  rw [hc, if_neg (by omega), if_pos (by omega), show (256 + 8 * i - 256) / 8 = i by omega]
  exact List.getD_eq_getElem _ _ h2

theorem sample_holds {n R : Nat} (h : n + R ≤ 2 ^ 30) (tab x : Nat → El bnR) :
    Holds bnR n R sampleLoc sampleSym tab x (sampleMem (startElems n R tab x fun _ => ⟨0, 0⟩)) := by
  have hs := start_sim (n := n) (R := R) tab x (fun _ => ⟨0, 0⟩) 0
  exact ⟨sample_printed _, fun i hi => by rw [sample_rd (by omega), hs.tab i hi], fun i hi => by rw [sample_rd (by omega), hs.arr i hi]⟩

/-- A transform of `2 ^ 20` cells with a table of order `2 ^ 28`, on five threads, starts, comes to an end and its inverse restores all limbs. -/
example (x : Nat → El bnR) : ∃ (F : Obj (El bnR)) (m m1 m2 : Conc.Mem), F.s = 28 ∧ Holds bnR (2 ^ 20) (tabSize F.s) sampleLoc sampleSym (fftTab F) x m ∧
    RawFft bnR (2 ^ 29) F.s 5 sampleLoc sampleSym (BitVec.ofNat 64 (2 ^ 20)) m m1 ∧ RawIfft bnR (2 ^ 29) F.s 5 sampleLoc sampleSym (BitVec.ofNat 64 (2 ^ 20)) m1 m2 ∧
    ∀ i < 2 ^ 20, rd m2 (sampleLoc i) (n64 bnR) = (x i).v := by
  obtain ⟨F, hF, hs⟩ := sample_ctor
  have hR : tabSize F.s = 268435485 := by rw [hs]; rfl
  have hm := sample_holds (n := 2 ^ 20) (R := tabSize F.s) (by rw [hR]; norm_num) (fftTab F) x
  have hp : Place bnR (2 ^ 29) sampleLoc (sampleStack 5) sampleSym := sample_place (by norm_num) (by norm_num)
  have hE : fftElems (2 ^ 20) (tabSize F.s) 5 ≤ 2 ^ 29 := by rw [hR, fftElems]; norm_num
  obtain ⟨v, -, h⟩ := C92_fft (by norm_num) _ hF (k := 20) (by omega) (by norm_num)
  obtain ⟨h1, h2⟩ := h 5 (by norm_num) (by norm_num) _ hE _ _ x _ hm
  obtain ⟨m1, r1⟩ := h1 _ hp
  obtain ⟨x1, hm1, -, -⟩ := h2 m1 r1
  obtain ⟨e1, -⟩ := C92_inverse_partial (by norm_num) _ hF (k := 20) (T := 5) (by omega) (by norm_num) (by norm_num) (by norm_num) (by norm_num) hE hm1
  obtain ⟨m2, r2⟩ := e1 _ hp
  obtain ⟨-, e2, -⟩ := C92_inverse_partial (by norm_num) _ hF (k := 20) (T := 5) (by omega) (by norm_num) (by norm_num) (by norm_num) (by norm_num) hE hm
  refine ⟨F, _, m1, m2, hs, hm, r1, r2, fun i hi => ?_⟩
  rw [e2 m1 m2 r1 r2 i hi, hm.arr i hi]

/-- The loop that reverses the indices of such an array. -/
example (x : Nat → El bnR) : ∃ (F : Obj (El bnR)) (m : Conc.Mem), F.s = 28 ∧ Holds bnR (2 ^ 20) (tabSize F.s) sampleLoc sampleSym (fftTab F) x m ∧
    ∃ calls, parallelFor 5 (0 : Nat) (2 ^ 20 : Nat) = some calls ∧
      Orderly bnR (2 ^ 29) sampleLoc sampleSym (fun j : Fin 5 => rawBlock calls (rawRev (2 ^ 20) F.s 20) j) m := by
  obtain ⟨F, hF, hs⟩ := sample_ctor
  have hR : tabSize F.s = 268435485 := by rw [hs]; rfl
  have hm := sample_holds (n := 2 ^ 20) (R := tabSize F.s) (by rw [hR]; norm_num) (fftTab F) x
  have hE : fftElems (2 ^ 20) (tabSize F.s) 5 ≤ 2 ^ 29 := by rw [hR, fftElems]; norm_num
  exact ⟨F, _, hs, hm, (C92_loops (T := 5) (k := 20) (by norm_num) (by norm_num) (by norm_num) hE hm 0 (2 ^ 20) _ (.inl ⟨rfl, rfl, rfl⟩)).1⟩

end sample

end FF.Props
