import Verif.AsmTouch
import Mathlib.Algebra.BigOperators.Fin

/-!
# Threads on one memory, instruction by instruction

A machine with private cores (registers, flags, position in the code) and one memory; any core may execute the next instruction at any time.
If no thread, running alone, writes a cell that another one, running alone, accesses, then every interleaving ends as the threads end alone.
The steps are those of one memory with instructions one after the other; `StoreBuffer.lean` has the weaker memory model of x86-64.
-/

namespace FF.Conc

open FF.X86 (Access)

/-- The memory. -/
abbrev Mem := BitVec 64 → BitVec 64

/-- One instruction of a core, `none` if it has returned or cannot go on; and the accesses of that instruction.  `ok` is an invariant of the code.
The laws: an instruction depends only on the cells it reads, and changes only the cells it writes. -/
structure Machine where
  Core : Type
  step : Core → Mem → Option (Core × Mem)
  acc : Core → Mem → List Access
  ok : Core → Prop
  like : ∀ (D : BitVec 64 → Prop) (c : Core) (m m' : Mem), (∀ a, ¬ D a → m' a = m a) → (∀ a, Access.read a ∈ acc c m → ¬ D a) →
    acc c m' = acc c m ∧ ∀ c1 m1, step c m = some (c1, m1) → ∃ m1', step c m' = some (c1, m1') ∧ ∀ a, ¬ D a → m1' a = m1 a
  ok_step : ∀ c m c1 m1, ok c → step c m = some (c1, m1) → ok c1
  off : ∀ c m c1 m1, ok c → step c m = some (c1, m1) → ∀ a, Access.write a ∉ acc c m → m1 a = m a

variable {M : Machine}

/-- A core running alone: `k` instructions with the accesses `l`. -/
inductive Alone (M : Machine) : M.Core → Mem → Nat → List Access → M.Core → Mem → Prop
  | nil (c : M.Core) (m : Mem) : Alone M c m 0 [] c m
  | cons {c c1 c2 : M.Core} {m m1 m2 : Mem} {k : Nat} {l : List Access} (h : M.step c m = some (c1, m1)) (h' : Alone M c1 m1 k l c2 m2) :
      Alone M c m (k + 1) (M.acc c m ++ l) c2 m2

theorem Alone.trans {c c1 c2 : M.Core} {m m1 m2 : Mem} {k k' : Nat} {l l' : List Access} (h : Alone M c m k l c1 m1)
    (h' : Alone M c1 m1 k' l' c2 m2) : Alone M c m (k + k') (l ++ l') c2 m2 := by
  induction h with
  | nil => simpa using h'
  | cons h _ ih => rw [List.append_assoc, Nat.succ_add]; exact .cons h (ih h')

section
variable {ι : Type} [DecidableEq ι]

/-- `N` instructions of the threads `ι` on one memory, in any order. -/
inductive Together (M : Machine) (cs0 : ι → M.Core) (m0 : Mem) : Nat → (ι → M.Core) → Mem → Prop
  | nil : Together M cs0 m0 0 cs0 m0
  | snoc {cs : ι → M.Core} {m : Mem} {N : Nat} (h : Together M cs0 m0 N cs m) (i : ι) {c : M.Core} {m1 : Mem}
      (h' : M.step (cs i) m = some (c, m1)) : Together M cs0 m0 (N + 1) (Function.update cs i c) m1

/-- The cell is accessed. -/
def Touches (l : List Access) (a : BitVec 64) : Prop := Access.read a ∈ l ∨ Access.write a ∈ l

/-- No cell written by one of the two lists is accessed by the other. -/
def Apart (l l' : List Access) : Prop := ∀ a, (Access.write a ∈ l → ¬ Touches l' a) ∧ (Access.write a ∈ l' → ¬ Touches l a)

/-- The thread is what it is when running alone, with `k` instructions left. -/
structure At (M : Machine) (A : List Access) (fc : M.Core) (fm : Mem) (c : M.Core) (m : Mem) (k : Nat) : Prop where
  ok : M.ok c
  left : ∃ m0 l, Alone M c m0 k l fc fm ∧ (∀ x ∈ l, x ∈ A) ∧ ∀ a, Touches A a → m a = m0 a

variable {A : ι → List Access} {fc : ι → M.Core} {fm : ι → Mem} {cs0 cs : ι → M.Core} {m0 m : Mem} {k0 : ι → Nat}

omit [DecidableEq ι] in
theorem At.acc {A : List Access} {fc c : M.Core} {fm : Mem} {k : Nat} (h : At M A fc fm c m k) (hf : ∀ m, M.acc fc m = []) : ∀ x ∈ M.acc c m, x ∈ A := by
  obtain ⟨mi, l, h1, h2, h3⟩ := h.left
  cases h1 with
  | nil => rw [hf]; simp
  | cons hs h' =>
    have := (M.like (fun a => ¬ Touches A a) c mi m (fun a ha => h3 a (not_not.1 ha))
      (fun a ha => not_not.2 (.inl (h2 _ (List.mem_append_left _ ha))))).1
    rw [this]
    exact fun x hx => h2 x (List.mem_append_left _ hx)

omit [DecidableEq ι] in
/-- It goes on unless it has returned. -/
theorem At.goes {A : List Access} {fc c : M.Core} {fm : Mem} {k : Nat} (h : At M A fc fm c m k) : c = fc ∨ ∃ c1 m1, M.step c m = some (c1, m1) := by
  obtain ⟨mi, l, h1, h2, h3⟩ := h.left
  cases h1 with
  | nil => exact .inl rfl
  | cons hs h' =>
    obtain ⟨m1', h, -⟩ := (M.like (fun a => ¬ Touches A a) c mi m (fun a ha => h3 a (not_not.1 ha))
      (fun a ha => not_not.2 (.inl (h2 _ (List.mem_append_left _ ha))))).2 _ _ hs
    exact .inr ⟨_, _, h⟩

omit [DecidableEq ι] in
/-- A step of the thread itself. -/
theorem At.own {A : List Access} {fc c c1 : M.Core} {fm m1 : Mem} {k : Nat} (h : At M A fc fm c m k) (hf : ∀ m, M.step fc m = none)
    (hs : M.step c m = some (c1, m1)) : ∃ k', k = k' + 1 ∧ At M A fc fm c1 m1 k' := by
  obtain ⟨mi, l, h1, h2, h3⟩ := h.left
  cases h1 with
  | nil => rw [hf] at hs; cases hs
  | cons hs' h' =>
    obtain ⟨m1', e, e'⟩ := (M.like (fun a => ¬ Touches A a) c mi m (fun a ha => h3 a (not_not.1 ha))
      (fun a ha => not_not.2 (.inl (h2 _ (List.mem_append_left _ ha))))).2 _ _ hs'
    rw [e] at hs
    cases hs
    exact ⟨_, rfl, M.ok_step _ _ _ _ h.ok e, _, _, h', fun x hx => h2 x (List.mem_append_right _ hx), fun a ha => e' a (not_not.2 ha)⟩

omit [DecidableEq ι] in
/-- A step of another one. -/
theorem At.other {A : List Access} {fc c : M.Core} {fm m1 : Mem} {k : Nat} (h : At M A fc fm c m k) (hm : ∀ a, Touches A a → m1 a = m a) :
    At M A fc fm c m1 k := by
  obtain ⟨mi, l, h1, h2, h3⟩ := h.left
  exact ⟨h.ok, mi, l, h1, h2, fun a ha => (hm a ha).trans (h3 a ha)⟩

/-- The invariant of all interleavings. -/
theorem together_inv [Fintype ι] (hok : ∀ i, M.ok (cs0 i)) (hA : ∀ i, Alone M (cs0 i) m0 (k0 i) (A i) (fc i) (fm i))
    (hf : ∀ i m, M.step (fc i) m = none ∧ M.acc (fc i) m = []) (hd : ∀ i j, i ≠ j → Apart (A i) (A j)) {N : Nat} (h : Together M cs0 m0 N cs m) :
    ∃ k : ι → Nat, (∀ i, At M (A i) (fc i) (fm i) (cs i) m (k i)) ∧ (∀ a, (∀ i, Access.write a ∉ A i) → m a = m0 a) ∧
      N + ∑ i, k i = ∑ i, k0 i := by
  induction h with
  | nil => exact ⟨k0, fun i => ⟨hok i, m0, A i, hA i, fun x hx => hx, fun _ _ => rfl⟩, fun a _ => rfl, by simp⟩
  | snoc h i h' ih =>
    obtain ⟨k, h1, h2, h3⟩ := ih
    obtain ⟨k', e, hi⟩ := (h1 i).own (fun m => (hf i m).1) h'
    have hw : ∀ a, Access.write a ∉ A i → _ = _ := fun a ha =>
      M.off _ _ _ _ (h1 i).ok h' a fun h'' => ha ((h1 i).acc (fun m => (hf i m).2) _ h'')
    refine ⟨Function.update k i k', fun j => ?_, fun a ha => (hw a (ha i)).trans (h2 a ha), ?_⟩
    · by_cases ej : j = i
      · subst ej; rw [Function.update_self, Function.update_self]; exact hi
      · rw [Function.update_of_ne ej, Function.update_of_ne ej]
        exact (h1 j).other fun a ha => hw a fun hw' => ((hd i j (Ne.symm ej)) a).1 hw' ha
    · rw [← h3, ← Finset.add_sum_erase _ _ (Finset.mem_univ i), ← Finset.add_sum_erase _ k (Finset.mem_univ i), Function.update_self, e]
      have : ∑ x ∈ Finset.univ.erase i, Function.update k i k' x = ∑ x ∈ Finset.univ.erase i, k x :=
        Finset.sum_congr rfl fun x hx => Function.update_of_ne (Finset.ne_of_mem_erase hx) _ _
      omega

omit [DecidableEq ι] in
/-- Alone, a thread changes only what it writes. -/
theorem Alone.off {c c' : M.Core} {m m' : Mem} {k : Nat} {l : List Access} (h : Alone M c m k l c' m') (hok : M.ok c) (a : BitVec 64)
    (ha : Access.write a ∉ l) : m' a = m a := by
  induction h with
  | nil => rfl
  | cons h _ ih =>
    rw [List.mem_append, not_or] at ha
    exact (ih (M.ok_step _ _ _ _ hok h) ha.2).trans (M.off _ _ _ _ hok h a ha.1)

/-- A state of an execution of threads that would access `A`, end in `fc` and leave the memories `fm` alone, with `N` of `L` instructions executed. -/
structure AsAlone (M : Machine) (A : ι → List Access) (fc : ι → M.Core) (fm : ι → Mem) (m0 : Mem) (L N : Nat) (cs : ι → M.Core) (m : Mem) : Prop where
  /-- The number of instructions is bounded. -/
  steps : N ≤ L
  /-- All have returned exactly when all these instructions have been executed. -/
  done : N = L ↔ ∀ i, cs i = fc i
  /-- No thread is stuck: it has returned or has a next instruction. -/
  goes : ∀ i, cs i = fc i ∨ ∃ c1 m1, M.step (cs i) m = some (c1, m1)
  /-- No data race: the next instructions of two threads do not access a cell that one of the two writes. -/
  race : ∀ i j, i ≠ j → Apart (M.acc (cs i) m) (M.acc (cs j) m)
  /-- A thread that has returned has left what it leaves alone, wherever the others do not write. -/
  result : ∀ i, cs i = fc i → ∀ a, (∀ j, j ≠ i → Access.write a ∉ A j) → m a = fm i a
  /-- Cells that no thread writes alone are as at the beginning, at any time. -/
  rest : ∀ a, (∀ i, Access.write a ∉ A i) → m a = m0 a

theorem Apart.mono {l l' k k' : List Access} (h : Apart l l') (h1 : ∀ x ∈ k, x ∈ l) (h2 : ∀ x ∈ k', x ∈ l') : Apart k k' := fun a =>
  ⟨fun hw ht => (h a).1 (h1 _ hw) (ht.imp (h2 _) (h2 _)), fun hw ht => (h a).2 (h2 _ hw) (ht.imp (h1 _) (h1 _))⟩

/-- Every interleaving is as the threads are alone. -/
theorem together_alone [Fintype ι] (hok : ∀ i, M.ok (cs0 i)) (hA : ∀ i, Alone M (cs0 i) m0 (k0 i) (A i) (fc i) (fm i))
    (hf : ∀ i m, M.step (fc i) m = none ∧ M.acc (fc i) m = []) (hd : ∀ i j, i ≠ j → Apart (A i) (A j)) {N : Nat} (h : Together M cs0 m0 N cs m) :
    AsAlone M A fc fm m0 (∑ i, k0 i) N cs m := by
  obtain ⟨k, h1, h2, h3⟩ := together_inv hok hA hf hd h
  have hz : ∀ i, cs i = fc i → k i = 0 ∧ ∀ a, Touches (A i) a → m a = fm i a := by
    intro i hi
    obtain ⟨mi, l, g1, g2, g3⟩ := (h1 i).left
    rw [hi] at g1
    cases hk : k i with
    | zero =>
      rw [hk] at g1
      cases g1
      exact ⟨rfl, g3⟩
    | succ n =>
      rw [hk] at g1
      cases g1 with
      | cons hs _ => rw [(hf i mi).1] at hs; cases hs
  refine ⟨by omega, ⟨fun hN i => ?_, fun hi => ?_⟩, fun i => (h1 i).goes, fun i j hij => ?_, fun i hi a ha => ?_, h2⟩
  · have : k i = 0 := by
      have : ∑ i, k i = 0 := by omega
      exact Finset.sum_eq_zero_iff.1 this i (Finset.mem_univ i)
    obtain ⟨mi, l, g1, _⟩ := (h1 i).left
    rw [this] at g1
    generalize cs i = c at g1
    cases g1
    rfl
  · have : ∑ i, k i = 0 := Finset.sum_eq_zero fun i _ => (hz i (hi i)).1
    omega
  · exact (hd i j hij).mono ((h1 i).acc fun m => (hf i m).2) ((h1 j).acc fun m => (hf j m).2)
  · by_cases ht : Touches (A i) a
    · exact (hz i hi).2 a ht
    · have hw : Access.write a ∉ A i := fun h => ht (.inr h)
      rw [(hA i).off (hok i) a hw]
      refine h2 a fun j => ?_
      by_cases hj : j = i
      · rw [hj]; exact hw
      · exact ha j hj

end

end FF.Conc
