import Verif.Interleave

/-!
# Threads with store buffers

The memory model of x86-64 (x86-TSO): a store goes to a buffer of the thread; a load sees the newest store of its own thread to the cell, and otherwise the
memory; the buffered stores reach the memory later, in order.  Here they may also overtake each other if they are to different cells (as under partial
store order), which allows more behaviours.  The library has no locked instruction and no fence.
-/

namespace FF.Conc

open FF.X86 (Access)

/-- Stores that are not in the memory yet, the oldest one first: cell and value. -/
abbrev Buf := List (BitVec 64 × BitVec 64)

/-- A store reaches the memory. -/
def put (m : Mem) (a v : BitVec 64) : Mem := fun x => if x = a then v else m x

/-- What a thread with this buffer sees. -/
def seen (m : Mem) : Buf → Mem
  | [] => m
  | (a, v) :: b => seen (put m a v) b

/-- The stores of an instruction with these accesses that leaves `m`. -/
def stored (l : List Access) (m : Mem) : Buf :=
  l.filterMap fun x => match x with
    | .write a => some (a, m a)
    | .read _ => none

/-- `N` instructions of the threads `ι` on one memory with store buffers, in any order, and any number of stores that reach the memory. -/
inductive Buffered {ι : Type} [DecidableEq ι] (M : Machine) (cs0 : ι → M.Core) (m0 : Mem) : Nat → (ι → M.Core) → (ι → Buf) → Mem → Prop
  | nil : Buffered M cs0 m0 0 cs0 (fun _ => []) m0
  | instr {cs : ι → M.Core} {b : ι → Buf} {m : Mem} {N : Nat} (h : Buffered M cs0 m0 N cs b m) (i : ι) {c : M.Core} {m1 : Mem}
      (h' : M.step (cs i) (seen m (b i)) = some (c, m1)) :
      Buffered M cs0 m0 (N + 1) (Function.update cs i c) (Function.update b i (b i ++ stored (M.acc (cs i) (seen m (b i))) m1)) m
  | drain {cs : ι → M.Core} {b : ι → Buf} {m : Mem} {N : Nat} (h : Buffered M cs0 m0 N cs b m) (i : ι) {u w : Buf} {a v : BitVec 64}
      (h' : b i = u ++ (a, v) :: w) (hu : ∀ x ∈ u, x.1 ≠ a) : Buffered M cs0 m0 N cs (Function.update b i (u ++ w)) (put m a v)

theorem seen_append (m : Mem) (b b' : Buf) : seen m (b ++ b') = seen (seen m b) b' := by
  induction b generalizing m with
  | nil => rfl
  | cons x b ih => exact ih _

theorem seen_congr {m m' : Mem} {x : BitVec 64} (h : m' x = m x) (b : Buf) : seen m' b x = seen m b x := by
  induction b generalizing m m' with
  | nil => exact h
  | cons y b ih =>
    refine ih ?_
    simp only [put]
    split
    · rfl
    · exact h

theorem seen_off {m : Mem} {x : BitVec 64} {b : Buf} (h : ∀ y ∈ b, y.1 ≠ x) : seen m b x = m x := by
  induction b generalizing m with
  | nil => rfl
  | cons y b ih =>
    refine (ih fun z hz => h z (List.mem_cons_of_mem _ hz)).trans ?_
    exact if_neg fun e => h y List.mem_cons_self e.symm

/-- A store overtakes stores to other cells. -/
theorem seen_put {m : Mem} {a v : BitVec 64} {u : Buf} (hu : ∀ x ∈ u, x.1 ≠ a) : seen (put m a v) u = put (seen m u) a v := by
  induction u generalizing m with
  | nil => rfl
  | cons y u ih =>
    obtain ⟨c, z⟩ := y
    have hc : c ≠ a := hu _ List.mem_cons_self
    have e : put (put m a v) c z = put (put m c z) a v := by
      funext x
      simp only [put]
      split
      · rename_i h; rw [if_neg (fun h' => hc (h.symm.trans h'))]
      · rfl
    show seen (put (put m a v) c z) u = _
    rw [e, ih fun x hx => hu x (List.mem_cons_of_mem _ hx)]
    rfl

theorem seen_drain {m : Mem} {a v : BitVec 64} {u w : Buf} (hu : ∀ x ∈ u, x.1 ≠ a) : seen (put m a v) (u ++ w) = seen m (u ++ (a, v) :: w) := by
  rw [seen_append, seen_append, seen_put hu]
  rfl

theorem mem_stored {l : List Access} {m : Mem} {x : BitVec 64 × BitVec 64} : x ∈ stored l m ↔ Access.write x.1 ∈ l ∧ x.2 = m x.1 := by
  unfold stored
  rw [List.mem_filterMap]
  constructor
  · rintro ⟨y, hy, e⟩
    cases y with
    | read _ => cases e
    | write a => cases e; exact ⟨hy, rfl⟩
  · rintro ⟨h1, h2⟩
    exact ⟨_, h1, by show some (x.1, m x.1) = some x; rw [← h2]⟩

theorem seen_vals {m m1 : Mem} {b : Buf} (h : ∀ x ∈ b, x.2 = m1 x.1) {a : BitVec 64} (ha : m a = m1 a ∨ ∃ x ∈ b, x.1 = a) : seen m b a = m1 a := by
  induction b generalizing m with
  | nil =>
    rcases ha with ha | ⟨x, hx, _⟩
    · exact ha
    · cases hx
  | cons y b ih =>
    refine ih (fun x hx => h x (List.mem_cons_of_mem _ hx)) ?_
    by_cases e : a = y.1
    · left
      simp only [put, e, if_true]
      exact h y List.mem_cons_self
    · rcases ha with ha | ⟨x, hx, hxa⟩
      · left
        simp only [put, if_neg e]
        exact ha
      · rcases List.mem_cons.1 hx with rfl | hx
        · exact absurd hxa.symm e
        · exact .inr ⟨x, hx, hxa⟩

/-- After an instruction the thread sees what the instruction leaves. -/
theorem seen_stored {M : Machine} {c c1 : M.Core} {m m1 : Mem} (hok : M.ok c) (h : M.step c m = some (c1, m1)) : seen m (stored (M.acc c m) m1) = m1 := by
  funext a
  refine seen_vals (fun x hx => (mem_stored.1 hx).2) ?_
  by_cases ha : Access.write a ∈ M.acc c m
  · exact .inr ⟨(a, m1 a), mem_stored.2 ⟨ha, rfl⟩, rfl⟩
  · exact .inl (M.off _ _ _ _ hok h a ha).symm

section
variable {M : Machine} {ι : Type} [DecidableEq ι]
variable {A : ι → List Access} {fc : ι → M.Core} {fm : ι → Mem} {cs0 cs : ι → M.Core} {b : ι → Buf} {m0 m : Mem} {k0 : ι → Nat}

/-- The invariant of all executions. -/
theorem buffered_inv [Fintype ι] (hok : ∀ i, M.ok (cs0 i)) (hA : ∀ i, Alone M (cs0 i) m0 (k0 i) (A i) (fc i) (fm i))
    (hf : ∀ i m, M.step (fc i) m = none ∧ M.acc (fc i) m = []) (hd : ∀ i j, i ≠ j → Apart (A i) (A j)) {N : Nat} (h : Buffered M cs0 m0 N cs b m) :
    ∃ k : ι → Nat, (∀ i, At M (A i) (fc i) (fm i) (cs i) (seen m (b i)) (k i)) ∧ (∀ i, ∀ x ∈ b i, Access.write x.1 ∈ A i) ∧
      (∀ a, (∀ i, Access.write a ∉ A i) → m a = m0 a) ∧ N + ∑ i, k i = ∑ i, k0 i := by
  induction h with
  | nil => exact ⟨k0, fun i => ⟨hok i, m0, A i, hA i, fun x hx => hx, fun _ _ => rfl⟩, nofun, fun a _ => rfl, by simp⟩
  | @instr cs b m N h i c m1 h' ih =>
    obtain ⟨k, h1, hb, h2, h3⟩ := ih
    obtain ⟨k', e, hi⟩ := (h1 i).own (fun m => (hf i m).1) h'
    refine ⟨Function.update k i k', fun j => ?_, fun j => ?_, h2, ?_⟩
    · by_cases ej : j = i
      · subst ej
        rw [Function.update_self, Function.update_self, Function.update_self, seen_append, seen_stored (h1 j).ok h']
        exact hi
      · rw [Function.update_of_ne ej, Function.update_of_ne ej, Function.update_of_ne ej]
        exact h1 j
    · by_cases ej : j = i
      · subst ej
        rw [Function.update_self]
        intro x hx
        rcases List.mem_append.1 hx with hx | hx
        · exact hb j x hx
        · exact (h1 j).acc (fun m => (hf j m).2) _ (mem_stored.1 hx).1
      · rw [Function.update_of_ne ej]; exact hb j
    · rw [← h3, ← Finset.add_sum_erase _ _ (Finset.mem_univ i), ← Finset.add_sum_erase _ k (Finset.mem_univ i), Function.update_self, e]
      have : ∑ x ∈ Finset.univ.erase i, Function.update k i k' x = ∑ x ∈ Finset.univ.erase i, k x :=
        Finset.sum_congr rfl fun x hx => Function.update_of_ne (Finset.ne_of_mem_erase hx) _ _
      omega
  | @drain cs b m N h i u w a v h' hu ih =>
    obtain ⟨k, h1, hb, h2, h3⟩ := ih
    have hw : Access.write a ∈ A i := hb i (a, v) (by rw [h']; simp)
    refine ⟨k, fun j => ?_, fun j => ?_, fun x hx => ?_, h3⟩
    · by_cases ej : j = i
      · subst ej
        rw [Function.update_self, seen_drain hu, ← h']
        exact h1 j
      · rw [Function.update_of_ne ej]
        refine (h1 j).other fun x hx => seen_congr ?_ _
        exact if_neg fun e : x = a => ((hd i j (Ne.symm ej)) a).1 hw (e ▸ hx)
    · by_cases ej : j = i
      · subst ej
        rw [Function.update_self]
        intro x hx
        refine hb j x ?_
        rw [h']
        rcases List.mem_append.1 hx with hx | hx <;> simp [hx]
      · rw [Function.update_of_ne ej]; exact hb j
    · rw [← h2 x hx]
      exact if_neg fun e : x = a => hx i (e ▸ hw)

/-- As `AsAlone`, with store buffers: `seen m (b i)` is what thread `i` sees. -/
structure AsAloneBuf (M : Machine) (A : ι → List Access) (fc : ι → M.Core) (fm : ι → Mem) (m0 : Mem) (L N : Nat) (cs : ι → M.Core) (b : ι → Buf) (m : Mem) :
    Prop where
  /-- The number of instructions is bounded. -/
  steps : N ≤ L
  /-- All have returned exactly when all these instructions have been executed. -/
  done : N = L ↔ ∀ i, cs i = fc i
  /-- No thread is stuck: it has returned or has a next instruction. -/
  goes : ∀ i, cs i = fc i ∨ ∃ c1 m1, M.step (cs i) (seen m (b i)) = some (c1, m1)
  /-- No data race. -/
  race : ∀ i j, i ≠ j → Apart (M.acc (cs i) (seen m (b i))) (M.acc (cs j) (seen m (b j)))
  /-- A buffer holds only stores to cells that no other thread uses. -/
  buffer : ∀ i, ∀ x ∈ b i, Access.write x.1 ∈ A i
  /-- A thread that has returned sees what it leaves alone, wherever the others do not write. -/
  sees : ∀ i, cs i = fc i → ∀ a, (∀ j, j ≠ i → Access.write a ∉ A j) → seen m (b i) a = fm i a
  /-- When its buffer is empty, so does everybody. -/
  result : ∀ i, cs i = fc i → b i = [] → ∀ a, (∀ j, j ≠ i → Access.write a ∉ A j) → m a = fm i a
  /-- Cells that no thread writes alone are as at the beginning, at any time. -/
  rest : ∀ a, (∀ i, Access.write a ∉ A i) → m a = m0 a

/-- Every execution is as the threads are alone. -/
theorem buffered_alone [Fintype ι] (hok : ∀ i, M.ok (cs0 i)) (hA : ∀ i, Alone M (cs0 i) m0 (k0 i) (A i) (fc i) (fm i))
    (hf : ∀ i m, M.step (fc i) m = none ∧ M.acc (fc i) m = []) (hd : ∀ i j, i ≠ j → Apart (A i) (A j)) {N : Nat} (h : Buffered M cs0 m0 N cs b m) :
    AsAloneBuf M A fc fm m0 (∑ i, k0 i) N cs b m := by
  obtain ⟨k, h1, hb, h2, h3⟩ := buffered_inv hok hA hf hd h
  have hz : ∀ i, cs i = fc i → k i = 0 ∧ ∀ a, Touches (A i) a → seen m (b i) a = fm i a := by
    intro i hi
    obtain ⟨mi, l, g1, g2, g3⟩ := (h1 i).left
    rw [hi] at g1
    cases hk : k i with
    | zero =>
      rw [hk] at g1
      cases g1
      exact ⟨rfl, g3⟩
    | succ n =>
      rw [hk] at g1
      cases g1 with
      | cons hs _ => rw [(hf i mi).1] at hs; cases hs
  have hs : ∀ i, cs i = fc i → ∀ a, (∀ j, j ≠ i → Access.write a ∉ A j) → seen m (b i) a = fm i a := by
    intro i hi a ha
    by_cases ht : Touches (A i) a
    · exact (hz i hi).2 a ht
    · have hw : Access.write a ∉ A i := fun h => ht (.inr h)
      rw [(hA i).off (hok i) a hw, seen_off (x := a) fun x hx e => hw (e ▸ hb i x hx)]
      refine h2 a fun j => ?_
      by_cases hj : j = i
      · rw [hj]; exact hw
      · exact ha j hj
  refine ⟨by omega, ⟨fun hN i => ?_, fun hi => ?_⟩, fun i => (h1 i).goes, fun i j hij => ?_, hb, hs, fun i hi he a ha => ?_, h2⟩
  · have : k i = 0 := by
      have : ∑ i, k i = 0 := by omega
      exact Finset.sum_eq_zero_iff.1 this i (Finset.mem_univ i)
    obtain ⟨mi, l, g1, _⟩ := (h1 i).left
    rw [this] at g1
    generalize cs i = c at g1
    cases g1
    rfl
  · have : ∑ i, k i = 0 := Finset.sum_eq_zero fun i _ => (hz i (hi i)).1
    omega
  · exact (hd i j hij).mono ((h1 i).acc fun m => (hf i m).2) ((h1 j).acc fun m => (hf j m).2)
  · have := hs i hi a ha
    rwa [he] at this

end

end FF.Conc
