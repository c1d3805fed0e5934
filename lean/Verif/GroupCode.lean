import Verif.CurveProof
import Mathlib.Algebra.BigOperators.Group.Finset.Basic
import Mathlib.Data.List.Perm.Basic

/-!
# The curve as seen by the multi-exponentiation templates, and schedules of parallel loops
-/

namespace FF

/-- The operations of the template parameter `Curve` used by `multiexp.cpp` and `msm.cpp`, as functions of values (the store versions
compute these values in every placement, C32).  `memz` is the point whose bytes are all zero (`memset`). -/
structure GroupCode (P PA : Type) where
  zero : P
  memz : P
  isZero : P → Bool
  isZeroA : PA → Bool
  dbl : P → P
  add : P → P → P
  addMix : P → PA → P
  subMix : P → PA → P

/-- `Curve<K>` as a template parameter. -/
def Curve.code {K : Type} [Field K] [DecidableEq K] (a : K) : GroupCode (Pt K) (PtA K) where
  zero := Curve.zero
  memz := ⟨0, 0, 0, 0⟩
  isZero := Curve.isZero
  isZeroA := Curve.isZeroA
  dbl := Curve.dbl a
  add := Curve.add a
  addMix := Curve.addMix a
  subMix := Curve.subMix a

/-- `D p x`: the point `p` stands for the element `x` of the abelian group `A`; `DA` the same for affine points. -/
structure GroupCode.Sound {P PA A : Type} [AddCommGroup A] (G : GroupCode P PA) (D : P → A → Prop) (DA : PA → A → Prop) : Prop where
  zero : D G.zero 0
  memz : D G.memz 0
  isZero : ∀ {p x}, D p x → (G.isZero p = true ↔ x = 0)
  isZeroA : ∀ {s x}, DA s x → (G.isZeroA s = true ↔ x = 0)
  dbl : ∀ {p x}, D p x → D (G.dbl p) (x + x)
  add : ∀ {p q x y}, D p x → D q y → D (G.add p q) (x + y)
  addMix : ∀ {p s x y}, D p x → DA s y → D (G.addMix p s) (x + y)
  subMix : ∀ {p s x y}, D p x → DA s y → D (G.subMix p s) (x - y)

/-- The curve code is sound for Mathlib's group of points. -/
theorem Curve.code_sound {K : Type} [Field K] [DecidableEq K] {a b : K} (hb : b ≠ 0) :
    (Curve.code a).Sound (Curve.CRep (a := a) (b := b)) (Curve.ARep (a := a) (b := b)) where
  zero := Curve.zero_rep.1
  memz := ⟨rfl, rfl⟩
  isZero := Curve.isZero_iff
  isZeroA := Curve.isZeroA_iff hb
  dbl h := (Curve.dbl_rep h).1
  add h1 h2 := (Curve.add_rep h1 h2).1
  addMix h1 h2 := (Curve.addMix_rep hb h1 h2).1
  subMix h1 h2 := by rw [sub_eq_add_neg]; exact (Curve.addMix_rep hb h1 (Curve.negA_rep h2)).1

/-- Code that never starts from all-zero bytes also keeps its results `Proper` (`msm.cpp` uses no `memset`, so it is the same with this
code as with `Curve.code`). -/
def Curve.code' {K : Type} [Field K] [DecidableEq K] (a : K) : GroupCode (Pt K) (PtA K) := { Curve.code a with memz := Curve.zero }

theorem Curve.code_sound' {K : Type} [Field K] [DecidableEq K] {a b : K} (hb : b ≠ 0) :
    (Curve.code' a).Sound (fun p P => Curve.CRep (a := a) (b := b) p P ∧ Curve.Proper p) (Curve.ARep (a := a) (b := b)) where
  zero := Curve.zero_rep
  memz := Curve.zero_rep
  isZero h := Curve.isZero_iff h.1
  isZeroA := Curve.isZeroA_iff hb
  dbl h := ⟨(Curve.dbl_rep h.1).1, (Curve.dbl_rep h.1).2 h.2⟩
  add h1 h2 := ⟨(Curve.add_rep h1.1 h2.1).1, (Curve.add_rep h1.1 h2.1).2 h1.2 h2.2⟩
  addMix h1 h2 := ⟨(Curve.addMix_rep hb h1.1 h2).1, (Curve.addMix_rep hb h1.1 h2).2 h1.2⟩
  subMix h1 h2 := by
    rw [sub_eq_add_neg]
    exact ⟨(Curve.addMix_rep hb h1.1 (Curve.negA_rep h2)).1, (Curve.addMix_rep hb h1.1 (Curve.negA_rep h2)).2 h1.2⟩

/-- A trivial instance used in examples: integers under addition. -/
def intCode : GroupCode ℤ ℤ where
  zero := 0
  memz := 0
  isZero x := x == 0
  isZeroA x := x == 0
  dbl x := x + x
  add x y := x + y
  addMix x y := x + y
  subMix x y := x - y

theorem intCode_sound : intCode.Sound (A := ℤ) (fun p x => p = x) (fun p x => p = x) where
  zero := rfl
  memz := rfl
  isZero := by rintro p x rfl; simp [intCode]
  isZeroA := by rintro p x rfl; simp [intCode]
  dbl := by rintro p x rfl; rfl
  add := by rintro p q x y rfl rfl; rfl
  addMix := by rintro p q x y rfl rfl; rfl
  subMix := by rintro p q x y rfl rfl; rfl

/-! ## Schedules

A parallel loop over `[lo, hi)` executes each iteration once, on some thread, in some order.  Iterations of the loops modelled here
that run on different threads touch different objects, so an execution is a sequence of whole iterations.  A schedule gives that
sequence, with the thread of each iteration, for every parallel loop executed; `tag` tells the loops of one run apart. -/

abbrev Sched := List Nat → Nat → Nat → List (Nat × Nat)

/-- Each iteration exactly once, on one of `nThreads` threads. -/
def Sched.Valid (σ : Sched) (nThreads : Nat) : Prop :=
  ∀ tag lo hi, ((σ tag lo hi).map Prod.fst).Perm (List.range' lo (hi - lo)) ∧ ∀ e ∈ σ tag lo hi, e.2 < nThreads

/-- All iterations in order on thread 0. -/
def seqSched : Sched := fun _ lo hi => (List.range' lo (hi - lo)).map fun i => (i, 0)

/-- In reverse order, threads chosen by parity. -/
def altSched : Sched := fun _ lo hi => ((List.range' lo (hi - lo)).map fun i => (i, i % 2)).reverse

theorem seqSched_valid : seqSched.Valid 1 := by
  intro tag lo hi
  refine ⟨by simp [seqSched, Function.comp_def], ?_⟩
  intro e he
  simp only [seqSched, List.mem_map] at he
  obtain ⟨i, -, rfl⟩ := he; simp

theorem altSched_valid : altSched.Valid 2 := by
  intro tag lo hi
  refine ⟨?_, ?_⟩
  · simp only [altSched, List.map_reverse, List.map_map, Function.comp_def, List.map_id']
    exact List.reverse_perm _
  · intro e he
    simp only [altSched, List.mem_reverse, List.mem_map] at he
    obtain ⟨i, -, rfl⟩ := he
    exact Nat.mod_lt _ (by norm_num)

end FF
