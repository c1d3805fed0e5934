import Verif.Props.Tagged

/-!
# Property C20: straight-line programs over the tagged operations refine `Z/q`
-/

namespace FF.Props

open FF

/-- The operations of the tagged library. -/
inductive Op
  | copy | toNormal | toLongNormal | toMontgomery
  | add | sub | mul | square | neg
  | eq | neq | lt | gt | leq | geq
  | land | lor | lnot
  | band | bor | bxor | bnot
  | shl | shr
deriving DecidableEq

/-- `op(r, a, b)`; the unary operations ignore `b`. -/
structure Instr where
  op : Op
  r : Nat
  a : Nat
  b : Nat

/-- Running one call on the store of elements; `none` is undefined behaviour. -/
def Instr.exec (q : Nat) (u : Elem) (i : Instr) (m : Mem) : Option Mem :=
  match i.op with
  | .copy => some (Fr_copy m i.r i.a)
  | .toNormal => some (Fr_toNormal q m i.r i.a)
  | .toLongNormal => some (Fr_toLongNormal q m i.r i.a)
  | .toMontgomery => some (Fr_toMontgomery q m i.r i.a)
  | .add => some (Fr_add q u m i.r i.a i.b)
  | .sub => some (Fr_sub q u m i.r i.a i.b)
  | .mul => some (Fr_mul q m i.r i.a i.b)
  | .square => some (Fr_square q m i.r i.a)
  | .neg => some (Fr_neg q m i.r i.a)
  | .eq => some (Fr_eq q u m i.r i.a i.b)
  | .neq => some (Fr_neq q u m i.r i.a i.b)
  | .lt => some (Fr_lt q u m i.r i.a i.b)
  | .gt => some (Fr_gt q u m i.r i.a i.b)
  | .leq => some (Fr_leq q u m i.r i.a i.b)
  | .geq => some (Fr_geq q u m i.r i.a i.b)
  | .land => some (Fr_land m i.r i.a i.b)
  | .lor => some (Fr_lor m i.r i.a i.b)
  | .lnot => some (Fr_lnot m i.r i.a)
  | .band => some (Fr_band q u m i.r i.a i.b)
  | .bor => some (Fr_bor q u m i.r i.a i.b)
  | .bxor => some (Fr_bxor q u m i.r i.a i.b)
  | .bnot => some (Fr_bnot q u m i.r i.a)
  | .shl => Fr_shl q u m i.r i.a i.b
  | .shr => Fr_shr q u m i.r i.a i.b

/-- What the call means on residues. -/
def Op.den {q : Nat} (o : Op) (x y : ZMod q) : ZMod q :=
  match o with
  | .copy | .toNormal | .toLongNormal | .toMontgomery => x
  | .add => x + y
  | .sub => x - y
  | .mul => x * y
  | .square => x * x
  | .neg => -x
  | .eq => if x = y then 1 else 0
  | .neq => if x = y then 0 else 1
  | .lt => if sval x < sval y then 1 else 0
  | .gt => if sval y < sval x then 1 else 0
  | .leq => if sval x ≤ sval y then 1 else 0
  | .geq => if sval y ≤ sval x then 1 else 0
  | .land => if x ≠ 0 ∧ y ≠ 0 then 1 else 0
  | .lor => if x ≠ 0 ∨ y ≠ 0 then 1 else 0
  | .lnot => if x = 0 then 1 else 0
  | .band => ((x.val &&& y.val : Nat) : ZMod q)
  | .bor => ((x.val ||| y.val : Nat) : ZMod q)
  | .bxor => ((x.val ^^^ y.val : Nat) : ZMod q)
  | .bnot => ((2 ^ bitLen q - 1 - x.val : Nat) : ZMod q)
  | .shl => shlSpec x y
  | .shr => shrSpec x y

/-- Placement of the result: the operations that convert an operand after writing the result's tag need a distinct result; the
conversion to Montgomery form is used in place; everything else may overlap freely. -/
def Instr.placed (i : Instr) : Prop :=
  match i.op with
  | .add | .sub | .band | .bor | .bxor => i.r ≠ i.a ∧ i.r ≠ i.b
  | .bnot | .shl | .shr => i.r ≠ i.a
  | .toMontgomery => i.r = i.a
  | _ => True

/-- A program is a list of calls. -/
def run (q : Nat) (u : Elem) : List Instr → Mem → Option Mem
  | [], m => some m
  | i :: is, m => (i.exec q u m).bind (run q u is)

/-- The same program on a store of residues. -/
def runSpec {q : Nat} : List Instr → (Nat → ZMod q) → Nat → ZMod q
  | [], σ => σ
  | i :: is, σ => runSpec is (fun p => if p = i.r then i.op.den (σ i.a) (σ i.b) else σ p)

theorem exec_refines {q : Nat} (hq : Modulus q) (u : Elem) (i : Instr) (hi : i.placed) (m : Mem) (σ : Nat → ZMod q)
    (h : ∀ p, Rep q (m p) (σ p)) :
    ∃ m', i.exec q u m = some m' ∧ Rep q (m' i.r) (i.op.den (σ i.a) (σ i.b)) ∧ ∀ p, p ≠ i.r → m' p = m p := by
  obtain ⟨op, r, a, b⟩ := i
  have ha := h a
  have hb := h b
  cases op <;> simp only [Instr.placed] at hi <;> simp only [Instr.exec, Op.den]
  case copy => exact ⟨_, rfl, by simpa [Fr_copy] using ha, fun p hp => set_other _ _ hp⟩
  case toNormal => exact ⟨_, rfl, (C16_toNormal hq ha).1, (C16_toNormal hq ha).2.2⟩
  case toLongNormal => exact ⟨_, rfl, (C16_toLongNormal hq ha).1, (C16_toLongNormal hq ha).2.2.2⟩
  case toMontgomery =>
    subst hi
    exact ⟨_, rfl, (C16_toMontgomery_partial hq ha (fun _ _ => rfl)).1, (C16_toMontgomery_partial hq ha (fun _ _ => rfl)).2.2⟩
  case add => exact ⟨_, rfl, C06_add_distinct hq ha hb hi.1 hi.2, fun _ hp => Fr_add_other hp⟩
  case sub => exact ⟨_, rfl, C07_sub_distinct hq ha hb hi.1 hi.2, fun _ hp => Fr_sub_other hp⟩
  case mul => exact ⟨_, rfl, (C08_mul hq ha hb).1, (C08_mul hq ha hb).2⟩
  case square => exact ⟨_, rfl, (C08_square hq ha).1, (C08_square hq ha).2⟩
  case neg => exact ⟨_, rfl, (C09_neg hq ha).1, (C09_neg hq ha).2⟩
  case eq => exact ⟨_, rfl, (C10_eq hq ha hb).1, (C10_eq hq ha hb).2.2.1⟩
  case neq => exact ⟨_, rfl, (C10_eq hq ha hb).2.1, (C10_eq hq ha hb).2.2.2⟩
  case lt => exact ⟨_, rfl, (C11_order hq ha hb).1, fun _ hp => storeBool_other hp⟩
  case gt => exact ⟨_, rfl, (C11_order hq ha hb).2.1, fun _ hp => storeBool_other hp⟩
  case leq => exact ⟨_, rfl, (C11_order hq ha hb).2.2.1, fun _ hp => storeBool_other hp⟩
  case geq => exact ⟨_, rfl, (C11_order hq ha hb).2.2.2, fun _ hp => storeBool_other hp⟩
  case land => exact ⟨_, rfl, (C12_logical hq ha hb).1, fun _ hp => storeBool_other hp⟩
  case lor => exact ⟨_, rfl, (C12_logical hq ha hb).2.1, fun _ hp => storeBool_other hp⟩
  case lnot => exact ⟨_, rfl, (C12_logical hq ha hb).2.2.1, fun _ hp => storeBool_other hp⟩
  case band => exact ⟨_, rfl, C13_and hq ha hb (fun e => absurd e hi.1) (fun e => absurd e hi.2)⟩
  case bor => exact ⟨_, rfl, C13_or hq ha hb (fun e => absurd e hi.1) (fun e => absurd e hi.2)⟩
  case bxor => exact ⟨_, rfl, C13_xor hq ha hb (fun e => absurd e hi.1) (fun e => absurd e hi.2)⟩
  case bnot => exact ⟨_, rfl, C13_not hq ha (fun e => absurd e hi)⟩
  case shl => exact C14_shl hq ha hb (fun e => absurd e hi)
  case shr => exact C14_shr hq ha hb (fun e => absurd e hi)

/-- C20.  A program of any length, started on well-formed elements, runs without undefined behaviour and leaves in every element
the residue computed by the same program on residues. -/
theorem C20_program_refines {q : Nat} (hq : Modulus q) (u : Elem) (prog : List Instr) (hp : ∀ i ∈ prog, i.placed)
    (m : Mem) (σ : Nat → ZMod q) (h : ∀ p, Rep q (m p) (σ p)) :
    ∃ m', run q u prog m = some m' ∧ ∀ p, Rep q (m' p) (runSpec prog σ p) := by
  induction prog generalizing m σ with
  | nil => exact ⟨m, rfl, h⟩
  | cons i is ih =>
    obtain ⟨m1, e1, h1, h2⟩ := exec_refines hq u i (hp i (by simp)) m σ h
    obtain ⟨m', e', h'⟩ := ih (fun j hj => hp j (by simp [hj])) m1
      (fun p => if p = i.r then i.op.den (σ i.a) (σ i.b) else σ p) (by
        intro p
        by_cases e : p = i.r
        · subst e; simpa using h1
        · simp only [e, if_false]; rw [h2 p e]; exact h p)
    exact ⟨m', by simp [run, e1, e'], h'⟩

/-- A program that exercises conversion, multiplication and comparison on mixed representations. -/
example : ∃ m', run bnR (sS 7) [⟨.mul, 0, 1, 2⟩, ⟨.sub, 4, 0, 3⟩, ⟨.toMontgomery, 1, 1, 1⟩, ⟨.bxor, 5, 4, 1⟩, ⟨.lt, 4, 5, 0⟩] sX = some m' ∧
    ∀ p, Rep bnR (m' p) (runSpec [⟨.mul, 0, 1, 2⟩, ⟨.sub, 4, 0, 3⟩, ⟨.toMontgomery, 1, 1, 1⟩, ⟨.bxor, 5, 4, 1⟩, ⟨.lt, 4, 5, 0⟩]
      (fun p => ((match p with | 1 => bnR - 5 | 2 => 12345678901234567890 | 3 => bnR - 3 | _ => 0 : Nat) : ZMod bnR)) p) := by
  apply C20_program_refines bnR_modulus
  · intro i hi
    simp only [List.mem_cons, List.not_mem_nil, or_false] at hi
    rcases hi with rfl | rfl | rfl | rfl | rfl <;> simp [Instr.placed]
  · intro p
    match p with
    | 0 => exact Rep_iff.mpr (by decide +kernel)
    | 1 => exact Rep_iff.mpr (by decide +kernel)
    | 2 => exact Rep_iff.mpr (by decide +kernel)
    | 3 => exact Rep_iff.mpr (by decide +kernel)
    | p + 4 => exact Rep_iff.mpr (by simp [sX, mem4, repB])

end FF.Props
