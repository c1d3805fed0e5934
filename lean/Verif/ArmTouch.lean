import Verif.AsmTouch
import Verif.ArmGen

/-!
# The memory accesses of the AArch64 routines

As `AsmTouch.lean`: `touched` follows the execution of `run` and lists the accesses.  The routines of one width are finite listings, so that
a static check (`touchChk`) of the text, evaluated by the kernel for every width of the generator, decides which cells can be accessed; its
soundness is proved for all states.
-/

namespace FF.Arm

open FF.X86 (upd cell stk stk_stk stk_zero cell_stk Access Only Within InArr)

/-- The accesses of an instruction. -/
def Ins.acc : Ins → State → List Access
  | .ldr _ b off, s => [.read (s.reg b + BitVec.ofNat 64 off)]
  | .ldp _ _ b off, s => [.read (s.reg b + BitVec.ofNat 64 off), .read (s.reg b + BitVec.ofNat 64 (off + 8))]
  | .str _ b off, s => [.write (s.reg b + BitVec.ofNat 64 off)]
  | .stp _ _ b off, s => [.write (s.reg b + BitVec.ofNat 64 off), .write (s.reg b + BitVec.ofNat 64 (off + 8))]
  | .push1 _, s => [.write (s.sp - 16)]
  | .push2 _ _, s => [.write (s.sp - 16), .write (s.sp - 8)]
  | .pop1 _, s => [.read s.sp]
  | .pop2 _ _, s => [.read s.sp, .read (s.sp + 8)]
  | _, _ => []

/-- The accesses of a routine up to its `ret`, along the execution `run` describes.  The jump table belongs to the code and is not
listed; an index outside of it ends the list as it ends `run`. -/
def touched (p : List Line) (s : State) : List Access :=
  match p with
  | [] => []
  | .ins i :: p => i.acc s ++ touched p (i.exec s)
  | .label _ :: p => touched p s
  | .b l :: p => touched (dropTo l p) s
  | .bc c l :: p => if c.holds s.fl then touched (dropTo l p) s else touched p s
  | .cbz r l :: p => if s.reg r = 0 then touched (dropTo l p) s else touched p s
  | .cbnz r l :: p => if s.reg r = 0 then touched p s else touched (dropTo l p) s
  | .tbnz r k l :: p => if (s.reg r).getLsbD k then touched (dropTo l p) s else touched p s
  | .table i d ls :: p =>
      match ls[(s.reg i).toNat]? with
      | none => []
      | some l => touched (dropTo l p) { s with reg := upd s.reg d (s.code l) }
  | .ret :: _ => []
  termination_by p.length
  decreasing_by
    all_goals simp_wf
    all_goals first | omega | (have := dropTo_length l p; omega)

/-! ## The list is complete -/

/-- Two states that differ in the memory only, and there only on the cells `D`. -/
structure Like (D : BitVec 64 → Prop) (s s' : State) : Prop where
  reg : s'.reg = s.reg
  sp : s'.sp = s.sp
  fl : s'.fl = s.fl
  sym : s'.sym = s.sym
  code : s'.code = s.code
  mem : ∀ a, ¬ D a → s'.mem a = s.mem a

section
variable {D : BitVec 64 → Prop} {s s' : State}

theorem Opd.get_like (h : Like D s s') (o : Opd) : o.get s' = o.get s := by
  cases o <;> simp only [Opd.get, h.reg]

theorem Ins.acc_like (h : Like D s s') (i : Ins) : i.acc s' = i.acc s := by
  cases i <;> simp only [Ins.acc, h.reg, h.sp]

theorem Ins.exec_like (h : Like D s s') (i : Ins) (hi : ∀ a, Access.read a ∈ i.acc s → ¬ D a) : Like D (i.exec s) (i.exec s') := by
  cases i with
  | alu o d x y => exact ⟨by simp only [Ins.exec, Opd.get_like h, h.reg, h.fl], h.sp, by simp only [Ins.exec, Opd.get_like h, h.fl], h.sym, h.code, h.mem⟩
  | cmp x y => exact ⟨h.reg, h.sp, by simp only [Ins.exec, Opd.get_like h, h.fl], h.sym, h.code, h.mem⟩
  | adr d y => exact ⟨by simp only [Ins.exec, h.reg, h.sym], h.sp, h.fl, h.sym, h.code, h.mem⟩
  | ldr d b off =>
    have e := h.mem (s.reg b + BitVec.ofNat 64 off) (hi _ (by simp [Ins.acc]))
    exact ⟨by simp only [Ins.exec, h.reg, e], h.sp, h.fl, h.sym, h.code, h.mem⟩
  | ldp d e b off =>
    have e1 := h.mem (s.reg b + BitVec.ofNat 64 off) (hi _ (by simp [Ins.acc]))
    have e2 := h.mem (s.reg b + BitVec.ofNat 64 (off + 8)) (hi _ (by simp [Ins.acc]))
    exact ⟨by simp only [Ins.exec, h.reg, e1, e2], h.sp, h.fl, h.sym, h.code, h.mem⟩
  | str x b off =>
    exact ⟨h.reg, h.sp, h.fl, h.sym, h.code, by simp only [Ins.exec, h.reg, Opd.get_like h]; exact X86.upd_like h.mem _ _⟩
  | stp x y b off =>
    exact ⟨h.reg, h.sp, h.fl, h.sym, h.code, by
      simp only [Ins.exec, h.reg, Opd.get_like h]; exact X86.upd_like (X86.upd_like h.mem _ _) _ _⟩
  | push1 r => exact ⟨h.reg, by simp only [Ins.exec, h.sp], h.fl, h.sym, h.code, by
      simp only [Ins.exec, h.reg, h.sp]; exact X86.upd_like h.mem _ _⟩
  | push2 r r' => exact ⟨h.reg, by simp only [Ins.exec, h.sp], h.fl, h.sym, h.code, by
      simp only [Ins.exec, h.reg, h.sp]; exact X86.upd_like (X86.upd_like h.mem _ _) _ _⟩
  | pop1 r =>
    have e := h.mem s.sp (hi _ (by simp [Ins.acc]))
    exact ⟨by simp only [Ins.exec, h.reg, h.sp, e], by simp only [Ins.exec, h.sp], h.fl, h.sym, h.code, h.mem⟩
  | pop2 r r' =>
    have e1 := h.mem s.sp (hi _ (by simp [Ins.acc]))
    have e2 := h.mem (s.sp + 8) (hi _ (by simp [Ins.acc]))
    exact ⟨by simp only [Ins.exec, h.reg, h.sp, e1, e2], by simp only [Ins.exec, h.sp], h.fl, h.sym, h.code, h.mem⟩

end

/-- What a routine computes depends only on the cells it reads. -/
theorem run_like {D : BitVec 64 → Prop} (p : List Line) : ∀ {s s' t : State}, Like D s s' → (∀ a, Access.read a ∈ touched p s → ¬ D a) →
    run p s = some t → (∃ t', run p s' = some t' ∧ Like D t t') ∧ touched p s' = touched p s := by
  induction hn : p.length using Nat.strong_induction_on generalizing p with
  | _ N ih =>
    intro s s' t h hD hr
    match p with
    | [] => simp [run] at hr
    | .ins i :: p =>
      rw [touched] at hD
      rw [run] at hr
      obtain ⟨⟨t', h1, h2⟩, h3⟩ := ih _ (by simp at hn; omega) p rfl (Ins.exec_like h i fun a ha => hD a (List.mem_append_left _ ha))
        (fun a ha => hD a (List.mem_append_right _ ha)) hr
      exact ⟨⟨t', by rw [run]; exact h1, h2⟩, by rw [touched, touched, h3, Ins.acc_like h]⟩
    | .label l :: p =>
      rw [touched] at hD
      rw [run] at hr
      rw [run, touched, touched]
      exact ih _ (by simp at hn; omega) p rfl h hD hr
    | .b l :: p =>
      rw [touched] at hD
      rw [run] at hr
      rw [run, touched, touched]
      exact ih _ (by have := dropTo_length l p; simp at hn; omega) _ rfl h hD hr
    | .bc c l :: p =>
      rw [touched] at hD
      rw [run] at hr
      rw [run, touched, touched, h.fl]
      split
      · rename_i hc; rw [if_pos hc] at hD hr
        exact ih _ (by have := dropTo_length l p; simp at hn; omega) _ rfl h hD hr
      · rename_i hc; rw [if_neg hc] at hD hr
        exact ih _ (by simp at hn; omega) p rfl h hD hr
    | .cbz r l :: p =>
      rw [touched] at hD
      rw [run] at hr
      rw [run, touched, touched, h.reg]
      split
      · rename_i hc; rw [if_pos hc] at hD hr
        exact ih _ (by have := dropTo_length l p; simp at hn; omega) _ rfl h hD hr
      · rename_i hc; rw [if_neg hc] at hD hr
        exact ih _ (by simp at hn; omega) p rfl h hD hr
    | .cbnz r l :: p =>
      rw [touched] at hD
      rw [run] at hr
      rw [run, touched, touched, h.reg]
      split
      · rename_i hc; rw [if_pos hc] at hD hr
        exact ih _ (by simp at hn; omega) p rfl h hD hr
      · rename_i hc; rw [if_neg hc] at hD hr
        exact ih _ (by have := dropTo_length l p; simp at hn; omega) _ rfl h hD hr
    | .tbnz r k l :: p =>
      rw [touched] at hD
      rw [run] at hr
      rw [run, touched, touched, h.reg]
      split
      · rename_i hc; rw [if_pos hc] at hD hr
        exact ih _ (by have := dropTo_length l p; simp at hn; omega) _ rfl h hD hr
      · rename_i hc; rw [if_neg hc] at hD hr
        exact ih _ (by simp at hn; omega) p rfl h hD hr
    | .table i d ls :: p =>
      rw [touched] at hD
      rw [run] at hr
      rw [run, touched, touched, h.reg]
      cases hl : ls[(s.reg i).toNat]? with
      | none => rw [hl] at hr; simp at hr
      | some l =>
        simp only [hl] at hr hD ⊢
        refine ih _ (by have := dropTo_length l p; simp at hn; omega) _ rfl ?_ hD hr
        exact ⟨by simp only [h.code], h.sp, h.fl, h.sym, h.code, h.mem⟩
    | .ret :: p =>
      rw [run] at hr; cases hr
      exact ⟨⟨s', by rw [run], h⟩, by rw [touched, touched]⟩

theorem Ins.exec_off (i : Ins) (s : State) (a : BitVec 64) (h : Access.write a ∉ i.acc s) : (i.exec s).mem a = s.mem a := by
  cases i <;> simp_all [Ins.acc, Ins.exec, upd]

/-- A routine changes only the cells it writes. -/
theorem run_off (p : List Line) (a : BitVec 64) : ∀ {s t : State}, run p s = some t → Access.write a ∉ touched p s → t.mem a = s.mem a := by
  induction hn : p.length using Nat.strong_induction_on generalizing p with
  | _ N ih =>
    intro s t hr hw
    match p with
    | [] => simp [run] at hr
    | .ins i :: p =>
      rw [touched, List.mem_append, not_or] at hw
      rw [run] at hr
      rw [ih _ (by simp at hn; omega) p rfl hr hw.2, Ins.exec_off i s a hw.1]
    | .label l :: p =>
      rw [touched] at hw
      rw [run] at hr
      exact ih _ (by simp at hn; omega) p rfl hr hw
    | .b l :: p =>
      rw [touched] at hw
      rw [run] at hr
      exact ih _ (by have := dropTo_length l p; simp at hn; omega) _ rfl hr hw
    | .bc c l :: p =>
      rw [touched] at hw
      rw [run] at hr
      split at hr
      · rename_i hc; rw [if_pos hc] at hw
        exact ih _ (by have := dropTo_length l p; simp at hn; omega) _ rfl hr hw
      · rename_i hc; rw [if_neg hc] at hw
        exact ih _ (by simp at hn; omega) p rfl hr hw
    | .cbz r l :: p =>
      rw [touched] at hw
      rw [run] at hr
      split at hr
      · rename_i hc; rw [if_pos hc] at hw
        exact ih _ (by have := dropTo_length l p; simp at hn; omega) _ rfl hr hw
      · rename_i hc; rw [if_neg hc] at hw
        exact ih _ (by simp at hn; omega) p rfl hr hw
    | .cbnz r l :: p =>
      rw [touched] at hw
      rw [run] at hr
      split at hr
      · rename_i hc; rw [if_pos hc] at hw
        exact ih _ (by simp at hn; omega) p rfl hr hw
      · rename_i hc; rw [if_neg hc] at hw
        exact ih _ (by have := dropTo_length l p; simp at hn; omega) _ rfl hr hw
    | .tbnz r k l :: p =>
      rw [touched] at hw
      rw [run] at hr
      split at hr
      · rename_i hc; rw [if_pos hc] at hw
        exact ih _ (by have := dropTo_length l p; simp at hn; omega) _ rfl hr hw
      · rename_i hc; rw [if_neg hc] at hw
        exact ih _ (by simp at hn; omega) p rfl hr hw
    | .table i d ls :: p =>
      rw [touched] at hw
      rw [run] at hr
      cases hl : ls[(s.reg i).toNat]? with
      | none => rw [hl] at hr; simp at hr
      | some l =>
        simp only [hl] at hr hw
        exact (ih _ (by have := dropTo_length l p; simp at hn; omega) _ rfl hr hw :)
    | .ret :: p => rw [run] at hr; cases hr; rfl

/-! ## A static check -/

/-- What a register may point to. -/
inductive Root
  | arg (r : Nat)
  | sym (y : Sym)
  deriving DecidableEq

def Root.addr (s : State) : Root → BitVec 64
  | .arg r => s.reg r
  | .sym y => s.sym y

/-- The registers known to hold an address, and the number of 16-byte nSlots pushed. -/
structure Abs where
  ptrs : List (Nat × Root)
  depth : Nat

def find (r : Nat) : List (Nat × Root) → Option Root
  | [] => none
  | (r', b) :: l => if r' = r then some b else find r l

def kill (d : Nat) : List (Nat × Root) → List (Nat × Root)
  | [] => []
  | (r, b) :: l => if r = d then kill d l else (r, b) :: kill d l

/-- An access at `off` from register `b`, with `lim` cells allowed at every address. -/
def okAt (lim : Root → Nat) (A : Abs) (b off : Nat) : Bool :=
  match find b A.ptrs with
  | none => false
  | some x => decide (off % 8 = 0) && decide (off / 8 < lim x)

def chkIns (lr lw : Root → Nat) (F : Nat) : Ins → Abs → Option Abs
  | .alu _ d _ _, A => some ⟨kill d A.ptrs, A.depth⟩
  | .cmp _ _, A => some A
  | .adr d y, A => some ⟨(d, .sym y) :: kill d A.ptrs, A.depth⟩
  | .ldr d b off, A => if okAt lr A b off then some ⟨kill d A.ptrs, A.depth⟩ else none
  | .ldp d e b off, A => if okAt lr A b off && okAt lr A b (off + 8) then some ⟨kill e (kill d A.ptrs), A.depth⟩ else none
  | .str _ b off, A => if okAt lw A b off then some A else none
  | .stp _ _ b off, A => if okAt lw A b off && okAt lw A b (off + 8) then some A else none
  | .push1 _, A => if A.depth < F then some ⟨A.ptrs, A.depth + 1⟩ else none
  | .push2 _ _, A => if A.depth < F then some ⟨A.ptrs, A.depth + 1⟩ else none
  | .pop1 r, A => if 0 < A.depth then some ⟨kill r A.ptrs, A.depth - 1⟩ else none
  | .pop2 r r', A => if 0 < A.depth then some ⟨kill r' (kill r A.ptrs), A.depth - 1⟩ else none

def sub (A B : Abs) : Bool := decide (A.depth = B.depth) && B.ptrs.all fun x => decide (find x.1 A.ptrs = some x.2)

/-- One pass over the text; `inv` has to hold at every label. -/
def touchChk (lr lw : Root → Nat) (F : Nat) (inv : Abs) : List Line → Abs → Bool
  | [], _ => true
  | .ins i :: p, A =>
      match chkIns lr lw F i A with
      | none => false
      | some B => touchChk lr lw F inv p B
  | .label _ :: p, A => sub A inv && touchChk lr lw F inv p inv
  | .b _ :: p, A => sub A inv && touchChk lr lw F inv p inv
  | .bc _ _ :: p, A => sub A inv && touchChk lr lw F inv p A
  | .cbz _ _ :: p, A => sub A inv && touchChk lr lw F inv p A
  | .cbnz _ _ :: p, A => sub A inv && touchChk lr lw F inv p A
  | .tbnz _ _ _ :: p, A => sub A inv && touchChk lr lw F inv p A
  | .table _ d _ :: p, A => sub ⟨kill d A.ptrs, A.depth⟩ inv && touchChk lr lw F inv p inv
  | .ret :: p, _ => touchChk lr lw F inv p inv

/-- The state fits the description. -/
structure Rep (s0 : State) (A : Abs) (s : State) : Prop where
  ptr : ∀ r b, find r A.ptrs = some b → s.reg r = b.addr s0
  sp : s.sp = stk s0.sp (2 * A.depth)
  sym : s.sym = s0.sym

theorem find_kill {d r : Nat} {l : List (Nat × Root)} {b : Root} (h : find r (kill d l) = some b) : r ≠ d ∧ find r l = some b := by
  induction l with
  | nil => simp [kill, find] at h
  | cons x l ih =>
    obtain ⟨r', b'⟩ := x
    rw [kill] at h
    split at h
    · rename_i e
      obtain ⟨h1, h2⟩ := ih h
      exact ⟨h1, by rw [find, if_neg (by omega)]; exact h2⟩
    · rename_i e
      rw [find] at h
      split at h
      · rename_i e'
        exact ⟨by omega, by rw [find, if_pos e']; exact h⟩
      · rename_i e'
        obtain ⟨h1, h2⟩ := ih h
        exact ⟨h1, by rw [find, if_neg e']; exact h2⟩

theorem Rep.kill {s0 s : State} {A : Abs} (h : Rep s0 A s) (d : Nat) (v : BitVec 64) :
    Rep s0 ⟨Arm.kill d A.ptrs, A.depth⟩ { s with reg := upd s.reg d v } :=
  ⟨fun r b hb => by
    obtain ⟨h1, h2⟩ := find_kill hb
    show upd s.reg d v r = _
    rw [upd, if_neg h1]; exact h.ptr r b h2, h.sp, h.sym⟩

theorem Rep.sub {s0 s : State} {A B : Abs} (h : Rep s0 A s) (hs : sub A B = true) : Rep s0 B s := by
  simp only [Arm.sub, Bool.and_eq_true, decide_eq_true_eq, List.all_eq_true] at hs
  refine ⟨fun r b hb => h.ptr r b ?_, by rw [← hs.1]; exact h.sp, h.sym⟩
  have : ∀ l : List (Nat × Root), find r l = some b → (r, b) ∈ l := by
    intro l
    induction l with
    | nil => intro h; simp [find] at h
    | cons x l ih =>
      obtain ⟨r', b'⟩ := x
      rw [find]
      split
      · rename_i e; intro h; cases h; rw [e]; exact List.mem_cons_self
      · intro h; exact List.mem_cons_of_mem _ (ih h)
  exact hs.2 (r, b) (this _ hb)

section
variable {lr lw : Root → Nat} {F : Nat} {inv : Abs} {s0 : State} {R W : BitVec 64 → Prop}

theorem okAt_sound {lim : Root → Nat} {P : BitVec 64 → Prop} (hP : ∀ b i, i < lim b → P (cell (b.addr s0) i)) {A : Abs} {s : State} (h : Rep s0 A s)
    {b off : Nat} (ho : okAt lim A b off = true) : P (s.reg b + BitVec.ofNat 64 off) := by
  unfold okAt at ho
  split at ho
  · cases ho
  · rename_i x hx
    simp only [Bool.and_eq_true, decide_eq_true_eq] at ho
    rw [h.ptr b x hx]
    have := hP x _ ho.2
    rw [cell, show 8 * (off / 8) = off by omega] at this
    exact this

theorem chkIns_sound (hR : ∀ b i, i < lr b → R (cell (b.addr s0) i)) (hW : ∀ b i, i < lw b → W (cell (b.addr s0) i))
    (hS : ∀ j < 2 * F, R (stk s0.sp (j + 1)) ∧ W (stk s0.sp (j + 1))) {A B : Abs} {s : State} (h : Rep s0 A s) {i : Ins}
    (hA : A.depth ≤ F) (hc : chkIns lr lw F i A = some B) : Only R W (i.acc s) ∧ Rep s0 B (i.exec s) ∧ B.depth ≤ F := by
  have e16 : ∀ k, stk s0.sp (2 * k) - 16 = stk s0.sp (2 * (k + 1)) := fun k => by
    rw [show 2 * (k + 1) = 2 * k + 2 by omega, ← stk_stk]; rfl
  have e8 : ∀ k, stk s0.sp (2 * k) - 8 = stk s0.sp (2 * k + 1) := fun k => by rw [← stk_stk]; rfl
  have p8 : ∀ k, stk s0.sp (2 * (k + 1)) + 8 = stk s0.sp (2 * k + 1) := fun k => by
    rw [show 2 * (k + 1) = 2 * k + 1 + 1 by omega, ← stk_stk]; exact BitVec.sub_add_cancel _ _
  have p16 : ∀ k, stk s0.sp (2 * (k + 1)) + 16 = stk s0.sp (2 * k) := fun k => by rw [← e16]; exact BitVec.sub_add_cancel _ _
  cases i with
  | alu o d x y => cases hc; exact ⟨Only.nil, ⟨(h.kill d _).ptr, h.sp, h.sym⟩, hA⟩
  | cmp x y => cases hc; exact ⟨Only.nil, ⟨h.ptr, h.sp, h.sym⟩, hA⟩
  | adr d y =>
    cases hc
    refine ⟨Only.nil, ⟨fun r b hb => ?_, h.sp, h.sym⟩, hA⟩
    rw [find] at hb
    split at hb
    · rename_i e; cases hb; subst e; show upd s.reg d (s.sym y) d = _; rw [upd, if_pos rfl, h.sym]; rfl
    · exact (h.kill d (s.sym y)).ptr r b hb
  | ldr d b off =>
    rw [chkIns] at hc
    split at hc <;> cases hc
    rename_i ho
    exact ⟨Only.cons (okAt_sound hR h ho) Only.nil, h.kill d _, hA⟩
  | ldp d e b off =>
    rw [chkIns] at hc
    split at hc <;> cases hc
    rename_i ho
    rw [Bool.and_eq_true] at ho
    exact ⟨Only.cons (okAt_sound hR h ho.1) (Only.cons (okAt_sound hR h ho.2) Only.nil), (h.kill d _).kill e _, hA⟩
  | str x b off =>
    rw [chkIns] at hc
    split at hc <;> cases hc
    rename_i ho
    exact ⟨Only.cons (okAt_sound hW h ho) Only.nil, ⟨h.ptr, h.sp, h.sym⟩, hA⟩
  | stp x y b off =>
    rw [chkIns] at hc
    split at hc <;> cases hc
    rename_i ho
    rw [Bool.and_eq_true] at ho
    exact ⟨Only.cons (okAt_sound hW h ho.1) (Only.cons (okAt_sound hW h ho.2) Only.nil), ⟨h.ptr, h.sp, h.sym⟩, hA⟩
  | push1 r =>
    rw [chkIns] at hc
    split at hc <;> cases hc
    refine ⟨Only.cons ?_ Only.nil, ⟨h.ptr, ?_, h.sym⟩, by show A.depth + 1 ≤ F; omega⟩
    · rw [Access.ok, h.sp, e16]; exact (hS (2 * A.depth + 1) (by omega)).2
    · show s.sp - 16 = _; rw [h.sp, e16]
  | push2 r r' =>
    rw [chkIns] at hc
    split at hc <;> cases hc
    refine ⟨Only.cons ?_ (Only.cons ?_ Only.nil), ⟨h.ptr, ?_, h.sym⟩, by show A.depth + 1 ≤ F; omega⟩
    · rw [Access.ok, h.sp, e16]; exact (hS (2 * A.depth + 1) (by omega)).2
    · rw [Access.ok, h.sp, e8]; exact (hS (2 * A.depth) (by omega)).2
    · show s.sp - 16 = _; rw [h.sp, e16]
  | pop1 r =>
    rw [chkIns] at hc
    split at hc <;> cases hc
    obtain ⟨k, hk⟩ : ∃ k, A.depth = k + 1 := ⟨A.depth - 1, by omega⟩
    have hsp : s.sp = stk s0.sp (2 * (k + 1)) := by rw [h.sp, hk]
    refine ⟨Only.cons ?_ Only.nil, ⟨(h.kill r _).ptr, ?_, h.sym⟩, by show A.depth - 1 ≤ F; omega⟩
    · rw [Access.ok, hsp]; exact (hS (2 * k + 1) (by omega)).1
    · show s.sp + 16 = stk s0.sp (2 * (A.depth - 1)); rw [hsp, p16, hk, Nat.add_sub_cancel]
  | pop2 r r' =>
    rw [chkIns] at hc
    split at hc <;> cases hc
    obtain ⟨k, hk⟩ : ∃ k, A.depth = k + 1 := ⟨A.depth - 1, by omega⟩
    have hsp : s.sp = stk s0.sp (2 * (k + 1)) := by rw [h.sp, hk]
    refine ⟨Only.cons ?_ (Only.cons ?_ Only.nil), ⟨((h.kill r _).kill r' _).ptr, ?_, h.sym⟩, by show A.depth - 1 ≤ F; omega⟩
    · rw [Access.ok, hsp]; exact (hS (2 * k + 1) (by omega)).1
    · rw [Access.ok, hsp, p8]; exact (hS (2 * k) (by omega)).1
    · show s.sp + 16 = stk s0.sp (2 * (A.depth - 1)); rw [hsp, p16, hk, Nat.add_sub_cancel]

theorem chk_drop (l : String) (p : List Line) : ∀ {A : Abs}, touchChk lr lw F inv p A = true → touchChk lr lw F inv (dropTo l p) inv = true := by
  induction p with
  | nil => intro A _; rfl
  | cons i p ih =>
    intro A h
    cases i with
    | label m =>
      rw [touchChk, Bool.and_eq_true] at h
      rw [dropTo]
      split
      · exact h.2
      · exact ih h.2
    | ins i =>
      rw [touchChk] at h
      split at h
      · cases h
      · exact ih h
    | ret => rw [touchChk] at h; exact ih h
    | b m => rw [touchChk, Bool.and_eq_true] at h; exact ih h.2
    | bc c m => rw [touchChk, Bool.and_eq_true] at h; exact ih h.2
    | cbz r m => rw [touchChk, Bool.and_eq_true] at h; exact ih h.2
    | cbnz r m => rw [touchChk, Bool.and_eq_true] at h; exact ih h.2
    | tbnz r k m => rw [touchChk, Bool.and_eq_true] at h; exact ih h.2
    | table i d ls => rw [touchChk, Bool.and_eq_true] at h; exact ih h.2

/-- The check is sound. -/
theorem touchChk_sound (hR : ∀ b i, i < lr b → R (cell (b.addr s0) i)) (hW : ∀ b i, i < lw b → W (cell (b.addr s0) i))
    (hS : ∀ j < 2 * F, R (stk s0.sp (j + 1)) ∧ W (stk s0.sp (j + 1))) (hF : inv.depth ≤ F) (p : List Line) : ∀ {A : Abs} {s : State},
    A.depth ≤ F → Rep s0 A s → touchChk lr lw F inv p A = true → Only R W (touched p s) := by
  induction hn : p.length using Nat.strong_induction_on generalizing p with
  | _ N ih =>
    intro A s hA h hc
    have jump : ∀ (l : String) (p : List Line) {B : Abs} {s : State}, p.length < N → B.depth ≤ F → Rep s0 B s → sub B inv = true → (∃ C, touchChk lr lw F inv p C = true) →
        Only R W (touched (dropTo l p) s) := by
      rintro l p B s hp hB hs hj ⟨C, hC⟩
      exact ih _ (by have := dropTo_length l p; omega) _ rfl hF (hs.sub hj) (chk_drop l p hC)
    match p with
    | [] => rw [touched]; exact Only.nil
    | .ins i :: p =>
      rw [touchChk] at hc
      split at hc
      · cases hc
      · rename_i B hB
        obtain ⟨h1, h2, h3⟩ := chkIns_sound hR hW hS h hA hB
        rw [touched]
        exact h1.append (ih _ (by simp at hn; omega) p rfl h3 h2 hc)
    | .label l :: p =>
      rw [touchChk, Bool.and_eq_true] at hc
      rw [touched]
      exact ih _ (by simp at hn; omega) p rfl hF (h.sub hc.1) hc.2
    | .b l :: p =>
      rw [touchChk, Bool.and_eq_true] at hc
      rw [touched]
      exact jump l p (by simp at hn; omega) hA h hc.1 ⟨_, hc.2⟩
    | .bc c l :: p =>
      rw [touchChk, Bool.and_eq_true] at hc
      rw [touched]
      split
      · exact jump l p (by simp at hn; omega) hA h hc.1 ⟨_, hc.2⟩
      · exact ih _ (by simp at hn; omega) p rfl hA h hc.2
    | .cbz r l :: p =>
      rw [touchChk, Bool.and_eq_true] at hc
      rw [touched]
      split
      · exact jump l p (by simp at hn; omega) hA h hc.1 ⟨_, hc.2⟩
      · exact ih _ (by simp at hn; omega) p rfl hA h hc.2
    | .cbnz r l :: p =>
      rw [touchChk, Bool.and_eq_true] at hc
      rw [touched]
      split
      · exact ih _ (by simp at hn; omega) p rfl hA h hc.2
      · exact jump l p (by simp at hn; omega) hA h hc.1 ⟨_, hc.2⟩
    | .tbnz r k l :: p =>
      rw [touchChk, Bool.and_eq_true] at hc
      rw [touched]
      split
      · exact jump l p (by simp at hn; omega) hA h hc.1 ⟨_, hc.2⟩
      · exact ih _ (by simp at hn; omega) p rfl hA h hc.2
    | .table i d ls :: p =>
      rw [touchChk, Bool.and_eq_true] at hc
      rw [touched]
      cases ls[(s.reg i).toNat]? with
      | none => exact Only.nil
      | some l => exact jump l p (by simp at hn; omega) (B := ⟨kill d A.ptrs, A.depth⟩) hA (h.kill d _) hc.1 ⟨_, hc.2⟩
    | .ret :: p => rw [touched]; exact Only.nil

end

end FF.Arm
