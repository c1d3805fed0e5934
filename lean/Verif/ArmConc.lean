import Verif.Interleave
import Verif.ArmTouch

/-!
# The AArch64 routines, line by line

As `AsmConc.lean`.  The routines call nothing, so that a thread has one listing; `none` once it has returned.
-/

namespace FF.Arm

open FF.X86 (upd Access)
open FF.Conc (Machine Alone)

/-- The private part of a thread. -/
structure Core where
  text : Option (List Line)
  reg : Nat → BitVec 64
  sp : BitVec 64
  fl : Flags
  sym : Sym → BitVec 64
  code : String → BitVec 64

/-- The machine state that a thread sees. -/
def Core.st (c : Core) (m : Conc.Mem) : State := ⟨c.reg, c.sp, c.fl, m, c.sym, c.code⟩

/-- The thread with the code `k`. -/
def core (k : Option (List Line)) (s : State) : Core := ⟨k, s.reg, s.sp, s.fl, s.sym, s.code⟩

/-- Where a line goes, `none` for an index outside of the jump table. -/
def Line.next (p : List Line) (s : State) : Line → Option (Option (List Line) × State)
  | .ins i => some (some p, i.exec s)
  | .label _ => some (some p, s)
  | .b l => some (some (dropTo l p), s)
  | .bc c l => some (some (if c.holds s.fl then dropTo l p else p), s)
  | .cbz r l => some (some (if s.reg r = 0 then dropTo l p else p), s)
  | .cbnz r l => some (some (if s.reg r = 0 then p else dropTo l p), s)
  | .tbnz r k l => some (some (if (s.reg r).getLsbD k then dropTo l p else p), s)
  | .table i d ls => ls[(s.reg i).toNat]?.map fun l => (some (dropTo l p), { s with reg := upd s.reg d (s.code l) })
  | .ret => some (none, s)

/-- The accesses of a line. -/
def Line.acc (s : State) : Line → List Access
  | .ins i => i.acc s
  | _ => []

/-- One line. -/
def astep (c : Core) (m : Conc.Mem) : Option (Core × Conc.Mem) :=
  match c.text with
  | some (i :: p) => (i.next p (c.st m)).map fun x => (core x.1 x.2, x.2.mem)
  | _ => none

/-- The accesses of the next line. -/
def aacc (c : Core) (m : Conc.Mem) : List Access :=
  match c.text with
  | some (i :: _) => i.acc (c.st m)
  | _ => []

theorem Like.core {D : BitVec 64 → Prop} {s s' : State} (h : Like D s s') (k : Option (List Line)) : Arm.core k s' = Arm.core k s := by
  simp only [Arm.core, h.reg, h.sp, h.fl, h.sym, h.code]

theorem Line.next_like {D : BitVec 64 → Prop} {s s' : State} (h : Like D s s') (i : Line) (p : List Line) (hi : ∀ a, Access.read a ∈ i.acc s → ¬ D a)
    {k : Option (List Line)} {t : State} (ht : i.next p s = some (k, t)) : ∃ t', i.next p s' = some (k, t') ∧ Like D t t' := by
  cases i with
  | ins i => cases ht; exact ⟨_, rfl, Ins.exec_like h i hi⟩
  | table i d ls =>
    simp only [Line.next, Option.map_eq_some_iff, Prod.mk.injEq] at ht ⊢
    obtain ⟨l, hl, rfl, rfl⟩ := ht
    exact ⟨_, ⟨l, by rw [h.reg]; exact hl, rfl, rfl⟩, by simp only [h.reg, h.code], h.sp, h.fl, h.sym, h.code, h.mem⟩
  | _ =>
    cases ht
    refine ⟨s', ?_, h⟩
    simp only [Line.next, h.reg, h.fl]

/-- The machine. -/
def lineMachine : Machine where
  Core := Core
  step := astep
  acc := aacc
  ok _ := True
  like := by
    intro D c m m' hm hr
    have hl : Like D (c.st m) (c.st m') := ⟨rfl, rfl, rfl, rfl, rfl, hm⟩
    rcases hc : c.text with _ | _ | ⟨i, p⟩
    · exact ⟨by simp [aacc, hc], fun _ _ h => by simp [astep, hc] at h⟩
    · exact ⟨by simp [aacc, hc], fun _ _ h => by simp [astep, hc] at h⟩
    · have ha : ∀ m, aacc c m = i.acc (c.st m) := fun m => by simp only [aacc, hc]
      rw [ha] at hr
      rw [ha, ha]
      constructor
      · cases i with
        | ins i => exact Ins.acc_like hl i
        | _ => rfl
      · intro c1 m1 h
        simp only [astep, hc, Option.map_eq_some_iff, Prod.exists, Prod.mk.injEq] at h ⊢
        obtain ⟨k, t, h1, rfl, rfl⟩ := h
        obtain ⟨t', h2, h3⟩ := Line.next_like hl i p hr h1
        exact ⟨t'.mem, ⟨k, t', h2, h3.core k, rfl⟩, h3.mem⟩
  ok_step := fun _ _ _ _ _ _ => trivial
  off := by
    intro c m c1 m1 _ h a ha
    rcases hc : c.text with _ | _ | ⟨i, p⟩
    · simp [astep, hc] at h
    · simp [astep, hc] at h
    · simp only [astep, aacc, hc, Option.map_eq_some_iff, Prod.exists, Prod.mk.injEq] at h ha
      obtain ⟨k, t, h1, rfl, rfl⟩ := h
      cases i with
      | ins i => cases h1; exact Ins.exec_off i _ a ha
      | table i d ls =>
        simp only [Line.next, Option.map_eq_some_iff, Prod.mk.injEq] at h1
        obtain ⟨l, hl, rfl, rfl⟩ := h1
        rfl
      | _ => cases h1; rfl

/-- A routine that returns does so in finitely many steps. -/
theorem run_alone (p : List Line) : ∀ {s t : State}, run p s = some t → ∃ n,
    Alone lineMachine (core (some p) s) s.mem n (touched p s) (core none t) t.mem := by
  have e : ∀ {i : Line} {p q : List Line} {s s' t : State} {n : Nat} {u : List Access}, i.next p s = some (some q, s') →
      Alone lineMachine (core (some q) s') s'.mem n u (core none t) t.mem →
      Alone lineMachine (core (some (i :: p)) s) s.mem (n + 1) (i.acc s ++ u) (core none t) t.mem := by
    intro i p q s s' t n u h h'
    refine Alone.cons (M := lineMachine) (c := core (some (i :: p)) s) (m := s.mem) ?_ h'
    have : astep (core (some (i :: p)) s) s.mem = (i.next p s).map fun x => (core x.1 x.2, x.2.mem) := rfl
    rw [h] at this
    exact this
  induction hn : p.length using Nat.strong_induction_on generalizing p with
  | _ N ih =>
    intro s t ht
    have ih' : ∀ (q : List Line) {s t : State}, q.length < N → run q s = some t → ∃ n,
        Alone lineMachine (core (some q) s) s.mem n (touched q s) (core none t) t.mem := fun q s t hq h => ih q.length hq q rfl h
    have hd : ∀ l (q : List Line), q.length < N → (dropTo l q).length < N := fun l q hq => by have := dropTo_length l q; omega
    match p with
    | [] => simp [run] at ht
    | .ins i :: p =>
      rw [run] at ht
      rw [touched]
      obtain ⟨n, h⟩ := ih' p (by subst hn; simp) ht
      exact ⟨_, e (i := .ins i) rfl h⟩
    | .label l :: p =>
      rw [run] at ht
      rw [touched]
      obtain ⟨n, h⟩ := ih' p (by subst hn; simp) ht
      exact ⟨_, e (i := .label l) rfl h⟩
    | .b l :: p =>
      rw [run] at ht
      rw [touched]
      obtain ⟨n, h⟩ := ih' (dropTo l p) (hd l p (by subst hn; simp)) ht
      exact ⟨_, e (i := .b l) rfl h⟩
    | .bc c l :: p =>
      rw [run] at ht
      rw [touched]
      split at ht
      · rename_i hc
        rw [if_pos hc]
        obtain ⟨n, h⟩ := ih' (dropTo l p) (hd l p (by subst hn; simp)) ht
        exact ⟨_, e (i := .bc c l) (by simp only [Line.next, if_pos hc]) h⟩
      · rename_i hc
        rw [if_neg hc]
        obtain ⟨n, h⟩ := ih' p (by subst hn; simp) ht
        exact ⟨_, e (i := .bc c l) (by simp only [Line.next, if_neg hc]) h⟩
    | .cbz r l :: p =>
      rw [run] at ht
      rw [touched]
      split at ht
      · rename_i hc
        rw [if_pos hc]
        obtain ⟨n, h⟩ := ih' (dropTo l p) (hd l p (by subst hn; simp)) ht
        exact ⟨_, e (i := .cbz r l) (by simp only [Line.next, if_pos hc]) h⟩
      · rename_i hc
        rw [if_neg hc]
        obtain ⟨n, h⟩ := ih' p (by subst hn; simp) ht
        exact ⟨_, e (i := .cbz r l) (by simp only [Line.next, if_neg hc]) h⟩
    | .cbnz r l :: p =>
      rw [run] at ht
      rw [touched]
      split at ht
      · rename_i hc
        rw [if_pos hc]
        obtain ⟨n, h⟩ := ih' p (by subst hn; simp) ht
        exact ⟨_, e (i := .cbnz r l) (by simp only [Line.next, if_pos hc]) h⟩
      · rename_i hc
        rw [if_neg hc]
        obtain ⟨n, h⟩ := ih' (dropTo l p) (hd l p (by subst hn; simp)) ht
        exact ⟨_, e (i := .cbnz r l) (by simp only [Line.next, if_neg hc]) h⟩
    | .tbnz r k l :: p =>
      rw [run] at ht
      rw [touched]
      split at ht
      · rename_i hc
        rw [if_pos hc]
        obtain ⟨n, h⟩ := ih' (dropTo l p) (hd l p (by subst hn; simp)) ht
        exact ⟨_, e (i := .tbnz r k l) (by simp only [Line.next, if_pos hc]) h⟩
      · rename_i hc
        rw [if_neg hc]
        obtain ⟨n, h⟩ := ih' p (by subst hn; simp) ht
        exact ⟨_, e (i := .tbnz r k l) (by simp only [Line.next, if_neg hc]) h⟩
    | .table i d ls :: p =>
      rw [run] at ht
      rw [touched]
      split at ht
      · cases ht
      · rename_i l hl
        rw [hl]
        obtain ⟨n, h⟩ := ih' (dropTo l p) (hd l p (by subst hn; simp)) ht
        exact ⟨_, e (i := .table i d ls) (by simp only [Line.next, hl, Option.map_some]) h⟩
    | .ret :: p =>
      rw [run] at ht
      cases ht
      rw [touched]
      exact ⟨1, Alone.cons (M := lineMachine) (c := core (some (.ret :: p)) s) (m := s.mem) rfl (Alone.nil _ _)⟩

end FF.Arm
