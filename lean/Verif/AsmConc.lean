import Verif.Interleave
import Verif.AsmTouchLike

/-!
# The x86-64 routines, instruction by instruction

`cstep` executes one line; a call puts the code of the callee on a stack of listings.  `run_alone`: a routine that returns in the sense of `run`
returns after finitely many such steps, with the accesses of `touched`.
-/

namespace FF.X86

open FF.Conc (Machine Alone)

/-- The private part of a thread: the code of the routines being executed, innermost first, the registers, the flags, the addresses of the labels. -/
structure Core where
  stack : List (List Line)
  reg : Reg → BitVec 64
  fl : Flags
  sym : Sym → BitVec 64

/-- The machine state that a thread sees. -/
def Core.st (c : Core) (m : Conc.Mem) : State := ⟨c.reg, c.fl, m, c.sym⟩

/-- The thread with the code `k`. -/
def core (k : List (List Line)) (s : State) : Core := ⟨k, s.reg, s.fl, s.sym⟩

/-- One line.  `codes` gives the listings of the routines that can be called; `ra` is the return address a call stores (its value plays no role).
Simplification: `rep movsq` is one step. -/
def cstep (codes : String → Option (List Line)) (ra : BitVec 64) (c : Core) (m : Conc.Mem) : Option (Core × Conc.Mem) :=
  match c.stack with
  | (.label _ :: p) :: k => some (core (p :: k) (c.st m), m)
  | (.ret :: _) :: k => some (core k { c.st m with reg := upd c.reg .rsp (c.reg .rsp + 8) }, m)
  | (.jump d l :: p) :: k => some (core ((if d.holds c.fl then dropTo l p else p) :: k) (c.st m), m)
  | (.call f :: p) :: k => (codes f).map fun b => (core (b :: p :: k) (pushVal ra (c.st m)), (pushVal ra (c.st m)).mem)
  | (i :: p) :: k => some (core (p :: k) (i.exec (c.st m)), (i.exec (c.st m)).mem)
  | _ => none

/-- The accesses of the next line. -/
def cacc (c : Core) (m : Conc.Mem) : List Access :=
  match c.stack with
  | (i :: _) :: _ => i.acc (c.st m)
  | _ => []

section
variable {codes : String → Option (List Line)} {ra : BitVec 64}

theorem cstep_plain {i : Line} (h : i.plain = true) {p : List Line} {k : List (List Line)} {c : Core} (hc : c.stack = (i :: p) :: k) (m : Conc.Mem) :
    cstep codes ra c m = some (core (p :: k) (i.exec (c.st m)), (i.exec (c.st m)).mem) := by
  unfold cstep
  rw [hc]
  cases i <;> first | (exact absurd h Bool.false_ne_true) | rfl

theorem core_st (k : List (List Line)) (s : State) : (core k s).st s.mem = s := rfl

theorem Like.ofMem {D : BitVec 64 → Prop} {c : Core} {m m' : Conc.Mem} (h : ∀ a, ¬ D a → m' a = m a) : Like D (c.st m) (c.st m') := ⟨rfl, rfl, rfl, h⟩

theorem Like.core {D : BitVec 64 → Prop} {s s' : State} (h : Like D s s') (k : List (List Line)) : X86.core k s' = X86.core k s := by
  simp only [X86.core, h.reg, h.fl, h.sym]

theorem dropTo_wf {l : String} {p : List Line} (h : ∀ i ∈ p, i.wf) : ∀ i ∈ dropTo l p, i.wf := fun i hi => h i (dropTo_mem l hi)

/-- The machine. -/
def lineMachine (codes : String → Option (List Line)) (ra : BitVec 64) : Machine where
  Core := Core
  step := cstep codes ra
  acc := cacc
  ok c := (∀ p ∈ c.stack, ∀ i ∈ p, i.wf) ∧ ∀ f b, codes f = some b → ∀ i ∈ b, i.wf
  like := by
    intro D c m m' hm hr
    have hl : Like D (c.st m) (c.st m') := Like.ofMem hm
    rcases hc : c.stack with _ | ⟨_ | ⟨i, p⟩, k⟩
    · exact ⟨by simp [cacc, hc], fun _ _ h => by simp [cstep, hc] at h⟩
    · exact ⟨by simp [cacc, hc], fun _ _ h => by simp [cstep, hc] at h⟩
    · have ha : ∀ m, cacc c m = i.acc (c.st m) := fun m => by simp only [cacc, hc]
      rw [ha] at hr
      rw [ha, ha]
      refine ⟨Line.acc_like hl i, fun c1 m1 h => ?_⟩
      rcases plain_cases i with hp | ⟨l, rfl⟩ | ⟨d, l, rfl⟩ | ⟨f, rfl⟩ | rfl
      · rw [cstep_plain hp hc] at h ⊢
        cases h
        have he := Line.exec_like hl i hr
        exact ⟨_, by rw [he.core], he.mem⟩
      · simp only [cstep, hc, Option.some.injEq, Prod.mk.injEq] at h ⊢
        obtain ⟨rfl, rfl⟩ := h
        exact ⟨m', ⟨rfl, rfl⟩, hm⟩
      · simp only [cstep, hc, Option.some.injEq, Prod.mk.injEq] at h ⊢
        obtain ⟨rfl, rfl⟩ := h
        exact ⟨m', ⟨rfl, rfl⟩, hm⟩
      · simp only [cstep, hc, Option.map_eq_some_iff, Prod.mk.injEq] at h ⊢
        obtain ⟨b, hb, rfl, rfl⟩ := h
        refine ⟨_, ⟨b, hb, rfl, rfl⟩, upd_like hm _ _⟩
      · simp only [cstep, hc, Option.some.injEq, Prod.mk.injEq] at h ⊢
        obtain ⟨rfl, rfl⟩ := h
        exact ⟨m', ⟨rfl, rfl⟩, hm⟩
  ok_step := by
    intro c m c1 m1 hok h
    obtain ⟨h1, h2⟩ := hok
    refine ⟨?_, h2⟩
    rcases hc : c.stack with _ | ⟨_ | ⟨i, p⟩, k⟩
    · simp [cstep, hc] at h
    · simp [cstep, hc] at h
    · have hp' : ∀ j ∈ p, j.wf := fun j hj => h1 (i :: p) (by rw [hc]; exact List.mem_cons_self) j (List.mem_cons_of_mem _ hj)
      have hk : ∀ q ∈ k, ∀ j ∈ q, j.wf := fun q hq => h1 q (by rw [hc]; exact List.mem_cons_of_mem _ hq)
      rcases plain_cases i with hp | ⟨l, rfl⟩ | ⟨d, l, rfl⟩ | ⟨f, rfl⟩ | rfl
      · rw [cstep_plain hp hc] at h
        cases h
        exact List.forall_mem_cons.2 ⟨hp', hk⟩
      · simp only [cstep, hc, Option.some.injEq, Prod.mk.injEq] at h
        obtain ⟨rfl, rfl⟩ := h
        exact List.forall_mem_cons.2 ⟨hp', hk⟩
      · simp only [cstep, hc, Option.some.injEq, Prod.mk.injEq] at h
        obtain ⟨rfl, rfl⟩ := h
        refine List.forall_mem_cons.2 ⟨?_, hk⟩
        split
        · exact dropTo_wf hp'
        · exact hp'
      · simp only [cstep, hc, Option.map_eq_some_iff, Prod.mk.injEq] at h
        obtain ⟨b, hb, rfl, rfl⟩ := h
        exact List.forall_mem_cons.2 ⟨h2 f b hb, List.forall_mem_cons.2 ⟨hp', hk⟩⟩
      · simp only [cstep, hc, Option.some.injEq, Prod.mk.injEq] at h
        obtain ⟨rfl, rfl⟩ := h
        exact hk
  off := by
    intro c m c1 m1 hok h a ha
    rcases hc : c.stack with _ | ⟨_ | ⟨i, p⟩, k⟩
    · simp [cstep, hc] at h
    · simp [cstep, hc] at h
    · have hi : i.wf := hok.1 (i :: p) (by rw [hc]; exact List.mem_cons_self) i List.mem_cons_self
      simp only [cacc, hc] at ha
      rcases plain_cases i with hp | ⟨l, rfl⟩ | ⟨d, l, rfl⟩ | ⟨f, rfl⟩ | rfl
      · rw [cstep_plain hp hc] at h
        cases h
        exact Line.exec_off i hi _ a ha
      · simp only [cstep, hc, Option.some.injEq, Prod.mk.injEq] at h
        rw [h.2]
      · simp only [cstep, hc, Option.some.injEq, Prod.mk.injEq] at h
        rw [h.2]
      · simp only [cstep, hc, Option.map_eq_some_iff, Prod.mk.injEq] at h
        obtain ⟨b, hb, rfl, rfl⟩ := h
        simp only [Line.acc, List.mem_singleton, Access.write.injEq] at ha
        simp only [pushVal, upd, if_neg ha]
        rfl
      · simp only [cstep, hc, Option.some.injEq, Prod.mk.injEq] at h
        rw [h.2]

/-- The routines of `env` return as their listings do, with the accesses `T`. -/
def Linked (codes : String → Option (List Line)) (ra : BitVec 64) (env : String → Option (State → Option State)) (T : String → State → List Access) : Prop :=
  ∀ f g, env f = some g → ∃ b, codes f = some b ∧ ∀ s t, g s = some t → ∀ k, ∃ n,
    Alone (lineMachine codes ra) (core (b :: k) s) s.mem n (T f s) (core k t) t.mem

/-- A routine that returns does so in finitely many steps. -/
theorem run_alone {env : String → Option (State → Option State)} {T : String → State → List Access} (hE : Linked codes ra env T) (p : List Line) :
    ∀ {s t : State}, run env ra p s = some t → ∀ k, ∃ n,
      Alone (lineMachine codes ra) (core (p :: k) s) s.mem n (touched env T ra p s) (core k t) t.mem := by
  induction hn : p.length using Nat.strong_induction_on generalizing p with
  | _ N ih =>
    intro s t ht k
    match p with
    | [] => rw [run] at ht; cases ht
    | i :: p =>
      rcases plain_cases i with hp | ⟨l, rfl⟩ | ⟨d, l, rfl⟩ | ⟨f, rfl⟩ | rfl
      · rw [run_plain hp] at ht
        rw [touched_plain hp]
        obtain ⟨n, h⟩ := ih p.length (by subst hn; simp) p rfl ht k
        exact ⟨_, Alone.cons (M := lineMachine codes ra) (cstep_plain hp rfl s.mem) h⟩
      · rw [run] at ht
        rw [touched_label]
        obtain ⟨n, h⟩ := ih p.length (by subst hn; simp) p rfl ht k
        exact ⟨_, Alone.cons (M := lineMachine codes ra) (c := core ((.label l :: p) :: k) s) rfl h⟩
      · have e : ∀ q, (if d.holds s.fl then dropTo l p else p) = q → ∀ n u, Alone (lineMachine codes ra) (core (q :: k) s) s.mem n u (core k t) t.mem →
            Alone (lineMachine codes ra) (core ((.jump d l :: p) :: k) s) s.mem (n + 1) u (core k t) t.mem := by
          intro q hq n u h
          refine Alone.cons (M := lineMachine codes ra) (c := core ((.jump d l :: p) :: k) s) (m := s.mem) ?_ h
          rw [← hq]
          rfl
        rw [run] at ht
        rw [touched_jump]
        split at ht
        · rename_i hc
          rw [if_pos hc]
          obtain ⟨n, h⟩ := ih (dropTo l p).length (by subst hn; have := dropTo_length l p; simp only [List.length_cons]; omega) _ rfl ht k
          exact ⟨_, e _ (if_pos hc) _ _ h⟩
        · rename_i hc
          rw [if_neg hc]
          obtain ⟨n, h⟩ := ih p.length (by subst hn; simp) p rfl ht k
          exact ⟨_, e _ (if_neg hc) _ _ h⟩
      · rw [run] at ht
        rw [touched]
        cases hf : env f with
        | none => rw [hf] at ht; cases ht
        | some g =>
          rw [hf] at ht
          simp only at ht ⊢
          cases hg : g (pushVal ra s) with
          | none => rw [hg] at ht; cases ht
          | some u =>
            rw [hg] at ht
            simp only at ht ⊢
            obtain ⟨b, hb, hg'⟩ := hE f g hf
            obtain ⟨n1, h1⟩ := hg' _ _ hg (p :: k)
            obtain ⟨n2, h2⟩ := ih p.length (by subst hn; simp) p rfl ht k
            refine ⟨n1 + n2 + 1, ?_⟩
            rw [List.append_assoc]
            refine Alone.cons (M := lineMachine codes ra) (c := core ((.call f :: p) :: k) s) (m := s.mem) ?_ (h1.trans h2)
            have e : cstep codes ra (core ((.call f :: p) :: k) s) s.mem = some (core (b :: p :: k) (pushVal ra s), (pushVal ra s).mem) := by
              simp only [cstep, core, hb, Option.map_some]
              rfl
            exact e
      · rw [run] at ht
        cases ht
        rw [touched_ret]
        exact ⟨1, Alone.cons (M := lineMachine codes ra) (c := core ((.ret :: p) :: k) s) (m := s.mem) rfl (Alone.nil _ _)⟩

end

end FF.X86
