import Verif.AsmMontCall

/-!
# Evaluating listings

`run` is defined by well-founded recursion, which the kernel does not evaluate well.  `runF` is the same function by
recursion on a bound for the length of the listing.
-/

namespace FF.X86

/-- `run` with a bound on the length of the listing. -/
def runF (env : String → Option (State → Option State)) (ra : BitVec 64) : Nat → List Line → State → Option State
  | 0, _, _ => none
  | k + 1, p, s =>
    match p with
    | [] => none
    | .label _ :: p => runF env ra k p s
    | .ret :: _ => some { s with reg := upd s.reg .rsp (s.reg .rsp + 8) }
    | .jump c l :: p => if c.holds s.fl then runF env ra k (dropTo l p) s else runF env ra k p s
    | .call f :: p =>
        match env f with
        | none => none
        | some g =>
          match g (pushVal ra s) with
          | none => none
          | some s' => runF env ra k p s'
    | i :: p => runF env ra k p (i.exec s)

theorem run_eq_runF (env : String → Option (State → Option State)) (ra : BitVec 64) (k : Nat) :
    ∀ (p : List Line) (s : State), p.length < k → run env ra p s = runF env ra k p s := by
  induction k with
  | zero => intro p s h; omega
  | succ k ih =>
    intro p s h
    cases p with
    | nil => rw [run, runF]
    | cons i p =>
      simp only [List.length_cons] at h
      have hp : p.length < k := by omega
      cases i with
      | label l => rw [run, runF]; exact ih p s hp
      | ret => rw [run, runF]
      | jump c l =>
        rw [run, runF]
        have := dropTo_length l p
        rw [ih p s hp, ih (dropTo l p) s (by omega)]
      | call f =>
        rw [run, runF]
        cases env f with
        | none => rfl
        | some g =>
          simp only
          cases g (pushVal ra s) with
          | none => rfl
          | some s' => simp only; exact ih p s' hp
      | _ =>
        rw [run, runF]
        · exact ih p _ hp
        all_goals simp

end FF.X86
