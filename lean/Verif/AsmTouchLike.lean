import Verif.AsmTouchTagRun

/-!
# The result of a tagged routine depends only on the cells it reads

`run_like` for routines that call others.
-/

namespace FF.X86

/-- The accesses in `T` are all the ones a routine of `env` depends on. -/
def Tells (env : String → Option (State → Option State)) (T : String → State → List Access) : Prop :=
  ∀ f g, env f = some g → ∀ (D : BitVec 64 → Prop) (s s' t : State), Like D s s' → (∀ a, Access.read a ∈ T f s → ¬ D a) → g s = some t →
    (∃ t', g s' = some t' ∧ Like D t t') ∧ T f s' = T f s

section
variable {env : String → Option (State → Option State)} {T : String → State → List Access} {ra : BitVec 64} {q : Nat}

theorem run_likes (hE : Tells env T) {D : BitVec 64 → Prop} (p : List Line) : ∀ {s s' t : State}, Like D s s' →
    (∀ a, Access.read a ∈ touched env T ra p s → ¬ D a) → run env ra p s = some t →
    (∃ t', run env ra p s' = some t' ∧ Like D t t') ∧ touched env T ra p s' = touched env T ra p s := by
  induction hn : p.length using Nat.strong_induction_on generalizing p with
  | _ N ih =>
    intro s s' t h hr ht
    match p with
    | [] => rw [run] at ht; cases ht
    | i :: p =>
      rcases plain_cases i with hp | ⟨l, rfl⟩ | ⟨c, l, rfl⟩ | ⟨f, rfl⟩ | rfl
      · rw [run_plain hp] at ht
        rw [touched_plain hp] at hr
        rw [run_plain hp, touched_plain hp, touched_plain hp, Line.acc_like h]
        obtain ⟨h1, h2⟩ := ih p.length (by subst hn; simp) p rfl (Line.exec_like h i fun a ha => hr a (List.mem_append_left _ ha))
          (fun a ha => hr a (List.mem_append_right _ ha)) ht
        exact ⟨h1, by rw [h2]⟩
      · rw [run] at ht ⊢
        rw [touched_label] at hr ⊢
        rw [touched_label]
        exact ih p.length (by subst hn; simp) p rfl h hr ht
      · rw [run] at ht ⊢
        rw [touched_jump] at hr ⊢
        rw [touched_jump, h.fl]
        split
        · rename_i hc
          rw [if_pos hc] at ht hr
          exact ih (dropTo l p).length (by subst hn; have := dropTo_length l p; simp only [List.length_cons]; omega) _ rfl h hr ht
        · rename_i hc
          rw [if_neg hc] at ht hr
          exact ih p.length (by subst hn; simp) p rfl h hr ht
      · have hp : Like D (pushVal ra s) (pushVal ra s') := by
          refine ⟨?_, h.fl, h.sym, ?_⟩
          · simp only [pushVal, h.reg]
          · simp only [pushVal, h.reg]
            exact upd_like h.mem _ _
        have ha : (Line.call f).acc s' = (Line.call f).acc s := Line.acc_like h _
        rw [run] at ht ⊢
        rw [touched] at hr ⊢
        rw [touched]
        cases hf : env f with
        | none => rw [hf] at ht; cases ht
        | some g =>
          rw [hf] at ht hr
          simp only at ht hr ⊢
          cases hg : g (pushVal ra s) with
          | none => rw [hg] at ht; cases ht
          | some u =>
            rw [hg] at ht hr
            simp only at ht hr
            obtain ⟨⟨u', h1, h2⟩, h3⟩ := hE f g hf D _ _ u hp
              (fun a ha => hr a (List.mem_append_left _ (List.mem_append_right _ ha))) hg
            rw [h1, h3, ha]
            simp only
            obtain ⟨h4, h5⟩ := ih p.length (by subst hn; simp) p rfl h2 (fun a ha => hr a (List.mem_append_right _ ha)) ht
            exact ⟨h4, by rw [h5]⟩
      · rw [run] at ht ⊢
        cases ht
        rw [touched_ret, touched_ret, h.reg]
        exact ⟨⟨_, rfl, ⟨rfl, h.fl, h.sym, h.mem⟩⟩, rfl⟩

theorem tells_noCalls : Tells noCalls T := fun f g h => by simp [noCalls] at h

/-- One more routine. -/
theorem Tells.add {env' : String → Option (State → Option State)} {T' : String → State → List Access} (h : Tells env T) (h' : Tells env' T')
    (n : String) (c : List Line) :
    Tells (fun f => if f = n then some (run env' ra c) else env f) (fun f => if f = n then touched env' T' ra c else T f) := by
  intro f g hg D s s' t hl hr ht
  simp only at hg hr ht ⊢
  split at hg
  · rename_i hf
    rw [if_pos hf] at hr
    simp only [hf, if_true]
    cases hg
    exact run_likes h' c hl hr ht
  · rename_i hf
    rw [if_neg hf] at hr
    simp only [hf, if_false]
    exact h f g hg D s s' t hl hr ht

/-- One more routine that may not have been printed. -/
theorem Tells.addT (h : Tells env T) (n : String) (c : Option (List Line)) :
    Tells (fun f => if f = n then c.map (run noCalls ra) else env f) (fun f => if f = n then accTemplate ra c else T f) := by
  intro f g hg D s s' t hl hr ht
  simp only at hg hr ht ⊢
  split at hg
  · rename_i hf
    rw [if_pos hf] at hr
    simp only [hf, if_true]
    cases c with
    | none => cases hg
    | some c =>
      cases hg
      exact run_likes tells_noCalls c hl hr ht
  · rename_i hf
    rw [if_neg hf] at hr
    simp only [hf, if_false]
    exact h f g hg D s s' t hl hr ht

theorem tells_libRaw : Tells (libRaw q ra) (accRaw q ra) := by
  have h0 : Tells (fun _ => none) (fun _ _ => []) := fun f g h => by cases h
  have hn : Tells noCalls noAcc := tells_noCalls
  exact (((((((((((((h0.addT _ _).addT _ _).addT _ _).addT _ _).add hn _ _).add hn _ _).add hn _ _).add hn _ _).add hn _ _).add hn _ _).add hn _ _).add hn
    _ _).add hn _ _)

theorem tells_lib : Tells (lib q ra) (accLib q ra) :=
  ((tells_libRaw.add tells_libRaw _ _).add tells_libRaw _ _).add tells_libRaw _ _

theorem tells_libCmp : Tells (libCmp q ra) (accCmp q ra) := ((tells_lib.add tells_lib _ _).add tells_lib _ _).add tells_lib _ _

theorem tells_libShift : Tells (libShift q ra) (accShift q ra) := (tells_lib.add (tells_noCalls (T := noAcc)) _ _).add tells_noCalls _ _

end

end FF.X86
