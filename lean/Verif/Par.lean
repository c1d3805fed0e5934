import Mathlib.Logic.Function.Basic
import Mathlib.Data.List.Nodup
import Mathlib.Data.List.Range
import Mathlib.Data.List.Induction
import Mathlib.Tactic.Common

/-!
# Interleaved execution of threads over a shared memory

The shared memory is an array of cells; a thread is a list of atomic actions, each of which may read and write the memory and the
thread's own locals.  An execution picks the next thread to move at every step, in any order.  If the threads write disjoint cells and
read only their own and never-written cells, every execution ends with the same memory.
-/

namespace FF.Par

variable {L E : Type}

/-- An atomic action of a thread with locals `L` on a memory of cells `E`. -/
abbrev Act (L E : Type) := L × (Nat → E) → L × (Nat → E)

/-- All actions of a thread one after the other. -/
def solo (as : List (Act L E)) (p : L × (Nat → E)) : L × (Nat → E) := as.foldl (fun p a => a p) p

/-- The actions left of each thread, its locals, and the memory. -/
structure State (L E : Type) where
  rest : Nat → List (Act L E)
  loc : Nat → L
  mem : Nat → E

/-- Thread `j` moves (nothing happens when it has ended). -/
def State.step (s : State L E) (j : Nat) : State L E :=
  match s.rest j with
  | [] => s
  | a :: r =>
    let p := a (s.loc j, s.mem)
    { rest := Function.update s.rest j r, loc := Function.update s.loc j p.1, mem := p.2 }

def State.run (s : State L E) (sched : List Nat) : State L E := sched.foldl State.step s

/-- `m'` is the memory after some complete interleaved execution of the threads `progs` from the memory `m`; the locals start
with arbitrary contents. -/
def Exec (progs : Nat → List (Act L E)) (m m' : Nat → E) : Prop :=
  ∃ (loc : Nat → L) (sched : List Nat),
    (∀ j, ((State.mk progs loc m).run sched).rest j = []) ∧ ((State.mk progs loc m).run sched).mem = m'

/-- The action writes only cells in `F` and depends only on the thread's locals and the cells in `F` or `RO`. -/
structure Foot (F RO : Nat → Prop) (a : Act L E) : Prop where
  writes : ∀ l m k, ¬F k → (a (l, m)).2 k = m k
  reads : ∀ l m m', (∀ k, F k ∨ RO k → m k = m' k) → (a (l, m)).1 = (a (l, m')).1 ∧ ∀ k, F k → (a (l, m)).2 k = (a (l, m')).2 k

theorem Foot.mono {F F' RO : Nat → Prop} {a : Act L E} (h : Foot F RO a) (hF : ∀ k, F k → F' k) : Foot F' RO a := by
  classical
  refine ⟨fun l m k hk => h.writes l m k (fun hh => hk (hF k hh)), fun l m m' hm => ?_⟩
  obtain ⟨h1, h2⟩ := h.reads l m m' (fun k hk => hm k (hk.imp_left (hF k)))
  refine ⟨h1, fun k hk => ?_⟩
  by_cases hFk : F k
  · exact h2 k hFk
  · rw [h.writes _ _ _ hFk, h.writes _ _ _ hFk]; exact hm k (Or.inl hk)

theorem solo_writes {F RO : Nat → Prop} : ∀ (as : List (Act L E)), (∀ a ∈ as, Foot F RO a) → ∀ p k, ¬F k → (solo as p).2 k = p.2 k := by
  intro as
  induction as with
  | nil => intro _ p k _; rfl
  | cons a as ih =>
    intro h p k hk
    show (solo as (a p)).2 k = p.2 k
    rw [ih (fun b hb => h b (by simp [hb])) _ k hk]
    exact (h a (by simp)).writes p.1 p.2 k hk

theorem solo_congr {F RO : Nat → Prop} (hd : ∀ k, F k → ¬RO k) : ∀ (as : List (Act L E)), (∀ a ∈ as, Foot F RO a) → ∀ l m m',
    (∀ k, F k ∨ RO k → m k = m' k) →
    (solo as (l, m)).1 = (solo as (l, m')).1 ∧ ∀ k, F k → (solo as (l, m)).2 k = (solo as (l, m')).2 k := by
  intro as
  induction as with
  | nil => intro _ l m m' h; exact ⟨rfl, fun k hk => h k (Or.inl hk)⟩
  | cons a as ih =>
    intro h l m m' hm
    have hf := h a (by simp)
    obtain ⟨h1, h2⟩ := hf.reads l m m' hm
    show (solo as (a (l, m))).1 = (solo as (a (l, m'))).1 ∧ ∀ k, F k → (solo as (a (l, m))).2 k = (solo as (a (l, m'))).2 k
    have e : a (l, m') = ((a (l, m)).1, (a (l, m')).2) := by rw [h1]
    rw [e]
    refine ih (fun b hb => h b (by simp [hb])) _ _ _ ?_
    rintro k (hk | hk)
    · exact h2 k hk
    · have hnF : ¬F k := fun hh => hd k hh hk
      rw [hf.writes _ _ _ hnF, hf.writes _ _ _ hnF]; exact hm k (Or.inr hk)

/-- Threads with disjoint footprints: every complete execution leaves in each cell what its owner, running alone, leaves there. -/
theorem run_spec {F : Nat → Nat → Prop} {RO : Nat → Prop} (hdis : ∀ i j k, F i k → F j k → i = j) (hro : ∀ j k, F j k → ¬RO k) :
    ∀ (sched : List Nat) (s : State L E), (∀ j, ∀ a ∈ s.rest j, Foot (F j) RO a) → (∀ j, (s.run sched).rest j = []) →
    (∀ j k, F j k → (s.run sched).mem k = (solo (s.rest j) (s.loc j, s.mem)).2 k) ∧
    ∀ k, (∀ j, ¬F j k) → (s.run sched).mem k = s.mem k := by
  intro sched
  induction sched with
  | nil =>
    intro s _ hdone
    refine ⟨fun j k _ => ?_, fun k _ => rfl⟩
    have : s.rest j = [] := hdone j
    rw [this]; rfl
  | cons i sched ih =>
    intro s hf hdone
    show (∀ j k, F j k → ((s.step i).run sched).mem k = _) ∧ ∀ k, (∀ j, ¬F j k) → ((s.step i).run sched).mem k = _
    have hdone' : ∀ j, ((s.step i).run sched).rest j = [] := hdone
    cases hr : s.rest i with
    | nil =>
      have e : s.step i = s := by unfold State.step; rw [hr]
      rw [e] at hdone' ⊢
      exact ih s hf hdone'
    | cons a r =>
      have e : s.step i = { rest := Function.update s.rest i r, loc := Function.update s.loc i (a (s.loc i, s.mem)).1,
                            mem := (a (s.loc i, s.mem)).2 } := by unfold State.step; rw [hr]
      have ha : Foot (F i) RO a := hf i a (by rw [hr]; simp)
      have hf' : ∀ j, ∀ b ∈ (s.step i).rest j, Foot (F j) RO b := by
        intro j b hb
        rw [e] at hb
        by_cases hj : j = i
        · subst hj
          simp only [Function.update_self] at hb
          exact hf j b (by rw [hr]; simp [hb])
        · simp only [Function.update_of_ne hj] at hb
          exact hf j b hb
      obtain ⟨h1, h2⟩ := ih (s.step i) hf' hdone'
      refine ⟨fun j k hk => ?_, fun k hk => ?_⟩
      · rw [h1 j k hk, e]
        by_cases hj : j = i
        · subst hj
          simp only [Function.update_self, hr]
          rfl
        · simp only [Function.update_of_ne hj]
          refine ((solo_congr (hro j) (s.rest j) (hf j) (s.loc j) _ _ ?_).2 k hk)
          rintro k' (hk' | hk')
          · exact ha.writes _ _ _ (fun hh => hj (hdis _ _ _ hk' hh))
          · exact ha.writes _ _ _ (fun hh => hro i _ hh hk')
      · rw [h2 k hk, e]
        exact ha.writes _ _ _ (hk i)

/-- The threads one after the other. -/
theorem exec_exists (progs : Nat → List (Act L E)) (n : Nat) (hn : ∀ j, n ≤ j → progs j = []) (l : L) (m : Nat → E) :
    ∃ m', Exec progs m m' := by
  have key : ∀ (s : State L E) j, ∃ sched : List Nat, (s.run sched).rest j = [] ∧ ∀ i, i ≠ j → (s.run sched).rest i = s.rest i := by
    intro s j
    generalize hr : s.rest j = r
    induction r generalizing s with
    | nil => exact ⟨[], hr, fun _ _ => rfl⟩
    | cons a r ih =>
      have e : s.step j = { rest := Function.update s.rest j r, loc := Function.update s.loc j (a (s.loc j, s.mem)).1,
                            mem := (a (s.loc j, s.mem)).2 } := by unfold State.step; rw [hr]
      obtain ⟨sched, h1, h2⟩ := ih (s.step j) (by rw [e]; simp)
      refine ⟨j :: sched, h1, fun i hi => ?_⟩
      show ((s.step j).run sched).rest i = _
      rw [h2 i hi, e]
      simp [Function.update_of_ne hi]
  have all : ∀ k (s : State L E), ∃ sched : List Nat, (∀ j, j < k → (s.run sched).rest j = []) ∧ ∀ i, k ≤ i → (s.run sched).rest i = s.rest i := by
    intro k
    induction k with
    | zero => intro s; exact ⟨[], fun j hj => absurd hj (Nat.not_lt_zero j), fun _ _ => rfl⟩
    | succ k ih =>
      intro s
      obtain ⟨s1, h1, h2⟩ := ih s
      obtain ⟨s2, h3, h4⟩ := key (s.run s1) k
      have e : s.run (s1 ++ s2) = (s.run s1).run s2 := by simp [State.run, List.foldl_append]
      refine ⟨s1 ++ s2, fun j hj => ?_, fun i hi => ?_⟩
      · rw [e]
        by_cases hjk : j = k
        · subst hjk; exact h3
        · rw [h4 j hjk]; exact h1 j (by omega)
      · rw [e, h4 i (by omega)]; exact h2 i (by omega)
  obtain ⟨sched, h1, h2⟩ := all n ⟨progs, fun _ => l, m⟩
  refine ⟨_, fun _ => l, sched, fun j => ?_, rfl⟩
  by_cases hj : j < n
  · exact h1 j hj
  · rw [h2 j (by omega)]; exact hn j (by omega)

/-- A sequence of iterations with disjoint footprints, run by one thread. -/
theorem solo_iterations {G : Nat → Nat → Prop} {RO : Nat → Prop} (hdis : ∀ i j k, G i k → G j k → i = j) (hro : ∀ j k, G j k → ¬RO k)
    {prog : Nat → List (Act L E)} (hf : ∀ i, ∀ a ∈ prog i, Foot (G i) RO a) {res : Nat → (Nat → E) → Nat → E}
    (hres : ∀ i l m k, G i k → (solo (prog i) (l, m)).2 k = res i m k) :
    ∀ (is : List Nat), is.Nodup → ∀ l m, (∀ i ∈ is, ∀ k, G i k → (solo (is.flatMap prog) (l, m)).2 k = res i m k) ∧
      ∀ k, (∀ i ∈ is, ¬G i k) → (solo (is.flatMap prog) (l, m)).2 k = m k := by
  intro is
  induction is with
  | nil => intro _ l m; exact ⟨fun i hi => absurd hi (by simp), fun _ _ => rfl⟩
  | cons i is ih =>
    intro hn l m
    obtain ⟨hi, hn⟩ := List.nodup_cons.1 hn
    have e : solo ((i :: is).flatMap prog) (l, m) = solo (is.flatMap prog) (solo (prog i) (l, m)) := by
      simp [solo, List.flatMap_cons, List.foldl_append]
    rw [e]
    obtain ⟨h1, h2⟩ := ih hn (solo (prog i) (l, m)).1 (solo (prog i) (l, m)).2
    refine ⟨?_, ?_⟩
    · intro j hj k hk
      rcases List.mem_cons.1 hj with rfl | hj
      · have : (solo (is.flatMap prog) (solo (prog j) (l, m))).2 k = (solo (prog j) (l, m)).2 k :=
          h2 k (fun i' hi' hk' => hi (by rw [hdis _ _ _ hk hk']; exact hi'))
        rw [this]; exact hres j l m k hk
      · have := h1 j hj k hk
        rw [this]
        have hne : i ≠ j := fun h => hi (h ▸ hj)
        rw [← hres j l, ← hres j l m k hk]
        · refine (solo_congr (hro j) (prog j) (hf j) l _ _ ?_).2 k hk
          rintro k' (hk' | hk')
          · exact solo_writes (prog i) (hf i) _ k' (fun hh => hne (hdis _ _ _ hh hk'))
          · exact solo_writes (prog i) (hf i) _ k' (fun hh => hro i _ hh hk')
        · exact hk
    · intro k hk
      rw [h2 k (fun i' hi' => hk i' (by simp [hi']))]
      exact solo_writes (prog i) (hf i) _ k (hk i (by simp))

/-- A variant in which a shared cell may also be written, by threads that leave its value as it is when they run alone. -/
theorem run_spec_const {F : Nat → Nat → Prop} {RO : Nat → Prop} (hdis : ∀ i j k, F i k → F j k → i = j) {progs : Nat → List (Act L E)}
    {loc : Nat → L} {m : Nat → E} (hf : ∀ j, ∀ a ∈ progs j, Foot (F j) RO a)
    (hc : ∀ j p k, RO k → (solo ((progs j).take p) (loc j, m)).2 k = m k) (sched : List Nat)
    (hdone : ∀ j, ((State.mk progs loc m).run sched).rest j = []) :
    (∀ j k, F j k → ((State.mk progs loc m).run sched).mem k = (solo (progs j) (loc j, m)).2 k) ∧
    ∀ k, (∀ j, ¬F j k) → ((State.mk progs loc m).run sched).mem k = m k := by
  have inv : ∀ sched : List Nat, ∃ p : Nat → Nat,
      (∀ j, ((State.mk progs loc m).run sched).rest j = (progs j).drop (p j)) ∧
      (∀ j, ((State.mk progs loc m).run sched).loc j = (solo ((progs j).take (p j)) (loc j, m)).1) ∧
      (∀ j k, F j k → ((State.mk progs loc m).run sched).mem k = (solo ((progs j).take (p j)) (loc j, m)).2 k) ∧
      (∀ k, RO k → ((State.mk progs loc m).run sched).mem k = m k) ∧
      ∀ k, (∀ j, ¬F j k) → ((State.mk progs loc m).run sched).mem k = m k := by
    intro sched
    induction sched using List.reverseRecOn with
    | nil => exact ⟨fun _ => 0, fun _ => rfl, fun _ => rfl, fun _ _ _ => rfl, fun _ _ => rfl, fun _ _ => rfl⟩
    | append_singleton sched i ih =>
      obtain ⟨p, h1, h2, h3, h4, h5⟩ := ih
      have er : (State.mk progs loc m).run (sched ++ [i]) = ((State.mk progs loc m).run sched).step i := by
        simp [State.run, List.foldl_append]
      rw [er]
      generalize (State.mk progs loc m).run sched = s at *
      cases hr : s.rest i with
      | nil =>
        have e : s.step i = s := by unfold State.step; rw [hr]
        rw [e]; exact ⟨p, h1, h2, h3, h4, h5⟩
      | cons a r =>
        have e : s.step i = { rest := Function.update s.rest i r, loc := Function.update s.loc i (a (s.loc i, s.mem)).1,
                              mem := (a (s.loc i, s.mem)).2 } := by unfold State.step; rw [hr]
        have hd := h1 i
        rw [hr] at hd
        have hlt : p i < (progs i).length := by
          by_contra hh
          rw [List.drop_eq_nil_of_le (by omega)] at hd
          exact absurd hd (by simp)
        rw [List.drop_eq_getElem_cons hlt] at hd
        obtain ⟨ha', hr'⟩ := List.cons.inj hd
        have ha : Foot (F i) RO a := hf i a (by rw [ha']; exact List.getElem_mem hlt)
        have htake : solo ((progs i).take (p i + 1)) (loc i, m) = a (solo ((progs i).take (p i)) (loc i, m)) := by
          rw [List.take_succ_eq_append_getElem hlt, ← ha']; simp [solo, List.foldl_append]
        have hread := ha.reads (s.loc i) s.mem (solo ((progs i).take (p i)) (loc i, m)).2 (by
          rintro k (hk | hk)
          · exact h3 i k hk
          · rw [h4 k hk, hc i _ k hk])
        have hpair : (s.loc i, (solo ((progs i).take (p i)) (loc i, m)).2) = solo ((progs i).take (p i)) (loc i, m) := by rw [h2 i]
        rw [hpair, ← htake] at hread
        rw [e]
        refine ⟨Function.update p i (p i + 1), ?_, ?_, ?_, ?_, ?_⟩
        · intro j
          by_cases hj : j = i
          · subst hj; simp only [Function.update_self]; exact hr'
          · simp only [Function.update_of_ne hj]; exact h1 j
        · intro j
          by_cases hj : j = i
          · subst hj; simp only [Function.update_self]; exact hread.1
          · simp only [Function.update_of_ne hj]; exact h2 j
        · intro j k hk
          by_cases hj : j = i
          · subst hj; simp only [Function.update_self]; exact hread.2 k hk
          · simp only [Function.update_of_ne hj]
            rw [ha.writes _ _ _ (fun hh => hj (hdis _ _ _ hk hh))]; exact h3 j k hk
        · intro k hk
          by_cases hF : F i k
          · exact (hread.2 k hF).trans (hc i _ k hk)
          · exact (ha.writes _ _ _ hF).trans (h4 k hk)
        · intro k hk
          exact (ha.writes _ _ _ (hk i)).trans (h5 k hk)
  obtain ⟨p, h1, _, h3, _, h5⟩ := inv sched
  refine ⟨fun j k hk => ?_, h5⟩
  rw [h3 j k hk]
  have := hdone j
  rw [h1 j, List.drop_eq_nil_iff] at this
  rw [List.take_of_length_le this]

end FF.Par
