import Verif.Race
import Verif.GroupCode

/-!
# Parallel loops whose bodies know their thread

A parallel loop hands its iterations to the threads of a team in any way (`Assign`); each thread runs its own iterations
in the order it was given, and the atomic actions of different threads interleave in any order (`Par.Exec`).  This is
what OpenMP's `parallel for` guarantees for every kind of schedule; the ranges of `ThreadPool::parallelFor` are one
particular assignment (`assign_calls`).
-/

namespace FF.Omp

open FF.Par

variable {L E : Type}

/-- `w t` lists the iterations that thread `t` runs: together they are the iterations from `lo` up to `hi`, each once. -/
def Assign (nThreads lo hi : Nat) (w : Nat → List Nat) : Prop :=
  ((List.range nThreads).flatMap w).Perm (List.range' lo (hi - lo))

/-- The actions of thread `t`. -/
def team (nThreads : Nat) (w : Nat → List Nat) (body : Nat → Nat → List (Act L E)) (t : Nat) : List (Act L E) :=
  if t < nThreads then (w t).flatMap (body t) else []

/-- `m'` is the memory after a parallel loop in which iteration `i`, run by thread `t`, performs the actions `body t i`. -/
def For (nThreads lo hi : Nat) (body : Nat → Nat → List (Act L E)) (m m' : Nat → E) : Prop :=
  ∃ w, Assign nThreads lo hi w ∧ Exec (team nThreads w body) m m'

/-- Some execution of the loop from `m` has a data race. -/
def ForRace (nThreads lo hi : Nat) (body : Nat → Nat → List (Act L E)) (m : Nat → E) : Prop :=
  ∃ w, Assign nThreads lo hi w ∧ Race (team nThreads w body) m

/-! ## Every execution is a sequence of whole iterations -/

/-- One thread after the other. -/
def seqThreads (progs : Nat → List (Act L E)) (loc : Nat → L) (m : Nat → E) (n : Nat) : Nat → E :=
  (List.range n).foldl (fun m t => (solo (progs t) (loc t, m)).2) m

theorem seqThreads_spec {F : Nat → Nat → Prop} {RO : Nat → Prop} (hdis : ∀ i j k, F i k → F j k → i = j)
    (hro : ∀ j k, F j k → ¬RO k) {progs : Nat → List (Act L E)} (hf : ∀ j, ∀ a ∈ progs j, Foot (F j) RO a)
    (loc : Nat → L) (m : Nat → E) : ∀ n,
    (∀ j k, j < n → F j k → seqThreads progs loc m n k = (solo (progs j) (loc j, m)).2 k) ∧
    ∀ k, (∀ j, j < n → ¬F j k) → seqThreads progs loc m n k = m k := by
  intro n
  induction n with
  | zero => exact ⟨fun j k h => absurd h (Nat.not_lt_zero _), fun _ _ => rfl⟩
  | succ n ih =>
    obtain ⟨h1, h2⟩ := ih
    have e : seqThreads progs loc m (n + 1) = (solo (progs n) (loc n, seqThreads progs loc m n)).2 := by
      unfold seqThreads; rw [List.range_succ, List.foldl_append]; rfl
    have hkeep : ∀ k, F n k ∨ RO k → seqThreads progs loc m n k = m k := by
      rintro k (hk | hk)
      · exact h2 k fun j hj hjk => by have := hdis _ _ _ hjk hk; omega
      · exact h2 k fun j _ hjk => hro _ _ hjk hk
    have hcongr := solo_congr (fun k hk => hro n k hk) (progs n) (hf n) (loc n) (seqThreads progs loc m n) m hkeep
    refine ⟨fun j k hj hk => ?_, fun k hk => ?_⟩
    · rw [e]
      by_cases hjn : j = n
      · subst hjn; exact hcongr.2 k hk
      · rw [solo_writes (progs n) (hf n) _ k (fun hh => hjn (hdis _ _ _ hk hh))]
        exact h1 j k (by omega) hk
    · rw [e, solo_writes (progs n) (hf n) _ k (hk n (Nat.lt_succ_self n))]
      exact h2 k fun j hj => hk j (by omega)

/-- Threads with disjoint footprints behave as if they ran one after the other. -/
theorem exec_seq {F : Nat → Nat → Prop} {RO : Nat → Prop} (hdis : ∀ i j k, F i k → F j k → i = j)
    (hro : ∀ j k, F j k → ¬RO k) {progs : Nat → List (Act L E)} (hf : ∀ j, ∀ a ∈ progs j, Foot (F j) RO a) {n : Nat}
    (hn : ∀ j, n ≤ j → progs j = []) {m m' : Nat → E} (h : Exec progs m m') : ∃ loc, m' = seqThreads progs loc m n := by
  classical
  obtain ⟨loc, sched, hdone, rfl⟩ := h
  refine ⟨loc, ?_⟩
  obtain ⟨r1, r2⟩ := run_spec hdis hro sched ⟨progs, loc, m⟩ hf hdone
  obtain ⟨s1, s2⟩ := seqThreads_spec hdis hro hf loc m n
  funext k
  by_cases hk : ∃ j, F j k
  · obtain ⟨j, hj⟩ := hk
    rw [r1 j k hj]
    by_cases hjn : j < n
    · exact (s1 j k hjn hj).symm
    · rw [s2 k fun i hi hik => hjn (by rw [← hdis _ _ _ hik hj]; exact hi)]
      show (solo (progs j) (loc j, m)).2 k = m k
      rw [hn j (by omega)]
      rfl
  · rw [r2 k (fun j hj => hk ⟨j, hj⟩), s2 k (fun j _ hj => hk ⟨j, hj⟩)]

theorem solo_append (as bs : List (Act L E)) (p : L × (Nat → E)) : solo (as ++ bs) p = solo bs (solo as p) :=
  List.foldl_append ..

/-- The iterations of a thread one after the other. -/
theorem solo_flatMap {body : Nat → List (Act L E)} {one : (Nat → E) → Nat → Nat → E} : ∀ (is : List Nat),
    (∀ i ∈ is, ∀ l m, (solo (body i) (l, m)).2 = one m i) → ∀ l m, (solo (is.flatMap body) (l, m)).2 = is.foldl one m := by
  intro is
  induction is with
  | nil => intro _ l m; rfl
  | cons i is ih =>
    intro h l m
    rw [List.flatMap_cons, solo_append, List.foldl_cons, ← h i (by simp) l m]
    exact ih (fun j hj => h j (by simp [hj])) _ _

theorem Assign.mem {nT lo hi : Nat} {w : Nat → List Nat} (h : Assign nT lo hi w) {t i : Nat} (ht : t < nT) (hi' : i ∈ w t) :
    lo ≤ i ∧ i < hi := by
  have : i ∈ (List.range nT).flatMap w := List.mem_flatMap.2 ⟨t, List.mem_range.2 ht, hi'⟩
  have := (h.mem_iff).1 this
  rw [List.mem_range'_1] at this
  omega

theorem Assign.inj {nT lo hi : Nat} {w : Nat → List Nat} (h : Assign nT lo hi w) {t t' i : Nat} (ht : t < nT) (ht' : t' < nT)
    (h1 : i ∈ w t) (h2 : i ∈ w t') : t = t' := by
  have hnd : ((List.range nT).flatMap w).Nodup := (h.nodup_iff).2 List.nodup_range'
  rw [List.flatMap_def] at hnd
  exact Pool.nodup_flatMap_getElem hnd (i := t) (j := t') (by rw [List.getElem?_map, List.getElem?_range ht]; rfl)
    (by rw [List.getElem?_map, List.getElem?_range ht']; rfl) h1 h2

/-- Iterations on different threads touch different cells, and no cell of `RO` is written. -/
structure Disjoint (nT lo hi : Nat) (G : Nat → Nat → Nat → Prop) (RO : Nat → Prop) (body : Nat → Nat → List (Act L E)) : Prop where
  dis : ∀ t t' i i' k, t < nT → t' < nT → lo ≤ i → i < hi → lo ≤ i' → i' < hi → t ≠ t' → i ≠ i' → G t i k → ¬G t' i' k
  ro : ∀ t i k, t < nT → lo ≤ i → i < hi → G t i k → ¬RO k
  foot : ∀ t i, t < nT → lo ≤ i → i < hi → ∀ a ∈ body t i, Foot (G t i) RO a

/-- The cells of a thread. -/
def cellsOf (nT : Nat) (w : Nat → List Nat) (G : Nat → Nat → Nat → Prop) (t k : Nat) : Prop := t < nT ∧ ∃ i ∈ w t, G t i k

theorem Disjoint.team {nT lo hi : Nat} {G : Nat → Nat → Nat → Prop} {RO : Nat → Prop} {body : Nat → Nat → List (Act L E)}
    (h : Disjoint nT lo hi G RO body) {w : Nat → List Nat} (hw : Assign nT lo hi w) :
    (∀ i j k, cellsOf nT w G i k → cellsOf nT w G j k → i = j) ∧ (∀ j k, cellsOf nT w G j k → ¬RO k) ∧
      ∀ j, ∀ a ∈ team nT w body j, Foot (cellsOf nT w G j) RO a := by
  refine ⟨?_, ?_, ?_⟩
  · rintro t t' k ⟨ht, i, hi1, hg⟩ ⟨ht', i', hi1', hg'⟩
    by_contra hne
    obtain ⟨a1, a2⟩ := hw.mem ht hi1
    obtain ⟨b1, b2⟩ := hw.mem ht' hi1'
    exact h.dis t t' i i' k ht ht' a1 a2 b1 b2 hne (by rintro rfl; exact hne (hw.inj ht ht' hi1 hi1')) hg hg'
  · rintro t k ⟨ht, i, hi1, hg⟩
    obtain ⟨a1, a2⟩ := hw.mem ht hi1
    exact h.ro t i k ht a1 a2 hg
  · intro t a ha
    unfold Omp.team at ha
    split at ha
    · rename_i ht
      obtain ⟨i, hi1, ha⟩ := List.mem_flatMap.1 ha
      obtain ⟨a1, a2⟩ := hw.mem ht hi1
      exact (h.foot t i ht a1 a2 a ha).mono fun k hk => ⟨ht, i, hi1, hk⟩
    · simp at ha

/-- Iterations that touch different cells on different threads: every interleaving ends like some sequence of whole
iterations, each run once on a thread below `nT`. -/
theorem For.lin {nT lo hi : Nat} {G : Nat → Nat → Nat → Prop} {RO : Nat → Prop} {body : Nat → Nat → List (Act L E)}
    (hd : Disjoint nT lo hi G RO body) {one : (Nat → E) → Nat × Nat → Nat → E}
    (hone : ∀ t i, t < nT → lo ≤ i → i < hi → ∀ l m, (solo (body t i) (l, m)).2 = one m (i, t)) {m m' : Nat → E}
    (h : For nT lo hi body m m') :
    ∃ l : List (Nat × Nat), (l.map Prod.fst).Perm (List.range' lo (hi - lo)) ∧ (∀ e ∈ l, e.2 < nT) ∧ m' = l.foldl one m := by
  obtain ⟨w, hw, hex⟩ := h
  obtain ⟨h1, h2, h3⟩ := hd.team hw
  obtain ⟨loc, rfl⟩ := exec_seq h1 h2 h3 (n := nT) (fun j hj => if_neg (by omega)) hex
  refine ⟨(List.range nT).flatMap fun t => (w t).map fun i => (i, t), ?_, ?_, ?_⟩
  · rw [List.map_flatMap]
    simp only [List.map_map, Function.comp_def, List.map_id']
    exact hw
  · intro e he
    obtain ⟨t, ht, he⟩ := List.mem_flatMap.1 he
    obtain ⟨i, -, rfl⟩ := List.mem_map.1 he
    exact List.mem_range.1 ht
  · unfold seqThreads
    have key : ∀ (ts : List Nat) (m : Nat → E), (∀ t ∈ ts, t < nT) →
        ts.foldl (fun m t => (solo (Omp.team nT w body t) (loc t, m)).2) m =
          (ts.flatMap fun t => (w t).map fun i => (i, t)).foldl one m := by
      intro ts
      induction ts with
      | nil => intro m _; rfl
      | cons t ts ih =>
        intro m hts
        have ht := hts t (by simp)
        rw [List.foldl_cons, List.flatMap_cons, List.foldl_append, ih _ (fun t' h' => hts t' (by simp [h'])), List.foldl_map]
        congr 1
        unfold Omp.team
        rw [if_pos ht]
        exact solo_flatMap (one := fun m i => one m (i, t)) (w t)
          (fun i hi' l m => by obtain ⟨a1, a2⟩ := hw.mem ht hi'; exact hone t i ht a1 a2 l m) _ _
    exact key _ m fun t ht => List.mem_range.1 ht

/-- … and there is no data race. -/
theorem Disjoint.no_race {nT lo hi : Nat} {G : Nat → Nat → Nat → Prop} {RO : Nat → Prop} {body : Nat → Nat → List (Act L E)}
    (hd : Disjoint nT lo hi G RO body) (m : Nat → E) : ¬ForRace nT lo hi body m := by
  rintro ⟨w, hw, hr⟩
  obtain ⟨h1, h2, h3⟩ := hd.team hw
  exact Par.no_race h1 h2 h3 m hr

/-- Every loop can run to its end. -/
theorem For.exists {nT lo hi : Nat} (hT : 1 ≤ nT) (body : Nat → Nat → List (Act L E)) (l : L) (m : Nat → E) : ∃ m', For nT lo hi body m m' := by
  let w : Nat → List Nat := fun t => if t = 0 then List.range' lo (hi - lo) else []
  obtain ⟨m', h⟩ := exec_exists (Omp.team nT w body) nT (fun j hj => if_neg (by omega)) l m
  refine ⟨m', w, ?_, h⟩
  obtain ⟨k, rfl⟩ : ∃ k, nT = k + 1 := ⟨nT - 1, by omega⟩
  unfold Omp.Assign
  have e : List.flatMap (fun a => w (a + 1)) (List.range k) = [] := by simp [List.flatMap_eq_nil_iff, w]
  rw [List.range_succ_eq_map, List.flatMap_cons, List.flatMap_map, e]
  simp [w]

/-- The ranges of `ThreadPool::parallelFor` are an assignment. -/
theorem assign_calls {nThreads lo hi : Nat} {calls : List Pool.Call} (_ht : 0 < nThreads) (_hlt : lo < hi)
    (hc : Pool.parallelFor nThreads lo hi = some calls) :
    Assign nThreads lo hi fun t => ((calls[t]?).map Pool.Call.indices).getD [] := by
  obtain ⟨_, hlen, _, _, hcov⟩ := Pool.parallelFor_some hc
  have hflat : (calls.map Pool.Call.indices).flatten = List.range' lo (hi - lo) := by
    rw [← Pool.ints_toNat, ← hcov, List.flatMap_def, List.map_flatten, List.map_map]
    rfl
  unfold Assign
  rw [← hflat]
  have e : (List.range nThreads).map (fun t => ((calls[t]?).map Pool.Call.indices).getD []) =
      calls.map Pool.Call.indices ++ List.replicate (nThreads - calls.length) [] := by
    apply List.ext_getElem
    · simp; omega
    · intro i h1 h2
      simp only [List.getElem_map, List.getElem_range, List.getElem_append, List.length_map]
      split
      · rename_i h; simp [h]
      · rename_i h; simp [List.getElem?_eq_none (Nat.le_of_not_lt h)]
  rw [List.flatMap_def, e, List.flatten_append]
  simp

end FF.Omp
