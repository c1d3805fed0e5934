import Verif.FftCtor

/-!
# Data races

Two threads race when, in some reachable state, the next action of one writes a cell that the next action of the other reads or writes.
-/

namespace FF.Par

variable {L E : Type}

/-- The action changes cell `c` in some state. -/
def WritesCell (a : Act L E) (c : Nat) : Prop := ∃ l m, (a (l, m)).2 c ≠ m c

/-- What the action does to the locals or to other cells depends on cell `c`. -/
def ReadsCell (a : Act L E) (c : Nat) : Prop :=
  ∃ l m m', (∀ k, k ≠ c → m k = m' k) ∧ ((a (l, m)).1 ≠ (a (l, m')).1 ∨ ∃ k, k ≠ c ∧ (a (l, m)).2 k ≠ (a (l, m')).2 k)

/-- A data race in some execution of the threads from memory `m`. -/
def Race (progs : Nat → List (Act L E)) (m : Nat → E) : Prop :=
  ∃ (loc : Nat → L) (sched : List Nat) (i j : Nat) (a b : Act L E) (c : Nat), i ≠ j ∧
    (((State.mk progs loc m).run sched).rest i).head? = some a ∧ (((State.mk progs loc m).run sched).rest j).head? = some b ∧
    WritesCell a c ∧ (WritesCell b c ∨ ReadsCell b c)

theorem rest_subset (progs : Nat → List (Act L E)) (loc : Nat → L) (m : Nat → E) (sched : List Nat) :
    ∀ j, ∀ a ∈ ((State.mk progs loc m).run sched).rest j, a ∈ progs j := by
  induction sched using List.reverseRecOn with
  | nil => intro j a h; exact h
  | append_singleton sched i ih =>
    have er : (State.mk progs loc m).run (sched ++ [i]) = ((State.mk progs loc m).run sched).step i := by
      simp [State.run, List.foldl_append]
    rw [er]
    generalize (State.mk progs loc m).run sched = s at *
    intro j a ha
    unfold State.step at ha
    split at ha
    · exact ih j a ha
    · rename_i b r hr
      by_cases hj : j = i
      · subst hj
        simp only [Function.update_self] at ha
        exact ih j a (by rw [hr]; simp [ha])
      · simp only [Function.update_of_ne hj] at ha
        exact ih j a ha

/-- Disjoint footprints exclude races. -/
theorem no_race {F : Nat → Nat → Prop} {RO : Nat → Prop} (hdis : ∀ i j k, F i k → F j k → i = j) (hro : ∀ j k, F j k → ¬RO k)
    {progs : Nat → List (Act L E)} (hf : ∀ j, ∀ a ∈ progs j, Foot (F j) RO a) (m : Nat → E) : ¬Race progs m := by
  rintro ⟨loc, sched, i, j, a, b, c, hij, ha, hb, ⟨l, m1, hw⟩, hacc⟩
  have hfa := hf i a (rest_subset progs loc m sched i a (List.mem_of_mem_head? ha))
  have hfb := hf j b (rest_subset progs loc m sched j b (List.mem_of_mem_head? hb))
  have hFi : F i c := by by_contra h; exact hw (hfa.writes l m1 c h)
  have hFj : ¬F j c := fun h => hij (hdis _ _ _ hFi h)
  rcases hacc with ⟨l', m2, hw'⟩ | ⟨l', m2, m3, hag, hr⟩
  · exact hw' (hfb.writes l' m2 c hFj)
  · have hagree : ∀ k, F j k ∨ RO k → m2 k = m3 k := by
      intro k hk
      apply hag
      rintro rfl
      rcases hk with hk | hk
      · exact hFj hk
      · exact hro i k hFi hk
    obtain ⟨h1, h2⟩ := hfb.reads l' m2 m3 hagree
    rcases hr with hr | ⟨k, hk, hr⟩
    · exact hr h1
    · by_cases hFk : F j k
      · exact hr (h2 k hFk)
      · rw [hfb.writes _ _ _ hFk, hfb.writes _ _ _ hFk] at hr
        exact hr (hag k hk)

/-- Threads of which at most one has anything to do do not race. -/
theorem no_race_single {progs : Nat → List (Act L E)} (i0 : Nat) (h : ∀ j, j ≠ i0 → progs j = []) (m : Nat → E) : ¬Race progs m := by
  rintro ⟨loc, sched, i, j, a, b, c, hij, ha, hb, -, -⟩
  have h1 := rest_subset progs loc m sched i a (List.mem_of_mem_head? ha)
  have h2 := rest_subset progs loc m sched j b (List.mem_of_mem_head? hb)
  have e1 : i = i0 := by by_contra hh; rw [h i hh] at h1; simp at h1
  have e2 : j = i0 := by by_contra hh; rw [h j hh] at h2; simp at h2
  exact hij (e1.trans e2.symm)

end FF.Par

namespace FF.Pool

open Par

variable {L E : Type}

/-- A loop whose iterations have disjoint footprints has no races. -/
theorem parFor_no_race {nThreads lo hi : Nat} {prog : Nat → List (Act L E)} (_ht : 0 < nThreads) (hlt : lo < hi)
    {G : Nat → Nat → Prop} (hdis : ∀ i j k, lo ≤ i → i < hi → lo ≤ j → j < hi → G i k → G j k → i = j)
    (hf : ∀ i, lo ≤ i → i < hi → ∀ a ∈ prog i, Foot (G i) (fun _ => False) a) {calls : List Call}
    (hc : parallelFor nThreads lo hi = some calls) (m : Nat → E) : ¬Race (threads calls prog) m := by
  obtain ⟨_, _, _, _, hcov⟩ := parallelFor_some hc
  have hflat : (calls.map Call.indices).flatten = List.range' lo (hi - lo) := by
    rw [← ints_toNat, ← hcov, List.flatMap_def, List.map_flatten, List.map_map]
    rfl
  have hnd : (calls.map Call.indices).flatten.Nodup := by rw [hflat]; exact List.nodup_range'
  have hrange : ∀ (j : Nat) (c : Call), calls[j]? = some c → ∀ i ∈ c.indices, lo ≤ i ∧ i < hi := by
    intro j c hj i hi'
    have : i ∈ (calls.map Call.indices).flatten := List.mem_flatten.2 ⟨c.indices, List.mem_map.2 ⟨c, List.mem_of_getElem? hj, rfl⟩, hi'⟩
    rw [hflat, List.mem_range'_1] at this
    omega
  refine no_race (F := fun j k => ∃ c, calls[j]? = some c ∧ ∃ i ∈ c.indices, G i k) (RO := fun _ => False) ?_ (fun _ _ _ h => h) ?_ m
  · rintro i j k ⟨c, hc1, x, hx, hg⟩ ⟨d, hd1, y, hy, hg'⟩
    obtain ⟨x1, x2⟩ := hrange i c hc1 x hx
    obtain ⟨y1, y2⟩ := hrange j d hd1 y hy
    obtain rfl := hdis _ _ _ x1 x2 y1 y2 hg hg'
    exact nodup_flatMap_getElem hnd (i := i) (j := j) (by rw [List.getElem?_map, hc1]; rfl) (by rw [List.getElem?_map, hd1]; rfl) hx hy
  · intro j a ha
    unfold threads at ha
    cases hcj : calls[j]? with
    | none => rw [hcj] at ha; simp at ha
    | some c =>
      rw [hcj] at ha
      obtain ⟨i, hi', ha⟩ := List.mem_flatMap.1 ha
      obtain ⟨x1, x2⟩ := hrange j c hcj i hi'
      exact (hf i x1 x2 a ha).mono (fun k hk => ⟨c, rfl, i, hi', hk⟩)

end FF.Pool

namespace FF.Fft

open Par Pool

variable {K : Type} [Field K]

/-- The table of roots is filled without races exactly unless there is one root per thread and at least three threads. -/
theorem ctor_race {n T : Nat} (hT : 0 < T) (hn : 2 ≤ n) (m : Nat → K) : Race (ctorThreads n T) m ↔ n / T = 1 ∧ 3 ≤ T := by
  have hprog := fun j => ctorThreads_eq (K := K) (n := n) hT j
  constructor
  · intro hrace
    by_contra hne
    by_cases hinc : n / T = 0
    · -- only the last thread works
      refine no_race_single (T - 1) (fun j hj => ?_) m hrace
      rw [hprog, if_neg]
      rintro ⟨h1, h2⟩
      unfold bStart bStop at h2
      rw [if_neg hj, hinc] at h2
      omega
    · by_cases h1 : n / T = 1
      · -- two threads, the first of which has nothing to do
        have hT2 : T ≤ 2 := by by_contra hh; exact hne ⟨h1, by omega⟩
        have hT2' : T = 2 := by
          have : T ≠ 1 := by rintro rfl; rw [Nat.div_one] at h1; omega
          omega
        subst hT2'
        refine no_race_single 1 (fun j hj => ?_) m hrace
        rw [hprog, if_neg]
        rintro ⟨h2, h3⟩
        have : j = 0 := by omega
        subst this
        unfold bStart bStop at h3
        simp at h3
        omega
      · have hstart : ∀ j, 2 ≤ bStart n T j := by
          intro j
          unfold bStart
          split
          · exact le_refl _
          · calc 2 ≤ n / T := by generalize n / T = x at *; omega
              _ ≤ j * (n / T) := Nat.le_mul_of_pos_left _ (by omega)
        have hord : ∀ i j, i < j → j < T → bStop n T i ≤ bStart n T j := by
          intro i j hij hj
          unfold bStop bStart
          rw [if_neg (by omega), if_neg (by omega)]
          exact Nat.mul_le_mul_right _ hij
        refine no_race (F := fun j c => j < T ∧ bStart n T j ≤ c ∧ c < bStop n T j) (RO := fun c => c = 1) ?_ ?_ ?_ m hrace
        · rintro i j c ⟨a1, a2, a3⟩ ⟨b1, b2, b3⟩
          rcases lt_trichotomy i j with hlt | heq | hgt
          · have := hord i j hlt b1; omega
          · exact heq
          · have := hord j i hgt a1; omega
        · rintro j c ⟨_, h2, _⟩ rfl
          have := hstart j; omega
        · intro j a ha
          rw [hprog] at ha
          split at ha
          · rename_i hj
            rcases List.mem_append.1 ha with ha | ha
            · exact expProg_foot (F := fun c => j < T ∧ bStart n T j ≤ c ∧ c < bStop n T j) (RO := fun c => c = 1)
                ⟨hj.1, le_refl _, hj.2⟩ (Or.inr rfl) _ a ha
            · unfold mulActs at ha
              obtain ⟨i, hi, rfl⟩ := List.mem_map.1 ha
              rw [List.mem_range'_1] at hi
              exact foot_write (F := fun c => j < T ∧ bStart n T j ≤ c ∧ c < bStop n T j) (RO := fun c => c = 1)
                (v := fun (_ : Loc K) a => a (i - 1) * a 1) ⟨hj.1, by omega, by omega⟩ fun l m m' hm => by
                  show m (i - 1) * m 1 = m' (i - 1) * m' 1
                  rw [hm (i - 1) (Or.inl ⟨hj.1, by omega, by omega⟩), hm 1 (Or.inr rfl)]
          · simp at ha
  · rintro ⟨h1, h3⟩
    have hnT : T ≤ n := by
      by_contra hh; rw [Nat.div_eq_of_lt (by omega)] at h1; omega
    have s1 : bStart n T 1 = 1 := by simp [bStart, h1]
    have s2 : bStart n T 2 = 2 := by simp [bStart, h1]
    have e1 : bStop n T 1 = 2 := by unfold bStop; rw [if_neg (by omega), h1]
    have e2 : 2 < bStop n T 2 := by
      unfold bStop; split
      · omega
      · rw [h1]; norm_num
    have p1 : ctorThreads (K := K) n T 1 = [fun p => ({ p.1 with t := p.2 1 }, p.2), fun p => (p.1, Function.update p.2 1 p.1.t)] := by
      rw [hprog, s1, e1, if_pos ⟨by omega, by norm_num⟩, expProg, expActs_one]
      rfl
    have p2 : ∃ r, ctorThreads (K := K) n T 2 = (fun p => ({ p.1 with t := p.2 1 }, p.2)) :: r := by
      rw [hprog, s2, if_pos ⟨by omega, e2⟩]
      exact ⟨_, rfl⟩
    obtain ⟨r, p2⟩ := p2
    refine ⟨fun _ => ⟨0, 0⟩, [1], 1, 2, fun p => (p.1, Function.update p.2 1 p.1.t), fun p => ({ p.1 with t := p.2 1 }, p.2), 1, by norm_num, ?_, ?_, ?_, ?_⟩
    · simp [State.run, State.step, p1]
    · simp [State.run, State.step, p1, p2]
    · exact ⟨⟨1, 0⟩, fun _ => 0, by simp⟩
    · right
      refine ⟨⟨0, 0⟩, fun _ => 0, fun k => if k = 1 then 1 else 0, fun k hk => by simp [hk], Or.inl ?_⟩
      simp

end FF.Fft
