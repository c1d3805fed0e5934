import Verif.MsmPar
import Verif.FftPool

/-!
# `MSM::run` on the worker protocol

The two loops of `c/msm.cpp` as a list of loops for the client of the worker transition system (`PoolSeq.lean`).  The shared memory holds
the digits and the points: cell `k` is the pair of `slicedScalars[k]` and of the point object `k` of `MsmPar.lean` (two objects, each
action touches one component).  The second loop takes the digits from that memory.
-/

set_option linter.unusedSectionVars false

namespace FF

/-- Threads whose actions do, seen through `pl` and `pm` and as long as `I` holds, what other threads' actions do. -/
theorem Par.Exec.sim {L E L' E' : Type} {pl : L → L'} {pm : (Nat → E) → Nat → E'} {I : (Nat → E) → Prop} {progs : Nat → List (Par.Act L E)}
    {progs' : Nat → List (Par.Act L' E')}
    (h : ∀ j, List.Forall₂ (fun a a' => ∀ l m, I m → a' (pl l, pm m) = (pl (a (l, m)).1, pm (a (l, m)).2) ∧ I (a (l, m)).2) (progs j) (progs' j))
    {m m' : Nat → E} (hI : I m) (he : Par.Exec progs m m') : Par.Exec progs' (pm m) (pm m') ∧ I m' := by
  obtain ⟨loc, sched, h1, h2⟩ := he
  have key : ∀ (sched : List Nat) (s : Par.State L E) (s' : Par.State L' E'),
      (∀ j, List.Forall₂ (fun a a' => ∀ l m, I m → a' (pl l, pm m) = (pl (a (l, m)).1, pm (a (l, m)).2) ∧ I (a (l, m)).2) (s.rest j) (s'.rest j)) →
      (∀ j, s'.loc j = pl (s.loc j)) → s'.mem = pm s.mem → I s.mem →
      (∀ j, (s.run sched).rest j = [] → (s'.run sched).rest j = []) ∧ (s'.run sched).mem = pm (s.run sched).mem ∧ I (s.run sched).mem := by
    intro sched
    induction sched with
    | nil =>
      intro s s' hr _ hm hI
      refine ⟨fun j hj => ?_, hm, hI⟩
      have hj' : s.rest j = [] := hj
      have := hr j
      rw [hj'] at this
      cases h' : s'.rest j with
      | nil => exact h'
      | cons a r => rw [h'] at this; cases this
    | cons j sched ih =>
      intro s s' hr hl hm hI
      show (∀ i, ((s.step j).run sched).rest i = [] → ((s'.step j).run sched).rest i = []) ∧ _
      refine ih (s.step j) (s'.step j) ?_ ?_ ?_ ?_
      all_goals
        have hj := hr j
        unfold Par.State.step
        cases e : s.rest j with
        | nil =>
          rw [e] at hj
          cases e' : s'.rest j with
          | nil => first | exact hr | exact hl | exact hm | exact hI
          | cons a r => rw [e'] at hj; cases hj
        | cons a r =>
          rw [e] at hj
          cases e' : s'.rest j with
          | nil => rw [e'] at hj; cases hj
          | cons a' r' =>
            rw [e'] at hj
            cases hj with
            | cons ha hrr =>
              have k := ha (s.loc j) s.mem hI
              rw [← hl j, ← hm] at k
              first
                | exact k.2
                | (dsimp only; rw [k.1]; done)
                | (intro i
                   dsimp only
                   by_cases hi : i = j
                   · subst hi; rw [Function.update_self, Function.update_self]; first | exact hrr | rw [k.1]
                   · rw [Function.update_of_ne hi, Function.update_of_ne hi]; first | exact hr i | exact hl i)
  obtain ⟨k1, k2, k3⟩ := key sched ⟨progs, loc, m⟩ ⟨progs', fun j => pl (loc j), pm m⟩ h (fun _ => rfl) rfl hI
  rw [h2] at k2 k3
  exact ⟨⟨_, sched, fun j => k1 j (h1 j), k2⟩, k3⟩

namespace Msm

open Par PME Pool Worker

variable {P PA : Type}

/-- The locals of a thread: `carry`, and the points. -/
abbrev MLoc (P : Type) := Nat × PLoc P

/-- An action on the digits, an action on the points. -/
def onInt (a : Act Nat ℤ) : Act (MLoc P) (ℤ × P) := fun p =>
  let x := a (p.1.1, fun k => (p.2 k).1)
  ((x.1, p.1.2), fun k => (x.2 k, (p.2 k).2))
def onPt (a : Act (PLoc P) P) : Act (MLoc P) (ℤ × P) := fun p =>
  let x := a (p.1.2, fun k => (p.2 k).2)
  ((p.1.1, x.1), fun k => ((p.2 k).1, x.2 k))

/-- One point of the bucket loop, `msm.cpp:76-85`, with the digit read from the memory.  Reading the digit and the bucket is one action: no
thread writes digits here. -/
def bucketD (G : GroupCode P PA) (bases : Nat → PA) (nChunks j off i : Nat) : List (Act (MLoc P) (ℤ × P)) :=
  [fun p =>
    let bucketIndex := (p.2 (i * nChunks + j)).1
    if bucketIndex > 0 then onPt (ld (fun l x => { l with u := x }) (acc (off + (bucketIndex - 1).toNat))) p
    else if bucketIndex < 0 then onPt (ld (fun l x => { l with u := x }) (acc (off + (-bucketIndex - 1).toNat))) p
    else p,
   fun p =>
    let bucketIndex := (p.2 (i * nChunks + j)).1
    if bucketIndex > 0 then onPt (stIf (fun _ => true) (acc (off + (bucketIndex - 1).toNat)) (fun l => G.addMix l.u (bases i))) p
    else if bucketIndex < 0 then onPt (stIf (fun _ => true) (acc (off + (-bucketIndex - 1).toNat)) (fun l => G.subMix l.u (bases i))) p
    else p]

/-- Body of the first loop, `msm.cpp:48-63`. -/
def sliceD (scalars : Nat → BitVec 8) (scalarSize b nChunks nBuckets t i : Nat) : List (Act (MLoc P) (ℤ × P)) :=
  (sliceBody scalars scalarSize b nChunks nBuckets t i).map onInt

/-- Body of the second loop, `msm.cpp:68-98`. -/
def chunkD (G : GroupCode P PA) (bases : Nat → PA) (nChunks nBuckets n t j : Nat) : List (Act (MLoc P) (ℤ × P)) :=
  let off := t * nBuckets
  ((List.range nBuckets).map fun i => onPt (stIf (fun _ => true) (acc (off + i)) (fun _ => G.zero))) ++
  ((List.range n).flatMap (bucketD G bases nChunks j off) ++
  ((ld (fun l x => { l with t := x, w := x }) (acc (off + (nBuckets - 1))) ::
  (sumActs G off (nBuckets - 1) ++ [stIf (fun _ => true) (sal j) (fun l => l.t)])).map onPt))

/-- The loops of `MSM::run` for two or more points, `msm.cpp:45-99`, as jobs for the pool of `T` threads; the thread number of a call is its
argument `numThread`. -/
def msmJobs (G : GroupCode P PA) (T : Nat) (bases : Nat → PA) (scalars : Nat → BitVec 8) (scalarSize n b : Nat) :
    Option (List (List (List (Act (MLoc P) (ℤ × P))))) :=
  let nChunks := msmChunkCount scalarSize b
  let nBuckets := msmBucketCount b
  match parallelFor T 0 n, parallelFor T 0 nChunks with
  | some c1, some c2 => some [c1.map fun c => c.indices.flatMap (sliceD scalars scalarSize b nChunks nBuckets c.k),
      c2.map fun c => c.indices.flatMap (chunkD G bases nChunks nBuckets n c.k)]
  | _, _ => none

/-- The result, `msm.cpp:101-107`, from the memory after the loops. -/
def msmResult (G : GroupCode P PA) (scalarSize b : Nat) (m : Nat → ℤ × P) : P :=
  let nChunks := msmChunkCount scalarSize b
  G.combine b (fun j => (m (sal j)).2) (nChunks - 1) (m (sal (nChunks - 1))).2

/-! ## Runs of the jobs are runs of the loops -/

theorem forall₂_map_right {α β γ : Type} {R : α → γ → Prop} {f : β → α} (l : List β) (g : β → γ) (h : ∀ x ∈ l, R (f x) (g x)) :
    List.Forall₂ R (l.map f) (l.map g) := by
  induction l with
  | nil => exact .nil
  | cons x l ih => exact .cons (h x List.mem_cons_self) (ih fun y hy => h y (List.mem_cons_of_mem _ hy))

theorem forall₂_flatMap {α β γ : Type} {R : α → γ → Prop} {f : β → List α} {g : β → List γ} (l : List β)
    (h : ∀ x ∈ l, List.Forall₂ R (f x) (g x)) : List.Forall₂ R (l.flatMap f) (l.flatMap g) := by
  induction l with
  | nil => exact .nil
  | cons x l ih =>
    rw [List.flatMap_cons, List.flatMap_cons]
    exact List.rel_append (h x List.mem_cons_self) (ih fun y hy => h y (List.mem_cons_of_mem _ hy))

/-- The calls of a parallel loop whose body gets the thread number. -/
theorem team_calls {L E L' E' : Type} {R : Act L E → Act L' E' → Prop} {T lo hi : Nat} {calls : List Call} (hc : parallelFor T lo hi = some calls)
    {f : Nat → Nat → List (Act L E)} {g : Nat → Nat → List (Act L' E')} (h : ∀ t i, List.Forall₂ R (f t i) (g t i)) (j : Nat) :
    List.Forall₂ R ((calls.map fun c => c.indices.flatMap (f c.k)).getD j [])
      (Omp.team T (fun t => ((calls[t]?).map Pool.Call.indices).getD []) g j) := by
  obtain ⟨-, hl, hk, -⟩ := parallelFor_some hc
  rw [List.getD_eq_getElem?_getD, List.getElem?_map, Omp.team]
  cases e : calls[j]? with
  | none => split <;> simp
  | some c =>
    have hj : j < T := lt_of_lt_of_le (List.getElem?_eq_some_iff.1 e).1 hl
    obtain ⟨hck, -⟩ := hk j c e
    rw [if_pos hj]
    simp only [Option.map_some, Option.getD_some, hck]
    exact forall₂_flatMap _ fun i _ => h j i

variable {G : GroupCode P PA} {T : Nat} {bases : Nat → PA} {scalars : Nat → BitVec 8} {size n b : Nat}

theorem msmP_of_exec (hT : 0 < T) (hn : 0 < n) {js : List (List (List (Act (MLoc P) (ℤ × P))))} (hj : msmJobs G T bases scalars size n b = some js)
    {m m' : Nat → ℤ × P} (h : ExecSeq js m m') :
    MsmP G T (fun k => (m k).2) (fun k => (m k).1) bases scalars size n b (msmResult G size b m') := by
  unfold msmJobs at hj
  dsimp only at hj
  split at hj
  · rename_i c1 c2 h1 h2
    obtain rfl := Option.some.inj hj
    obtain ⟨m1, e1, m2, e2, e3⟩ := h
    obtain rfl : m' = m2 := e3
    have hC : 0 < msmChunkCount size b := Nat.succ_pos _
    have a1 := Omp.assign_calls hT (lo := 0) hn h1
    have a2 := Omp.assign_calls hT (lo := 0) hC h2
    have s1 := Par.Exec.sim (pl := Prod.fst) (pm := fun m k => (m k).1) (I := fun x => (fun k => (x k).2) = fun k => (m k).2)
      (team_calls (lo := 0) h1 (f := sliceD scalars size b (msmChunkCount size b) (msmBucketCount b))
        (g := sliceBody scalars size b (msmChunkCount size b) (msmBucketCount b)) fun t i => by
        have := forall₂_map_right (R := fun (a : Act (MLoc P) (ℤ × P)) (a' : Act Nat ℤ) => ∀ l x, (fun k => (x k).2) = (fun k => (m k).2) →
            a' (l.1, fun k => (x k).1) = ((a (l, x)).1.1, fun k => ((a (l, x)).2 k).1) ∧ (fun k => ((a (l, x)).2 k).2) = fun k => (m k).2)
          (f := onInt) (sliceBody scalars size b (msmChunkCount size b) (msmBucketCount b) t i) id (fun a _ l x hx => ⟨rfl, hx⟩)
        rwa [List.map_id] at this) rfl e1
    obtain ⟨s1, i1⟩ := s1
    refine ⟨fun k => (m1 k).1, ⟨_, a1, s1⟩, fun k => (m' k).2, ⟨_, a2, ?_⟩, rfl⟩
    have lift : ∀ a : Act (PLoc P) P, ∀ (l : MLoc P) (x : Nat → ℤ × P), (fun k => (x k).1) = (fun k => (m1 k).1) →
        a (l.2, fun k => (x k).2) = ((onPt a (l, x)).1.2, fun k => ((onPt a (l, x)).2 k).2) ∧ (fun k => ((onPt a (l, x)).2 k).1) = fun k => (m1 k).1 :=
      fun a l x hx => ⟨rfl, hx⟩
    have s2 := Par.Exec.sim (pl := Prod.snd) (pm := fun m k => (m k).2) (I := fun x => (fun k => (x k).1) = fun k => (m1 k).1)
      (team_calls (lo := 0) h2 (f := chunkD G bases (msmChunkCount size b) (msmBucketCount b) n)
        (g := chunkBody G bases (fun k => (m1 k).1) (msmChunkCount size b) (msmBucketCount b) n) fun t j => by
        unfold chunkD chunkBody
        dsimp only
        refine List.rel_append ?_ (List.rel_append ?_ ?_)
        · rw [← List.flatMap_singleton' (l := (List.range _).map _), List.flatMap_map]
          exact forall₂_flatMap _ fun i _ => .cons (lift _) .nil
        · refine forall₂_flatMap _ fun i _ => ?_
          unfold bucketD bucketActs
          dsimp only
          split
          · rename_i hd
            refine .cons (fun l x hx => ?_) (.cons (fun l x hx => ?_) .nil)
            all_goals
              have e := congrFun hx (i * msmChunkCount size b + j)
              dsimp only at e ⊢
              rw [e, if_pos hd]
              exact lift _ l x hx
          · split
            · rename_i hd' hd
              refine .cons (fun l x hx => ?_) (.cons (fun l x hx => ?_) .nil)
              all_goals
                have e := congrFun hx (i * msmChunkCount size b + j)
                dsimp only at e ⊢
                rw [e, if_neg hd', if_pos hd]
                exact lift _ l x hx
            · rename_i hd' hd
              refine .cons (fun l x hx => ?_) (.cons (fun l x hx => ?_) .nil)
              all_goals
                have e := congrFun hx (i * msmChunkCount size b + j)
                dsimp only at e ⊢
                rw [e, if_neg hd', if_neg hd]
                exact ⟨rfl, hx⟩
        · have := forall₂_map_right (R := fun (a : Act (MLoc P) (ℤ × P)) (a' : Act (PLoc P) P) => ∀ l x, (fun k => (x k).1) = (fun k => (m1 k).1) →
              a' (l.2, fun k => (x k).2) = ((a (l, x)).1.2, fun k => ((a (l, x)).2 k).2) ∧ (fun k => ((a (l, x)).2 k).1) = fun k => (m1 k).1)
            (f := onPt) (ld (fun l x => { l with t := x, w := x }) (acc (t * msmBucketCount b + (msmBucketCount b - 1))) ::
              (sumActs G (t * msmBucketCount b) (msmBucketCount b - 1) ++ [stIf (fun _ => true) (sal j) (fun l => l.t)])) id (fun a _ => lift a)
          rwa [List.map_id] at this) rfl e2
    have := s2.1
    have hm : (fun k => (m1 k).2) = fun k => (m k).2 := i1
    rw [hm] at this
    exact this
  · cases hj

theorem msmJobs_some (hT : 0 < T) (hT31 : T < 2 ^ 31) (hn : 0 < n) (hn31 : n < 2 ^ 31) (hC : msmChunkCount size b < 2 ^ 31) :
    ∃ js, msmJobs G T bases scalars size n b = some js ∧ js ≠ [] ∧ ∀ j ∈ js, j.length ≤ T := by
  obtain ⟨c1, h1, -⟩ := parallelFor_spec hT hT31 (lo := 0) (hi := n) (by omega) (by omega)
  have hC' : 0 < msmChunkCount size b := Nat.succ_pos _
  obtain ⟨c2, h2, -⟩ := parallelFor_spec hT hT31 (lo := 0) (hi := msmChunkCount size b) (by omega) (by omega)
  refine ⟨_, by simp only [msmJobs, h1, h2]; rfl, by simp, ?_⟩
  intro j hj
  simp only [List.mem_cons, List.not_mem_nil, or_false] at hj
  rcases hj with rfl | rfl
  · rw [List.length_map]; exact (parallelFor_some h1).2.1
  · rw [List.length_map]; exact (parallelFor_some h2).2.1

end Msm
end FF
