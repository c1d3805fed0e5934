import Verif.Props.ConcFft

/-!
# C93: multiplication of polynomials, instruction by instruction on several x86-64 threads

What a prover does with the class: transform two arrays with one object, multiply them cell by cell with the raw multiplication in a parallel loop, and transform back.
All of it runs on the machine of C92; the two arrays, the tables of the object and the locals of the threads lie in one memory.
-/

namespace FF.Props

open FF.Conc FF.Fft FF.Pool Polynomial
open FF.X86 (State InArr InStk rd Sep rawFrame)

/-- Elements `0 … n - 1` are the first array, `A … A + n - 1` the second one.  This is how the transform of the second array numbers the elements: the arrays change
places, tables and locals stay. -/
def swapArr (n A p : Nat) : Nat := if p < n then A + p else if A ≤ p ∧ p < A + n then p - A else p

/-- `mul(a[i], a[i], b[i])`, `src/fr.hpp.ejs:239`. -/
def rawPoint (A _j i : Nat) : List RawInstr := [⟨.mul, i, i, A + i⟩]

/-- `fft(a, n); fft(b, n); parallelFor(0, n, a[i] *= b[i]); ifft(a, n)` on `T` threads (the caller's code; `fft` and `ifft` are `c/fft.cpp:176-224`). -/
def RawProduct (q S T : Nat) (loc : Nat → BitVec 64) (y : X86.Sym → BitVec 64) (n : BitVec 64) (m m' : Conc.Mem) : Prop :=
  ∃ A, A = fftElems n.toNat (tabSize S) T ∧ ∃ m1 m2 m3, RawFft q (A + n.toNat) S T loc y n m m1 ∧
    RawFft q (A + n.toNat) S T (fun p => loc (swapArr n.toNat A p)) y n m1 m2 ∧
    RawLoop q (A + n.toNat) T loc y 0 n.toNat (rawPoint A) m2 m3 ∧ RawIfft q (A + n.toNat) S T loc y n m3 m'

section
variable {n A : Nat}

theorem swapArr_lt {p : Nat} (hp : p < A + n) : swapArr n A p < A + n := by unfold swapArr; split <;> [omega; split <;> omega]

theorem swapArr_inj (h : n ≤ A) {p p' : Nat} (e : swapArr n A p = swapArr n A p') : p = p' := by
  unfold swapArr at e
  split at e <;> split at e <;> (try split at e) <;> (try split at e) <;> omega

theorem swapArr_arr {i : Nat} (hi : i < n) : swapArr n A i = A + i := if_pos hi

theorem swapArr_back (h : n ≤ A) {i : Nat} (hi : i < n) : swapArr n A (A + i) = i := by
  unfold swapArr; rw [if_neg (by omega), if_pos (by omega)]; omega

theorem swapArr_mid {p : Nat} (h1 : n ≤ p) (h2 : p < A) : swapArr n A p = p := by
  unfold swapArr; rw [if_neg (by omega), if_neg (by omega)]

theorem Place.swap {ι : Type} {q : Nat} {loc : Nat → BitVec 64} {stack : ι → BitVec 64} {y : X86.Sym → BitVec 64} (hA : n ≤ A) (h : Place q (A + n) loc stack y) :
    Place q (A + n) (fun p => loc (swapArr n A p)) stack y :=
  ⟨h.fits, fun _ hp _ hp' hne => h.apart _ (swapArr_lt hp) _ (swapArr_lt hp') fun e => hne (swapArr_inj hA e), fun _ hp => h.elemTables _ (swapArr_lt hp),
    fun i _ hp => h.elemStack i _ (swapArr_lt hp), h.tablesStack, fun i _ hp => h.ret i _ (swapArr_lt hp), h.stackOff⟩

/-- The products of the cells of a part of the range. -/
theorem point_spec {K : Type} [Zero K] [Add K] [Sub K] [Neg K] [Mul K] (hA : n ≤ A) (j : Nat) (is : List Nat) (hnd : is.Nodup) (hlt : ∀ i ∈ is, i < n) (σ : Nat → K)
    (p : Nat) (hp : p ∈ is) : rawSpec (is.flatMap (rawPoint A j)) σ p = σ p * σ (A + p) := by
  induction is generalizing σ with
  | nil => cases hp
  | cons i is ih =>
    obtain ⟨h1, h2⟩ := List.nodup_cons.1 hnd
    have hi := hlt i (by simp)
    show rawSpec (is.flatMap (rawPoint A j)) (fun p => if p = i then σ i * σ (A + i) else σ p) p = _
    by_cases e : p = i
    · subst e
      have hns : ¬ RawSets (is.flatMap (rawPoint A j)) p := by
        rintro ⟨r, hr, hrp⟩
        obtain ⟨i', hi', h⟩ := List.mem_flatMap.1 hr
        rw [List.mem_singleton.1 h] at hrp
        exact h1 (hrp ▸ hi')
      rw [rawSpec_kept _ _ hns, if_pos rfl]
    · rw [ih h2 (fun i' hi' => hlt i' (by simp [hi'])) _ ((List.mem_cons.1 hp).resolve_left e)]
      rw [if_neg e, if_neg (show A + p ≠ i by omega)]

end

section
variable {q n R T A E : Nat} [Fact q.Prime] [Fact (q % 2 = 1)] {loc : Nat → BitVec 64} {y : X86.Sym → BitVec 64} {tab a b : Nat → El q} {m m' : Conc.Mem} {calls : List Call}

omit [Fact q.Prime] [Fact (q % 2 = 1)] in
theorem point_conditions (hA : n + R ≤ A) (hE : A + n ≤ E) (hc : parallelFor T (0 : Nat) n = some calls) (hm : Holds q n R loc y tab a m)
    (hb : ∀ i < n, rd m (loc (A + i)) (n64 q) = (b i).v) :
    (∀ j : Fin T, ∀ r ∈ rawBlock calls (rawPoint A) j, ∃ i < n, r = ⟨.mul, i, i, A + i⟩) ∧
    (∀ j : Fin T, ∀ r ∈ rawBlock calls (rawPoint A) j, ∀ p, r.uses p → p < E) ∧
    (∀ j j' : Fin T, j ≠ j' → ∀ p, RawSets (rawBlock calls (rawPoint A) j) p → ¬ RawNames (rawBlock calls (rawPoint A) j') p) ∧
    ∀ (j : Fin T) p, RawNeeds (rawBlock calls (rawPoint A) j) p → rd m (loc p) (n64 q) = (if p < n then a p else b (p - A)).v := by
  have hform : ∀ j : Fin T, ∀ r ∈ rawBlock calls (rawPoint A) j, ∃ c, calls[j.val]? = some c ∧ ∃ i ∈ c.indices, i < n ∧ r = ⟨.mul, i, i, A + i⟩ := by
    intro j r hr
    obtain ⟨c, hj, i, hi, h⟩ := block_mem hr
    exact ⟨c, hj, i, hi, (calls_range hc hj hi).2, List.mem_singleton.1 h⟩
  refine ⟨fun j r hr => ?_, fun j r hr p hp => ?_, ?_, fun j p hp => ?_⟩
  · obtain ⟨-, -, i, -, hi, rfl⟩ := hform j r hr
    exact ⟨i, hi, rfl⟩
  · obtain ⟨-, -, i, -, hi, rfl⟩ := hform j r hr
    rcases hp with h | ⟨-, h⟩ | ⟨-, h⟩ <;> simp only at h <;> omega
  · rintro j j' hne p ⟨r, hr, rfl⟩ ⟨r', hr', hp⟩
    obtain ⟨c, hj, i, hi, hin, rfl⟩ := hform j r hr
    obtain ⟨c', hj', i', hi', hin', rfl⟩ := hform j' r' hr'
    have e : i = i' := by rcases hp with h | ⟨-, h⟩ | ⟨-, h⟩ <;> simp only at h <;> omega
    subst e
    exact hne (Fin.ext (calls_inj hc hj hj' hi hi'))
  · obtain ⟨c, hj, i, hi, h⟩ := block_needs hp
    have hin := (calls_range hc hj hi).2
    rcases h with (⟨-, h⟩ | ⟨-, h⟩) | ⟨-, h⟩
    · simp only at h
      subst h
      rw [if_pos hin]; exact hm.arr _ hin
    · simp only at h
      subst h
      rw [if_neg (by omega), Nat.add_sub_cancel_left]; exact hb i hin
    · exact h.elim

theorem point_run (hA : n + R ≤ A) (hE : A + n ≤ E) (hm : Holds q n R loc y tab a m) (hb : ∀ i < n, rd m (loc (A + i)) (n64 q) = (b i).v)
    (hr : RawLoop q E T loc y (0 : Nat) n (rawPoint A) m m') : Holds q n R loc y tab (fun i => a i * b i) m' := by
  obtain ⟨calls, hc, hph⟩ := hr
  obtain ⟨c0, c1, c2, c3⟩ := point_conditions hA hE hc hm hb
  obtain ⟨r1, r2, r3⟩ := hph.result hm.printed c1 c2 (σ := fun p => if p < n then a p else b (p - A)) c3
  refine ⟨r3, fun i hi => ?_, fun i hi => ?_⟩
  · rw [r2 (n + i) (by omega) fun j ⟨r, hr, hrp⟩ => ?_]
    · exact hm.tab i hi
    · obtain ⟨i', hi', rfl⟩ := c0 j r hr
      simp only at hrp; omega
  · have hfl := calls_flat hc
    have hnd : (calls.map Call.indices).flatten.Nodup := by rw [hfl]; exact List.nodup_range'
    have hmem : i ∈ (calls.map Call.indices).flatten := by rw [hfl, List.mem_range'_1]; omega
    obtain ⟨is, h1, h2⟩ := List.mem_flatten.1 hmem
    have hndi := (List.nodup_flatten.1 hnd).1 is h1
    obtain ⟨c, hcm, rfl⟩ := List.mem_map.1 h1
    obtain ⟨j, hj⟩ := List.mem_iff_getElem?.1 hcm
    have hjT : j < T := lt_of_lt_of_le (List.getElem?_eq_some_iff.1 hj).1 (parallelFor_some hc).2.1
    have eb : rawBlock calls (rawPoint A) j = c.indices.flatMap (rawPoint A j) := by unfold rawBlock; rw [hj]
    have := r1 ⟨j, hjT⟩ i (by
      rw [eb]
      exact ⟨⟨.mul, i, i, A + i⟩, List.mem_flatMap.2 ⟨i, h2, List.mem_singleton.2 rfl⟩, rfl⟩)
    rw [this, eb, point_spec (n := n) (by omega) j _ hndi (fun i' hi' => (calls_range hc hj hi').2) _ i h2, if_pos hi, if_neg (by omega), Nat.add_sub_cancel_left]

theorem point_exists (hT : 0 < T) (hT31 : T < 2 ^ 31) (hn : 0 < n) (hn31 : n < 2 ^ 31) (hA : n + R ≤ A) (hE : A + n ≤ E) (hm : Holds q n R loc y tab a m)
    (hb : ∀ i < n, rd m (loc (A + i)) (n64 q) = (b i).v) {stack : Fin T → BitVec 64} (hp : Place q E loc stack y) :
    ∃ m', RawLoop q E T loc y (0 : Nat) n (rawPoint A) m m' := by
  obtain ⟨calls, hc, -⟩ := parallelFor_spec (lo := (0 : Nat)) (hi := n) hT hT31 (by exact_mod_cast hn) (by omega)
  obtain ⟨c0, c1, c2, c3⟩ := point_conditions hA hE hc hm hb
  obtain ⟨m', h⟩ := phase_exists hp hm.printed c1 c2 (σ := fun p => if p < n then a p else b (p - A)) c3
  exact ⟨m', calls, hc, h⟩

/-- C93: the loop over the cells goes on under every schedule without a data race until all threads have returned, and leaves the products. -/
theorem C93_loop (hT : 0 < T) (hT31 : T < 2 ^ 31) (hn : 0 < n) (hn31 : n < 2 ^ 31) (hA : n + R ≤ A) (hE : A + n ≤ E) (hm : Holds q n R loc y tab a m)
    (hb : ∀ i < n, rd m (loc (A + i)) (n64 q) = (b i).v) :
    (∃ calls, parallelFor T (0 : Nat) n = some calls ∧ Orderly q E loc y (fun j : Fin T => rawBlock calls (rawPoint A) j) m) ∧
    ∀ m', RawLoop q E T loc y (0 : Nat) n (rawPoint A) m m' → Holds q n R loc y tab (fun i => a i * b i) m' := by
  obtain ⟨calls, hc, -⟩ := parallelFor_spec (lo := (0 : Nat)) (hi := n) hT hT31 (by exact_mod_cast hn) (by omega)
  obtain ⟨c0, c1, c2, c3⟩ := point_conditions hA hE hc hm hb
  exact ⟨⟨calls, hc, orderly hm.printed c1 c2 (σ := fun p => if p < n then a p else b (p - A)) c3⟩, fun m' hr => point_run hA hE hm hb hr⟩

omit [Fact q.Prime] [Fact (q % 2 = 1)] in
/-- The second array, seen by its transform. -/
theorem Holds.swap (hA : n + R ≤ A) (hm : Holds q n R loc y tab a m) (hb : ∀ i < n, rd m (loc (A + i)) (n64 q) = (b i).v) :
    Holds q n R (fun p => loc (swapArr n A p)) y tab b m :=
  ⟨hm.printed, fun i hi => by simp only [swapArr_mid (show n ≤ n + i by omega) (show n + i < A by omega)]; exact hm.tab i hi,
    fun i hi => by simp only [swapArr_arr hi]; exact hb i hi⟩

omit [Fact q.Prime] [Fact (q % 2 = 1)] in
/-- And back. -/
theorem Holds.unswap (hA : n + R ≤ A) (hm : Holds q n R (fun p => loc (swapArr n A p)) y tab b m) (ha : ∀ i < n, rd m (loc i) (n64 q) = (a i).v) :
    Holds q n R loc y tab a m ∧ ∀ i < n, rd m (loc (A + i)) (n64 q) = (b i).v :=
  ⟨⟨hm.printed, fun i hi => by
      have := hm.tab i hi
      simp only [swapArr_mid (show n ≤ n + i by omega) (show n + i < A by omega)] at this
      exact this, ha⟩,
    fun i hi => by
      have := hm.arr i hi
      simp only [swapArr_arr hi] at this
      exact this⟩

end

section
variable {q : Nat} [Fact q.Prime] [Fact (q % 2 = 1)] {F : Obj (El q)} {k T : Nat} {loc : Nat → BitVec 64} {y : X86.Sym → BitVec 64} {a b : Nat → El q} {m : Conc.Mem}

/-- C93: for every object that the constructor returns, two arrays in memory with the coefficients of two polynomials whose product has degree below the size, every
number of threads, every order of their instructions and every delay of their stores: the run of the four steps comes to an end, and each ends with the coefficients of
the product in the first array.  Missing: sizes one and two, where `ifft` stops the program (`C42_violation_small`). -/
theorem C93_product_partial {T0 : Nat} (hT0 : 0 < T0) (N : BitVec 64) (hF : CtorL q T0 N (some F)) (hk : k ≤ F.s) (hk30 : k ≤ 30) (hk2 : 2 ≤ k) (hT : 0 < T)
    (hT31 : T < 2 ^ 31) (f g : (ZMod q)[X]) (hd : f.natDegree + g.natDegree < 2 ^ k) (ha : ∀ i < 2 ^ k, (a i).toZ = f.coeff i)
    (hb : ∀ i < 2 ^ k, (b i).toZ = g.coeff i) (hm : Holds q (2 ^ k) (tabSize F.s) loc y (fftTab F) a m)
    (hm2 : ∀ i < 2 ^ k, rd m (loc (fftElems (2 ^ k) (tabSize F.s) T + i)) (n64 q) = (b i).v) :
    (∀ stack : Fin T → BitVec 64, Place q (fftElems (2 ^ k) (tabSize F.s) T + 2 ^ k) loc stack y →
      ∃ m', RawProduct q F.s T loc y (BitVec.ofNat 64 (2 ^ k)) m m') ∧
    ∀ m', RawProduct q F.s T loc y (BitVec.ofNat 64 (2 ^ k)) m m' →
      ∃ c, Holds q (2 ^ k) (tabSize F.s) loc y (fftTab F) c m' ∧ ∀ i < 2 ^ k, (c i).toZ = (f * g).coeff i := by
  have hlt : 2 ^ k < 2 ^ 31 := Nat.pow_lt_pow_right (by norm_num) (by omega)
  have hpos := Nat.two_pow_pos k
  have en : (BitVec.ofNat 64 (2 ^ k)).toNat = 2 ^ k := by rw [BitVec.toNat_ofNat]; exact Nat.mod_eq_of_lt (by omega)
  unfold RawProduct
  rw [en]
  have hA : 2 ^ k + tabSize F.s ≤ fftElems (2 ^ k) (tabSize F.s) T := by unfold fftElems; omega
  generalize hAe : fftElems (2 ^ k) (tabSize F.s) T = A at hA hm2
  have hE : fftElems (2 ^ k) (tabSize F.s) T ≤ A + 2 ^ k := by omega
  have first : ∀ m1, RawFft q (A + 2 ^ k) F.s T loc y (BitVec.ofNat 64 (2 ^ k)) m m1 → ∃ a1, FftRun F T (BitVec.ofNat 64 (2 ^ k)) a a1 ∧
      Holds q (2 ^ k) (tabSize F.s) (fun p => loc (swapArr (2 ^ k) A p)) y (fftTab F) b m1 ∧ ∀ i < 2 ^ k, rd m1 (loc i) (n64 q) = (a1 i).v := by
    intro m1 h1
    obtain ⟨a1, p1, hm1, k1⟩ := fft_raw hT hT31 hk30 hE hm h1
    exact ⟨a1, p1, hm1.swap hA fun i hi => by rw [k1 (A + i) (by omega) (by omega), hm2 i hi], hm1.arr⟩
  have second : ∀ m1 m2 a1, Holds q (2 ^ k) (tabSize F.s) (fun p => loc (swapArr (2 ^ k) A p)) y (fftTab F) b m1 → (∀ i < 2 ^ k, rd m1 (loc i) (n64 q) = (a1 i : El q).v) →
      RawFft q (A + 2 ^ k) F.s T (fun p => loc (swapArr (2 ^ k) A p)) y (BitVec.ofNat 64 (2 ^ k)) m1 m2 → ∃ b1, FftRun F T (BitVec.ofNat 64 (2 ^ k)) b b1 ∧
      Holds q (2 ^ k) (tabSize F.s) loc y (fftTab F) a1 m2 ∧ ∀ i < 2 ^ k, rd m2 (loc (A + i)) (n64 q) = (b1 i).v := by
    intro m1 m2 a1 hm1 ha1 h2
    obtain ⟨b1, p2, hm2', k2⟩ := fft_raw hT hT31 hk30 hE hm1 h2
    refine ⟨b1, p2, hm2'.unswap hA fun i hi => ?_⟩
    have := k2 (A + i) (by omega) (by omega)
    simp only [swapArr_back (show 2 ^ k ≤ A by omega) hi] at this
    rw [this, ha1 i hi]
  constructor
  · intro stack hp
    obtain ⟨m1, h1⟩ := fft_raw_exists hT hT31 hk30 hk hE hm hp
    obtain ⟨a1, -, hm1, ha1⟩ := first m1 h1
    obtain ⟨m2, h2⟩ := fft_raw_exists hT hT31 hk30 hk hE hm1 (hp.swap (by omega))
    obtain ⟨b1, -, hm2', hb1⟩ := second m1 m2 a1 hm1 ha1 h2
    obtain ⟨m3, h3⟩ := point_exists hT hT31 hpos hlt hA le_rfl hm2' hb1 hp
    obtain ⟨m', h4⟩ := ifft_raw_exists hT hT31 hk30 hk2 hk hE (point_run hA le_rfl hm2' hb1 h3) hp
    exact ⟨m', A, rfl, m1, m2, m3, h1, h2, by exact_mod_cast h3, h4⟩
  · rintro m' ⟨A', rfl, m1, m2, m3, h1, h2, h3, h4⟩
    obtain ⟨a1, p1, hm1, ha1⟩ := first m1 h1
    obtain ⟨b1, p2, hm2', hb1⟩ := second m1 m2 a1 hm1 ha1 h2
    obtain ⟨c, p4, hm4, -⟩ := ifft_raw hT hT31 hk30 hk2 hk hE (point_run hA le_rfl hm2' hb1 (by exact_mod_cast h3)) h4
    exact ⟨c, hm4, C75_product_partial hT0 N F hF k hk hk30 hk2 hT f g hd a b a1 b1 _ c ha hb p1 p2 (fun i _ => rfl) p4⟩

end

section sample

local instance : Fact (bnR % 2 = 1) := ⟨by decide +kernel⟩

/-- `5 · X` times `7 · X` in arrays of `2 ^ 20` cells, with a table of order `2 ^ 28`, on five threads. -/
example : ∃ (F : Obj (El bnR)) (m m' : Conc.Mem), F.s = 28 ∧ RawProduct bnR F.s 5 sampleLoc sampleSym (BitVec.ofNat 64 (2 ^ 20)) m m' ∧
    rd m' (sampleLoc 2) (n64 bnR) = (El.ofZ (q := bnR) 35).v := by
  obtain ⟨F, hF, hs⟩ := sample_ctor
  have hR : tabSize F.s = 268435485 := by rw [hs]; rfl
  let f : Polynomial (ZMod bnR) := Polynomial.C 5 * Polynomial.X
  let g : Polynomial (ZMod bnR) := Polynomial.C 7 * Polynomial.X
  have hf : f.natDegree ≤ 1 := Polynomial.natDegree_C_mul_le 5 _ |>.trans Polynomial.natDegree_X_le
  have hg : g.natDegree ≤ 1 := Polynomial.natDegree_C_mul_le 7 _ |>.trans Polynomial.natDegree_X_le
  let a : Nat → El bnR := fun i => El.ofZ (f.coeff i)
  let b : Nat → El bnR := fun i => El.ofZ (g.coeff i)
  have hA : fftElems (2 ^ 20) (tabSize F.s) 5 = 269484071 := by rw [hR, fftElems]; norm_num
  let e : Nat → El bnR := fun p => if p < 269484071 then startElems (2 ^ 20) (tabSize F.s) (fftTab F) a (fun _ => ⟨0, 0⟩) p else b (p - 269484071)
  have st := start_sim (n := 2 ^ 20) (R := tabSize F.s) (fftTab F) a (fun _ => ⟨0, 0⟩) 0
  have hm : Holds bnR (2 ^ 20) (tabSize F.s) sampleLoc sampleSym (fftTab F) a (sampleMem e) := by
    refine ⟨sample_printed _, fun i hi => ?_, fun i hi => ?_⟩
    · rw [hR] at hi
      rw [sample_rd (by omega), show e (2 ^ 20 + i) = _ from if_pos (by omega), st.tab i (by omega)]
    · rw [sample_rd (by omega), show e i = _ from if_pos (by omega), st.arr i hi]
  have hm2 : ∀ i < 2 ^ 20, rd (sampleMem e) (sampleLoc (fftElems (2 ^ 20) (tabSize F.s) 5 + i)) (n64 bnR) = (b i).v := by
    intro i hi
    rw [hA, sample_rd (by omega), show e (269484071 + i) = _ from if_neg (by omega), Nat.add_sub_cancel_left]
  have hp : Place bnR (fftElems (2 ^ 20) (tabSize F.s) 5 + 2 ^ 20) sampleLoc (sampleStack 5) sampleSym := sample_place (by rw [hA]; norm_num) (by norm_num)
  obtain ⟨h1, h2⟩ := C93_product_partial (by norm_num) _ hF (k := 20) (T := 5) (by omega) (by norm_num) (by norm_num) (by norm_num) (by norm_num) f g
    (lt_of_le_of_lt (add_le_add hf hg) (by norm_num)) (fun i _ => El.toZ_ofZ _) (fun i _ => El.toZ_ofZ _) hm hm2
  obtain ⟨m', h⟩ := h1 _ hp
  obtain ⟨c, hc, hcv⟩ := h2 m' h
  refine ⟨F, _, m', hs, h, ?_⟩
  have : f * g = Polynomial.C 35 * Polynomial.X ^ 2 := by
    simp only [f, g]
    rw [show (35 : ZMod bnR) = 5 * 7 by norm_num, Polynomial.C_mul]; ring
  rw [hc.arr 2 (by norm_num)]
  refine congrArg El.v (El.toZ_inj ?_)
  rw [hcv 2 (by norm_num), this, Polynomial.coeff_C_mul, Polynomial.coeff_X_pow, if_pos rfl, mul_one, El.toZ_ofZ]

end sample

end FF.Props
