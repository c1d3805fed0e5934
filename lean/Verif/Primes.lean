import Verif.Consts
import Mathlib.NumberTheory.LucasPrimality
import Mathlib.Tactic.NormNum.Prime

/-!
# Primality of the concrete moduli

Lucas certificates, with modular powers evaluated in the kernel.
-/

namespace FF

/-- `acc · a^e mod m` by squaring; the first argument bounds the number of bits of `e`. -/
def powModAux (m : Nat) : Nat → Nat → Nat → Nat → Nat
  | 0, _, _, acc => acc
  | n + 1, a, e, acc => powModAux m n (a * a % m) (e / 2) (if e % 2 = 1 then acc * a % m else acc)

/-- `a^e mod m`. -/
def powMod (m a e : Nat) : Nat := powModAux m (e.log2 + 1) (a % m) e (1 % m)

theorem powModAux_cast (m : Nat) : ∀ n a e acc, e < 2 ^ n → ((powModAux m n a e acc : Nat) : ZMod m) = (acc : ZMod m) * (a : ZMod m) ^ e := by
  intro n
  induction n with
  | zero => intro a e acc h; obtain rfl : e = 0 := by simpa using h
            simp [powModAux]
  | succ n ih =>
    intro a e acc h
    rw [powModAux, ih _ _ _ (by omega)]
    have hm : ∀ x : Nat, ((x % m : Nat) : ZMod m) = (x : ZMod m) := fun x => ZMod.natCast_mod x m
    rw [hm, Nat.cast_mul]
    have he : e = 2 * (e / 2) + e % 2 := by omega
    conv_rhs => rw [he, pow_add, pow_mul, pow_two]
    rcases Nat.mod_two_eq_zero_or_one e with h | h <;> simp only [h, if_true, Nat.zero_ne_one, if_false, pow_zero, pow_one]
    · ring
    · rw [hm, Nat.cast_mul]; ring

theorem powMod_cast (m a e : Nat) : ((powMod m a e : Nat) : ZMod m) = (a : ZMod m) ^ e := by
  unfold powMod
  rw [powModAux_cast _ _ _ _ _ Nat.lt_log2_self, ZMod.natCast_mod, ZMod.natCast_mod]
  simp

theorem powModAux_lt {m : Nat} (hm : 0 < m) : ∀ n a e acc, acc < m → powModAux m n a e acc < m := by
  intro n
  induction n with
  | zero => intro a e acc h; exact h
  | succ n ih =>
    intro a e acc h
    refine ih _ _ _ ?_
    split
    · exact Nat.mod_lt _ hm
    · exact h

theorem powMod_lt {m : Nat} (hm : 0 < m) (a e : Nat) : powMod m a e < m := powModAux_lt hm _ _ _ _ (Nat.mod_lt _ hm)

theorem powMod_eq {m : Nat} (hm : 0 < m) (a e c : Nat) (hc : c < m) : powMod m a e = c ↔ (a : ZMod m) ^ e = (c : ZMod m) := by
  rw [← powMod_cast, ZMod.natCast_eq_natCast_iff', Nat.mod_eq_of_lt (powMod_lt hm a e), Nat.mod_eq_of_lt hc]

/-- Lucas's test with a factorisation of `p - 1`. -/
theorem pratt (p a : Nat) (fs : List (Nat × Nat)) (hp : 1 < p) (hq : ∀ f ∈ fs, f.1.Prime)
    (hprod : (fs.map fun f => f.1 ^ f.2).prod = p - 1) (h1 : powMod p a (p - 1) = 1)
    (hne : (fs.all fun f => powMod p a ((p - 1) / f.1) != 1) = true) : p.Prime := by
  refine lucas_primality p (a : ZMod p) ((powMod_eq (by omega) _ _ _ hp).1 h1 |>.trans Nat.cast_one) ?_
  intro q hq' hd he
  rw [← hprod] at hd
  obtain ⟨n, hn, hqn⟩ := (Prime.dvd_prod_iff hq'.prime).1 hd
  obtain ⟨f, hf, rfl⟩ := List.mem_map.1 hn
  have : q = f.1 := (Nat.prime_dvd_prime_iff_eq hq' (hq f hf)).1 (hq'.dvd_of_dvd_pow hqn)
  subst this
  have hb := List.all_eq_true.1 hne f hf
  rw [bne_iff_ne] at hb
  exact hb ((powMod_eq (by omega) _ _ _ hp).2 (he.trans Nat.cast_one.symm))

theorem prime_1231 : Nat.Prime 1231 := by
  refine pratt _ 3 [(2, 1), (3, 1), (5, 1), (41, 1)] (by decide +kernel) ?_ (by decide +kernel) (by decide +kernel) (by decide +kernel)
  simp only [List.forall_mem_cons, List.not_mem_nil, false_implies, implies_true, and_true]
  exact ⟨by norm_num, by norm_num, by norm_num, by norm_num⟩

theorem prime_1637 : Nat.Prime 1637 := by
  refine pratt _ 2 [(2, 2), (409, 1)] (by decide +kernel) ?_ (by decide +kernel) (by decide +kernel) (by decide +kernel)
  simp only [List.forall_mem_cons, List.not_mem_nil, false_implies, implies_true, and_true]
  exact ⟨by norm_num, by norm_num⟩

theorem prime_2221 : Nat.Prime 2221 := by
  refine pratt _ 2 [(2, 2), (3, 1), (5, 1), (37, 1)] (by decide +kernel) ?_ (by decide +kernel) (by decide +kernel) (by decide +kernel)
  simp only [List.forall_mem_cons, List.not_mem_nil, false_implies, implies_true, and_true]
  exact ⟨by norm_num, by norm_num, by norm_num, by norm_num⟩

theorem prime_3557 : Nat.Prime 3557 := by
  refine pratt _ 2 [(2, 2), (7, 1), (127, 1)] (by decide +kernel) ?_ (by decide +kernel) (by decide +kernel) (by decide +kernel)
  simp only [List.forall_mem_cons, List.not_mem_nil, false_implies, implies_true, and_true]
  exact ⟨by norm_num, by norm_num, by norm_num⟩

theorem prime_3691 : Nat.Prime 3691 := by
  refine pratt _ 2 [(2, 1), (3, 2), (5, 1), (41, 1)] (by decide +kernel) ?_ (by decide +kernel) (by decide +kernel) (by decide +kernel)
  simp only [List.forall_mem_cons, List.not_mem_nil, false_implies, implies_true, and_true]
  exact ⟨by norm_num, by norm_num, by norm_num, by norm_num⟩

theorem prime_4999 : Nat.Prime 4999 := by
  refine pratt _ 3 [(2, 1), (3, 1), (7, 2), (17, 1)] (by decide +kernel) ?_ (by decide +kernel) (by decide +kernel) (by decide +kernel)
  simp only [List.forall_mem_cons, List.not_mem_nil, false_implies, implies_true, and_true]
  exact ⟨by norm_num, by norm_num, by norm_num, by norm_num⟩

theorem prime_5501 : Nat.Prime 5501 := by
  refine pratt _ 2 [(2, 2), (5, 3), (11, 1)] (by decide +kernel) ?_ (by decide +kernel) (by decide +kernel) (by decide +kernel)
  simp only [List.forall_mem_cons, List.not_mem_nil, false_implies, implies_true, and_true]
  exact ⟨by norm_num, by norm_num, by norm_num⟩

theorem prime_11003 : Nat.Prime 11003 := by
  refine pratt _ 2 [(2, 1), (5501, 1)] (by decide +kernel) ?_ (by decide +kernel) (by decide +kernel) (by decide +kernel)
  simp only [List.forall_mem_cons, List.not_mem_nil, false_implies, implies_true, and_true]
  exact ⟨by norm_num, prime_5501⟩

theorem prime_13327 : Nat.Prime 13327 := by
  refine pratt _ 3 [(2, 1), (3, 1), (2221, 1)] (by decide +kernel) ?_ (by decide +kernel) (by decide +kernel) (by decide +kernel)
  simp only [List.forall_mem_cons, List.not_mem_nil, false_implies, implies_true, and_true]
  exact ⟨by norm_num, by norm_num, prime_2221⟩

theorem prime_20963 : Nat.Prime 20963 := by
  refine pratt _ 2 [(2, 1), (47, 1), (223, 1)] (by decide +kernel) ?_ (by decide +kernel) (by decide +kernel) (by decide +kernel)
  simp only [List.forall_mem_cons, List.not_mem_nil, false_implies, implies_true, and_true]
  exact ⟨by norm_num, by norm_num, by norm_num⟩

theorem prime_41927 : Nat.Prime 41927 := by
  refine pratt _ 5 [(2, 1), (20963, 1)] (by decide +kernel) ?_ (by decide +kernel) (by decide +kernel) (by decide +kernel)
  simp only [List.forall_mem_cons, List.not_mem_nil, false_implies, implies_true, and_true]
  exact ⟨by norm_num, prime_20963⟩

theorem prime_65537 : Nat.Prime 65537 := by
  refine pratt _ 3 [(2, 16)] (by decide +kernel) ?_ (by decide +kernel) (by decide +kernel) (by decide +kernel)
  simp only [List.forall_mem_cons, List.not_mem_nil, false_implies, implies_true, and_true]
  norm_num

theorem prime_93001 : Nat.Prime 93001 := by
  refine pratt _ 14 [(2, 3), (3, 1), (5, 3), (31, 1)] (by decide +kernel) ?_ (by decide +kernel) (by decide +kernel) (by decide +kernel)
  simp only [List.forall_mem_cons, List.not_mem_nil, false_implies, implies_true, and_true]
  exact ⟨by norm_num, by norm_num, by norm_num, by norm_num⟩

theorem prime_237073 : Nat.Prime 237073 := by
  refine pratt _ 15 [(2, 4), (3, 1), (11, 1), (449, 1)] (by decide +kernel) ?_ (by decide +kernel) (by decide +kernel) (by decide +kernel)
  simp only [List.forall_mem_cons, List.not_mem_nil, false_implies, implies_true, and_true]
  exact ⟨by norm_num, by norm_num, by norm_num, by norm_num⟩

theorem prime_327599 : Nat.Prime 327599 := by
  refine pratt _ 19 [(2, 1), (19, 1), (37, 1), (233, 1)] (by decide +kernel) ?_ (by decide +kernel) (by decide +kernel) (by decide +kernel)
  simp only [List.forall_mem_cons, List.not_mem_nil, false_implies, implies_true, and_true]
  exact ⟨by norm_num, by norm_num, by norm_num, by norm_num⟩

theorem prime_1593227 : Nat.Prime 1593227 := by
  refine pratt _ 2 [(2, 1), (19, 1), (41927, 1)] (by decide +kernel) ?_ (by decide +kernel) (by decide +kernel) (by decide +kernel)
  simp only [List.forall_mem_cons, List.not_mem_nil, false_implies, implies_true, and_true]
  exact ⟨by norm_num, by norm_num, prime_41927⟩

theorem prime_1853641 : Nat.Prime 1853641 := by
  refine pratt _ 17 [(2, 3), (3, 2), (5, 1), (19, 1), (271, 1)] (by decide +kernel) ?_ (by decide +kernel) (by decide +kernel) (by decide +kernel)
  simp only [List.forall_mem_cons, List.not_mem_nil, false_implies, implies_true, and_true]
  exact ⟨by norm_num, by norm_num, by norm_num, by norm_num, by norm_num⟩

theorem prime_4562087 : Nat.Prime 4562087 := by
  refine pratt _ 5 [(2, 1), (17, 1), (109, 1), (1231, 1)] (by decide +kernel) ?_ (by decide +kernel) (by decide +kernel) (by decide +kernel)
  simp only [List.forall_mem_cons, List.not_mem_nil, false_implies, implies_true, and_true]
  exact ⟨by norm_num, by norm_num, by norm_num, prime_1231⟩

theorem prime_173171039 : Nat.Prime 173171039 := by
  refine pratt _ 13 [(2, 1), (73, 1), (89, 1), (13327, 1)] (by decide +kernel) ?_ (by decide +kernel) (by decide +kernel) (by decide +kernel)
  simp only [List.forall_mem_cons, List.not_mem_nil, false_implies, implies_true, and_true]
  exact ⟨by norm_num, by norm_num, by norm_num, prime_13327⟩

theorem prime_405928799 : Nat.Prime 405928799 := by
  refine pratt _ 22 [(2, 1), (11, 1), (3691, 1), (4999, 1)] (by decide +kernel) ?_ (by decide +kernel) (by decide +kernel) (by decide +kernel)
  simp only [List.forall_mem_cons, List.not_mem_nil, false_implies, implies_true, and_true]
  exact ⟨by norm_num, by norm_num, prime_3691, prime_4999⟩

theorem prime_639533339 : Nat.Prime 639533339 := by
  refine pratt _ 2 [(2, 1), (229, 1), (853, 1), (1637, 1)] (by decide +kernel) ?_ (by decide +kernel) (by decide +kernel) (by decide +kernel)
  simp only [List.forall_mem_cons, List.not_mem_nil, false_implies, implies_true, and_true]
  exact ⟨by norm_num, by norm_num, by norm_num, prime_1637⟩

theorem prime_1263766531 : Nat.Prime 1263766531 := by
  refine pratt _ 10 [(2, 1), (3, 1), (5, 1), (13, 1), (911, 1), (3557, 1)] (by decide +kernel) ?_ (by decide +kernel) (by decide +kernel) (by decide +kernel)
  simp only [List.forall_mem_cons, List.not_mem_nil, false_implies, implies_true, and_true]
  exact ⟨by norm_num, by norm_num, by norm_num, by norm_num, by norm_num, prime_3557⟩

theorem prime_11465965001 : Nat.Prime 11465965001 := by
  refine pratt _ 3 [(2, 3), (5, 4), (7, 1), (327599, 1)] (by decide +kernel) ?_ (by decide +kernel) (by decide +kernel) (by decide +kernel)
  simp only [List.forall_mem_cons, List.not_mem_nil, false_implies, implies_true, and_true]
  exact ⟨by norm_num, by norm_num, by norm_num, prime_327599⟩

theorem prime_12048837557 : Nat.Prime 12048837557 := by
  refine pratt _ 2 [(2, 2), (7, 2), (661, 1), (93001, 1)] (by decide +kernel) ?_ (by decide +kernel) (by decide +kernel) (by decide +kernel)
  simp only [List.forall_mem_cons, List.not_mem_nil, false_implies, implies_true, and_true]
  exact ⟨by norm_num, by norm_num, by norm_num, prime_93001⟩

theorem prime_35385462869 : Nat.Prime 35385462869 := by
  refine pratt _ 2 [(2, 2), (7, 1), (1263766531, 1)] (by decide +kernel) ?_ (by decide +kernel) (by decide +kernel) (by decide +kernel)
  simp only [List.forall_mem_cons, List.not_mem_nil, false_implies, implies_true, and_true]
  exact ⟨by norm_num, by norm_num, prime_1263766531⟩

theorem prime_5156902474397 : Nat.Prime 5156902474397 := by
  refine pratt _ 2 [(2, 2), (107, 1), (12048837557, 1)] (by decide +kernel) ?_ (by decide +kernel) (by decide +kernel) (by decide +kernel)
  simp only [List.forall_mem_cons, List.not_mem_nil, false_implies, implies_true, and_true]
  exact ⟨by norm_num, by norm_num, prime_12048837557⟩

theorem prime_1670836401704629 : Nat.Prime 1670836401704629 := by
  refine pratt _ 2 [(2, 2), (3, 4), (5156902474397, 1)] (by decide +kernel) ?_ (by decide +kernel) (by decide +kernel) (by decide +kernel)
  simp only [List.forall_mem_cons, List.not_mem_nil, false_implies, implies_true, and_true]
  exact ⟨by norm_num, by norm_num, prime_5156902474397⟩

theorem prime_2480874801745591 : Nat.Prime 2480874801745591 := by
  refine pratt _ 6 [(2, 1), (3, 2), (5, 1), (19, 1), (41, 1), (35385462869, 1)] (by decide +kernel) ?_ (by decide +kernel) (by decide +kernel) (by decide +kernel)
  simp only [List.forall_mem_cons, List.not_mem_nil, false_implies, implies_true, and_true]
  exact ⟨by norm_num, by norm_num, by norm_num, by norm_num, by norm_num, prime_35385462869⟩

theorem prime_65865678001877903 : Nat.Prime 65865678001877903 := by
  refine pratt _ 5 [(2, 1), (83, 1), (379, 1), (1637, 1), (639533339, 1)] (by decide +kernel) ?_ (by decide +kernel) (by decide +kernel) (by decide +kernel)
  simp only [List.forall_mem_cons, List.not_mem_nil, false_implies, implies_true, and_true]
  exact ⟨by norm_num, by norm_num, by norm_num, prime_1637, prime_639533339⟩

theorem prime_gl : Nat.Prime gl := by
  refine pratt _ 7 [(2, 32), (3, 1), (5, 1), (17, 1), (257, 1), (65537, 1)] (by decide +kernel) ?_ (by decide +kernel) (by decide +kernel) (by decide +kernel)
  simp only [List.forall_mem_cons, List.not_mem_nil, false_implies, implies_true, and_true]
  exact ⟨by norm_num, by norm_num, by norm_num, by norm_num, by norm_num, prime_65537⟩

theorem prime_13818364434197438864469338081 : Nat.Prime 13818364434197438864469338081 := by
  refine pratt _ 3 [(2, 5), (5, 1), (823, 1), (1593227, 1), (65865678001877903, 1)] (by decide +kernel) ?_ (by decide +kernel) (by decide +kernel) (by decide +kernel)
  simp only [List.forall_mem_cons, List.not_mem_nil, false_implies, implies_true, and_true]
  exact ⟨by norm_num, by norm_num, by norm_num, prime_1593227, prime_65865678001877903⟩

theorem prime_13427688667394608761327070753331941386769 : Nat.Prime 13427688667394608761327070753331941386769 := by
  refine pratt _ 17 [(2, 4), (3, 1), (7, 1), (11, 1), (1853641, 1), (4562087, 1), (173171039, 1), (2480874801745591, 1)] (by decide +kernel) ?_ (by decide +kernel) (by decide +kernel) (by decide +kernel)
  simp only [List.forall_mem_cons, List.not_mem_nil, false_implies, implies_true, and_true]
  exact ⟨by norm_num, by norm_num, by norm_num, by norm_num, prime_1853641, prime_4562087, prime_173171039, prime_2480874801745591⟩

theorem prime_bnR : Nat.Prime bnR := by
  refine pratt _ 5 [(2, 28), (3, 2), (13, 1), (29, 1), (983, 1), (11003, 1), (237073, 1), (405928799, 1), (1670836401704629, 1), (13818364434197438864469338081, 1)] (by decide +kernel) ?_ (by decide +kernel) (by decide +kernel) (by decide +kernel)
  simp only [List.forall_mem_cons, List.not_mem_nil, false_implies, implies_true, and_true]
  exact ⟨by norm_num, by norm_num, by norm_num, by norm_num, by norm_num, prime_11003, prime_237073, prime_405928799, prime_1670836401704629, prime_13818364434197438864469338081⟩

theorem prime_bnP : Nat.Prime bnP := by
  refine pratt _ 3 [(2, 1), (3, 2), (13, 1), (29, 1), (67, 1), (229, 1), (311, 1), (983, 1), (11003, 1), (405928799, 1), (11465965001, 1), (13427688667394608761327070753331941386769, 1)] (by decide +kernel) ?_ (by decide +kernel) (by decide +kernel) (by decide +kernel)
  simp only [List.forall_mem_cons, List.not_mem_nil, false_implies, implies_true, and_true]
  exact ⟨by norm_num, by norm_num, by norm_num, by norm_num, by norm_num, by norm_num, by norm_num, by norm_num, prime_11003, prime_405928799, prime_11465965001, prime_13427688667394608761327070753331941386769⟩

instance : Fact bnP.Prime := ⟨prime_bnP⟩
instance : Fact bnR.Prime := ⟨prime_bnR⟩
instance : Fact gl.Prime := ⟨prime_gl⟩

end FF
