import Verif.TowerProof
import Verif.Primes
import Mathlib.RingTheory.AdjoinRoot
import Mathlib.RingTheory.Polynomial.Basic

/-!
# Specification of the towers

`Ext2 nr = K[X]/(X²-nr)`, `Ext6 K = Ext2(-1)[X]/(X³-(9+u))`, `Ext12 K = Ext6[X]/(X²-t)` as quotients of polynomial rings, and the
reading of an element of the code in them.  The readings are bijections.
-/

set_option linter.unusedSectionVars false
set_option linter.unusedSimpArgs false

namespace FF

open Polynomial

section coords
variable {R : Type} [CommRing R]

/-- In `R[X]/(f)` with `f` monic, residues of polynomials of smaller degree are distinct. -/
theorem mk_injOn {f : R[X]} (hf : f.Monic) {p q : R[X]} (hp : p.degree < f.degree) (hq : q.degree < f.degree)
    (h : AdjoinRoot.mk f p = AdjoinRoot.mk f q) : p = q := by
  have hd := AdjoinRoot.mk_eq_mk.1 h
  by_contra hne
  exact hf.not_dvd_of_degree_lt (sub_ne_zero.2 hne) (lt_of_le_of_lt (degree_sub_le p q) (max_lt hp hq)) hd

theorem mk_modByMonic {f : R[X]} (_hf : f.Monic) (p : R[X]) : AdjoinRoot.mk f (p %ₘ f) = AdjoinRoot.mk f p := by
  rw [AdjoinRoot.mk_eq_mk, ← dvd_neg, neg_sub]
  exact ⟨p /ₘ f, by rw [sub_eq_iff_eq_add, add_comm, modByMonic_add_div p f]⟩

variable [Nontrivial R]

theorem quad_monic (c : R) : (X ^ 2 - C c).Monic := monic_X_pow_sub_C c (by norm_num)
theorem cub_monic (c : R) : (X ^ 3 - C c).Monic := monic_X_pow_sub_C c (by norm_num)
theorem quad_degree (c : R) : (X ^ 2 - C c).degree = 2 := degree_X_pow_sub_C (by norm_num) c
theorem cub_degree (c : R) : (X ^ 3 - C c).degree = 3 := degree_X_pow_sub_C (by norm_num) c

/-- Every element of `R[X]/(X²-c)` is `a + b·root` for exactly one `(a, b)`. -/
theorem quad_bij (c : R) : Function.Bijective
    (fun s : R × R => AdjoinRoot.of (X ^ 2 - C c) s.1 + AdjoinRoot.of (X ^ 2 - C c) s.2 * AdjoinRoot.root (X ^ 2 - C c)) := by
  have e : ∀ a b : R, AdjoinRoot.of (X ^ 2 - C c) a + AdjoinRoot.of (X ^ 2 - C c) b * AdjoinRoot.root (X ^ 2 - C c) =
      AdjoinRoot.mk (X ^ 2 - C c) (C b * X + C a) := by
    intro a b; rw [map_add, map_mul, AdjoinRoot.mk_C, AdjoinRoot.mk_C, AdjoinRoot.mk_X, add_comm]
  have hd : ∀ a b : R, (C b * X + C a).degree < (X ^ 2 - C c).degree := by
    intro a b; rw [quad_degree]; exact degree_linear_lt
  constructor
  · rintro ⟨a, b⟩ ⟨a', b'⟩ h
    simp only [e] at h
    have := mk_injOn (quad_monic c) (hd _ _) (hd _ _) h
    have h0 := congrArg (fun p => p.coeff 0) this
    have h1 := congrArg (fun p => p.coeff 1) this
    simp at h0 h1
    simp [h0, h1]
  · intro z
    obtain ⟨p, rfl⟩ := AdjoinRoot.mk_surjective z
    have hlt : (p %ₘ (X ^ 2 - C c)).degree < 2 := by rw [← quad_degree c]; exact degree_modByMonic_lt _ (quad_monic c)
    have hp : p %ₘ (X ^ 2 - C c) = C ((p %ₘ (X ^ 2 - C c)).coeff 1) * X + C ((p %ₘ (X ^ 2 - C c)).coeff 0) :=
      eq_X_add_C_of_natDegree_le_one (Nat.le_of_lt_succ (by
        by_cases h0 : p %ₘ (X ^ 2 - C c) = 0
        · rw [h0]; simp
        · exact (natDegree_lt_iff_degree_lt h0).2 hlt))
    exact ⟨((p %ₘ (X ^ 2 - C c)).coeff 0, (p %ₘ (X ^ 2 - C c)).coeff 1), by simp only [e]; rw [← hp, mk_modByMonic (quad_monic c)]⟩

/-- Every element of `R[X]/(X³-c)` is `x·root² + y·root + z` for exactly one `(x, y, z)`. -/
theorem cub_bij (c : R) : Function.Bijective
    (fun s : R × R × R => AdjoinRoot.of (X ^ 3 - C c) s.1 * AdjoinRoot.root (X ^ 3 - C c) ^ 2 +
      AdjoinRoot.of (X ^ 3 - C c) s.2.1 * AdjoinRoot.root (X ^ 3 - C c) + AdjoinRoot.of (X ^ 3 - C c) s.2.2) := by
  have e : ∀ x y z : R, AdjoinRoot.of (X ^ 3 - C c) x * AdjoinRoot.root (X ^ 3 - C c) ^ 2 +
      AdjoinRoot.of (X ^ 3 - C c) y * AdjoinRoot.root (X ^ 3 - C c) + AdjoinRoot.of (X ^ 3 - C c) z =
      AdjoinRoot.mk (X ^ 3 - C c) (C x * X ^ 2 + C y * X + C z) := by
    intro x y z; simp only [map_add, map_mul, map_pow, AdjoinRoot.mk_C, AdjoinRoot.mk_X]
  have hd : ∀ x y z : R, (C x * X ^ 2 + C y * X + C z).degree < (X ^ 3 - C c).degree := by
    intro x y z; rw [cub_degree]; exact degree_quadratic_lt
  constructor
  · rintro ⟨x, y, z⟩ ⟨x', y', z'⟩ h
    simp only [e] at h
    have := mk_injOn (cub_monic c) (hd _ _ _) (hd _ _ _) h
    have h0 := congrArg (fun p => p.coeff 0) this
    have h1 := congrArg (fun p => p.coeff 1) this
    have h2 := congrArg (fun p => p.coeff 2) this
    simp [coeff_X, coeff_C, coeff_X_pow] at h0 h1 h2
    simp [h0, h1, h2]
  · intro v
    obtain ⟨p, rfl⟩ := AdjoinRoot.mk_surjective v
    have hlt : (p %ₘ (X ^ 3 - C c)).degree < 3 := by rw [← cub_degree c]; exact degree_modByMonic_lt _ (cub_monic c)
    refine ⟨((p %ₘ (X ^ 3 - C c)).coeff 2, (p %ₘ (X ^ 3 - C c)).coeff 1, (p %ₘ (X ^ 3 - C c)).coeff 0), ?_⟩
    simp only [e]
    rw [← mk_modByMonic (cub_monic c) p]
    congr 1
    ext n
    rcases n with _ | _ | _ | n
    · simp
    · simp [coeff_X, coeff_C]
    · simp [coeff_X, coeff_C, coeff_X_pow]
    · have h0 : (p %ₘ (X ^ 3 - C c)).coeff (n + 1 + 1 + 1) = 0 :=
        coeff_eq_zero_of_degree_lt (lt_of_lt_of_le hlt (by
          have : (3 : WithBot ℕ) = ((3 : ℕ) : WithBot ℕ) := rfl
          rw [this]; exact Nat.cast_le.2 (by omega)))
      rw [h0]
      simp [coeff_X, coeff_C, coeff_X_pow]
end coords

variable (K : Type) [Field K] [DecidableEq K]

/-- `K[X]/(X²-nr)`. -/
abbrev Ext2 {K : Type} [Field K] (nr : K) : Type := AdjoinRoot (X ^ 2 - C nr)
/-- `Ext2(-1)[X]/(X³-(9+u))` with `u` the class of `X` in `Ext2(-1)`. -/
noncomputable abbrev xi : Ext2 (-1 : K) := 9 + AdjoinRoot.root _
abbrev Ext6 : Type := AdjoinRoot (X ^ 3 - C (xi K))
/-- `Ext6[X]/(X²-t)` with `t` the class of `X` in `Ext6`. -/
noncomputable abbrev tau : Ext6 K := AdjoinRoot.root _
abbrev Ext12 : Type := AdjoinRoot (X ^ 2 - C (tau K))

variable {K}

/-- `a + b·u`. -/
noncomputable def F2.toExt (nr : K) (e : F2El K) : Ext2 nr := AdjoinRoot.of _ e.a + AdjoinRoot.of _ e.b * AdjoinRoot.root _
/-- `x·t² + y·t + z`. -/
noncomputable def F6.toExt (e : F6El K) : Ext6 K :=
  AdjoinRoot.of _ (F2.toExt (-1) e.x) * AdjoinRoot.root _ ^ 2 + AdjoinRoot.of _ (F2.toExt (-1) e.y) * AdjoinRoot.root _ +
    AdjoinRoot.of _ (F2.toExt (-1) e.z)
/-- `x·w + y`. -/
noncomputable def F12.toExt (e : F12El K) : Ext12 K :=
  AdjoinRoot.of _ (F6.toExt e.x) * AdjoinRoot.root _ + AdjoinRoot.of _ (F6.toExt e.y)

theorem F2.toExt_bijective (nr : K) : Function.Bijective (F2.toExt nr) := by
  have e : F2.toExt nr = (fun s : K × K => AdjoinRoot.of (X ^ 2 - C nr) s.1 + AdjoinRoot.of (X ^ 2 - C nr) s.2 * AdjoinRoot.root (X ^ 2 - C nr)) ∘
      (fun e : F2El K => (e.a, e.b)) := rfl
  rw [e]
  refine (quad_bij nr).comp ⟨fun a b h => ?_, fun s => ⟨⟨s.1, s.2⟩, rfl⟩⟩
  simp only [Prod.mk.injEq] at h
  exact F2El.ext h.1 h.2

instance (nr : K) : Nontrivial (Ext2 nr) := by
  have := (F2.toExt_bijective nr).1
  refine ⟨F2.toExt nr ⟨0, 0⟩, F2.toExt nr ⟨1, 0⟩, fun h => ?_⟩
  have := congrArg F2El.a (this h)
  exact zero_ne_one this

theorem F6.toExt_bijective : Function.Bijective (F6.toExt (K := K)) := by
  have e : F6.toExt (K := K) = (fun s : Ext2 (-1 : K) × Ext2 (-1 : K) × Ext2 (-1 : K) => AdjoinRoot.of (X ^ 3 - C (xi K)) s.1 * AdjoinRoot.root (X ^ 3 - C (xi K)) ^ 2 +
      AdjoinRoot.of (X ^ 3 - C (xi K)) s.2.1 * AdjoinRoot.root (X ^ 3 - C (xi K)) + AdjoinRoot.of (X ^ 3 - C (xi K)) s.2.2) ∘
      (fun e : F6El K => (F2.toExt (-1) e.x, F2.toExt (-1) e.y, F2.toExt (-1) e.z)) := rfl
  rw [e]
  refine (cub_bij (xi K)).comp ⟨fun a b h => ?_, fun s => ?_⟩
  · simp only [Prod.mk.injEq] at h
    have hi := (F2.toExt_bijective (-1 : K)).1
    exact F6El.ext (hi h.1) (hi h.2.1) (hi h.2.2)
  · have hs := (F2.toExt_bijective (-1 : K)).2
    obtain ⟨x, hx⟩ := hs s.1
    obtain ⟨y, hy⟩ := hs s.2.1
    obtain ⟨z, hz⟩ := hs s.2.2
    exact ⟨⟨x, y, z⟩, by simp [hx, hy, hz]⟩

instance : Nontrivial (Ext6 K) := by
  refine ⟨F6.toExt F6.zero, F6.toExt F6.one, fun h => ?_⟩
  have := congrArg (fun e : F6El K => e.z.a) (F6.toExt_bijective.1 h)
  exact zero_ne_one this

theorem F12.toExt_bijective : Function.Bijective (F12.toExt (K := K)) := by
  have e : F12.toExt (K := K) = (fun s : Ext6 K × Ext6 K => AdjoinRoot.of (X ^ 2 - C (tau K)) s.1 + AdjoinRoot.of (X ^ 2 - C (tau K)) s.2 * AdjoinRoot.root (X ^ 2 - C (tau K))) ∘
      (fun e : F12El K => (F6.toExt e.y, F6.toExt e.x)) := by
    funext e
    simp only [F12.toExt, Function.comp_apply]
    rw [add_comm]
  rw [e]
  refine (quad_bij (tau K)).comp ⟨fun a b h => ?_, fun s => ?_⟩
  · simp only [Prod.mk.injEq] at h
    exact F12El.ext (F6.toExt_bijective.1 h.2) (F6.toExt_bijective.1 h.1)
  · obtain ⟨x, hx⟩ := F6.toExt_bijective.2 s.1
    obtain ⟨y, hy⟩ := F6.toExt_bijective.2 s.2
    exact ⟨⟨y, x⟩, by simp [hx, hy]⟩

/-! ### The readings in the terms of `ev2`, `ev6`, `ev12` -/

theorem root_quad {R : Type} [CommRing R] (c : R) : AdjoinRoot.root (X ^ 2 - C c) ^ 2 = AdjoinRoot.of (X ^ 2 - C c) c := by
  have := AdjoinRoot.eval₂_root (X ^ 2 - C c)
  rw [eval₂_sub, eval₂_pow, eval₂_X, eval₂_C, sub_eq_zero] at this
  exact this

theorem root_cub {R : Type} [CommRing R] (c : R) : AdjoinRoot.root (X ^ 3 - C c) ^ 3 = AdjoinRoot.of (X ^ 3 - C c) c := by
  have := AdjoinRoot.eval₂_root (X ^ 3 - C c)
  rw [eval₂_sub, eval₂_pow, eval₂_X, eval₂_C, sub_eq_zero] at this
  exact this

theorem F2.toExt_eq (nr : K) (e : F2El K) : F2.toExt nr e = ev2 (AdjoinRoot.of _) (AdjoinRoot.root _) e := rfl
theorem F2.hu (nr : K) : AdjoinRoot.root (X ^ 2 - C nr) ^ 2 = AdjoinRoot.of (X ^ 2 - C nr) nr := root_quad nr

/-- The base field and `u` in `Ext6`. -/
noncomputable def F6.base : K →+* Ext6 K := (AdjoinRoot.of (X ^ 3 - C (xi K))).comp (AdjoinRoot.of (X ^ 2 - C (-1 : K)))
noncomputable def F6.u : Ext6 K := AdjoinRoot.of (X ^ 3 - C (xi K)) (AdjoinRoot.root (X ^ 2 - C (-1 : K)))

theorem map_ev2 {R S : Type} [CommRing R] [CommRing S] (g : R →+* S) (f : K →+* R) (u : R) (e : F2El K) :
    g (ev2 f u e) = ev2 (g.comp f) (g u) e := by
  rw [ev2, map_add, map_mul]; rfl
theorem map_ev6 {R S : Type} [CommRing R] [CommRing S] (g : R →+* S) (f : K →+* R) (u t : R) (e : F6El K) :
    g (ev6 f u t e) = ev6 (g.comp f) (g u) (g t) e := by
  rw [ev6, map_add, map_add, map_mul, map_mul, map_pow, map_ev2, map_ev2, map_ev2]; rfl
theorem map_nine_add {R S : Type} [CommRing R] [CommRing S] (g : R →+* S) (u : R) : g (9 + u) = 9 + g u := by
  rw [map_add, map_ofNat]

theorem F6.of_toExt (e : F2El K) : AdjoinRoot.of (X ^ 3 - C (xi K)) (F2.toExt (-1) e) = ev2 F6.base F6.u e :=
  map_ev2 _ _ _ e
theorem F6.toExt_eq (e : F6El K) : F6.toExt e = ev6 F6.base F6.u (tau K) e := by
  rw [F6.toExt, F6.of_toExt, F6.of_toExt, F6.of_toExt]; rfl
theorem F6.hu : (F6.u : Ext6 K) ^ 2 = F6.base (-1) := by
  rw [F6.u, ← map_pow, root_quad]; rfl
theorem F6.ht : (tau K) ^ 3 = 9 + F6.u := by
  exact (root_cub (xi K)).trans (map_nine_add _ _)

/-- The base field, `u` and `t` in `Ext12`. -/
noncomputable def F12.base : K →+* Ext12 K := (AdjoinRoot.of (X ^ 2 - C (tau K))).comp F6.base
noncomputable def F12.u : Ext12 K := AdjoinRoot.of (X ^ 2 - C (tau K)) F6.u
noncomputable def F12.t : Ext12 K := AdjoinRoot.of (X ^ 2 - C (tau K)) (tau K)

theorem F12.of_toExt (e : F6El K) : AdjoinRoot.of (X ^ 2 - C (tau K)) (F6.toExt e) = ev6 F12.base F12.u F12.t e :=
  (congrArg _ (F6.toExt_eq e)).trans (map_ev6 _ _ _ _ e)
theorem F12.toExt_eq (e : F12El K) : F12.toExt e = ev12 F12.base F12.u F12.t (AdjoinRoot.root _) e := by
  unfold F12.toExt ev12
  exact congrArg₂ (· + ·) (congrArg (· * _) (F12.of_toExt e.x)) (F12.of_toExt e.y)
theorem F12.hu : (F12.u : Ext12 K) ^ 2 = F12.base (-1) := by
  exact (map_pow _ _ _).symm.trans (congrArg _ F6.hu)
theorem F12.ht : (F12.t : Ext12 K) ^ 3 = 9 + F12.u := by
  exact ((map_pow _ _ _).symm.trans (congrArg _ F6.ht)).trans (map_nine_add _ _)
theorem F12.hw : (AdjoinRoot.root (X ^ 2 - C (tau K))) ^ 2 = (F12.t : Ext12 K) := root_quad _

end FF
