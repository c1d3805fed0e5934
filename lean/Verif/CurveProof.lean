import Verif.CurveSpec

/-!
# The curve code implements Mathlib's group law
-/

set_option linter.unusedSectionVars false

namespace FF
namespace Curve

variable {K : Type} [Field K] [DecidableEq K]

variable {a b : K} {P Q : GPoint a b} {p p1 p2 : Pt K} {s s1 s2 : PtA K}

theorem negY_eq (x y : K) : (curveW a b).negY x y = -y := by simp [WeierstrassCurve.Affine.negY, curveW]

theorem equation_iff' {x y : K} : (curveW a b).Equation x y ↔ y ^ 2 = x ^ 3 + a * x + b := by
  rw [WeierstrassCurve.Affine.equation_iff]; simp [curveW]

theorem nonsingular_iff'' {x y : K} : (curveW a b).Nonsingular x y ↔
    y ^ 2 = x ^ 3 + a * x + b ∧ (3 * x ^ 2 + a ≠ 0 ∨ 2 * y ≠ 0) := by
  rw [WeierstrassCurve.Affine.nonsingular_iff', equation_iff']
  simp only [curveW]
  have e1 : (0 * y - (3 * x ^ 2 + 2 * 0 * x + a) ≠ 0) ↔ (3 * x ^ 2 + a ≠ 0) := by
    rw [Ne, Ne, not_iff_not, show 0 * y - (3 * x ^ 2 + 2 * 0 * x + a) = -(3 * x ^ 2 + a) by ring, neg_eq_zero]
  rw [e1]; simp

/-- A scale for a valid pair `zz, zzz`. -/
theorem scale {zz zzz : K} (h : zz ≠ 0) (h2 : zz ^ 3 = zzz ^ 2) : ∃ z : K, z ≠ 0 ∧ zz = z ^ 2 ∧ zzz = z ^ 3 := by
  have h3 : zzz ≠ 0 := by
    rintro rfl
    rw [zero_pow (by norm_num)] at h2
    exact h (pow_eq_zero_iff (by norm_num) |>.mp h2)
  refine ⟨zzz / zz, div_ne_zero h3 h, ?_, ?_⟩
  · field_simp; linear_combination h2
  · field_simp; linear_combination h2

theorem isZero_iff (h : CRep p P) : isZero p = true ↔ P = 0 := by
  rcases P with _ | ⟨x, y, hP⟩
  · simp only [isZero, beq_iff_eq]
    exact ⟨fun _ => rfl, fun _ => h.1⟩
  · simp only [isZero, beq_iff_eq]
    exact ⟨fun e => absurd e h.1, fun e => by cases e⟩

theorem isZeroA_iff (hb : b ≠ 0) (h : ARep s P) : isZeroA s = true ↔ P = 0 := by
  rcases P with _ | ⟨x, y, hP⟩
  · simp only [isZeroA, Bool.and_eq_true, beq_iff_eq]
    exact ⟨fun _ => rfl, fun _ => h⟩
  · simp only [isZeroA, Bool.and_eq_true, beq_iff_eq]
    refine ⟨fun e => ?_, fun e => by cases e⟩
    have := (nonsingular_iff''.mp hP).1
    rw [← h.1, ← h.2, e.1, e.2] at this
    exact absurd (by simpa using this.symm) hb

theorem CRep.zero' (h1 : p.zz = 0) (h2 : p.zzz = 0) (h : P = 0) : CRep p P := by subst h; exact ⟨h1, h2⟩

theorem mulByA_eq (c : K) : mulByA a c = a * c := by
  unfold mulByA typeOfA
  split_ifs with h1 h2 h3
  · simp [h1]
  · simp [h2]
  · simp [h3]
  · rfl

theorem dblM_eq' (c d : K) : (if typeOfA a ≠ .zero then c + mulByA a d else c) = c + a * d := by
  rw [mulByA_eq]
  split_ifs with h
  · rfl
  · have : a = 0 := by
      by_contra ha
      apply h
      unfold typeOfA
      rw [if_neg ha]
      split_ifs <;> simp
    simp [this]

/-- Sum of two finite points with a given slope. -/
theorem add_coords {x1 y1 x2 y2 l X Y : K} {h1 : (curveW a b).Nonsingular x1 y1} {h2 : (curveW a b).Nonsingular x2 y2}
    (hxy : ¬ (x1 = x2 ∧ y1 = (curveW a b).negY x2 y2)) (hl : (curveW a b).slope x1 x2 y1 y2 = l)
    (hX : X = l ^ 2 - x1 - x2) (hY : Y = l * (x1 - X) - y1) :
    ∃ h, (WeierstrassCurve.Affine.Point.some x1 y1 h1 + .some x2 y2 h2 : GPoint a b) = .some X Y h := by
  have e := WeierstrassCurve.Affine.Point.add_some hxy (h₁ := h1) (h₂ := h2)
  have eX : (curveW a b).addX x1 x2 ((curveW a b).slope x1 x2 y1 y2) = X := by
    rw [hl, hX]; simp [WeierstrassCurve.Affine.addX, curveW]
  have eY : (curveW a b).addY x1 x2 y1 ((curveW a b).slope x1 x2 y1 y2) = Y := by
    rw [WeierstrassCurve.Affine.addY, negY_eq, WeierstrassCurve.Affine.negAddY, eX, hl, hY]; ring
  have hn := WeierstrassCurve.Affine.nonsingular_add h1 h2 hxy
  rw [eX, eY] at hn
  refine ⟨hn, ?_⟩
  rw [e]
  congr 1

theorem dbl_rep (h : CRep p P) : CRep (dbl a p) (P + P) ∧ (Proper p → Proper (dbl a p)) := by
  rcases P with _ | ⟨x, y, hP⟩
  · have hz : isZero p = true := (isZero_iff h).mpr rfl
    rw [dbl, if_pos hz]
    refine ⟨?_, id⟩
    have : (WeierstrassCurve.Affine.Point.zero + .zero : GPoint a b) = .zero := rfl
    rw [this]; exact h
  · have hz : ¬ isZero p = true := fun e => by have := (isZero_iff h).mp e; cases this
    obtain ⟨h1, h2, h3, h4⟩ := h
    obtain ⟨z, hz0, e1, e2⟩ := scale h1 h2
    have hns := nonsingular_iff''.mp hP
    have hd : dbl a p = ⟨(3 * x ^ 2 + a) ^ 2 * z ^ 8 - 8 * x * y ^ 2 * z ^ 8,
        (3 * x ^ 2 + a) * z ^ 4 * (4 * x * y ^ 2 * z ^ 8 - ((3 * x ^ 2 + a) ^ 2 * z ^ 8 - 8 * x * y ^ 2 * z ^ 8)) - 8 * y ^ 4 * z ^ 12,
        4 * y ^ 2 * z ^ 8, 8 * y ^ 3 * z ^ 12⟩ := by
      rw [dbl, if_neg hz]
      simp only [dblM_eq', Pt.mk.injEq]
      rw [h3, h4, e1, e2]
      refine ⟨?_, ?_, ?_, ?_⟩ <;> ring
    rw [hd]
    by_cases hy : 2 * y = 0
    · have hM : 3 * x ^ 2 + a ≠ 0 := hns.2.resolve_right (fun h => h hy)
      have hneg : y = (curveW a b).negY x y := by rw [negY_eq]; linear_combination hy
      rw [WeierstrassCurve.Affine.Point.add_self_of_Y_eq hneg]
      refine ⟨CRep.zero' ?_ ?_ rfl, fun _ _ => Or.inl ?_⟩
      · show 4 * y ^ 2 * z ^ 8 = 0
        linear_combination 2 * y * z ^ 8 * hy
      · show 8 * y ^ 3 * z ^ 12 = 0
        linear_combination 4 * y ^ 2 * z ^ 12 * hy
      · show (3 * x ^ 2 + a) ^ 2 * z ^ 8 - 8 * x * y ^ 2 * z ^ 8 ≠ 0
        have : (3 * x ^ 2 + a) ^ 2 * z ^ 8 - 8 * x * y ^ 2 * z ^ 8 = (3 * x ^ 2 + a) ^ 2 * z ^ 8 := by
          linear_combination (-4 * x * y * z ^ 8) * hy
        rw [this]
        exact mul_ne_zero (pow_ne_zero _ hM) (pow_ne_zero _ hz0)
    · have hneg : y ≠ (curveW a b).negY x y := by
        rw [negY_eq]; intro e; apply hy; linear_combination e
      have hsl : (curveW a b).slope x x y y = (3 * x ^ 2 + a) / (2 * y) := by
        rw [WeierstrassCurve.Affine.slope_of_Y_ne rfl hneg, negY_eq]
        simp [curveW]; ring
      have h2 : (2 : K) ≠ 0 := left_ne_zero_of_mul hy
      have hy0 : y ≠ 0 := right_ne_zero_of_mul hy
      obtain ⟨hn, e⟩ := add_coords (h1 := hP) (h2 := hP) (fun hxy => hneg hxy.2) hsl rfl rfl
      rw [e]
      have hzz : (4 : K) * y ^ 2 * z ^ 8 ≠ 0 := by
        rw [show (4 : K) * y ^ 2 * z ^ 8 = (2 * y) ^ 2 * z ^ 8 by ring]
        exact mul_ne_zero (pow_ne_zero _ hy) (pow_ne_zero _ hz0)
      refine ⟨⟨hzz, ?_, ?_, ?_⟩, fun _ e => absurd e hzz⟩
      · show (4 * y ^ 2 * z ^ 8) ^ 3 = (8 * y ^ 3 * z ^ 12) ^ 2; ring
      · show (3 * x ^ 2 + a) ^ 2 * z ^ 8 - 8 * x * y ^ 2 * z ^ 8 = _ * (4 * y ^ 2 * z ^ 8)
        field_simp; ring
      · show (3 * x ^ 2 + a) * z ^ 4 * (4 * x * y ^ 2 * z ^ 8 - ((3 * x ^ 2 + a) ^ 2 * z ^ 8 - 8 * x * y ^ 2 * z ^ 8)) - 8 * y ^ 4 * z ^ 12 =
          _ * (8 * y ^ 3 * z ^ 12)
        field_simp; ring

/-- Copy of an affine point. -/
theorem copyPA_rep (hb : b ≠ 0) (h : ARep s P) : CRep (copyPA s) P ∧ Proper (copyPA s) := by
  rcases P with _ | ⟨x, y, hP⟩
  · rw [copyPA, if_pos ((isZeroA_iff hb h).mpr rfl)]
    exact ⟨⟨rfl, rfl⟩, fun _ => Or.inl one_ne_zero⟩
  · have hz : ¬ isZeroA s = true := fun e => by have := (isZeroA_iff hb h).mp e; cases this
    rw [copyPA, if_neg hz]
    exact ⟨⟨one_ne_zero, by norm_num, by simp [h.1], by simp [h.2]⟩, fun e => absurd e one_ne_zero⟩

/-- `dbl(Point, PointAffine)` is `dbl` of the copy. -/
theorem dblA_eq (s : PtA K) : dblA a s = dbl a (copyPA s) := by
  unfold dblA dbl copyPA
  split
  · simp [isZero]
  · simp only [isZero, one_ne_zero, beq_iff_eq, if_false, dblM_eq', mul_one, Pt.mk.injEq]
    have e : s.x * s.x + s.x * s.x + s.x * s.x + a = s.x * s.x + (s.x * s.x + s.x * s.x) + a := by ring
    rw [e]; exact ⟨rfl, rfl, trivial, trivial⟩

/-- Mixed addition is general addition with the copy, up to the last branch's doubling of the other operand. -/
theorem dblA_rep (hb : b ≠ 0) (h : ARep s P) : CRep (dblA a s) (P + P) ∧ Proper (dblA a s) := by
  rw [dblA_eq]
  obtain ⟨h1, h2⟩ := copyPA_rep hb h
  exact ⟨(dbl_rep h1).1, (dbl_rep h1).2 h2⟩

theorem zero_add' (P : GPoint a b) : (WeierstrassCurve.Affine.Point.zero + P : GPoint a b) = P := zero_add P
theorem add_zero' (P : GPoint a b) : (P + WeierstrassCurve.Affine.Point.zero : GPoint a b) = P := add_zero P

/-- The generic branch: `P = U2-U1`, `R = S2-S1` for points scaled by `z1`, `z2`. -/
theorem add_generic {x1 y1 x2 y2 z1 z2 : K} (hz1 : z1 ≠ 0) (hz2 : z2 ≠ 0)
    (h1 : (curveW a b).Nonsingular x1 y1) (h2 : (curveW a b).Nonsingular x2 y2) {r : Pt K} {p r' : K}
    (hp : p = (x2 - x1) * z1 ^ 2 * z2 ^ 2) (hr : r' = (y2 - y1) * z1 ^ 3 * z2 ^ 3) (hpr : ¬ (p = 0 ∧ r' = 0))
    (hX : r.x = r' ^ 2 - p ^ 3 - 2 * (x1 * z1 ^ 2 * z2 ^ 2 * p ^ 2))
    (hY : r.y = r' * (x1 * z1 ^ 2 * z2 ^ 2 * p ^ 2 - r.x) - y1 * z1 ^ 3 * z2 ^ 3 * p ^ 3)
    (hZZ : r.zz = z1 ^ 2 * z2 ^ 2 * p ^ 2) (hZZZ : r.zzz = z1 ^ 3 * z2 ^ 3 * p ^ 3) :
    CRep r (.some x1 y1 h1 + .some x2 y2 h2 : GPoint a b) ∧ Proper r := by
  have hz : z1 * z2 ≠ 0 := mul_ne_zero hz1 hz2
  by_cases hx : x1 = x2
  · subst hx
    have hp0 : p = 0 := by rw [hp]; ring
    have hr0 : r' ≠ 0 := fun e => hpr ⟨hp0, e⟩
    have hne : y1 ≠ y2 := by rintro rfl; apply hr0; rw [hr]; ring
    have hneg : y1 = (curveW a b).negY x1 y2 := by
      rw [negY_eq]
      have e1 := (nonsingular_iff''.mp h1).1
      have e2 := (nonsingular_iff''.mp h2).1
      have : (y1 - y2) * (y1 + y2) = 0 := by linear_combination e1 - e2
      rcases mul_eq_zero.mp this with h | h
      · exact absurd (sub_eq_zero.mp h) hne
      · linear_combination h
    rw [WeierstrassCurve.Affine.Point.add_of_Y_eq rfl hneg]
    refine ⟨CRep.zero' ?_ ?_ rfl, fun _ => Or.inl ?_⟩
    · rw [hZZ, hp0]; ring
    · rw [hZZZ, hp0]; ring
    · rw [hX, hp0]
      have : r' ^ 2 - 0 ^ 3 - 2 * (x1 * z1 ^ 2 * z2 ^ 2 * 0 ^ 2) = r' ^ 2 := by ring
      rw [this]; exact pow_ne_zero _ hr0
  · have hd : x2 - x1 ≠ 0 := fun e => hx (sub_eq_zero.mp e).symm
    have hd' : x1 - x2 ≠ 0 := fun e => hx (sub_eq_zero.mp e)
    have hp0 : p ≠ 0 := by
      rw [hp]; exact mul_ne_zero (mul_ne_zero hd (pow_ne_zero _ hz1)) (pow_ne_zero _ hz2)
    have hsl : (curveW a b).slope x1 x2 y1 y2 = (y2 - y1) / (x2 - x1) := by
      rw [WeierstrassCurve.Affine.slope_of_X_ne hx, ← neg_sub y2 y1, ← neg_sub x2 x1, neg_div_neg_eq]
    obtain ⟨hn, e⟩ := add_coords (h1 := h1) (h2 := h2) (fun hxy => hx hxy.1) hsl rfl rfl
    rw [e]
    have hzz : r.zz ≠ 0 := by
      rw [hZZ]; exact mul_ne_zero (mul_ne_zero (pow_ne_zero _ hz1) (pow_ne_zero _ hz2)) (pow_ne_zero _ hp0)
    have hxx : r.x = (((y2 - y1) / (x2 - x1)) ^ 2 - x1 - x2) * r.zz := by
      rw [hX, hZZ, hr, hp]; field_simp; ring
    refine ⟨⟨hzz, ?_, hxx, ?_⟩, fun e => absurd e hzz⟩
    · rw [hZZ, hZZZ]; ring
    · rw [hY, hxx, hZZZ, hZZ, hr, hp]; field_simp

theorem same_point {x1 y1 x2 y2 z1 z2 : K} (hz1 : z1 ≠ 0) (hz2 : z2 ≠ 0)
    (hp : (x2 - x1) * z1 ^ 2 * z2 ^ 2 = 0) (hr : (y2 - y1) * z1 ^ 3 * z2 ^ 3 = 0) : x1 = x2 ∧ y1 = y2 := by
  have a1 : x2 - x1 = 0 := by
    rcases mul_eq_zero.mp hp with h | h
    · rcases mul_eq_zero.mp h with h | h
      · exact h
      · exact absurd h (pow_ne_zero _ hz1)
    · exact absurd h (pow_ne_zero _ hz2)
  have a2 : y2 - y1 = 0 := by
    rcases mul_eq_zero.mp hr with h | h
    · rcases mul_eq_zero.mp h with h | h
      · exact h
      · exact absurd h (pow_ne_zero _ hz1)
    · exact absurd h (pow_ne_zero _ hz2)
  exact ⟨(sub_eq_zero.mp a1).symm, (sub_eq_zero.mp a2).symm⟩

theorem add_rep (h1 : CRep p1 P) (h2 : CRep p2 Q) :
    CRep (add a p1 p2) (P + Q) ∧ (Proper p1 → Proper p2 → Proper (add a p1 p2)) := by
  rcases P with _ | ⟨x1, y1, hP⟩
  · rw [add, if_pos ((isZero_iff h1).mpr rfl), zero_add']; exact ⟨h2, fun _ h => h⟩
  rcases Q with _ | ⟨x2, y2, hQ⟩
  · have hz : ¬ isZero p1 = true := fun e => by have := (isZero_iff h1).mp e; cases this
    rw [add, if_neg hz, if_pos ((isZero_iff h2).mpr rfl), add_zero']; exact ⟨h1, fun h _ => h⟩
  have hz : ¬ isZero p1 = true := fun e => by have := (isZero_iff h1).mp e; cases this
  have hz' : ¬ isZero p2 = true := fun e => by have := (isZero_iff h2).mp e; cases this
  have h1' := h1
  obtain ⟨g1, g2, g3, g4⟩ := h1
  obtain ⟨k1, k2, k3, k4⟩ := h2
  obtain ⟨z1, hz1, e1, e2⟩ := scale g1 g2
  obtain ⟨z2, hz2, f1, f2⟩ := scale k1 k2
  have hp : p2.x * p1.zz - p1.x * p2.zz = (x2 - x1) * z1 ^ 2 * z2 ^ 2 := by rw [g3, k3, e1, f1]; ring
  have hr : p2.y * p1.zzz - p1.y * p2.zzz = (y2 - y1) * z1 ^ 3 * z2 ^ 3 := by rw [g4, k4, e2, f2]; ring
  rw [add, if_neg hz, if_neg hz']
  simp only [Bool.and_eq_true, beq_iff_eq]
  split
  · rename_i hpr
    rw [hp, hr] at hpr
    obtain ⟨rfl, rfl⟩ := same_point hz1 hz2 hpr.1 hpr.2
    exact ⟨(dbl_rep h1').1, fun h _ => (dbl_rep h1').2 h⟩
  · rename_i hpr
    have aux : ∀ {r : Pt K} {X : GPoint a b}, CRep r X ∧ Proper r → CRep r X ∧ (Proper p1 → Proper p2 → Proper r) :=
      fun h => ⟨h.1, fun _ _ => h.2⟩
    refine aux (add_generic hz1 hz2 hP hQ hp hr hpr ?_ ?_ ?_ ?_) <;> dsimp only
    · rw [g3, e1, f1]; ring
    · rw [g3, g4, e1, e2, f1, f2]; ring
    · rw [e1, f1]; ring
    · rw [e2, f2]; ring

theorem addMix_rep (hb : b ≠ 0) (h1 : CRep p1 P) (h2 : ARep s Q) :
    CRep (addMix a p1 s) (P + Q) ∧ (Proper p1 → Proper (addMix a p1 s)) := by
  rcases P with _ | ⟨x1, y1, hP⟩
  · rw [addMix, if_pos ((isZero_iff h1).mpr rfl), zero_add']
    exact ⟨(copyPA_rep hb h2).1, fun _ => (copyPA_rep hb h2).2⟩
  rcases Q with _ | ⟨x2, y2, hQ⟩
  · have hz : ¬ isZero p1 = true := fun e => by have := (isZero_iff h1).mp e; cases this
    rw [addMix, if_neg hz, if_pos ((isZeroA_iff hb h2).mpr rfl), add_zero']; exact ⟨h1, fun h => h⟩
  have hz : ¬ isZero p1 = true := fun e => by have := (isZero_iff h1).mp e; cases this
  have hz' : ¬ isZeroA s = true := fun e => by have := (isZeroA_iff hb h2).mp e; cases this
  have h2' := h2
  obtain ⟨g1, g2, g3, g4⟩ := h1
  obtain ⟨k3, k4⟩ := h2
  obtain ⟨z1, hz1, e1, e2⟩ := scale g1 g2
  have hp : s.x * p1.zz - p1.x = (x2 - x1) * z1 ^ 2 * 1 ^ 2 := by rw [g3, k3, e1]; ring
  have hr : s.y * p1.zzz - p1.y = (y2 - y1) * z1 ^ 3 * 1 ^ 3 := by rw [g4, k4, e2]; ring
  rw [addMix, if_neg hz, if_neg hz']
  simp only [Bool.and_eq_true, beq_iff_eq]
  split
  · rename_i hpr
    rw [hp, hr] at hpr
    obtain ⟨rfl, rfl⟩ := same_point hz1 one_ne_zero hpr.1 hpr.2
    exact ⟨(dblA_rep hb h2').1, fun h => (dblA_rep hb h2').2⟩
  · rename_i hpr
    have aux : ∀ {r : Pt K} {X : GPoint a b}, CRep r X ∧ Proper r → CRep r X ∧ (Proper p1 → Proper r) :=
      fun h => ⟨h.1, fun _ => h.2⟩
    refine aux (add_generic hz1 one_ne_zero hP hQ hp hr hpr ?_ ?_ ?_ ?_) <;> dsimp only
    · rw [g3, e1]; ring
    · rw [g3, g4, e1, e2]; ring
    · rw [e1]; ring
    · rw [e2]; ring

theorem addAff_rep (hb : b ≠ 0) (h1 : ARep s1 P) (h2 : ARep s2 Q) : CRep (addAff a s1 s2) (P + Q) ∧ Proper (addAff a s1 s2) := by
  rcases P with _ | ⟨x1, y1, hP⟩
  · rw [addAff, if_pos ((isZeroA_iff hb h1).mpr rfl), zero_add']
    exact copyPA_rep hb h2
  rcases Q with _ | ⟨x2, y2, hQ⟩
  · have hz : ¬ isZeroA s1 = true := fun e => by have := (isZeroA_iff hb h1).mp e; cases this
    rw [addAff, if_neg hz, if_pos ((isZeroA_iff hb h2).mpr rfl), add_zero']; exact copyPA_rep hb h1
  have hz : ¬ isZeroA s1 = true := fun e => by have := (isZeroA_iff hb h1).mp e; cases this
  have hz' : ¬ isZeroA s2 = true := fun e => by have := (isZeroA_iff hb h2).mp e; cases this
  have h2' := h2
  obtain ⟨g3, g4⟩ := h1
  obtain ⟨k3, k4⟩ := h2
  have hp : s2.x - s1.x = (x2 - x1) * 1 ^ 2 * 1 ^ 2 := by rw [g3, k3]; ring
  have hr : s2.y - s1.y = (y2 - y1) * 1 ^ 3 * 1 ^ 3 := by rw [g4, k4]; ring
  rw [addAff, if_neg hz, if_neg hz']
  simp only [Bool.and_eq_true, beq_iff_eq]
  split
  · rename_i hpr
    rw [hp, hr] at hpr
    obtain ⟨rfl, rfl⟩ := same_point one_ne_zero one_ne_zero hpr.1 hpr.2
    exact dblA_rep hb h2'
  · rename_i hpr
    refine add_generic one_ne_zero one_ne_zero hP hQ hp hr hpr ?_ ?_ ?_ ?_ <;> dsimp only
    · rw [g3]; ring
    · rw [g3, g4]; ring
    · ring
    · ring

/-! ## Negation, subtraction, copies -/

theorem neg_rep (h : CRep p P) : CRep (neg p) (-P) ∧ (Proper p → Proper (neg p)) := by
  refine ⟨?_, fun hp hz => ?_⟩
  · rcases P with _ | ⟨x, y, hP⟩
    · exact h
    · rw [WeierstrassCurve.Affine.Point.neg_some]
      obtain ⟨h1, h2, h3, h4⟩ := h
      exact ⟨h1, h2, h3, by rw [negY_eq]; show -p.y = -y * p.zzz; rw [h4]; ring⟩
  · rcases hp hz with h | h
    · exact Or.inl h
    · exact Or.inr (neg_ne_zero.mpr h)

theorem negA_rep (h : ARep s P) : ARep (negA s) (-P) := by
  rcases P with _ | ⟨x, y, hP⟩
  · exact ⟨h.1, by show -s.y = 0; rw [h.2, neg_zero]⟩
  · rw [WeierstrassCurve.Affine.Point.neg_some]
    exact ⟨h.1, by rw [negY_eq]; show -s.y = -y; rw [h.2]⟩

theorem negPA_rep (h : ARep s P) (hP : P ≠ 0) : CRep (negPA s) (-P) ∧ Proper (negPA s) := by
  rcases P with _ | ⟨x, y, hP⟩
  · exact absurd rfl hP
  · rw [WeierstrassCurve.Affine.Point.neg_some]
    refine ⟨⟨one_ne_zero, by simp [negPA], ?_, ?_⟩, fun e => absurd e one_ne_zero⟩
    · show s.x = x * 1; rw [h.1, mul_one]
    · rw [negY_eq]; show -s.y = -y * 1; rw [h.2, mul_one]

theorem copyAP_rep (h : CRep p P) : ARep (copyAP p) P := by
  rcases P with _ | ⟨x, y, hP⟩
  · rw [copyAP, if_pos ((isZero_iff h).mpr rfl)]; exact ⟨rfl, rfl⟩
  · have hz : ¬ isZero p = true := fun e => by have := (isZero_iff h).mp e; cases this
    rw [copyAP, if_neg hz]
    obtain ⟨h1, h2, h3, h4⟩ := h
    have h5 : p.zzz ≠ 0 := by
      intro e; rw [e, zero_pow (by norm_num)] at h2; exact h1 (pow_eq_zero_iff (by norm_num) |>.mp h2)
    exact ⟨by show p.x / p.zz = x; rw [h3]; field_simp, by show p.y / p.zzz = y; rw [h4]; field_simp⟩

theorem negAP_eq (p : Pt K) : negAP p = negA (copyAP p) := by
  unfold negAP negA copyAP; split <;> simp

theorem negAP_rep (h : CRep p P) : ARep (negAP p) (-P) := by rw [negAP_eq]; exact negA_rep (copyAP_rep h)

theorem ARep.inj (hb : b ≠ 0) (h1 : ARep s1 P) (h2 : ARep s2 Q) : s1 = s2 ↔ P = Q := by
  constructor
  · rintro rfl
    rcases P with _ | ⟨x1, y1, hP⟩
    · exact ((isZeroA_iff hb h2).mp ((isZeroA_iff hb h1).mpr rfl)).symm
    rcases Q with _ | ⟨x2, y2, hQ⟩
    · exact (isZeroA_iff hb h1).mp ((isZeroA_iff hb h2).mpr rfl)
    obtain ⟨rfl, rfl⟩ := h1
    obtain ⟨rfl, rfl⟩ := h2
    rfl
  · rintro rfl
    rcases P with _ | ⟨x1, y1, hP⟩
    · exact PtA.ext (h1.1.trans h2.1.symm) (h1.2.trans h2.2.symm)
    · exact PtA.ext (h1.1.trans h2.1.symm) (h1.2.trans h2.2.symm)

/-! ## Equality -/

theorem eq_iff (h1 : CRep p1 P) (h2 : CRep p2 Q) (hp : Proper p2) : eq p1 p2 = true ↔ P = Q := by
  rcases P with _ | ⟨x1, y1, hP⟩
  · rw [eq, if_pos ((isZero_iff h1).mpr rfl), isZero_iff h2]; exact eq_comm
  have hz : ¬ isZero p1 = true := fun e => by have := (isZero_iff h1).mp e; cases this
  rw [eq, if_neg hz]
  simp only [Bool.and_eq_true, beq_iff_eq]
  obtain ⟨g1, g2, g3, g4⟩ := h1
  obtain ⟨z1, hz1, e1, e2⟩ := scale g1 g2
  rcases Q with _ | ⟨x2, y2, hQ⟩
  · obtain ⟨k1, k2⟩ := h2
    constructor
    · rintro ⟨c1, c2⟩
      rw [k1, e1] at c1
      rw [k2, e2] at c2
      have d1 : p2.x * z1 ^ 2 = 0 := by linear_combination c1
      have d2 : p2.y * z1 ^ 3 = 0 := by linear_combination c2
      rcases hp k1 with h | h
      · exact absurd d1 (mul_ne_zero h (pow_ne_zero _ hz1))
      · exact absurd d2 (mul_ne_zero h (pow_ne_zero _ hz1))
    · intro e; cases e
  · obtain ⟨k1, k2, k3, k4⟩ := h2
    obtain ⟨z2, hz2, f1, f2⟩ := scale k1 k2
    have hp : p2.x * p1.zz - p1.x * p2.zz = (x2 - x1) * z1 ^ 2 * z2 ^ 2 := by rw [g3, k3, e1, f1]; ring
    have hr : p2.y * p1.zzz - p1.y * p2.zzz = (y2 - y1) * z1 ^ 3 * z2 ^ 3 := by rw [g4, k4, e2, f2]; ring
    rw [hp, hr]
    constructor
    · rintro ⟨c1, c2⟩
      obtain ⟨rfl, rfl⟩ := same_point hz1 hz2 c1 c2
      rfl
    · intro e
      injection e with e1 e2
      subst e1 e2
      constructor <;> ring

theorem eqPA_iff (hb : b ≠ 0) (h1 : CRep p1 P) (h2 : ARep s Q) : eqPA p1 s = true ↔ P = Q := by
  rcases P with _ | ⟨x1, y1, hP⟩
  · rw [eqPA, if_pos ((isZero_iff h1).mpr rfl), isZeroA_iff hb h2]; exact eq_comm
  have hz : ¬ isZero p1 = true := fun e => by have := (isZero_iff h1).mp e; cases this
  have key : eqPA p1 s = true ↔ s = copyAP p1 := by
    rw [eqPA, if_neg hz, copyAP, if_neg hz]
    simp only [Bool.and_eq_true, beq_iff_eq]
    obtain ⟨g1, g2, g3, g4⟩ := h1
    obtain ⟨z1, hz1, e1, e2⟩ := scale g1 g2
    have h5 : p1.zzz ≠ 0 := by rw [e2]; exact pow_ne_zero _ hz1
    constructor
    · rintro ⟨c1, c2⟩
      exact PtA.ext (by rw [eq_div_iff g1]; exact sub_eq_zero.mp c1) (by rw [eq_div_iff h5]; exact sub_eq_zero.mp c2)
    · rintro rfl
      exact ⟨by show p1.x / p1.zz * p1.zz - p1.x = 0; rw [div_mul_cancel₀ _ g1, sub_self],
        by show p1.y / p1.zzz * p1.zzz - p1.y = 0; rw [div_mul_cancel₀ _ h5, sub_self]⟩
  rw [key, ARep.inj hb h2 (copyAP_rep h1)]
  exact eq_comm

theorem eqAA_iff (hb : b ≠ 0) (h1 : ARep s1 P) (h2 : ARep s2 Q) : eqAA s1 s2 = true ↔ P = Q := by
  rw [← ARep.inj hb h1 h2, eqAA]
  simp only [Bool.and_eq_true, beq_iff_eq]
  exact ⟨fun h => PtA.ext h.1 h.2, by rintro rfl; exact ⟨rfl, rfl⟩⟩

theorem zero_rep : CRep (zero : Pt K) (0 : GPoint a b) ∧ Proper (zero : Pt K) := ⟨⟨rfl, rfl⟩, fun _ => Or.inl one_ne_zero⟩
theorem zeroAffine_rep : ARep (zeroAffine : PtA K) (0 : GPoint a b) := ⟨rfl, rfl⟩

end Curve
end FF
