import Verif.GroupCode

/-!
# Curve code over one field seen in another

The curve code commutes with every homomorphism of fields: it uses only the field operations and tests of equality.  So the code run on
one representation of a field (limb arrays, pairs of limb arrays) can be read in the mathematical field.
-/

set_option linter.unusedSectionVars false

namespace FF

/-- Coordinates of a point read in another field. -/
def Pt.map {K L : Type} (f : K → L) (p : Pt K) : Pt L := ⟨f p.x, f p.y, f p.zz, f p.zzz⟩
def PtA.map {K L : Type} (f : K → L) (p : PtA K) : PtA L := ⟨f p.x, f p.y⟩

namespace Curve

variable {K L : Type} [Field K] [DecidableEq K] [Field L] [DecidableEq L] (φ : K →+* L)

theorem beq_zero_map (x : K) : (φ x == 0) = (x == 0) := by
  by_cases h : x = 0
  · simp [h]
  · have : φ x ≠ 0 := (map_ne_zero φ).mpr h
    simp [h]

theorem beq_map (x y : K) : (φ x == φ y) = (x == y) := by
  by_cases h : x = y
  · simp [h]
  · have : φ x ≠ φ y := fun e => h (φ.injective e)
    simp [h, this]

theorem typeOfA_map (a : K) : typeOfA (φ a) = typeOfA a := by
  have h1 : φ a = 1 ↔ a = 1 := ⟨fun e => φ.injective (by rw [e, map_one]), fun e => by rw [e, map_one]⟩
  have h2 : φ a = -1 ↔ a = -1 := ⟨fun e => φ.injective (by rw [e, map_neg, map_one]), fun e => by rw [e, map_neg, map_one]⟩
  have h0 : φ a = 0 ↔ a = 0 := map_eq_zero φ
  simp only [typeOfA, h0, h1, h2]

theorem mulByA_map (a b : K) : mulByA (φ a) (φ b) = φ (mulByA a b) := by
  unfold mulByA
  rw [typeOfA_map]
  cases typeOfA a <;> simp

theorem isZero_map (p : Pt K) : isZero (p.map φ) = isZero p := beq_zero_map φ _
theorem isZeroA_map (p : PtA K) : isZeroA (p.map φ) = isZeroA p := by simp only [isZeroA, PtA.map, beq_zero_map]

theorem zero_map : (zero : Pt K).map φ = zero := by simp [zero, Pt.map]
theorem zeroAffine_map : (zeroAffine : PtA K).map φ = zeroAffine := by simp [zeroAffine, PtA.map]

theorem copyPA_map (s : PtA K) : (copyPA s).map φ = copyPA (s.map φ) := by
  simp only [copyPA, isZeroA_map]
  split <;> simp [Pt.map, PtA.map]

theorem copyAP_map (p : Pt K) : (copyAP p).map φ = copyAP (p.map φ) := by
  simp only [copyAP, isZero_map]
  split <;> simp [Pt.map, PtA.map]

theorem dbl_map (a : K) (p : Pt K) : (dbl a p).map φ = dbl (φ a) (p.map φ) := by
  simp only [dbl, isZero_map, typeOfA_map]
  split
  · rfl
  · split <;> simp [Pt.map, ← mulByA_map]

theorem dblA_map (a : K) (s : PtA K) : (dblA a s).map φ = dblA (φ a) (s.map φ) := by
  simp only [dblA, isZeroA_map]
  split
  · exact copyPA_map φ s
  · simp [Pt.map, PtA.map]

theorem add_map (a : K) (p q : Pt K) : (add a p q).map φ = add (φ a) (p.map φ) (q.map φ) := by
  have e1 : (q.map φ).x * (p.map φ).zz - (p.map φ).x * (q.map φ).zz = φ (q.x * p.zz - p.x * q.zz) := by simp [Pt.map]
  have e2 : (q.map φ).y * (p.map φ).zzz - (p.map φ).y * (q.map φ).zzz = φ (q.y * p.zzz - p.y * q.zzz) := by simp [Pt.map]
  simp only [add, isZero_map, e1, e2, beq_zero_map]
  split
  · rfl
  · split
    · rfl
    · split
      · exact dbl_map φ a p
      · simp [Pt.map]

theorem addMix_map (a : K) (p : Pt K) (s : PtA K) : (addMix a p s).map φ = addMix (φ a) (p.map φ) (s.map φ) := by
  have e1 : (s.map φ).x * (p.map φ).zz - (p.map φ).x = φ (s.x * p.zz - p.x) := by simp [Pt.map, PtA.map]
  have e2 : (s.map φ).y * (p.map φ).zzz - (p.map φ).y = φ (s.y * p.zzz - p.y) := by simp [Pt.map, PtA.map]
  simp only [addMix, isZero_map, isZeroA_map, e1, e2, beq_zero_map]
  split
  · exact copyPA_map φ s
  · split
    · rfl
    · split
      · exact dblA_map φ a s
      · simp [Pt.map]

theorem addAff_map (a : K) (s t : PtA K) : (addAff a s t).map φ = addAff (φ a) (s.map φ) (t.map φ) := by
  have e1 : (t.map φ).x - (s.map φ).x = φ (t.x - s.x) := by simp [PtA.map]
  have e2 : (t.map φ).y - (s.map φ).y = φ (t.y - s.y) := by simp [PtA.map]
  simp only [addAff, isZeroA_map, e1, e2, beq_zero_map]
  split
  · exact copyPA_map φ t
  · split
    · exact copyPA_map φ s
    · split
      · exact dblA_map φ a t
      · simp [Pt.map, PtA.map]

theorem neg_map (p : Pt K) : (neg p).map φ = neg (p.map φ) := by simp [neg, Pt.map]
theorem negA_map (s : PtA K) : (negA s).map φ = negA (s.map φ) := by simp [negA, PtA.map]
theorem negAP_map (p : Pt K) : (negAP p).map φ = negAP (p.map φ) := by
  simp only [negAP, isZero_map]
  split <;> simp [Pt.map, PtA.map]
theorem negPA_map (s : PtA K) : (negPA s).map φ = negPA (s.map φ) := by simp [negPA, Pt.map, PtA.map]

theorem sub_map (a : K) (p q : Pt K) : (sub a p q).map φ = sub (φ a) (p.map φ) (q.map φ) := by simp only [sub, add_map, neg_map]
theorem subMix_map (a : K) (p : Pt K) (s : PtA K) : (subMix a p s).map φ = subMix (φ a) (p.map φ) (s.map φ) := by
  simp only [subMix, addMix_map, negA_map]

theorem eq_map (p q : Pt K) : eq (p.map φ) (q.map φ) = eq p q := by
  have e1 : (q.map φ).x * (p.map φ).zz - (p.map φ).x * (q.map φ).zz = φ (q.x * p.zz - p.x * q.zz) := by simp [Pt.map]
  have e2 : (q.map φ).y * (p.map φ).zzz - (p.map φ).y * (q.map φ).zzz = φ (q.y * p.zzz - p.y * q.zzz) := by simp [Pt.map]
  simp only [eq, isZero_map, e1, e2, beq_zero_map]

theorem eqPA_map (p : Pt K) (s : PtA K) : eqPA (p.map φ) (s.map φ) = eqPA p s := by
  have e1 : (s.map φ).x * (p.map φ).zz - (p.map φ).x = φ (s.x * p.zz - p.x) := by simp [Pt.map, PtA.map]
  have e2 : (s.map φ).y * (p.map φ).zzz - (p.map φ).y = φ (s.y * p.zzz - p.y) := by simp [Pt.map, PtA.map]
  simp only [eqPA, isZero_map, isZeroA_map, e1, e2, beq_zero_map]

theorem eqAA_map (s t : PtA K) : eqAA (s.map φ) (t.map φ) = eqAA s t := by simp only [eqAA, PtA.map, beq_map]

variable {φ} {a : K} {b : L}

/-- The code over `K` computes in the group of points over `L`. -/
theorem code_sound_map (hb : b ≠ 0) : (Curve.code a).Sound (fun p P => CRep (a := φ a) (b := b) (p.map φ) P)
    (fun s P => ARep (a := φ a) (b := b) (s.map φ) P) where
  zero := by show CRep ((zero : Pt K).map φ) _; rw [zero_map]; exact zero_rep.1
  memz := ⟨map_zero φ, map_zero φ⟩
  isZero {p x} h := by have := isZero_iff h; rwa [isZero_map] at this
  isZeroA {p x} h := by have := isZeroA_iff hb h; rwa [isZeroA_map] at this
  dbl {p x} h := by show CRep ((dbl a p).map φ) _; rw [dbl_map]; exact (dbl_rep h).1
  add {p q x y} h1 h2 := by show CRep ((add a p q).map φ) _; rw [add_map]; exact (add_rep h1 h2).1
  addMix {p s x y} h1 h2 := by show CRep ((addMix a p s).map φ) _; rw [addMix_map]; exact (addMix_rep hb h1 h2).1
  subMix {p s x y} h1 h2 := by
    show CRep ((subMix a p s).map φ) _
    rw [subMix_map, sub_eq_add_neg]; exact (addMix_rep hb h1 (negA_rep h2)).1

theorem code_sound_map' (hb : b ≠ 0) : (Curve.code' a).Sound (fun p P => CRep (a := φ a) (b := b) (p.map φ) P ∧ Proper (p.map φ))
    (fun s P => ARep (a := φ a) (b := b) (s.map φ) P) where
  zero := by
    show CRep ((zero : Pt K).map φ) _ ∧ Proper ((zero : Pt K).map φ)
    rw [zero_map]; exact zero_rep
  memz := by
    show CRep ((zero : Pt K).map φ) _ ∧ Proper ((zero : Pt K).map φ)
    rw [zero_map]; exact zero_rep
  isZero {p x} h := by have := isZero_iff h.1; rwa [isZero_map] at this
  isZeroA {p x} h := by have := isZeroA_iff hb h; rwa [isZeroA_map] at this
  dbl {p x} h := by
    show CRep ((dbl a p).map φ) _ ∧ Proper ((dbl a p).map φ)
    rw [dbl_map]; exact ⟨(dbl_rep h.1).1, (dbl_rep h.1).2 h.2⟩
  add {p q x y} h1 h2 := by
    show CRep ((add a p q).map φ) _ ∧ Proper ((add a p q).map φ)
    rw [add_map]; exact ⟨(add_rep h1.1 h2.1).1, (add_rep h1.1 h2.1).2 h1.2 h2.2⟩
  addMix {p s x y} h1 h2 := by
    show CRep ((addMix a p s).map φ) _ ∧ Proper ((addMix a p s).map φ)
    rw [addMix_map]; exact ⟨(addMix_rep hb h1.1 h2).1, (addMix_rep hb h1.1 h2).2 h1.2⟩
  subMix {p s x y} h1 h2 := by
    show CRep ((subMix a p s).map φ) _ ∧ Proper ((subMix a p s).map φ)
    rw [subMix_map, sub_eq_add_neg]
    exact ⟨(addMix_rep hb h1.1 (negA_rep h2)).1, (addMix_rep hb h1.1 (negA_rep h2)).2 h1.2⟩

end Curve
end FF
