import Verif.Model.Kernel
import Mathlib.Tactic.Linarith
import Mathlib.Tactic.FieldSimp

/-! # Change of the unit of time: the covariance functions -/

namespace Mica

/-- A component with its centre and width in another unit of time. -/
def Comp.inUnit (a : ℝ) (x : Comp) : Comp := ⟨x.f, a * x.c, a * x.w⟩

/-- The width of a component is told apart from the damping time in both units or in neither. -/
def SameSide (a taud w : ℝ) : Prop := |a * (taud - w)| > kEPS ↔ |taud - w| > kEPS

section
variable {a : ℝ} (ha : 0 < a)
include ha

theorem u_div (x y : ℝ) : a * x / (a * y) = x / y := mul_div_mul_left _ _ ha.ne'
theorem u_div2 (z x y : ℝ) : z * (a * x) / (a * y) = z * x / y := by
  rw [mul_left_comm, mul_div_mul_left _ _ ha.ne']
theorem u_sq (x y u v : ℝ) : a * x * (a * y) / (a * u * (a * v)) = x * y / (u * v) := by
  field_simp
theorem u_sq2 (x y u v z : ℝ) : a * x * (a * y) / z / (a * u) / (a * v) = x * y / z / u / v := by
  field_simp
theorem u_sq4 (x y u z : ℝ) : a * x * y / z / (a * u) = x * y / z / u := by
  field_simp
omit ha in
theorem u_two (x : ℝ) : 2 * (a * x) = a * (2 * x) := by ring
omit ha in
theorem u_four (x : ℝ) : 4 * (a * x) = a * (4 * x) := by ring
theorem u_sqrt (x y : ℝ) : Real.sqrt (a * x * (a * x) + a * y * (a * y)) = a * Real.sqrt (x * x + y * y) := by
  rw [show a * x * (a * x) + a * y * (a * y) = a ^ 2 * (x * x + y * y) by ring,
    Real.sqrt_mul (by positivity), Real.sqrt_sq ha.le]
theorem u_nonpos (x : ℝ) : a * x ≤ 0 ↔ x ≤ 0 := by
  constructor
  · intro h; by_contra h'; push Not at h'; exact absurd h (not_le.2 (mul_pos ha h'))
  · intro h; exact mul_nonpos_of_nonneg_of_nonpos ha.le h
theorem u_nonneg (x : ℝ) : a * x ≥ 0 ↔ x ≥ 0 := by
  constructor
  · intro h; by_contra h'; push Not at h'; exact absurd h (not_le.2 (mul_neg_of_pos_of_neg ha h'))
  · intro h; exact mul_nonneg ha.le h
theorem u_lt (x y : ℝ) : a * x < a * y ↔ x < y := mul_lt_mul_iff_right₀ ha
theorem u_le (x y : ℝ) : a * x ≤ a * y ↔ x ≤ y := mul_le_mul_iff_right₀ ha
theorem u_ge (x y : ℝ) : a * x ≥ a * y ↔ x ≥ y := mul_le_mul_iff_right₀ ha

theorem slcGau_unit (taud : ℝ) (x : Comp) (Dt : ℝ) :
    slcGau (a * taud) (x.inUnit a) (a * Dt) = slcGau taud x Dt := by
  simp only [slcGau, Comp.inUnit, ← mul_sub, ← mul_add, ← mul_neg, u_div ha, u_sq2 ha]

theorem slcTop_unit (taud : ℝ) (x : Comp) (Dt : ℝ) :
    slcTop (a * taud) (x.inUnit a) (a * Dt) = slcTop taud x Dt := by
  simp only [slcTop, Comp.inUnit, ← mul_sub, ← mul_add, ← mul_neg, u_div ha, u_lt ha]
  congr 1
  rw [mul_div_assoc a taud, u_div ha]

theorem slcGam_unit (taud : ℝ) (x : Comp) (Dt : ℝ) :
    slcGam (a * taud) (x.inUnit a) (a * Dt) = slcGam taud x Dt := by
  simp only [slcGam, Comp.inUnit, u_two, ← mul_sub, ← mul_add, ← mul_neg, u_div ha, u_div2 ha, u_nonpos ha]

theorem slcExp_unit (taud : ℝ) (x : Comp) (Dt : ℝ) :
    slcExp (a * taud) (x.inUnit a) (a * Dt) = slcExp taud x Dt := by
  simp only [slcExp, Comp.inUnit, u_two, ← mul_sub, ← mul_add, ← mul_neg, u_div ha, u_div2 ha, u_nonpos ha]

theorem sllGauGau_unit (taud : ℝ) (x y : Comp) (Dt : ℝ) :
    sllGauGau (a * taud) (x.inUnit a) (y.inUnit a) (a * Dt) = sllGauGau taud x y Dt := by
  simp only [sllGauGau, Comp.inUnit, u_sqrt ha, ← mul_sub, ← mul_add, ← mul_neg, u_div ha, u_sq2 ha]

theorem sllTopTop_unit (taud : ℝ) (x y : Comp) (Dt : ℝ) :
    sllTopTop (a * taud) (x.inUnit a) (y.inUnit a) (a * Dt) = sllTopTop taud x y Dt := by
  have h : ∀ u v : ℝ, (if u ≥ v then a * u else a * v) = a * (if u ≥ v then u else v) := by
    intro u v; split <;> rfl
  have h' : ∀ u v : ℝ, (if u ≥ v then a * v else a * u) = a * (if u ≥ v then v else u) := by
    intro u v; split <;> rfl
  simp only [sllTopTop, Comp.inUnit, u_ge ha, h, h']
  simp only [u_two, u_four, ← mul_sub, ← mul_add, ← mul_neg, u_div ha, u_lt ha]
  congr 1
  field_simp

theorem sllGamGam_unit (taud : ℝ) (x y : Comp) (Dt : ℝ) :
    sllGamGam (a * taud) (x.inUnit a) (y.inUnit a) (a * Dt) = sllGamGam taud x y Dt := by
  simp only [sllGamGam, Comp.inUnit, u_two, ← mul_sub, ← mul_add, ← mul_neg, u_div ha, u_div2 ha, u_nonpos ha]

theorem sllExpExp_unit (taud : ℝ) (x y : Comp) (Dt : ℝ) :
    sllExpExp (a * taud) (x.inUnit a) (y.inUnit a) (a * Dt) = sllExpExp taud x y Dt := by
  simp only [sllExpExp, Comp.inUnit, u_two, ← mul_sub, ← mul_add, ← mul_neg, u_div ha, u_div2 ha, u_nonpos ha]

theorem sllGauExp_unit (taud : ℝ) (x y : Comp) (Dt : ℝ) (h : SameSide a taud y.w) :
    sllGauExp (a * taud) (x.inUnit a) (y.inUnit a) (a * Dt) = sllGauExp taud x y Dt := by
  unfold SameSide at h
  simp only [sllGauExp, Comp.inUnit, u_two, ← mul_sub, ← mul_add, ← mul_neg, u_div ha, u_div2 ha, u_sq ha, h]

theorem sllGauGam_unit (taud : ℝ) (x y : Comp) (Dt : ℝ) (h : SameSide a taud y.w) :
    sllGauGam (a * taud) (x.inUnit a) (y.inUnit a) (a * Dt) = sllGauGam taud x y Dt := by
  unfold SameSide at h
  simp only [sllGauGam, Comp.inUnit, u_two, ← mul_sub, ← mul_add, ← mul_neg, u_div ha, u_div2 ha, u_sq ha, h]

theorem sllGauTop_unit (taud : ℝ) (x y : Comp) (Dt : ℝ) :
    sllGauTop (a * taud) (x.inUnit a) (y.inUnit a) (a * Dt) = sllGauTop taud x y Dt := by
  simp only [sllGauTop, Comp.inUnit, ← mul_sub, ← mul_add, ← mul_neg, u_div ha, u_div2 ha, u_sq4 ha]

theorem sllExpGam_unit {taud : ℝ} (ht : 0 < taud) (x y : Comp) (hx : 0 < x.w) (hy : 0 < y.w) (Dt : ℝ)
    (h1 : SameSide a taud x.w) (h2 : SameSide a taud y.w) :
    sllExpGam (a * taud) (x.inUnit a) (y.inUnit a) (a * Dt) = sllExpGam taud x y Dt := by
  unfold SameSide at h1 h2
  have e3 : ∀ u v w : ℝ, u / (a * v) / (a * w) = u / v / w * (a⁻¹ * a⁻¹) := by intros; field_simp
  have q : ∀ u v w : ℝ, a * u / (a * v) / (a * w) = u / v / w / a := by intros; field_simp
  simp only [sllExpGam, Comp.inUnit, u_two, ← mul_sub, ← mul_add, ← mul_neg, u_nonneg ha, h1, h2, u_div ha, q]
  generalize hD : Dt - (x.c - x.w - (y.c - 2 * y.w)) = D
  generalize Real.exp (-D / taud) = E1
  generalize Real.exp (-D / x.w) = E2
  generalize Real.exp (D / taud) = E3
  generalize Real.exp (D / y.w) = E4
  have g2 : taud + x.w ≠ 0 := by positivity
  have g3 : taud + y.w ≠ 0 := by positivity
  have g5 : x.w + y.w ≠ 0 := by positivity
  have k : ∀ w : ℝ, |taud - w| > kEPS → taud - w ≠ 0 := by
    intro w h h0
    rw [h0, abs_zero, kEPS] at h
    norm_num at h
  split
  · split
    · rename_i h
      have := k _ h
      field_simp
    · field_simp
  · split
    · rename_i h
      have := k _ h
      field_simp
    · field_simp

theorem sllExpTop_unit {taud : ℝ} (ht : 0 < taud) (x y : Comp) (hx : 0 < x.w) (hy : 0 < y.w) (Dt : ℝ)
    (h1 : SameSide a taud x.w) :
    sllExpTop (a * taud) (x.inUnit a) (y.inUnit a) (a * Dt) = sllExpTop taud x y Dt := by
  unfold SameSide at h1
  have q : ∀ u v w : ℝ, a * u / (a * v) / (a * w) = u / v / w / a := by intros; field_simp
  simp only [sllExpTop, Comp.inUnit, u_two, ← mul_sub, ← mul_add, ← mul_neg, u_le ha, h1, u_div ha, q]
  have g2 : taud + x.w ≠ 0 := by positivity
  have k : ∀ w : ℝ, |taud - w| > kEPS → taud - w ≠ 0 := by
    intro w h h0
    rw [h0, abs_zero, kEPS] at h
    norm_num at h
  generalize Dt - (x.c - x.w - y.c) = D
  generalize Real.exp (D / taud) = E1
  generalize Real.exp (y.w / taud) = E2
  generalize Real.exp (-y.w / taud) = E3
  generalize Real.exp (-(y.w + D) / x.w) = E4
  generalize Real.exp (D / taud - y.w / taud) = E5
  generalize Real.exp (-D / taud - y.w / taud) = E6
  generalize Real.exp (-(y.w + D) / taud) = E7
  generalize Real.exp (-(-y.w + D) / taud) = E8
  generalize Real.exp (-(-y.w + D) / x.w) = E9
  split
  · field_simp
  · split
    · split
      · rename_i h
        have := k _ h
        field_simp
      · field_simp
    · split
      · rename_i h
        have := k _ h
        field_simp
      · field_simp

theorem sllGamTop_unit {taud : ℝ} (ht : 0 < taud) (x y : Comp) (hx : 0 < x.w) (hy : 0 < y.w) (Dt : ℝ)
    (h1 : SameSide a taud x.w) :
    sllGamTop (a * taud) (x.inUnit a) (y.inUnit a) (a * Dt) = sllGamTop taud x y Dt := by
  unfold SameSide at h1
  have q : ∀ u v w : ℝ, a * u / (a * v) / (a * w) = u / v / w / a := by intros; field_simp
  simp only [sllGamTop, Comp.inUnit, u_two, ← mul_sub, ← mul_add, ← mul_neg, u_le ha, h1, u_div ha, q]
  have g2 : taud + x.w ≠ 0 := by positivity
  have k : ∀ w : ℝ, |taud - w| > kEPS → taud - w ≠ 0 := by
    intro w h h0
    rw [h0, abs_zero, kEPS] at h
    norm_num at h
  generalize Dt - (x.c - 2 * x.w - y.c) = D
  generalize Real.exp (D / taud) = E1
  generalize Real.exp (y.w / taud) = E2
  generalize Real.exp (-y.w / taud) = E3
  generalize Real.exp (-(y.w + D) / x.w) = E4
  generalize Real.exp (-(y.w - D) / taud) = E5
  generalize Real.exp (-(y.w + D) / taud) = E7
  generalize Real.exp (-(-y.w + D) / taud) = E8
  generalize Real.exp (-((-y.w + D) / x.w)) = E9
  generalize Real.exp (-((y.w + D) / x.w)) = E10
  generalize Real.exp (-((-y.w + D) / taud)) = E11
  generalize Real.exp (-((y.w + D) / taud)) = E12
  split
  · field_simp
  · split
    · split
      · rename_i h
        have := k _ h
        field_simp
      · field_simp
    · split
      · rename_i h
        have := k _ h
        field_simp
      · field_simp

end
end Mica
