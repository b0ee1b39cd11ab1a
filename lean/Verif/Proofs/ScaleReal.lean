import Verif.Model.Eigh
import Verif.Spec.Frob

/-! # Scaling by the largest absolute value, over the reals -/

namespace LinfaLinalg

open Matrix

theorem foldl_max_spec (l : List ℝ) (b : ℝ) :
    b ≤ l.foldl max b ∧ (∀ x ∈ l, x ≤ l.foldl max b) ∧ (l.foldl max b = b ∨ l.foldl max b ∈ l) := by
  induction l generalizing b with
  | nil => exact ⟨le_rfl, by simp, Or.inl rfl⟩
  | cons x l ih =>
    obtain ⟨h1, h2, h3⟩ := ih (max b x)
    simp only [List.foldl_cons]
    refine ⟨(le_max_left _ _).trans h1, ?_, ?_⟩
    · intro y hy
      rcases List.mem_cons.1 hy with rfl | hy
      · exact (le_max_right _ _).trans h1
      · exact h2 y hy
    · rcases h3 with h3 | h3
      · rcases max_choice b x with h | h
        · left; rw [h3, h]
        · right; rw [h3, h]; simp
      · right; simp [h3]

theorem Arr2.mem_toList {α : Type} [Zero α] (a : Arr2 α) (x : α) :
    x ∈ a.toList ↔ ∃ i j, i < a.nr ∧ j < a.nc ∧ a.get i j = x := by
  simp only [Arr2.toList, List.mem_flatMap, List.mem_range, List.mem_map]
  constructor
  · rintro ⟨i, hi, j, hj, e⟩; exact ⟨i, j, hi, hj, e⟩
  · rintro ⟨i, j, hi, hj, e⟩; exact ⟨i, hi, j, hj, e⟩

theorem amax_real (a : Arr2 ℝ) (h1 : 1 ≤ a.nr) (h2 : 1 ≤ a.nc) :
    (∀ i j, i < a.nr → j < a.nc → |a.get i j| ≤ a.amax) ∧
    ∃ i j, i < a.nr ∧ j < a.nc ∧ |a.get i j| = a.amax := by
  obtain ⟨-, h4, h5⟩ := foldl_max_spec (a.toList.map fun x => |x|) (-1)
  have hm : ∀ i j, i < a.nr → j < a.nc → |a.get i j| ≤ a.amax := by
    intro i j hi hj
    exact h4 _ (List.mem_map.2 ⟨_, (a.mem_toList _).2 ⟨i, j, hi, hj, rfl⟩, rfl⟩)
  refine ⟨hm, ?_⟩
  rcases h5 with h5 | h5
  · exfalso
    have := hm 0 0 h1 h2
    have h6 : a.amax = -1 := h5
    rw [h6] at this
    linarith [abs_nonneg (a.get 0 0)]
  · obtain ⟨x, hx, e⟩ := List.mem_map.1 h5
    obtain ⟨i, j, hi, hj, rfl⟩ := (a.mem_toList _).1 hx
    exact ⟨i, j, hi, hj, e⟩

theorem amax_nonneg (a : Arr2 ℝ) (h1 : 1 ≤ a.nr) (h2 : 1 ≤ a.nc) : 0 ≤ a.amax :=
  (abs_nonneg _).trans ((amax_real a h1 h2).1 0 0 h1 h2)

/-- The scaled matrix. -/
theorem scaleDown_real {n m : Nat} (a : Arr2 ℝ) (ha : HasShape a n m) (hn : 1 ≤ n) (hm : 1 ≤ m) :
    HasShape (a.scaleDown a.amax) n m ∧
    toMat n m a = a.amax • toMat n m (a.scaleDown a.amax) ∧
    (toMat n m (a.scaleDown a.amax) = 0 ∨ 1 ≤ frob (toMat n m (a.scaleDown a.amax))) ∧
    toMat n m (a.scaleDown a.amax) = (if a.amax = 0 then 1 else 1 / a.amax) • toMat n m a := by
  obtain ⟨h1, i, j, hi, hj, h2⟩ := amax_real a (by rw [ha.1]; exact hn) (by rw [ha.2]; exact hm)
  rw [ha.1] at hi
  rw [ha.2] at hj
  unfold Arr2.scaleDown
  simp only [real_isZero, decide_eq_true_eq]
  by_cases h0 : a.amax = 0
  · rw [if_pos h0, h0]
    have hz : toMat n m a = 0 := by
      ext i j
      have := h1 i j (by rw [ha.1]; exact i.2) (by rw [ha.2]; exact j.2)
      rw [h0] at this
      exact abs_nonpos_iff.1 this
    refine ⟨ha, by rw [hz]; simp, Or.inl hz, by simp⟩
  · rw [if_neg h0, if_neg h0]
    refine ⟨ha, ?_, Or.inr ?_, ?_⟩
    · ext i j
      simp only [Matrix.smul_apply, toMat_apply, Arr2.map, smul_eq_mul]
      field_simp
    · refine le_trans (le_of_eq ?_) (abs_le_frob _ (⟨i, hi⟩ : Fin n) (⟨j, hj⟩ : Fin m))
      simp only [toMat_apply, Arr2.map, abs_div, h2]
      rw [← h2, abs_abs, div_self]
      rw [h2]; exact h0
    · ext i j
      simp only [Matrix.smul_apply, toMat_apply, Arr2.map, smul_eq_mul]
      field_simp

end LinfaLinalg
