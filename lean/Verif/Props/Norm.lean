import Verif.Model.Norm
import Verif.Spec.Frob
import Verif.Proofs.Basic

/-! # C41: norms -/

namespace LinfaLinalg

/-- `norm_l1` of the elements `f 0, …, f (k-1)` of an array of any dimension. -/
noncomputable def l1 {k : Nat} (f : Fin k → ℝ) : ℝ := normL1 (List.ofFn f)
/-- `norm_l2` of the elements of an array of any dimension. -/
noncomputable def l2 {k : Nat} (f : Fin k → ℝ) : ℝ := normL2 (List.ofFn f)
/-- `norm_max` of the elements of an array of any dimension. -/
noncomputable def lmax {k : Nat} (f : Fin k → ℝ) : ℝ := normMax (List.ofFn f)

theorem foldl_add_eq (l : List ℝ) (b : ℝ) : l.foldl (· + ·) b = b + l.sum := by
  induction l generalizing b with
  | nil => simp
  | cons x xs ih => rw [List.foldl_cons, ih, List.sum_cons]; ring

theorem foldl_maxabs_spec (l : List ℝ) (b : ℝ) (hb : 0 ≤ b) :
    let m := l.foldl (fun f val => NdFloat.max (NdFloat.abs val) f) b
    b ≤ m ∧ (∀ x ∈ l, |x| ≤ m) ∧ (m = b ∨ ∃ x ∈ l, |x| = m) := by
  induction l generalizing b with
  | nil => exact ⟨le_rfl, fun x hx => absurd hx (by simp), Or.inl rfl⟩
  | cons x xs ih =>
    simp only [List.foldl_cons, real_max, real_abs] at *
    obtain ⟨h1, h2, h3⟩ := ih (max |x| b) (le_max_of_le_right hb)
    refine ⟨(le_max_right _ _).trans h1, ?_, ?_⟩
    · intro y hy
      rcases List.mem_cons.1 hy with rfl | hy
      · exact (le_max_left _ _).trans h1
      · exact h2 y hy
    · rcases h3 with h3 | ⟨y, hy, h3⟩
      · rcases max_choice |x| b with h | h
        · right; exact ⟨x, by simp, by rw [h3, h]⟩
        · left; rw [h3, h]
      · right; exact ⟨y, by simp [hy], h3⟩

variable {k : Nat}

/-- **C41**: the three functions compute the sum of absolute values, the Euclidean norm and the
largest absolute value (zero for an empty array). -/
theorem C41_norm_values (f : Fin k → ℝ) :
    l1 f = ∑ i, |f i| ∧ l2 f = Real.sqrt (∑ i, f i ^ 2) ∧
    (∀ i, |f i| ≤ lmax f) ∧ (lmax f = 0 ∧ k = 0 ∨ ∃ i, |f i| = lmax f) := by
  refine ⟨?_, ?_, ?_, ?_⟩
  · unfold l1 normL1
    rw [foldl_add_eq, zero_add, List.map_ofFn, List.sum_ofFn]
    rfl
  · unfold l2 normL2
    rw [foldl_add_eq, zero_add, List.map_ofFn, List.sum_ofFn, real_sqrt]
    simp [pow_two]
  · intro i
    exact (foldl_maxabs_spec (List.ofFn f) 0 le_rfl).2.1 _ (List.mem_ofFn.2 ⟨i, rfl⟩)
  · obtain ⟨-, h2, h3⟩ := foldl_maxabs_spec (List.ofFn f) 0 le_rfl
    rcases h3 with h3 | ⟨x, hx, h⟩
    · by_cases hk : k = 0
      · left; exact ⟨h3, hk⟩
      · right
        refine ⟨⟨0, by omega⟩, le_antisymm (h2 _ (List.mem_ofFn.2 ⟨_, rfl⟩)) ?_⟩
        show lmax f ≤ _
        rw [show lmax f = 0 from h3]
        exact abs_nonneg _
    · right
      obtain ⟨i, rfl⟩ := List.mem_ofFn.1 hx
      exact ⟨i, h⟩

/-- For a 2D array `norm_l2` is the Frobenius norm. -/
theorem C41_norm_l2_frobenius (n m : Nat) (a : Arr2 ℝ) (ha : HasShape a n m) :
    normL2 a.toList = frob (toMat n m a) := by
  unfold normL2 frob
  rw [foldl_add_eq, zero_add, real_sqrt]
  congr 1
  obtain ⟨rfl, rfl⟩ := ha
  have h : ∀ n : Nat, ∀ g : Nat → ℝ, ((List.range n).map g).sum = ∑ i : Fin n, g i := by
    intro n g
    rw [Fin.sum_univ_eq_sum_range g n]
    induction n with
    | zero => simp
    | succ n ih => rw [List.range_succ, Finset.sum_range_succ, ← ih]; simp
  unfold Arr2.toList
  rw [List.flatMap_def, List.map_flatten, List.sum_flatten, List.map_map, List.map_map, h]
  refine Finset.sum_congr rfl fun i _ => ?_
  simp only [Function.comp, List.map_map, h]
  exact Finset.sum_congr rfl fun j _ => (pow_two _).symm

theorem lmax_nonneg (f : Fin k → ℝ) : 0 ≤ lmax f := (foldl_maxabs_spec (List.ofFn f) 0 le_rfl).1

theorem lmax_le_iff (f : Fin k → ℝ) {c : ℝ} (hc : 0 ≤ c) : lmax f ≤ c ↔ ∀ i, |f i| ≤ c := by
  obtain ⟨-, -, h1, h2⟩ := C41_norm_values f
  constructor
  · intro h i; exact (h1 i).trans h
  · intro h
    rcases h2 with ⟨h2, -⟩ | ⟨i, h2⟩
    · rw [h2]; exact hc
    · rw [← h2]; exact h i

theorem l2_eq_norm (f : Fin k → ℝ) : l2 f = ‖(WithLp.toLp 2 f : EuclideanSpace ℝ (Fin k))‖ := by
  rw [(C41_norm_values f).2.1, EuclideanSpace.norm_eq]
  simp

/-- **C41**: definiteness. -/
theorem C41_norm_zero (f : Fin k → ℝ) :
    (l1 f = 0 ↔ f = 0) ∧ (l2 f = 0 ↔ f = 0) ∧ (lmax f = 0 ↔ f = 0) := by
  refine ⟨?_, ?_, ?_⟩
  · rw [(C41_norm_values f).1, Finset.sum_eq_zero_iff_of_nonneg fun i _ => abs_nonneg _]
    simp [funext_iff]
  · rw [l2_eq_norm, norm_eq_zero]
    simp
  · constructor
    · intro h
      funext i
      have := (C41_norm_values f).2.2.1 i
      rw [h] at this
      exact abs_eq_zero.1 (le_antisymm this (abs_nonneg _))
    · rintro rfl
      exact le_antisymm ((lmax_le_iff _ le_rfl).2 fun i => by simp) (lmax_nonneg _)

/-- **C41**: absolute homogeneity. -/
theorem C41_norm_smul (c : ℝ) (f : Fin k → ℝ) :
    l1 (c • f) = |c| * l1 f ∧ l2 (c • f) = |c| * l2 f ∧ lmax (c • f) = |c| * lmax f := by
  refine ⟨?_, ?_, ?_⟩
  · rw [(C41_norm_values _).1, (C41_norm_values _).1, Finset.mul_sum]
    simp [abs_mul]
  · rw [l2_eq_norm, l2_eq_norm, WithLp.toLp_smul, norm_smul, Real.norm_eq_abs]
  · apply le_antisymm
    · refine (lmax_le_iff _ (mul_nonneg (abs_nonneg _) (lmax_nonneg _))).2 fun i => ?_
      simp only [Pi.smul_apply, smul_eq_mul, abs_mul]
      exact mul_le_mul_of_nonneg_left ((C41_norm_values f).2.2.1 i) (abs_nonneg _)
    · rcases (C41_norm_values f).2.2.2 with ⟨h, -⟩ | ⟨i, h⟩
      · rw [h, mul_zero]; exact lmax_nonneg _
      · rw [← h, ← abs_mul]
        exact (C41_norm_values (c • f)).2.2.1 i

/-- **C41**: triangle inequality. -/
theorem C41_norm_add (f g : Fin k → ℝ) :
    l1 (f + g) ≤ l1 f + l1 g ∧ l2 (f + g) ≤ l2 f + l2 g ∧ lmax (f + g) ≤ lmax f + lmax g := by
  refine ⟨?_, ?_, ?_⟩
  · rw [(C41_norm_values _).1, (C41_norm_values f).1, (C41_norm_values g).1,
      ← Finset.sum_add_distrib]
    exact Finset.sum_le_sum fun i _ => abs_add_le _ _
  · rw [l2_eq_norm, l2_eq_norm, l2_eq_norm, WithLp.toLp_add]
    exact norm_add_le _ _
  · refine (lmax_le_iff _ (add_nonneg (lmax_nonneg _) (lmax_nonneg _))).2 fun i => ?_
    exact (abs_add_le _ _).trans
      (add_le_add ((C41_norm_values f).2.2.1 i) ((C41_norm_values g).2.2.1 i))

/-- **C41**: `norm_max <= norm_l2 <= norm_l1`. -/
theorem C41_norm_compare (f : Fin k → ℝ) : 0 ≤ lmax f ∧ lmax f ≤ l2 f ∧ l2 f ≤ l1 f := by
  refine ⟨lmax_nonneg f, ?_, ?_⟩
  · rw [(C41_norm_values f).2.1]
    refine (lmax_le_iff _ (Real.sqrt_nonneg _)).2 fun i => ?_
    apply Real.abs_le_sqrt
    exact Finset.single_le_sum (f := fun j => f j ^ 2) (fun j _ => sq_nonneg _) (Finset.mem_univ i)
  · rw [(C41_norm_values f).2.1, (C41_norm_values f).1]
    refine Real.sqrt_le_iff.2 ⟨Finset.sum_nonneg fun i _ => abs_nonneg _, ?_⟩
    calc ∑ i, f i ^ 2 = ∑ i, |f i| ^ 2 := by simp
      _ ≤ (∑ i, |f i|) ^ 2 := Finset.sum_sq_le_sq_sum_of_nonneg fun i _ => abs_nonneg _

/-- A concrete case: the array of the unit test in `/repo/src/norm.rs:47-50`. -/
example : l1 ![1, -3, 2, -8] = 14 ∧ lmax ![1, -3, 2, -8] = 8 := by
  constructor
  · rw [(C41_norm_values _).1]; norm_num [Fin.sum_univ_succ]
  · apply le_antisymm
    · refine (lmax_le_iff _ (by norm_num)).2 fun i => ?_
      fin_cases i <;> norm_num
    · have := (C41_norm_values ![1, -3, 2, -8]).2.2.1 3
      simpa using this

end LinfaLinalg
