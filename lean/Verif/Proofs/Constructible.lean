import Verif.Spec.Constructible
import Verif.Proofs.ParamClosed
import Verif.Spec.Real
import Mathlib.FieldTheory.IntermediateField.Adjoin.Basic
import Mathlib.FieldTheory.Minpoly.Field

/-! # The degree of a constructible number is a power of two -/

namespace LinfaLinalg
open Par IntermediateField Polynomial

/-- Fields obtained from the rational numbers by adjoining square roots one after the other. -/
inductive Tower : IntermediateField ℚ ℝ → Prop
  | bot : Tower ⊥
  | step {K : IntermediateField ℚ ℝ} {s : ℝ} : Tower K → s * s ∈ K → Tower ((adjoin K {s}).restrictScalars ℚ)

theorem finrank_adjoin_sqrt (K : IntermediateField ℚ ℝ) {s : ℝ} (hs : s * s ∈ K) :
    FiniteDimensional K (adjoin K {s}) ∧ (Module.finrank K (adjoin K {s}) = 1 ∨ Module.finrank K (adjoin K {s}) = 2) := by
  have hroot : aeval s (X ^ 2 - C (⟨s * s, hs⟩ : K)) = 0 := by
    simp [sq]
  have hm : (X ^ 2 - C (⟨s * s, hs⟩ : K)).Monic := monic_X_pow_sub_C _ two_ne_zero
  have hi : IsIntegral K s := ⟨_, hm, by simpa [aeval_def] using hroot⟩
  refine ⟨adjoin.finiteDimensional hi, ?_⟩
  rw [adjoin.finrank hi]
  have h1 := natDegree_le_of_dvd (minpoly.dvd K s hroot) hm.ne_zero
  rw [natDegree_X_pow_sub_C] at h1
  have h2 := minpoly.natDegree_pos hi
  omega

theorem Tower.finrank {K : IntermediateField ℚ ℝ} (h : Tower K) :
    FiniteDimensional ℚ K ∧ ∃ k, Module.finrank ℚ K = 2 ^ k := by
  induction h with
  | bot => exact ⟨inferInstance, 0, by simp⟩
  | @step K s _ hs ih =>
    obtain ⟨h1, k, hk⟩ := ih
    obtain ⟨h2, h3⟩ := finrank_adjoin_sqrt K hs
    have e : Module.finrank ℚ ((adjoin K {s}).restrictScalars ℚ) = Module.finrank ℚ K * Module.finrank K (adjoin K {s}) :=
      (Module.finrank_mul_finrank ℚ K (adjoin K {s})).symm
    refine ⟨Module.Finite.trans (R := ℚ) K (adjoin K {s}), ?_⟩
    rw [e, hk]
    rcases h3 with h | h
    · exact ⟨k, by rw [h, mul_one]⟩
    · exact ⟨k + 1, by rw [h, pow_succ]⟩

/-- Every constructible number lies in such a field above any given one. -/
theorem Constructible.tower {x : ℝ} (h : Constructible x) : ∀ K, Tower K → ∃ L, Tower L ∧ K ≤ L ∧ x ∈ L := by
  induction h with
  | rat q => exact fun K hK => ⟨K, hK, le_rfl, by
      simpa using K.algebraMap_mem q⟩
  | add _ _ i1 i2 =>
    intro K hK
    obtain ⟨L, hL, l1, x1⟩ := i1 K hK
    obtain ⟨L', hL', l2, x2⟩ := i2 L hL
    exact ⟨L', hL', l1.trans l2, add_mem (l2 x1) x2⟩
  | mul _ _ i1 i2 =>
    intro K hK
    obtain ⟨L, hL, l1, x1⟩ := i1 K hK
    obtain ⟨L', hL', l2, x2⟩ := i2 L hL
    exact ⟨L', hL', l1.trans l2, mul_mem (l2 x1) x2⟩
  | inv _ i1 =>
    intro K hK
    obtain ⟨L, hL, l1, x1⟩ := i1 K hK
    exact ⟨L, hL, l1, inv_mem x1⟩
  | @sqrt x _ i1 =>
    intro K hK
    obtain ⟨L, hL, l1, x1⟩ := i1 K hK
    by_cases hx : 0 ≤ x
    · refine ⟨_, hL.step (s := Real.sqrt x) (by rwa [Real.mul_self_sqrt hx]), fun y hy => ?_, ?_⟩
      · exact (adjoin L {Real.sqrt x}).algebraMap_mem ⟨y, l1 hy⟩
      · exact mem_adjoin_simple_self L (Real.sqrt x)
    · exact ⟨L, hL, l1, by rw [Real.sqrt_eq_zero_of_nonpos (not_le.1 hx).le]; exact zero_mem L⟩

/-- The minimal polynomial over the rational numbers of a constructible number has a power of two as its degree. -/
theorem Constructible.natDegree {x : ℝ} (h : Constructible x) : IsIntegral ℚ x ∧ ∃ k, (minpoly ℚ x).natDegree = 2 ^ k := by
  obtain ⟨L, hL, -, hx⟩ := h.tower ⊥ .bot
  obtain ⟨h1, k, hk⟩ := hL.finrank
  have hi : IsIntegral ℚ (⟨x, hx⟩ : L) := IsIntegral.of_finite ℚ _
  have h2 : minpoly ℚ (algebraMap L ℝ ⟨x, hx⟩) = minpoly ℚ (⟨x, hx⟩ : L) := minpoly.algebraMap_eq (algebraMap L ℝ).injective _
  have h3 := minpoly.degree_dvd hi
  rw [← h2, hk, Nat.dvd_prime_pow Nat.prime_two] at h3
  obtain ⟨j, -, hj⟩ := h3
  exact ⟨hi.map (IsScalarTower.toAlgHom ℚ L ℝ), j, hj⟩

/-! ## All operations lead from constructible numbers to constructible numbers -/

theorem Constructible.zero : Constructible 0 := by simpa using Constructible.rat 0
theorem Constructible.one : Constructible 1 := by simpa using Constructible.rat 1

theorem Constructible.neg {x : ℝ} (h : Constructible x) : Constructible (-x) := by
  simpa using (Constructible.rat (-1)).mul h

theorem Constructible.sub {x y : ℝ} (hx : Constructible x) (hy : Constructible y) : Constructible (x - y) := by
  rw [sub_eq_add_neg]; exact hx.add hy.neg

theorem Constructible.div {x y : ℝ} (hx : Constructible x) (hy : Constructible y) : Constructible (x / y) := by
  rw [div_eq_mul_inv]; exact hx.mul hy.inv

theorem Constructible.listSum {l : List ℝ} (h : ∀ x ∈ l, Constructible x) : Constructible l.sum := by
  induction l with
  | nil => exact .zero
  | cons a l ih =>
    rw [List.sum_cons]
    exact (h a (by simp)).add (ih fun x hx => h x (by simp [hx]))

theorem Constructible.sum {ι : Type} (s : Finset ι) {f : ι → ℝ} (h : ∀ i ∈ s, Constructible (f i)) :
    Constructible (∑ i ∈ s, f i) := by
  classical
  induction s using Finset.induction_on with
  | empty => simpa using Constructible.zero
  | insert a s ha ih =>
    rw [Finset.sum_insert ha]
    exact (h a (by simp)).add (ih fun i hi => h i (by simp [hi]))

theorem closed_constructible : ClosedScalars Constructible where
  zero := .zero
  one := .one
  add := fun _ _ => .add
  sub := fun _ _ => .sub
  mul := fun _ _ => .mul
  div := fun _ _ => .div
  neg := fun _ => .neg
  sqrt := fun _ => .sqrt
  abs := fun x h => by
    rw [real_abs]
    rcases abs_choice x with e | e <;> rw [e]
    exacts [h, h.neg]
  signum := fun x _ => by
    rw [real_signum]
    split
    exacts [Constructible.one.neg, .one]
  hypot := fun x y hx hy => by
    rw [real_hypot]
    exact ((hx.mul hx).add (hy.mul hy)).sqrt
  max := fun x y hx hy => by
    rw [real_max]
    rcases max_choice x y with e | e <;> rw [e]
    exacts [hx, hy]
  ofRat := fun q => .rat q
  negInf := Constructible.one.neg
  epsilon := by
    have := Constructible.rat ((2 : ℚ)⁻¹ ^ 52)
    rw [Rat.cast_pow, Rat.cast_inv, Rat.cast_ofNat] at this
    exact this
  dot := fun l h => Constructible.listSum fun x hx => by
    obtain ⟨p, hp, rfl⟩ := List.mem_map.1 hx
    exact (h p hp).1.mul (h p hp).2

end LinfaLinalg
