import Verif.Proofs.EighNan
import Verif.Props.Sort
import Verif.Props.Ieee
import Verif.Props.Eigh
import Verif.Model.Lobpcg
set_option linter.unusedSimpArgs false
/-!
# NaN eigenvalues of finite matrices

C105: `wilkinson_shift` squares the off-diagonal entry without scaling it. When the square underflows and the two
diagonal entries are equal it divides zero by zero, and `eigh` returns NaN for a symmetric matrix whose entries are
doubles of absolute value at most one.
-/

namespace LinfaLinalg

local notation "𝔽" => Flt Rounding.binary64

/-- The symmetric matrix `[[-2t, 1, 0], [1, 0, t], [0, t, 0]]` of doubles, `t = 2 ^ (-k)`. -/
noncomputable def nanInput (k : ℕ) : Arr2 𝔽 :=
  ⟨3, 3, fun i j =>
    if i = 0 ∧ j = 0 then .fin true (2 * (1 / 2 ^ k))
    else if i + j = 1 then .fin false 1
    else if i * j = 2 then .fin false (1 / 2 ^ k)
    else .fin false 0⟩

theorem nanInput_eq (k : ℕ) : nanInput k = nanMat k := by
  have e1 : (2 * (1 / 2 ^ k) : ℝ) = 2 ^ (1 - (k : ℤ)) := by
    rw [zpow_sub₀ (by norm_num), zpow_one, zpow_natCast]; ring
  have e2 : (1 / 2 ^ k : ℝ) = 2 ^ (-(k : ℤ)) := by
    rw [zpow_neg, zpow_natCast]; ring
  have e3 : (1 : ℝ) = 2 ^ (0 : ℤ) := by norm_num
  have : (nanInput k).get = (nanMat k).get := by
    funext i j
    rcases i with _ | _ | _ | i
    · rcases j with _ | _ | _ | j <;> simp [nanInput, nanMat, pw, zr, ← e1, ← e2, Flt.zero_def]
    · rcases j with _ | _ | _ | j <;> simp [nanInput, nanMat, pw, zr, ← e1, ← e2, Flt.zero_def]
    · rcases j with _ | _ | _ | j <;> simp [nanInput, nanMat, pw, zr, ← e1, ← e2, Flt.zero_def]
      omega
    · have : ¬ (i + 1 + 1 + 1) * j = 2 := by
        rcases j with _ | j
        · simp
        · intro h; nlinarith
      simp [nanInput, nanMat, Flt.zero_def, this]
      omega
  show (⟨3, 3, (nanInput k).get⟩ : Arr2 𝔽) = ⟨3, 3, (nanMat k).get⟩
  rw [this]

/-- The entries are doubles of absolute value at most one, and the matrix is symmetric. -/
theorem nanInput_entries (k : ℕ) (hk : k ≤ 537) (i j : Nat) :
    (∃ s m, (nanInput k).get i j = .fin s m ∧ 0 ≤ m ∧ b64Round m = some m ∧ (1 ≤ k → m ≤ 1)) ∧
    (nanInput k).get i j = (nanInput k).get j i := by
  have hp : ∀ e : ℤ, -1074 ≤ e → e ≤ 900 → b64Round ((2 : ℝ) ^ e) = some (2 ^ e) := fun e h1 h2 => b64_pow h1 h2
  have e1 : (2 * (1 / 2 ^ k) : ℝ) = 2 ^ (1 - (k : ℤ)) := by
    rw [zpow_sub₀ (by norm_num), zpow_one, zpow_natCast]; ring
  have e2 : (1 / 2 ^ k : ℝ) = 2 ^ (-(k : ℤ)) := by
    rw [zpow_neg, zpow_natCast]; ring
  refine ⟨?_, ?_⟩
  · simp only [nanInput]
    split_ifs
    · refine ⟨true, _, rfl, by positivity, by rw [e1]; exact hp _ (by omega) (by omega), fun h => ?_⟩
      rw [e1, show (1 : ℝ) = 2 ^ (0 : ℤ) by norm_num]
      exact zpow_le_zpow_right₀ (by norm_num) (by omega)
    · exact ⟨false, 1, rfl, by norm_num, by simpa using hp 0 (by norm_num) (by norm_num), fun _ => le_rfl⟩
    · refine ⟨false, _, rfl, by positivity, by rw [e2]; exact hp _ (by omega) (by omega), fun h => ?_⟩
      rw [e2, show (1 : ℝ) = 2 ^ (0 : ℤ) by norm_num]
      exact zpow_le_zpow_right₀ (by norm_num) (by omega)
    · exact ⟨false, 0, rfl, le_rfl, b64_zero, fun _ => zero_le_one⟩
  · simp only [nanInput, and_comm, Nat.add_comm i j, Nat.mul_comm i j]

/-- **C105 (eigh).** For every `k` from 359 to 537 there is a symmetric `3 × 3` matrix of doubles, with entries `0`, `1`,
`± 2 ^ (-k)` and twice that, for which `eigh` succeeds after two iterations of its main loop and returns nothing but
NaN: three eigenvalues and nine entries of the eigenvectors. -/
theorem C105_eigh_nan (k : ℕ) (h1 : 359 ≤ k) (h2 : k ≤ 537) (fuel : Nat) :
    ∃ vals q, eigh (fuel + 2) (nanInput k) = .ok (vals, q) ∧ vals.len = 3 ∧ HasShape q 3 3 ∧
      (∀ i, i < 3 → vals.get i = .nan) ∧ ∀ i j, i < 3 → j < 3 → q.get i j = .nan := by
  obtain ⟨vals, q, h, a, b, c, d⟩ := nanMat_run (k := k) (by omega) (by omega) fuel
  refine ⟨vals, q, ?_, a, b, c, d⟩
  rw [nanInput_eq]
  simp only [eigh, eighInto, h, ok_bind]

/-- **C105 (eigvalsh).** `eigvalsh` returns three NaNs for the same matrices. -/
theorem C105_eigvalsh_nan (k : ℕ) (h1 : 359 ≤ k) (h2 : k ≤ 537) (fuel : Nat) :
    ∃ vals, eigvalsh (fuel + 2) (nanInput k) = .ok vals ∧ vals.len = 3 ∧ ∀ i, i < 3 → vals.get i = .nan := by
  obtain ⟨vals, q, h, a, -, c, -⟩ := C105_eigh_nan k h1 h2 fuel
  exact ⟨vals, ((C27_eigvalsh_eq_eigh (fuel + 2) (nanInput k)).1 vals).2 ⟨q, h⟩, a, c⟩

/-- **C105 (panic).** `sorted_eig`, with which `lobpcg` finds its Ritz values, panics on these matrices, whatever the
number of pairs asked for. -/
theorem C105_sorted_eig_panics (k : ℕ) (h1 : 359 ≤ k) (h2 : k ≤ 537) (fuel : Nat) (size : Nat) (order : Order) :
    sortedEig (eighInto (fuel + 2)) (nanInput k) none size order = .error .panic := by
  obtain ⟨vals, q, h, a, b, c, -⟩ := C105_eigh_nan k h1 h2 fuel
  have h' : eighInto (fuel + 2) (nanInput k) = .ok (vals, q) := h
  have hn : ¬ NaNFree vals := by
    intro hf
    have := hf 0 (by rw [a]; omega)
    rw [c 0 (by omega)] at this
    simp [isNaN, le_nan] at this
  have hp := ((C33_sort_eig_panics vals q (by rw [b.2, a]) (by rw [a]; omega) order).1).1 hn
  simp only [sortedEig, h', ok_bind, hp]
  rfl

/-- The hypotheses hold, e.g. for `k = 400`; the matrix is symmetric with finite entries of absolute value at most `1`. -/
example : (∃ vals q, eigh 2 (nanInput 400) = .ok (vals, q) ∧ vals.get 0 = .nan) ∧
    (nanInput 400).get 0 1 = .fin false 1 ∧ (nanInput 400).get 1 0 = .fin false 1 := by
  obtain ⟨vals, q, h, -, -, c, -⟩ := C105_eigh_nan 400 (by norm_num) (by norm_num) 0
  exact ⟨⟨vals, q, h, c 0 (by norm_num)⟩, by simp [nanInput], by simp [nanInput]⟩

end LinfaLinalg
