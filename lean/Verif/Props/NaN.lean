import Verif.Proofs.NaNEigh
import Verif.Props.Eigh
import Verif.Proofs.NaN
import Verif.Model.Norm

/-! # C92: NaN reaches the caller

`Flt R` is an IEEE-like scalar type with NaN, infinities and signed zeros and an arbitrary rounding `R`
of magnitudes; `Rounding.binary64` is a concrete one. -/

namespace LinfaLinalg

variable {R : Rounding}

theorem Flt.isZero_zero : NdFloat.isZero (0 : Flt R) = true := by
  show Flt.isZero (Flt.fin false 0) = true
  simp [Flt.isZero]

/-- C92, triangular systems: a NaN at row `r` of column `k` of the right-hand side, or in row `r` of the
triangle of the matrix (diagonal included), makes every entry of column `k` of the solution from row `r`
on (lower) or up to row `r` (upper) a NaN. No entry is silently finite. -/
theorem C92_triangular_nan (a b x : Arr2 (Flt R)) (uplo : UPLO) (hx : solveTriangular a b uplo = .ok x) (r k : Nat)
    (hr : r < a.nr) (hk : k < b.nc)
    (h : b.get r k = .nan ∨ ∃ c, c < a.nr ∧ (match uplo with | .lower => c ≤ r | .upper => r ≤ c) ∧ a.get r c = .nan)
    (i : Nat) (hi : i < a.nr) (hir : match uplo with | .lower => r ≤ i | .upper => i ≤ r) : x.get i k = .nan := by
  have hs : a.nr = a.nc := by
    by_contra hs
    unfold solveTriangular at hx
    rw [solveTriangularSystem_notSquare a b uplo _ hs] at hx
    cases hx
  have hb : b.nr = a.nr := by
    by_contra hb
    unfold solveTriangular at hx
    rw [solveTriangularSystem_wrongRows a b uplo _ (by omega) (by omega)] at hx
    cases hx
  refine Flt.nanLike.solveSystem (a := a) (b := b) (uplo := uplo) (d := fun i => a.get i i) rfl hs.symm hb
    (fun i hi => Arr2.at_ok hi (by omega)) hk hr ?_ hx i hi (by cases uplo <;> exact hir)
  rcases h with h | ⟨c, hc, hcr, h⟩
  · exact Or.inl h
  · right
    by_cases hcr' : c = r
    · subst hcr'; exact Or.inl h
    · exact Or.inr ⟨c, hc, hcr', by cases uplo <;> exact hcr, h⟩

/-- C92, Cholesky: if the factorisation is accepted although the lower triangle holds a NaN in row `r`,
then every diagonal entry of the factor from row `r` on is a NaN; if it is rejected, then because of a
row above `r` (a NaN pivot is never rejected). -/
theorem C92_cholesky_nan (a : Arr2 (Flt R)) (hs : a.nr = a.nc) (r c : Nat) (hcr : c ≤ r)
    (h : a.get r c = .nan) :
    (∃ l, cholesky a = .ok l ∧ ∀ i, r ≤ i → i < a.nr → l.get i i = .nan) ∨
    (cholesky a = .error (.err .notPositiveDefinite) ∧ 0 < r) := by
  rcases cholesky_cases a hs with ⟨b, h1, h2, -⟩ | ⟨h1, -, b, j, -, h2, -⟩
  · left
    refine ⟨_, h1, fun i hri hi => ?_⟩
    have := Flt.nanLike.cholRows h2 hcr h i hri hi
    unfold cleanLower
    simpa using this
  · right
    refine ⟨h1, ?_⟩
    have := Flt.nanLike.cholFailed h2 hcr h
    omega

/-- C92, Cholesky: a NaN in the corner is never reported: `cholesky` returns `Ok` with a lower triangle
of NaNs, whatever the other entries are. -/
theorem C92_cholesky_corner (a : Arr2 (Flt R)) (hs : a.nr = a.nc) (h : a.get 0 0 = .nan) :
    ∃ l, cholesky a = .ok l ∧ ∀ i j, j ≤ i → i < a.nr → l.get i j = .nan := by
  rcases cholesky_cases a hs with ⟨b, h1, h2, -⟩ | ⟨h1, -, b, j, -, h2, -⟩
  · refine ⟨_, h1, fun i j hji hi => ?_⟩
    have hd := fun i hi => Flt.nanLike.cholRows h2 le_rfl h i (Nat.zero_le _) hi
    have : b.get i j = .nan := by
      by_cases hij : j = i
      · subst hij; exact hd _ hi
      · rw [h2.off i hi j (by omega)]
        exact Flt.nanLike.div_r (hd j (by omega))
    unfold cleanLower
    dsimp only
    rw [if_neg (by omega)]
    exact this
  · have := Flt.nanLike.cholFailed h2 le_rfl h
    omega

/-- C92, `solvec`: when it returns `Ok` although the lower triangle of the matrix or column `k` of the
right-hand side holds a NaN, every entry of column `k` of the answer is a NaN. -/
theorem C92_solvec_nan (a b x : Arr2 (Flt R)) (hx : solvec a b = .ok x) (k : Nat) (hk : k < b.nc)
    (h : (∃ r c, r < a.nr ∧ c ≤ r ∧ a.get r c = .nan) ∨ ∃ r, r < b.nr ∧ b.get r k = .nan) :
    ∀ i, i < a.nr → x.get i k = .nan :=
  (Flt.nanLike.solvec hx hk h).2.2

/-- C92, `solvec`: a NaN in the corner of the matrix is never reported; the answer is all NaN. -/
theorem C92_solvec_corner (a b : Arr2 (Flt R)) (hs : a.nr = a.nc) (hb : b.nr = a.nr) (hn : 0 < a.nr)
    (h : a.get 0 0 = .nan) :
    ∃ x, solvec a b = .ok x ∧ x.nr = a.nr ∧ x.nc = b.nc ∧ ∀ i k, i < a.nr → k < b.nc → x.get i k = .nan := by
  have hx : ∃ x, solvec a b = .ok x ∧ x.nr = a.nr ∧ x.nc = b.nc := by
    unfold solvec
    rcases choleskyDirty_cases a hs with ⟨l, hl, hr, -⟩ | ⟨-, l, j, -, hf, -⟩
    · have h1 := hr.nr
      have h2 := hr.nc
      rw [hl, ok_bind, solveTriangular_eq l b .lower (by omega) (by omega), ok_bind,
        solveTriangular_eq l.t _ .upper (by simp only [Arr2.t]; omega) (by simp only [Arr2.t]; omega)]
      exact ⟨_, rfl, hb, rfl⟩
    · have := Flt.nanLike.cholFailed hf le_rfl h
      omega
  obtain ⟨x, hx, h1, h2⟩ := hx
  exact ⟨x, hx, h1, h2, fun i k hi hk => C92_solvec_nan a b x hx k hk (Or.inl ⟨0, 0, hn, le_rfl, h⟩) i hi⟩

/-- C92, `invc`: when it returns `Ok` although the lower triangle holds a NaN, every entry is a NaN. -/
theorem C92_invc_nan (a x : Arr2 (Flt R)) (hx : invc a = .ok x) (r c : Nat) (hr : r < a.nr) (hcr : c ≤ r)
    (h : a.get r c = .nan) : ∀ i k, i < a.nr → k < a.nr → x.get i k = .nan :=
  fun i k hi hk => (Flt.nanLike.solvec hx hk (Or.inl ⟨r, c, hr, hcr, h⟩)).2.2 i hi

/-- C92, `least_squares`: when it returns `Ok` although the matrix or column `k` of the right-hand side
holds a NaN, every entry of column `k` of the answer is a NaN. -/
theorem C92_leastSquares_nan (a b x : Arr2 (Flt R)) (hx : leastSquares a b = .ok x) (h0 : 0 < a.nr) (k : Nat)
    (hk : k < b.nc)
    (h : (∃ r c, r < a.nr ∧ c < a.nc ∧ a.get r c = .nan) ∨ ∃ r, r < b.nr ∧ b.get r k = .nan) :
    ∀ i, i < a.nc → x.get i k = .nan :=
  fun i hi => (Flt.nanLike.leastSquares Flt.isZero_zero hx hk h0 (by omega) h).2.2 i hi

/-- C92, `least_squares`: a NaN in the first column (first row, if there are more columns than rows) is
never reported; the answer is all NaN. -/
theorem C92_leastSquares_first (a b : Arr2 (Flt R)) (hb : b.nr = a.nr) (h0 : 0 < a.nr) (h0' : 0 < a.nc)
    (h : a.nc ≤ a.nr ∧ (∃ r, r < a.nr ∧ a.get r 0 = .nan) ∨ a.nr < a.nc ∧ ∃ c, c < a.nc ∧ a.get 0 c = .nan) :
    ∃ x, leastSquares a b = .ok x ∧ ∀ i k, i < a.nc → k < b.nc → x.get i k = .nan := by
  obtain ⟨x, hx⟩ := Flt.nanLike.leastSquares_first a b hb h
  refine ⟨x, hx, fun i k hi hk => C92_leastSquares_nan a b x hx h0 k hk (Or.inl ?_) i hi⟩
  rcases h with ⟨-, r, hr, h⟩ | ⟨-, c, hc, h⟩
  · exact ⟨r, 0, hr, h0', h⟩
  · exact ⟨0, c, h0, hc, h⟩

/-- C92, `qr` and `inverse`: when they return `Ok` although the matrix holds a NaN, every entry of the
inverse is a NaN. -/
theorem C92_inverse_nan (a x : Arr2 (Flt R)) (hs : a.nr = a.nc)
    (hx : (do let q ← qrInto a; q.inverse) = .ok x) (r c : Nat) (hr : r < a.nr) (hc : c < a.nc)
    (h : a.get r c = .nan) : ∀ i k, i < a.nr → k < a.nr → x.get i k = .nan := by
  intro i k hi hk
  have hq := qrInto_ok a (by omega)
  obtain ⟨q, hq, hsh⟩ := hq
  have hl : leastSquares a (Arr2.eye a.nr a.nr) = .ok x := by
    unfold leastSquares
    rw [if_pos (by omega)]
    rw [hq, ok_bind] at hx ⊢
    unfold QRDecomp.inverse checkSquare at hx
    rw [hsh.nr, hsh.nc, if_neg (by omega)] at hx
    rw [ok_bind, hsh.len, ← hs] at hx
    exact hx
  exact C92_leastSquares_nan a _ x hl (by omega) k hk (Or.inl ⟨r, c, hr, hc, h⟩) i (by omega)

/-- C92, `eigvalsh` and `eigh`: when they return for a matrix with a NaN in its lower triangle, one of the
returned eigenvalues is a NaN. -/
theorem C92_eigvalsh_nan (fuel : Nat) (a : Arr2 (Flt R)) (v : Arr1 (Flt R))
    (hv : eigvalsh fuel a = .ok v ∨ ∃ q, eigh fuel a = .ok (v, q)) (r c : Nat) (hr : r < a.nr) (hcr : c ≤ r)
    (h : a.get r c = .nan) : v.len = a.nr ∧ ∃ j, j < a.nr ∧ v.get j = .nan := by
  have hv : eigvalsh fuel a = .ok v := by
    rcases hv with hv | hv
    · exact hv
    · exact ((C27_eigvalsh_eq_eigh fuel a).1 v).2 hv
  have hs : a.nr = a.nc := by
    by_contra hs
    unfold eigvalsh eigvalshInto at hv
    rw [symmetricEig_notSquare _ _ _ _ hs] at hv
    cases hv
  unfold eigvalsh eigvalshInto at hv
  cases hres : symmetricEig fuel a false (NdFloat.epsilon : Flt R) with
  | error f => rw [hres] at hv; cases hv
  | ok res =>
    rw [hres] at hv
    injection hv with hv
    subst hv
    have := symmetricEig_shape fuel a false (NdFloat.epsilon : Flt R) hs
    rw [hres] at this
    exact ⟨this.1, Flt.nanLike.symmetricEig fuel a false _ hs hr hcr h hres⟩

/-- C92, `eigvalsh`: a NaN below the diagonal in the first column is never reported and does not keep the
iteration busy: without any iteration all values but the first are NaN. -/
theorem C92_eigvalsh_first (a : Arr2 (Flt R)) (hs : a.nr = a.nc) (r : Nat) (hr : r < a.nr) (hr0 : 0 < r)
    (h : a.get r 0 = .nan) (fuel : Nat) :
    ∃ v, eigvalsh fuel a = .ok v ∧ v.len = a.nr ∧ ∀ j, 0 < j → j < a.nr → v.get j = .nan := by
  obtain ⟨res, hres, h1, h2⟩ := Flt.nanLike.symmetricEig_first (fun x y hy => by subst hy; exact Flt.lt_nan x)
    fuel a false NdFloat.epsilon hs hr hr0 h
  refine ⟨res.1, ?_, h1, h2⟩
  unfold eigvalsh eigvalshInto
  rw [hres]
  rfl

/-- Matrices that meet the hypotheses above: a NaN among numbers, in double precision. -/
example : ∃ x, solvec (⟨2, 2, fun i j => if i = 0 ∧ j = 0 then .nan else 1⟩ : Arr2 (Flt Rounding.binary64)) (Arr2.eye 2 2) = .ok x := by
  obtain ⟨x, hx, -⟩ := C92_solvec_corner (⟨2, 2, fun i j => if i = 0 ∧ j = 0 then .nan else 1⟩ : Arr2 (Flt Rounding.binary64))
    (Arr2.eye 2 2) rfl rfl (by decide) rfl
  exact ⟨x, hx⟩

example : ∃ x, leastSquares (⟨3, 2, fun i j => if i = 2 ∧ j = 0 then .nan else 1⟩ : Arr2 (Flt Rounding.binary64)) (Arr2.eye 3 3) = .ok x := by
  obtain ⟨x, hx, -⟩ := C92_leastSquares_first (⟨3, 2, fun i j => if i = 2 ∧ j = 0 then .nan else 1⟩ : Arr2 (Flt Rounding.binary64))
    (Arr2.eye 3 3) rfl (by decide) (by decide) (Or.inl ⟨by decide, 2, by decide, rfl⟩)
  exact ⟨x, hx⟩

example : ∃ v, eigvalsh 0 (⟨3, 3, fun i j => if i = 2 ∧ j = 0 then .nan else 1⟩ : Arr2 (Flt Rounding.binary64)) = .ok v := by
  obtain ⟨v, hv, -⟩ := C92_eigvalsh_first (⟨3, 3, fun i j => if i = 2 ∧ j = 0 then .nan else 1⟩ : Arr2 (Flt Rounding.binary64))
    rfl 2 (by decide) (by decide) rfl 0
  exact ⟨v, hv⟩

theorem foldl_add_nan (l : List (Flt R)) (s : Flt R) (h : s = .nan ∨ .nan ∈ l) : l.foldl (· + ·) s = .nan := by
  induction l generalizing s with
  | nil => simpa using h
  | cons x l ih =>
    rw [List.foldl_cons]
    refine ih _ ?_
    rcases h with h | h
    · exact Or.inl (Flt.nanLike.add_l h)
    · rcases List.mem_cons.1 h with h | h
      · exact Or.inl (Flt.nanLike.add_r h.symm)
      · exact Or.inr h

/-- C92, norms: `norm_l1` and `norm_l2` are NaN as soon as one entry is. -/
theorem C92_norm_nan (l : List (Flt R)) (h : .nan ∈ l) : normL1 l = .nan ∧ normL2 l = .nan := by
  refine ⟨foldl_add_nan _ _ (Or.inr (List.mem_map.2 ⟨_, h, rfl⟩)), ?_⟩
  unfold normL2
  rw [foldl_add_nan _ _ (Or.inr (List.mem_map.2 ⟨_, h, rfl⟩))]
  rfl

open Classical in
/-- C92, norms: `norm_max` does not see NaNs; it is the maximum over the other entries. -/
theorem C92_normMax_ignores (l : List (Flt R)) : normMax l = normMax (l.filter fun x => decide (x ≠ .nan)) := by
  unfold normMax
  generalize (0 : Flt R) = s
  induction l generalizing s with
  | nil => rfl
  | cons x l ih =>
    rw [List.foldl_cons, ih]
    by_cases hx : x = .nan
    · subst hx
      rw [List.filter_cons_of_neg (by simp)]
      rfl
    · rw [List.filter_cons_of_pos (by simpa using hx), List.foldl_cons]

/-- In particular an array of NaNs has `norm_max` zero. -/
theorem C92_normMax_nans (n : Nat) : normMax (List.replicate n (Flt.nan : Flt R)) = 0 := by
  rw [C92_normMax_ignores, List.filter_replicate]
  simp [normMax]

end LinfaLinalg
