import Verif.Props.NaN
import Verif.Props.Svd

/-! # C93: an infinite entry makes `eigh` and `svd` useless

Both functions divide the matrix by its largest absolute value first. If that is infinite, infinite entries become
NaN and all others become zero. `Flt R` is an IEEE-like scalar type, see `Verif.Spec.Ieee`. -/

namespace LinfaLinalg

variable {R : Rounding}

open Classical in
theorem foldMax_inf (l : List (Flt R)) (s : Flt R) (h : s = .inf false ∨ .inf false ∈ l)
    (hl : ∀ x ∈ l, x ≠ .inf true) (hs : s = .inf true ∨ s ≠ .nan) : l.foldl NdFloat.max s = .inf false := by
  induction l generalizing s with
  | nil =>
    rcases h with h | h
    · exact h
    · cases h
  | cons x l ih =>
    rw [List.foldl_cons]
    have hx := hl x (by simp)
    refine ih _ ?_ (fun y hy => hl y (by simp [hy])) (Or.inr ?_)
    · rcases h with rfl | h
      · left
        show Flt.max _ _ = _
        cases x with
        | nan => rfl
        | inf t => cases t <;> rfl
        | fin t m => rfl
      · rcases List.mem_cons.1 h with rfl | h
        · left
          show Flt.max _ _ = _
          cases s with
          | nan => rfl
          | inf t => cases t <;> rfl
          | fin t m => rfl
        · exact Or.inr h
    · show Flt.max _ _ ≠ _
      cases s with
      | nan => rcases hs with hs | hs
               · cases hs
               · exact absurd rfl hs
      | inf t =>
        cases x with
        | nan => intro h; cases h
        | inf u => cases t <;> cases u <;> intro h <;> cases h
        | fin u m => cases t <;> intro h <;> cases h
      | fin t m =>
        cases x with
        | nan => intro h; cases h
        | inf u => cases u <;> intro h <;> cases h
        | fin u n =>
          simp only [Flt.max]
          split_ifs <;> intro h <;> cases h

/-- The largest absolute value of an array with an infinite entry is infinite, NaNs or not. -/
theorem amax_inf (a : Arr2 (Flt R)) {i j : Nat} {s : Bool} (hi : i < a.nr) (hj : j < a.nc) (h : a.get i j = .inf s) :
    a.amax = .inf false := by
  unfold Arr2.amax
  refine foldMax_inf _ _ (Or.inr ?_) ?_ (Or.inl rfl)
  · refine List.mem_map.2 ⟨a.get i j, ?_, by rw [h]; rfl⟩
    unfold Arr2.toList
    exact List.mem_flatMap.2 ⟨i, List.mem_range.2 hi, List.mem_map.2 ⟨j, List.mem_range.2 hj, rfl⟩⟩
  · intro x hx
    obtain ⟨y, -, rfl⟩ := List.mem_map.1 hx
    show Flt.abs y ≠ _
    cases y <;> intro h <;> cases h

theorem scaleDown_inf (a : Arr2 (Flt R)) (h : a.amax = .inf false) :
    a.scaleDown a.amax = a.map fun x => x / .inf false := by
  unfold Arr2.scaleDown
  rw [h, if_neg (by show ¬ Flt.isZero _ = true; simp [Flt.isZero])]

/-- C93: after the scaling with which `eigh` and `svd` begin, an entry is NaN if it was infinite or NaN, and zero if
it was finite: nothing but the positions of the infinities is left of the matrix. -/
theorem C93_scaled (a : Arr2 (Flt R)) (i j : Nat) (s : Bool) (hi : i < a.nr) (hj : j < a.nc) (h : a.get i j = .inf s)
    (r c : Nat) :
    (∀ t m, a.get r c = .fin t m → (a.scaleDown a.amax).get r c = .fin t 0) ∧
    ((∀ t m, a.get r c ≠ .fin t m) → (a.scaleDown a.amax).get r c = .nan) := by
  rw [scaleDown_inf a (amax_inf a hi hj h)]
  simp only [Arr2.map]
  refine ⟨fun t m e => ?_, fun e => ?_⟩
  · rw [e]
    show Flt.div _ _ = _
    simp [Flt.div]
  · generalize a.get r c = x at e
    cases x with
    | nan => rfl
    | inf t => rfl
    | fin t m => exact absurd rfl (e t m)

theorem scaled_nan (a : Arr2 (Flt R)) {i j : Nat} {s : Bool} (hi : i < a.nr) (hj : j < a.nc) (h : a.get i j = .inf s) :
    (a.scaleDown a.amax).get i j = .nan :=
  (C93_scaled a i j s hi hj h i j).2 fun t m e => by rw [h] at e; cases e

theorem mul_inf (x : Flt R) (t : Bool) (m : ℝ) : x * .inf false ≠ .fin t m := by
  show Flt.mul _ _ ≠ _
  cases x with
  | nan => intro h; cases h
  | inf s => intro h; cases h
  | fin s n =>
    simp only [Flt.mul]
    split_ifs <;> intro h <;> cases h

/-- C93, `svd`: an infinite entry in the first column (first row, if there are more columns than rows) of a matrix with
at least three rows and columns keeps `svd` running forever. No NaN is needed. -/
theorem C93_svd_forever (a : Arr2 (Flt R)) (cu cv : Bool) (hd : 3 ≤ min a.nr a.nc) (s : Bool)
    (h : a.nc ≤ a.nr ∧ (∃ r, r < a.nr ∧ a.get r 0 = .inf s) ∨ a.nr < a.nc ∧ ∃ c, c < a.nc ∧ a.get 0 c = .inf s)
    (fuel : Nat) : svd fuel a cu cv = .error .fuel :=
  Flt.nanLike.svd_forever_scaled fuel a cu cv hd (h.imp
    (fun ⟨hl, r, hr, hn⟩ => ⟨hl, r, hr, scaled_nan a hr (by omega) hn⟩)
    fun ⟨hl, c, hc, hn⟩ => ⟨hl, c, hc, scaled_nan a (by omega) hc hn⟩)

/-- C39 is false also for matrices without NaN. -/
theorem C39_svd_terminates_false_no_nan :
    ¬ ∀ a : Arr2 (Flt Rounding.binary64), (∀ i j, a.get i j ≠ .nan) → ∃ fuel,
      (∃ r, svd fuel a true true = .ok r) ∨ ∃ e, svd fuel a true true = .error (.err e) := by
  intro h
  let a : Arr2 (Flt Rounding.binary64) := ⟨3, 3, fun i j => if i = 0 ∧ j = 0 then .inf false else 1⟩
  obtain ⟨fuel, hr⟩ := h a (fun i j e => by
    simp only [a] at e
    split_ifs at e)
  have := C93_svd_forever a true true (by simp [a]) false (Or.inl ⟨le_rfl, 0, by simp [a], by simp [a]⟩) fuel
  rw [this] at hr
  rcases hr with ⟨r, hr⟩ | ⟨e, hr⟩ <;> cases hr

theorem fixSigns_not_fin {r d : Nat} {cu : Bool} (dg : Arr1 (Flt R)) (u : Option (Arr2 (Flt R))) (hd : dg.len = d)
    (hu : ∀ a ∈ u, HasShape a r d) (hc : u.isSome = cu) (h : ∀ k t m, dg.get k ≠ .fin t m) :
    Succeeds (fixSigns d dg u) fun p => ∀ k t m, p.1.get k ≠ .fin t m := by
  have h1 := fixSigns_shape dg u hd hu hc
  unfold fixSigns at *
  refine wp_conseq (wp_forRange (fun _ (p : Arr1 (Flt R) × Option (Arr2 (Flt R))) => p.1.len = d ∧
    (∀ a ∈ p.2, HasShape a r d) ∧ ∀ k t m, p.1.get k ≠ .fin t m) (Nat.zero_le _) ⟨hd, hu, h⟩ ?_) fun p hp => hp.2.2
  rintro i ⟨dg, u⟩ - hi ⟨g1, g2, g3⟩
  simp only at g1 g2 g3
  simp only [Arr1.idx_ok (by omega : i < dg.len), ok_bind]
  split_ifs
  · rw [Arr1.idxSet_ok (by omega)]
    simp only [ok_bind]
    have hg : ∀ k t m, (dg.upd i (-dg.get i)).get k ≠ .fin t m := by
      intro k t m
      simp only [Arr1.upd]
      split_ifs
      · have := g3 i
        intro e
        generalize dg.get i = x at this e
        cases x with
        | nan => cases e
        | inf s => cases e
        | fin s n => exact this s n rfl
      · exact g3 k t m
    cases u with
    | none => exact ⟨g1, fun a ha => (nomatch ha), hg⟩
    | some u =>
      simp only [scaleCol]
      rw [if_pos (by rw [(g2 u rfl).2]; exact hi)]
      exact ⟨g1, fun b hb => by cases hb; exact g2 u rfl, hg⟩
  · exact ⟨g1, g2, g3⟩

/-- C93, `svd`: when it returns for a matrix with an infinite entry, wherever that is, no singular value is finite. -/
theorem C93_svd_not_finite (fuel : Nat) (a : Arr2 (Flt R)) (cu cv : Bool) (i j : Nat) (s : Bool) (hi : i < a.nr)
    (hj : j < a.nc) (h : a.get i j = .inf s) (u vt : Option (Arr2 (Flt R))) (σ : Arr1 (Flt R))
    (hr : svd fuel a cu cv = .ok (u, σ, vt)) (k : Nat) (t : Bool) (m : ℝ) : σ.get k ≠ .fin t m := by
  have hw : wp (svd fuel a cu cv) (fun p => ∀ k t m, p.2.1.get k ≠ .fin t m) (fun _ => True) := by
    unfold svd
    obtain ⟨b, U, Vt, -, -, -, -, hs, he⟩ := svdGo_eq a (by omega) (by omega)
    rw [he, wp_bind]
    refine wp_mono (svdDelimit_shape (by omega) (hs cu cv)) ?_ (fun _ h => h.elim)
    rintro ⟨s, start, e⟩ ⟨hs1, hlt, hle⟩
    simp only at hs1 hlt hle ⊢
    rw [wp_bind]
    refine wp_mono (wp_svdLoop fuel (SvdSt a.nr a.nc (min a.nr a.nc) cu cv) ⟨hs1, hlt, by
        simp only; omega⟩ rfl (fun st h hne => svdStep_shape h hne)) ?_ (fun _ _ => trivial)
    rintro st ⟨hst, -⟩
    rw [wp_bind]
    refine wp_mono (fixSigns_not_fin _ _ (by exact hst.shape.dlen) hst.shape.u hst.shape.hu ?_) ?_
      (fun _ h => h.elim)
    · intro k t m
      simp only [Arr1.map]
      rw [amax_inf a hi hj h]
      exact mul_inf _ _ _
    · rintro ⟨dg, u⟩ h
      exact h
  rw [hr] at hw
  exact hw k t m

/-- C93, `eigvalsh` and `eigh`: when they return for a matrix with an infinite entry, wherever that is, no eigenvalue
is finite. -/
theorem C93_eigvalsh_not_finite (fuel : Nat) (a : Arr2 (Flt R)) (i j : Nat) (s : Bool) (hi : i < a.nr)
    (hj : j < a.nc) (h : a.get i j = .inf s) (v : Arr1 (Flt R))
    (hv : eigvalsh fuel a = .ok v ∨ ∃ q, eigh fuel a = .ok (v, q)) (k : Nat) (t : Bool) (m : ℝ) :
    v.get k ≠ .fin t m := by
  have hv : eigvalsh fuel a = .ok v := by
    rcases hv with hv | hv
    · exact hv
    · exact ((C27_eigvalsh_eq_eigh fuel a).1 v).2 hv
  have hs : a.nr = a.nc := by
    by_contra hs
    unfold eigvalsh eigvalshInto at hv
    rw [symmetricEig_notSquare _ _ _ _ hs] at hv
    cases hv
  unfold eigvalsh eigvalshInto at hv
  obtain ⟨t', -, -, q, -, -, -, h1, h2⟩ := symmetricEig_cases fuel a false (NdFloat.epsilon : Flt R) hs (by omega)
  have hm := fun x => mul_inf (R := R) x t m
  rw [← amax_inf a hi hj h] at hm
  by_cases hn : a.nr = 1
  · rw [h1 hn] at hv
    cases hv
    exact hm _
  · obtain ⟨off, s', e, -, -, -, heq⟩ := h2 hn
    rw [heq] at hv
    cases hl : eigLoop (NdFloat.epsilon : Flt R) fuel ⟨t'.intoDiagonals.1, off, q, s', e⟩ with
    | error f => rw [hl] at hv; cases hv
    | ok st =>
      rw [hl] at hv
      cases hv
      exact hm _

/-- C93, `eigvalsh` and `eigh`: an infinite entry in the lower triangle makes at least one of the returned values NaN. -/
theorem C93_eigvalsh_nan (fuel : Nat) (a : Arr2 (Flt R)) (v : Arr1 (Flt R))
    (hv : eigvalsh fuel a = .ok v ∨ ∃ q, eigh fuel a = .ok (v, q)) (r c : Nat) (s : Bool) (hr : r < a.nr) (hcr : c ≤ r)
    (h : a.get r c = .inf s) : ∃ j, j < a.nr ∧ v.get j = .nan := by
  have hv : eigvalsh fuel a = .ok v := by
    rcases hv with hv | hv
    · exact hv
    · exact ((C27_eigvalsh_eq_eigh fuel a).1 v).2 hv
  have hs : a.nr = a.nc := by
    by_contra hs
    unfold eigvalsh eigvalshInto at hv
    rw [symmetricEig_notSquare _ _ _ _ hs] at hv
    cases hv
  unfold eigvalsh eigvalshInto at hv
  cases hres : symmetricEig fuel a false (NdFloat.epsilon : Flt R) with
  | error f => rw [hres] at hv; cases hv
  | ok res =>
    rw [hres] at hv
    cases hv
    exact Flt.nanLike.symmetricEig_scaled fuel a false _ hs hr hcr (scaled_nan a hr (by omega) h) hres

/-- C93, `eigvalsh`: an infinite entry below the diagonal in the first column is not reported. The function returns
without any iteration and all values but the first are NaN. -/
theorem C93_eigvalsh_first (a : Arr2 (Flt R)) (hs : a.nr = a.nc) (r : Nat) (s : Bool) (hr : r < a.nr) (hr0 : 0 < r)
    (h : a.get r 0 = .inf s) (fuel : Nat) :
    ∃ v, eigvalsh fuel a = .ok v ∧ v.len = a.nr ∧ ∀ j, 0 < j → j < a.nr → v.get j = .nan := by
  obtain ⟨res, hres, h1, h2⟩ := Flt.nanLike.symmetricEig_first_scaled (fun x y hy => by subst hy; exact Flt.lt_nan x)
    fuel a false NdFloat.epsilon hs hr hr0 (scaled_nan a hr (by omega) h)
  refine ⟨res.1, ?_, h1, h2⟩
  unfold eigvalsh eigvalshInto
  rw [hres]
  rfl

/-- Runs which meet the hypotheses: `svd` and `eigvalsh` in double precision of `[[1, 1], [∞, 1]]` return. -/
example : ∃ u σ vt v, svd 2 (⟨2, 2, fun i j => if i = 1 ∧ j = 0 then .inf false else 1⟩ : Arr2 (Flt Rounding.binary64))
      true true = .ok (u, σ, vt) ∧
    eigvalsh 2 (⟨2, 2, fun i j => if i = 1 ∧ j = 0 then .inf false else 1⟩ : Arr2 (Flt Rounding.binary64)) = .ok v ∧
    ∀ k t m, σ.get k ≠ .fin t m ∧ v.get k ≠ .fin t m := by
  let a : Arr2 (Flt Rounding.binary64) := ⟨2, 2, fun i j => if i = 1 ∧ j = 0 then .inf false else 1⟩
  obtain ⟨⟨u, σ, vt⟩, h1⟩ : ∃ r, svd 2 a true true = .ok r :=
    C39_svd_terminates_partial a true true 1 (by simp [a]) (by simp [a]) (by simp [a])
  obtain ⟨v, h2, -⟩ := C93_eigvalsh_first a rfl 1 false (by simp [a]) (by norm_num) (by simp [a]) 2
  exact ⟨u, σ, vt, v, h1, h2, fun k t m => ⟨C93_svd_not_finite 2 a true true 1 0 false (by simp [a]) (by simp [a])
    (by simp [a]) u vt σ h1 k t m, C93_eigvalsh_not_finite 2 a 1 0 false (by simp [a]) (by simp [a]) (by simp [a]) v
      (Or.inl h2) k t m⟩⟩

end LinfaLinalg
