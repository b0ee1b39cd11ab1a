import Verif.Props.Triangular
import Verif.Props.Rounding

/-! # C136: parts of triangular systems, in every arithmetic

Forward substitution finds the unknowns from the first to the last, backward substitution from the last to the first. An
unknown therefore depends on the unknowns found earlier only. -/

set_option linter.unusedSectionVars false

namespace LinfaLinalg

section generic
variable {α : Type} [Zero α] [One α] [Add α] [Sub α] [Mul α] [Div α] [Neg α] [NdFloat α]

/-- Steps at other rows than those of `P`, which touch no row of `P`, do nothing there. -/
theorem elim_fold_keep {a : Arr2 α} {d : Nat → α} {rows : Nat → Nat → Nat × Nat} {n : Nat} {P : Nat → Prop} :
    ∀ (l : List Nat) (x : Nat → α), (∀ i ∈ l, ∀ r, P r → r ≠ i ∧ ¬((rows i n).1 ≤ r ∧ r < (rows i n).2)) →
      ∀ r, P r → l.foldl (elimStep a d rows n) x r = x r
  | [], _, _, _, _ => rfl
  | i :: l, x, h, r, hr => by
    rw [List.foldl_cons, elim_fold_keep l _ (fun j hj => h j (by simp [hj])) r hr]
    obtain ⟨h1, h2⟩ := h i (by simp) r hr
    rw [elimStep, if_neg h1, if_neg h2]

/-- Two runs whose rows correspond by `f`. -/
theorem elim_fold_map {a a' : Arr2 α} {d d' : Nat → α} {rows rows' : Nat → Nat → Nat × Nat} {n k : Nat} {f : Nat → Nat}
    (hf : ∀ i < k, ∀ j < k, f i = f j → i = j) (hd : ∀ i < k, d' i = d (f i))
    (hrows : ∀ i < k, ∀ r < k, ((rows' i k).1 ≤ r ∧ r < (rows' i k).2 ↔ (rows (f i) n).1 ≤ f r ∧ f r < (rows (f i) n).2))
    (ha : ∀ i < k, ∀ r < k, (rows' i k).1 ≤ r ∧ r < (rows' i k).2 → a'.get r i = a.get (f r) (f i)) :
    ∀ (l : List Nat), (∀ i ∈ l, i < k) → ∀ (x x' : Nat → α), (∀ r < k, x' r = x (f r)) →
      ∀ r < k, l.foldl (elimStep a' d' rows' k) x' r = (l.map f).foldl (elimStep a d rows n) x (f r)
  | [], _, _, _, hx, r, hr => hx r hr
  | i :: l, hl, x, x', hx, r, hr => by
    have hi := hl i (by simp)
    rw [List.map_cons, List.foldl_cons, List.foldl_cons]
    refine elim_fold_map hf hd hrows ha l (fun j hj => hl j (by simp [hj])) _ _ (fun s hs => ?_) r hr
    unfold elimStep
    by_cases e : s = i
    · subst e
      rw [if_pos rfl, if_pos rfl, hx s hs, hd s hs]
    · rw [if_neg e, if_neg fun e' => e (hf s hs i hi e')]
      by_cases e2 : (rows' i k).1 ≤ s ∧ s < (rows' i k).2
      · rw [if_pos e2, if_pos ((hrows i hi s hs).1 e2), hx s hs, hx i hi, hd i hi, ha i hi s hs e2]
      · rw [if_neg e2, if_neg fun e' => e2 ((hrows i hi s hs).2 e'), hx s hs]

/-- **C136, lower**: the first `k` unknowns of a lower triangular system are those of the system of the first `k` equations in
the first `k` unknowns. In every arithmetic, bit by bit; `a'` and `b'` are the leading parts of `a` and `b`. -/
theorem C136_lower (a a' b b' : Arr2 α) (n k : Nat) (hk : k ≤ n) (ha : HasShape a n n) (ha' : HasShape a' k k) (hb : b.nr = n)
    (hb' : HasShape b' k b.nc) (hA : ∀ i < k, ∀ j ≤ i, a'.get i j = a.get i j)
    (hB : ∀ i < k, ∀ j < b.nc, b'.get i j = b.get i j) :
    ∃ x x', solveTriangular a b .lower = .ok x ∧ solveTriangular a' b' .lower = .ok x' ∧ HasShape x' k b.nc ∧
      ∀ i < k, ∀ j < b.nc, x'.get i j = x.get i j := by
  refine ⟨_, _, solveTriangular_eq a b .lower (ha.1.trans ha.2.symm) (hb.trans ha.1.symm),
    solveTriangular_eq a' b' .lower (ha'.1.trans ha'.2.symm) (hb'.1.trans ha'.1.symm), ⟨hb'.1, hb'.2⟩, fun i hi j hj => ?_⟩
  simp only
  rw [if_pos hj, if_pos (by rw [hb'.2]; exact hj), ha.1, ha'.1]
  have e : elimOrder .lower n = (elimOrder .lower k).map id ++ List.range' k (n - k) := by
    simp only [elimOrder, List.map_id]
    have := List.range'_append_1 (s := 0) (m := k) (n := n - k)
    rw [Nat.zero_add, Nat.add_sub_cancel' hk] at this
    exact this.symm
  rw [e, List.foldl_append]
  refine Eq.trans ?_ (elim_fold_keep (P := fun r => r < k) (List.range' k (n - k)) _ (fun q hq r hr => by
    rw [List.mem_range'_1] at hq
    exact ⟨by omega, by simp only [elimRows]; omega⟩) i hi).symm
  exact elim_fold_map (f := id) (fun i _ j _ h => h) (fun i hi => hA i hi i le_rfl)
    (fun i hi r hr => by simp only [elimRows, id]; omega)
    (fun i hi r hr h => hA r hr i (by simp only [elimRows] at h; omega)) _
    (fun q hq => by simpa [elimOrder] using hq) _ _ (fun r hr => hB r hr j hj) i hi

/-- **C136, upper**: the last `k` unknowns of an upper triangular system are those of the system of the last `k` equations in
the last `k` unknowns. -/
theorem C136_upper (a a' b b' : Arr2 α) (n k : Nat) (hk : k ≤ n) (ha : HasShape a n n) (ha' : HasShape a' k k) (hb : b.nr = n)
    (hb' : HasShape b' k b.nc) (hA : ∀ j < k, ∀ i ≤ j, a'.get i j = a.get (n - k + i) (n - k + j))
    (hB : ∀ i < k, ∀ j < b.nc, b'.get i j = b.get (n - k + i) j) :
    ∃ x x', solveTriangular a b .upper = .ok x ∧ solveTriangular a' b' .upper = .ok x' ∧ HasShape x' k b.nc ∧
      ∀ i < k, ∀ j < b.nc, x'.get i j = x.get (n - k + i) j := by
  refine ⟨_, _, solveTriangular_eq a b .upper (ha.1.trans ha.2.symm) (hb.trans ha.1.symm),
    solveTriangular_eq a' b' .upper (ha'.1.trans ha'.2.symm) (hb'.1.trans ha'.1.symm), ⟨hb'.1, hb'.2⟩, fun i hi j hj => ?_⟩
  simp only
  rw [if_pos hj, if_pos (by rw [hb'.2]; exact hj), ha.1, ha'.1]
  have e : elimOrder .upper n = (elimOrder .upper k).map (fun i => n - k + i) ++ (List.range' 0 (n - k)).reverse := by
    simp only [elimOrder]
    rw [List.map_reverse, ← List.reverse_append, List.map_add_range', Nat.add_zero]
    have := List.range'_append_1 (s := 0) (m := n - k) (n := k)
    rw [Nat.zero_add, Nat.sub_add_cancel hk] at this
    rw [this]
  rw [e, List.foldl_append]
  refine Eq.trans ?_ (elim_fold_keep (P := fun r => n - k ≤ r) (List.range' 0 (n - k)).reverse _ (fun q hq r hr => by
    rw [List.mem_reverse, List.mem_range'_1] at hq
    exact ⟨by omega, by simp only [elimRows]; omega⟩) _ (Nat.le_add_right _ _)).symm
  exact elim_fold_map (f := fun i => n - k + i) (fun i _ j _ h => by simpa using h) (fun i hi => hA i hi i le_rfl)
    (fun i hi r hr => by simp only [elimRows]; omega)
    (fun i hi r hr h => hA i hi r (by simp only [elimRows] at h; omega)) _
    (fun q hq => by simpa [elimOrder] using hq) _ _ (fun r hr => hB r hr j hj) i hi

/-- **C136, reversed order**: an upper triangular system with its unknowns and equations in reversed order is a lower
triangular one, and the answers are the same, bit by bit, in reversed order. -/
theorem C136_reversed (a a' b b' : Arr2 α) (n : Nat) (ha : HasShape a n n) (ha' : HasShape a' n n) (hb : b.nr = n)
    (hb' : HasShape b' n b.nc) (hA : ∀ j < n, ∀ i ≤ j, a.get i j = a'.get (n - 1 - i) (n - 1 - j))
    (hB : ∀ i < n, ∀ j < b.nc, b'.get i j = b.get (n - 1 - i) j) :
    ∃ x x', solveTriangular a b .upper = .ok x ∧ solveTriangular a' b' .lower = .ok x' ∧ HasShape x' n b.nc ∧
      ∀ i < n, ∀ j < b.nc, x'.get i j = x.get (n - 1 - i) j := by
  refine ⟨_, _, solveTriangular_eq a b .upper (ha.1.trans ha.2.symm) (hb.trans ha.1.symm),
    solveTriangular_eq a' b' .lower (ha'.1.trans ha'.2.symm) (hb'.1.trans ha'.1.symm), ⟨hb'.1, hb'.2⟩, fun i hi j hj => ?_⟩
  simp only
  rw [if_pos hj, if_pos (by rw [hb'.2]; exact hj), ha.1, ha'.1]
  have e : elimOrder .upper n = (elimOrder .lower n).map (fun i => n - 1 - i) := by
    simp only [elimOrder]
    refine List.ext_getElem (by simp) fun q h1 h2 => ?_
    simp
  have hA' : ∀ i < n, ∀ r < n, i ≤ r → a'.get r i = a.get (n - 1 - r) (n - 1 - i) := fun i hi r hr h => by
    have := hA (n - 1 - i) (by omega) (n - 1 - r) (by omega)
    rw [this, show n - 1 - (n - 1 - r) = r by omega, show n - 1 - (n - 1 - i) = i by omega]
  rw [e]
  exact elim_fold_map (f := fun i => n - 1 - i) (fun i hi j hj h => by omega) (fun i hi => hA' i hi i hi le_rfl)
    (fun i hi r hr => by simp only [elimRows]; omega)
    (fun i hi r hr h => hA' i hi r hr (by simp only [elimRows] at h; omega)) _
    (fun q hq => by simpa [elimOrder] using hq) _ _ (fun r hr => hB r hr j hj) i hi

end generic

/-- In double precision: the first unknown of the system with the matrix `[[2, 0], [1, 3]]` is the quotient. -/
example (b : Arr2 (Rnd .double)) (hb : HasShape b 2 3) : ∃ x x',
    solveTriangular (exRnd .double) b .lower = .ok x ∧ HasShape x' 1 3 ∧
      solveTriangular ⟨1, 1, (exRnd .double).get⟩ ⟨1, 3, b.get⟩ .lower = .ok x' ∧ ∀ j < 3, x'.get 0 j = x.get 0 j := by
  obtain ⟨x, x', h1, h2, h3, h4⟩ := C136_lower (exRnd .double) ⟨1, 1, (exRnd .double).get⟩ b ⟨1, 3, b.get⟩ 2 1 (by norm_num)
    ⟨rfl, rfl⟩ ⟨rfl, rfl⟩ hb.1 ⟨rfl, hb.2.symm⟩ (fun _ _ _ _ => rfl) fun _ _ _ _ => rfl
  rw [hb.2] at h3 h4
  exact ⟨x, x', h1, h3, h2, fun j hj => h4 0 one_pos j hj⟩

/-- In double precision: the matrix `[[2, 0], [1, 3]]` reversed is `[[3, 1], [0, 2]]`. -/
example (b : Arr2 (Rnd .double)) (hb : HasShape b 2 3) : ∃ x x',
    solveTriangular ⟨2, 2, fun i j => (exRnd .double).get (1 - i) (1 - j)⟩ b .upper = .ok x ∧
      solveTriangular (exRnd .double) ⟨2, 3, fun i j => b.get (1 - i) j⟩ .lower = .ok x' ∧
      ∀ i < 2, ∀ j < 3, x'.get i j = x.get (1 - i) j := by
  obtain ⟨x, x', h1, h2, -, h4⟩ := C136_reversed ⟨2, 2, fun i j => (exRnd .double).get (1 - i) (1 - j)⟩ (exRnd .double) b
    ⟨2, 3, fun i j => b.get (1 - i) j⟩ 2 ⟨rfl, rfl⟩ ⟨rfl, rfl⟩ hb.1 ⟨rfl, hb.2.symm⟩ (fun _ _ _ _ => rfl) fun _ _ _ _ => rfl
  rw [hb.2] at h4
  exact ⟨x, x', h1, h2, h4⟩

end LinfaLinalg
