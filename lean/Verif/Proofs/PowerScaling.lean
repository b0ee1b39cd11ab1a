import Verif.Spec.Scalings
import Verif.Proofs.Blocks
import Mathlib.Tactic.Abel

/-! # Programs on scaled arrays -/

set_option linter.unusedSectionVars false

namespace LinfaLinalg

variable {G : Type} [AddCommGroup G]
variable {α : Type} [Zero α] [One α] [Add α] [Sub α] [Mul α] [Div α] [Neg α] [NdFloat α]

/-! ## Loops -/

theorem relM_forRange_idx {σ τ : Type} {lo hi : Nat} {s : σ} {t : τ} {f : Nat → σ → M σ} {g : Nat → τ → M τ}
    (R : Nat → σ → τ → Prop) (hle : lo ≤ hi) (h0 : R lo s t)
    (h : ∀ i, lo ≤ i → i < hi → ∀ s t, R i s t → RelM (R (i + 1)) (f i s) (g i t)) :
    RelM (R hi) (forRange lo hi s f) (forRange lo hi t g) := by
  unfold forRange
  obtain ⟨n, rfl⟩ : ∃ n, hi = lo + n := ⟨hi - lo, by omega⟩
  rw [Nat.add_sub_cancel_left]
  clear hle
  induction n generalizing lo s t with
  | zero => exact h0
  | succ n ih =>
    rw [List.range'_succ]
    refine relM_bind (h lo le_rfl (by omega) s t h0) fun s' t' h' => ?_
    have := ih (lo := lo + 1) h' fun i h1 h2 => h i (by omega) (by omega)
    rwa [show lo + 1 + n = lo + (n + 1) by omega] at this

theorem relM_forRev_idx {σ τ : Type} {lo hi : Nat} {s : σ} {t : τ} {f : Nat → σ → M σ} {g : Nat → τ → M τ}
    (R : Nat → σ → τ → Prop) (hle : lo ≤ hi) (h0 : R hi s t)
    (h : ∀ i, lo ≤ i → i < hi → ∀ s t, R (i + 1) s t → RelM (R i) (f i s) (g i t)) :
    RelM (R lo) (forRev lo hi s f) (forRev lo hi t g) := by
  unfold forRev
  obtain ⟨n, rfl⟩ : ∃ n, hi = lo + n := ⟨hi - lo, by omega⟩
  rw [Nat.add_sub_cancel_left]
  clear hle
  induction n generalizing s t with
  | zero => exact h0
  | succ n ih =>
    rw [List.range'_concat, List.reverse_append]
    simp only [List.reverse_cons, List.reverse_nil, List.nil_append, List.singleton_append]
    rw [Nat.one_mul]
    exact relM_bind (h (lo + n) (by omega) (by omega) s t h0) fun s' t' h' =>
      ih h' fun i h1 h2 => h i h1 (by omega)

/-! ## Access -/

section access
variable {act : G → α → α} {g : Nat → Nat → G} {a b : Arr2 α}

/-- `y` is `x` with entry `i` multiplied by `h i`. -/
structure Scaled1 (act : G → α → α) (h : Nat → G) (x y : Arr1 α) : Prop where
  len : y.len = x.len
  get : ∀ i, i < x.len → y.get i = act (h i) (x.get i)

theorem ScaledBy.congr {g' : Nat → Nat → G} (h : ScaledBy act g a b)
    (e : ∀ i j, i < a.nr → j < a.nc → g i j = g' i j) : ScaledBy act g' a b :=
  ⟨h.nr, h.nc, fun i j hi hj => by rw [h.get i j hi hj, e i j hi hj]⟩

theorem Scaled1.congr {h h' : Nat → G} {x y : Arr1 α} (s : Scaled1 act h x y) (e : ∀ i, i < x.len → h i = h' i) :
    Scaled1 act h' x y :=
  ⟨s.len, fun i hi => by rw [s.get i hi, e i hi]⟩

theorem ScaledBy.at (h : ScaledBy act g a b) (i j : Nat) :
    RelM (fun x y => y = act (g i j) x) (a.at i j) (b.at i j) := by
  unfold Arr2.at
  rw [h.nr, h.nc]
  split
  · exact h.get i j (by tauto) (by tauto)
  · rfl

theorem ScaledBy.upd (h : ScaledBy act g a b) (i j : Nat) {x y : α} {k : G} (hxy : y = act k x) :
    ScaledBy act (fun r c => if r = i ∧ c = j then k else g r c) (a.upd i j x) (b.upd i j y) := by
  refine ⟨h.nr, h.nc, fun r c hr hc => ?_⟩
  change (if r = i ∧ c = j then y else b.get r c) = act _ (if r = i ∧ c = j then x else a.get r c)
  split
  · exact hxy
  · exact h.get r c hr hc

theorem ScaledBy.atm (h : ScaledBy act g a b) (i j : Nat) {x y : α} {k : G} (hxy : y = act k x) :
    RelM (fun u v => u.nr = a.nr ∧ u.nc = a.nc ∧ ScaledBy act (fun r c => if r = i ∧ c = j then k else g r c) u v)
      (a.atm i j x) (b.atm i j y) := by
  unfold Arr2.atm
  rw [h.nr, h.nc]
  split
  · exact ⟨rfl, rfl, h.upd i j hxy⟩
  · rfl

theorem ScaledBy.colSlice (h : ScaledBy act g a b) (r0 r1 c : Nat) :
    RelM (fun x y => x.len = r1 - r0 ∧ Scaled1 act (fun r => g (r0 + r) c) x y) (a.colSlice r0 r1 c) (b.colSlice r0 r1 c) := by
  unfold Arr2.colSlice
  rw [h.nr, h.nc]
  split
  · exact ⟨rfl, rfl, fun i (hi : i < r1 - r0) => h.get _ _ (by omega) (by omega)⟩
  · rfl

theorem ScaledBy.putCol (h : ScaledBy act g a b) (r0 c : Nat) {k : Nat → G} {v w : Arr1 α} (hv : Scaled1 act k v w) :
    ScaledBy act (fun i j => if j = c ∧ r0 ≤ i ∧ i < r0 + v.len then k (i - r0) else g i j) (a.putCol r0 c v)
      (b.putCol r0 c w) := by
  refine ⟨h.nr, h.nc, fun i j hi hj => ?_⟩
  unfold Arr2.putCol
  simp only [hv.len]
  split
  · exact hv.get _ (by omega)
  · exact h.get i j hi hj

theorem ScaledBy.slice (h : ScaledBy act g a b) (r0 r1 c0 c1 : Nat) :
    RelM (fun x y => x.nr = r1 - r0 ∧ x.nc = c1 - c0 ∧ ScaledBy act (fun i j => g (r0 + i) (c0 + j)) x y)
      (a.slice r0 r1 c0 c1) (b.slice r0 r1 c0 c1) := by
  unfold Arr2.slice
  rw [h.nr, h.nc]
  split
  · exact ⟨rfl, rfl, rfl, rfl, fun i j (hi : i < r1 - r0) (hj : j < c1 - c0) => h.get _ _ (by omega) (by omega)⟩
  · rfl

theorem ScaledBy.put (h : ScaledBy act g a b) (r0 c0 : Nat) {k : Nat → Nat → G} {v w : Arr2 α} (hv : ScaledBy act k v w) :
    ScaledBy act (fun i j => if r0 ≤ i ∧ i < r0 + v.nr ∧ c0 ≤ j ∧ j < c0 + v.nc then k (i - r0) (j - c0) else g i j)
      (a.put r0 c0 v) (b.put r0 c0 w) := by
  refine ⟨h.nr, h.nc, fun i j hi hj => ?_⟩
  unfold Arr2.put
  simp only [hv.nr, hv.nc]
  split
  · exact hv.get _ _ (by omega) (by omega)
  · exact h.get i j hi hj

theorem ScaledBy.t (h : ScaledBy act g a b) : ScaledBy act (fun i j => g j i) a.t b.t :=
  ⟨h.nc, h.nr, fun i j hi hj => h.get j i hj hi⟩

theorem ScaledBy.checkSquare (h : ScaledBy act g a b) : checkSquare b = checkSquare a := by
  unfold LinfaLinalg.checkSquare
  rw [h.nr, h.nc]

end access

/-! ## Triangular systems -/

variable (S : Scalings G α)

section triangular
variable {a a' b b' : Arr2 α} {diag diag' : Nat → M α} {p q f : Nat → G}

theorem colSlice_scaled {act : G → α → α} {c : Nat} {k : Nat → G} {r0 r1 : Nat} (hn : a'.nr = a.nr) (hc : a'.nc = a.nc)
    (hget : ∀ r, r0 ≤ r → r < r1 → r < a.nr → c < a.nc → a'.get r c = act (k r) (a.get r c)) :
    RelM (fun x y => x.len = r1 - r0 ∧ Scaled1 act (fun r => k (r0 + r)) x y) (a.colSlice r0 r1 c) (a'.colSlice r0 r1 c) := by
  unfold Arr2.colSlice
  rw [hn, hc]
  split
  · exact ⟨rfl, rfl, fun i (hi : i < r1 - r0) => hget _ (by omega) (by omega) (by omega) (by omega)⟩
  · rfl

theorem scaledAdd_scaled (S : Scalings G α) {h h' : Nat → G} {k : G} {x y u v : Arr1 α} {c c' : α}
    (hx : Scaled1 S.act h x y) (hu : Scaled1 S.act h' u v) (hc : c' = S.act k c)
    (hd : ∀ i, i < x.len → h i = k + h' i) :
    RelM (fun x' y' => x'.len = x.len ∧ Scaled1 S.act h x' y') (x.scaledAdd c u) (y.scaledAdd c' v) := by
  unfold Arr1.scaledAdd
  rw [hx.len, hu.len]
  split
  · refine ⟨rfl, rfl, fun i (hi : i < x.len) => ?_⟩
    change y.get i + c' * v.get i = S.act (h i) (x.get i + c * u.get i)
    rw [hx.get i hi, hu.get i (by omega), hc, S.mul, ← hd i hi, S.add]
  · rfl

theorem scaled_step (S : Scalings G α) {g : Nat → Nat → G} (k i : Nat) (rows : Nat → Nat × Nat)
    (hn : a'.nr = a.nr) (hc : a'.nc = a.nc)
    (hget : ∀ r, (rows a.nr).1 ≤ r → r < (rows a.nr).2 → r < a.nr → i < a.nc → a'.get r i = S.act (p r + q i) (a.get r i))
    (hd : RelM (fun x y => y = S.act (p i + q i) x) (diag i) (diag' i))
    (hb : ScaledBy S.act g b b') (hbi : g i k = p i + f k) (hr : ¬ ((rows b.nr).1 ≤ i ∧ i < (rows b.nr).2))
    (hbr : ∀ r, (rows b.nr).1 ≤ r → r < (rows b.nr).2 → g r k = p r + f k) (hrr : rows b.nr = rows a.nr) :
    RelM (fun u v => u.nr = b.nr ∧ u.nc = b.nc ∧
        ScaledBy S.act (fun r c => if r = i ∧ c = k then f k - q i else g r c) u v)
      (solveStep a diag rows k i b) (solveStep a' diag' rows k i b') := by
  unfold solveStep
  refine relM_bind hd ?_
  rintro d _ rfl
  refine relM_bind (hb.at i k) ?_
  rintro x _ rfl
  have hco : S.act (g i k) x / S.act (p i + q i) d = S.act (f k - q i) (x / d) := by
    rw [S.div, hbi]
    congr 1
    abel
  refine relM_bind (hb.atm i k hco) ?_
  rintro b1 b1' ⟨hr1, hc1, hb1⟩
  rw [hb1.nr, hr1, hn]
  refine relM_bind (hb1.colSlice _ _ _) ?_
  rintro y y' ⟨hyl, hy⟩
  refine relM_bind (colSlice_scaled (k := fun r => p r + q i) hn hc hget) ?_
  rintro z z' ⟨hzl, hz⟩
  refine relM_bind (scaledAdd_scaled S hy hz (k := f k - q i) (by rw [hco, S.neg]) ?_) ?_
  · intro r hr'
    rw [hyl] at hr'
    rw [if_neg (by rintro ⟨rfl, -⟩; exact hr ⟨by omega, by omega⟩), hbr _ (by omega) (by omega), ← hrr]
    abel
  · rintro w w' ⟨hwl, hw⟩
    refine ⟨hr1, hc1, ((hb1.putCol (rows b.nr).1 k hw).congr fun r c _ _ => ?_)⟩
    split
    · next h =>
      obtain ⟨rfl, h1, h2⟩ := h
      rw [show (rows b.nr).1 + (r - (rows b.nr).1) = r by omega]
    · rfl

/-- `solve_triangular_system`, with scaled rows and columns of the matrix. -/
theorem scaled_solveSystem (S : Scalings G α) (uplo : UPLO) (hn : a'.nr = a.nr) (hc : a'.nc = a.nc)
    (hget : ∀ r c, r < a.nr → c < a.nc → (uplo = .upper ∧ r < c ∨ uplo = .lower ∧ c < r) →
      a'.get r c = S.act (p r + q c) (a.get r c))
    (hd : ∀ i, i < a.nr → RelM (fun x y => y = S.act (p i + q i) x) (diag i) (diag' i))
    (hb : ScaledBy S.act (fun i j => p i + f j) b b') :
    RelM (ScaledBy S.act fun i j => f j - q i) (solveTriangularSystem a b uplo diag)
      (solveTriangularSystem a' b' uplo diag') := by
  unfold solveTriangularSystem checkSquare
  rw [hn, hc]
  by_cases hsq : a.nr = a.nc
  swap
  · rw [if_pos hsq]; rfl
  rw [if_neg (not_not.2 hsq)]
  simp only [ok_bind]
  rw [hb.nr, hb.nc]
  by_cases hbn : b.nr = a.nr
  swap
  · rw [if_pos hbn, if_pos hbn]; rfl
  rw [if_neg (not_not.2 hbn), if_neg (not_not.2 hbn)]
  cases uplo with
  | upper =>
    rw [if_pos rfl, if_pos rfl]
    refine relM_mono (relM_forRange_idx
      (R := fun k u v => u.nr = b.nr ∧ u.nc = b.nc ∧ ScaledBy S.act (fun i j => if j < k then f j - q i else p i + f j) u v)
      (Nat.zero_le _) ⟨rfl, rfl, hb.congr fun i j _ _ => by simp⟩ ?_) ?_
    · rintro k - hk u v ⟨h1, h2, h3⟩
      refine relM_mono (relM_forRev_idx
        (R := fun m u v => u.nr = b.nr ∧ u.nc = b.nc ∧
          ScaledBy S.act (fun i j => if j < k ∨ j = k ∧ m ≤ i then f j - q i else p i + f j) u v)
        (Nat.zero_le _) ⟨h1, h2, h3.congr fun i j hi hj => ?_⟩ ?_) ?_
      · rw [h1, hbn] at hi
        exact if_congr (by omega) rfl rfl
      · rintro i - hi u v ⟨h1, h2, h3⟩
        refine relM_mono (scaled_step S k i _ hn hc (p := p) (q := q) (f := f)
          (fun r h0 (h : r < i) hr hi => hget r i hr hi (Or.inl ⟨rfl, h⟩)) (hd i hi) h3 ?_ ?_ ?_ rfl) ?_
        · exact if_neg (by omega)
        · change ¬ (0 ≤ i ∧ i < i)
          omega
        · intro r _ (h : r < i)
          exact if_neg (by omega)
        · rintro x y ⟨h4, h5, h6⟩
          refine ⟨h4.trans h1, h5.trans h2, h6.congr fun r c hr hc => ?_⟩
          split
          · next h => rw [if_pos (by omega), h.1, h.2]
          · exact if_congr (by omega) rfl rfl
      · rintro x y ⟨h4, h5, h6⟩
        exact ⟨h4, h5, h6.congr fun r c hr hc => if_congr (by omega) rfl rfl⟩
    · rintro x y ⟨h4, h5, h6⟩
      exact h6.congr fun r c hr hc => if_pos (by omega)
  | lower =>
    rw [if_neg (by decide), if_neg (by decide)]
    refine relM_mono (relM_forRange_idx
      (R := fun k u v => u.nr = b.nr ∧ u.nc = b.nc ∧ ScaledBy S.act (fun i j => if j < k then f j - q i else p i + f j) u v)
      (Nat.zero_le _) ⟨rfl, rfl, hb.congr fun i j _ _ => by simp⟩ ?_) ?_
    · rintro k - hk u v ⟨h1, h2, h3⟩
      refine relM_mono (relM_forRange_idx
        (R := fun m u v => u.nr = b.nr ∧ u.nc = b.nc ∧
          ScaledBy S.act (fun i j => if j < k ∨ j = k ∧ i < m then f j - q i else p i + f j) u v)
        (Nat.zero_le _) ⟨h1, h2, h3.congr fun i j hi hj => ?_⟩ ?_) ?_
      · exact if_congr (by omega) rfl rfl
      · rintro i - hi u v ⟨h1, h2, h3⟩
        refine relM_mono (scaled_step S k i _ hn hc (p := p) (q := q) (f := f)
          (fun r (h : i + 1 ≤ r) _ hr hi => hget r i hr hi (Or.inr ⟨rfl, h⟩)) (hd i hi) h3 ?_ ?_ ?_ ?_) ?_
        · exact if_neg (by omega)
        · change ¬ (i + 1 ≤ i ∧ _)
          omega
        · intro r (h : i + 1 ≤ r) _
          exact if_neg (by omega)
        · simp only [h1, hbn]
        · rintro x y ⟨h4, h5, h6⟩
          refine ⟨h4.trans h1, h5.trans h2, h6.congr fun r c hr hc => ?_⟩
          split
          · next h => rw [if_pos (by omega), h.1, h.2]
          · exact if_congr (by omega) rfl rfl
      · rintro x y ⟨h4, h5, h6⟩
        refine ⟨h4, h5, h6.congr fun r c hr hc => if_congr ?_ rfl rfl⟩
        rw [h4, hbn] at hr
        omega
    · rintro x y ⟨h4, h5, h6⟩
      exact h6.congr fun r c hr hc => if_pos (by omega)

end triangular

/-! ## Cholesky decomposition -/

section cholesky
variable {d : Nat → G}

/-- The factors while `cholesky` works on row `j`, of which `k` entries are done. -/
def cholDegree (d : Nat → G) (j k : Nat) (r c : Nat) : G :=
  if (r < j ∧ c ≤ r) ∨ (r = j ∧ c < k) then d r else d r + d c

theorem cholDegree_done {j k r c : Nat} (h : (r < j ∧ c ≤ r) ∨ (r = j ∧ c < k)) : cholDegree d j k r c = d r := if_pos h

theorem cholDegree_todo {j k r c : Nat} (h : ¬ ((r < j ∧ c ≤ r) ∨ (r = j ∧ c < k))) :
    cholDegree d j k r c = d r + d c := if_neg h

theorem scaled_cholDot (S : Scalings G α) {a b : Arr2 α} {j k : Nat} (hk : k < j)
    (h : ScaledBy S.act (cholDegree d j k) a b) :
    RelM (fun x y => y = S.act (d k + d j) x) (cholDot a k j) (cholDot b k j) := by
  unfold cholDot
  refine relM_forRange (R := fun x y => y = S.act (d k + d j) x) (S.act_zero _).symm ?_
  rintro i - hi s _ rfl
  refine relM_bind (h.at k i) ?_
  rintro x _ rfl
  refine relM_bind (h.at j i) ?_
  rintro y _ rfl
  rw [cholDegree_done (by omega), cholDegree_done (by omega)]
  change _ + _ * _ = _
  rw [S.mul, S.add]

theorem scaled_cholRow (S : Scalings G α) {a b : Arr2 α} (j : Nat) (h : ScaledBy S.act (cholDegree d j 0) a b) :
    RelM (fun x y => x.1.nr = a.nr ∧ x.1.nc = a.nc ∧ ScaledBy S.act (cholDegree d j j) x.1 y.1 ∧
      y.2 = S.act (d j + d j) x.2) (cholRow j a) (cholRow j b) := by
  unfold cholRow
  refine relM_forRange_idx
    (R := fun k (x y : Arr2 α × α) => x.1.nr = a.nr ∧ x.1.nc = a.nc ∧ ScaledBy S.act (cholDegree d j k) x.1 y.1 ∧
      y.2 = S.act (d j + d j) x.2) (Nat.zero_le _) ⟨rfl, rfl, h, (S.act_zero _).symm⟩ ?_
  rintro k - hk ⟨a1, s⟩ ⟨b1, t⟩ ⟨h1, h2, h3, h4⟩
  simp only at h1 h2 h3 h4 ⊢
  refine relM_bind (scaled_cholDot S hk h3) ?_
  rintro x _ rfl
  refine relM_bind (h3.at j k) ?_
  rintro y _ rfl
  refine relM_bind (h3.at k k) ?_
  rintro z _ rfl
  rw [cholDegree_todo (r := j) (by omega), cholDegree_done (r := k) (by omega)]
  have e : (S.act (d j + d k) y - S.act (d k + d j) x) / S.act (d k) z = S.act (d j) ((y - x) / z) := by
    rw [add_comm (d k), S.sub, S.div, add_sub_cancel_right]
  refine relM_bind (h3.atm j k e) ?_
  rintro a2 b2 ⟨h5, h6, h7⟩
  refine ⟨h5.trans h1, h6.trans h2, h7.congr fun r c _ _ => ?_, ?_⟩
  · unfold cholDegree
    by_cases h : r = j ∧ c = k
    · rw [if_pos h, if_pos (by omega), h.1]
    · rw [if_neg h]
      exact if_congr (by omega) rfl rfl
  · change t + _ * _ = S.act _ (s + _ * _)
    rw [e, S.mul, h4, S.add]

theorem scaled_cholLoop (S : Scalings G α) (n j : Nat) {a b : Arr2 α} (h : ScaledBy S.act (cholDegree d j 0) a b) :
    RelM (fun x y => y.2 = x.2 ∧ (x.2 = none → x.1.nr = a.nr ∧ x.1.nc = a.nc ∧
      ScaledBy S.act (cholDegree d (j + n) 0) x.1 y.1)) (cholLoop (List.range' j n) a) (cholLoop (List.range' j n) b) := by
  induction n generalizing j a b with
  | zero => exact ⟨rfl, fun _ => ⟨rfl, rfl, h⟩⟩
  | succ n ih =>
    rw [List.range'_succ]
    unfold cholLoop
    refine relM_bind (scaled_cholRow S j h) ?_
    rintro ⟨a1, s⟩ ⟨b1, t⟩ ⟨h1, h2, h3, h4⟩
    simp only at h1 h2 h3 h4 ⊢
    refine relM_bind (h3.at j j) ?_
    rintro x _ rfl
    rw [cholDegree_todo (by omega), h4, S.sub, S.le_zero]
    cases NdFloat.le (x - s) 0 with
    | true => exact ⟨rfl, by simp⟩
    | false =>
      simp only [Bool.false_eq_true, if_false]
      refine relM_bind (h3.atm j j (S.sqrt _ _)) ?_
      rintro a2 b2 ⟨h5, h6, h7⟩
      refine relM_mono (ih (j + 1) (h7.congr fun r c _ _ => ?_)) ?_
      · unfold cholDegree
        by_cases h : r = j ∧ c = j
        · rw [if_pos h, if_pos (by omega), h.1]
        · rw [if_neg h]
          exact if_congr (by omega) rfl rfl
      · rintro ⟨x, e⟩ ⟨y, e'⟩ ⟨h8, h9⟩
        refine ⟨h8, fun he => ?_⟩
        obtain ⟨g1, g2, g3⟩ := h9 he
        exact ⟨g1.trans (h5.trans h1), g2.trans (h6.trans h2),
          by rwa [show j + 1 + n = j + (n + 1) by omega] at g3⟩

theorem scaled_choleskyDirty (S : Scalings G α) {a b : Arr2 α} (h : ScaledBy S.act (fun i j => d i + d j) a b) :
    RelM (fun x y => x.nr = a.nr ∧ x.nc = a.nc ∧ a.nr = a.nc ∧ ScaledBy S.act (cholDegree d a.nr 0) x y)
      (choleskyDirty a) (choleskyDirty b) := by
  unfold choleskyDirty choleskyInplaceDirty
  rw [h.checkSquare]
  by_cases hs : a.nr = a.nc
  · rw [checkSquare_ok hs]
    simp only
    rw [List.range_eq_range']
    refine relM_bind (scaled_cholLoop S a.nr 0 (h.congr fun i j _ _ => (cholDegree_todo (by omega)).symm)) ?_
    rintro ⟨x, e⟩ ⟨y, e'⟩ ⟨h1, h2⟩
    obtain rfl : e' = e := h1
    cases e' with
    | some e => rfl
    | none =>
      obtain ⟨g1, g2, g3⟩ := h2 rfl
      rw [Nat.zero_add] at g3
      exact ⟨g1, g2, hs, g3⟩
  · rw [checkSquare_err hs]
    rfl

theorem scaled_cholesky (S : Scalings G α) {a b : Arr2 α} (h : ScaledBy S.act (fun i j => d i + d j) a b) :
    RelM (ScaledBy S.act fun i _ => d i) (cholesky a) (cholesky b) := by
  have hd := scaled_choleskyDirty S h
  by_cases hs : a.nr = a.nc
  · have hs' : b.nr = b.nc := by rw [h.nr, h.nc, hs]
    rcases cholesky_cases a hs with ⟨x, e1, hx, e2, -⟩ | ⟨e1, e2, -⟩
    · rcases cholesky_cases b hs' with ⟨y, f1, hy, f2, -⟩ | ⟨f1, f2, -⟩
      · rw [e2, f2] at hd
        obtain ⟨g1, g2, g3, g4⟩ := hd
        rw [e1, f1]
        refine ⟨g4.nr, g4.nc, fun i j (hi : i < x.nr) (hj : j < x.nc) => ?_⟩
        unfold cleanLower
        simp only [g4.nr]
        split
        · exact (S.act_zero _).symm
        · rw [g4.get i j hi hj, cholDegree_done (by omega)]
      · rw [e2, f2] at hd
        exact hd.elim
    · rcases cholesky_cases b hs' with ⟨y, f1, hy, f2, -⟩ | ⟨f1, f2, -⟩
      · rw [e2, f2] at hd
        exact hd.elim
      · rw [e1, f1]
        rfl
  · rw [cholesky_notSquare a hs, cholesky_notSquare b (by rw [h.nr, h.nc]; exact hs), h.nr, h.nc]
    rfl

theorem scaled_solvec (S : Scalings G α) {f : Nat → G} {a a' b b' : Arr2 α} (h : ScaledBy S.act (fun i j => d i + d j) a a')
    (hb : ScaledBy S.act (fun i j => d i + f j) b b') :
    RelM (ScaledBy S.act fun i j => f j - d i) (solvec a b) (solvec a' b') := by
  unfold solvec
  refine relM_bind (scaled_choleskyDirty S h) ?_
  rintro L L' ⟨h1, h2, hs, hL⟩
  refine relM_bind (scaled_solveSystem S (p := d) (q := fun _ => 0) (f := f) .lower hL.nr hL.nc ?_ ?_ hb) ?_
  · intro r c hr hc hrc
    rw [hL.get r c hr hc, cholDegree_done (by simp at hrc; omega), add_zero]
  · intro i hi
    refine relM_mono (hL.at i i) ?_
    rintro x _ rfl
    rw [cholDegree_done (by omega), add_zero]
  · intro x y hxy
    refine scaled_solveSystem S (p := fun _ => 0) (q := d) (f := f) .upper hL.nc hL.nr ?_ ?_
      (hxy.congr fun i j _ _ => by abel)
    · intro r c hr hc hrc
      change L'.get c r = S.act _ (L.get c r)
      rw [hL.get c r hc hr, cholDegree_done (by have : r < L.nc := hr; have : c < L.nr := hc; simp at hrc; omega), zero_add]
    · intro i hi
      refine relM_mono (hL.t.at i i) ?_
      rintro x _ rfl
      have : i < L.nc := hi
      rw [cholDegree_done (by omega), zero_add]

theorem eye_scaled (S : Scalings G α) (n m : Nat) (d : Nat → G) :
    ScaledBy S.act (fun i j => d i + -d j) (Arr2.eye n m) (Arr2.eye n m) := by
  refine ⟨rfl, rfl, fun i j _ _ => ?_⟩
  change (if i = j then (1 : α) else 0) = S.act _ (if i = j then 1 else 0)
  split
  · next h => rw [h, add_neg_cancel, S.act_none]
  · rw [S.act_zero]

theorem scaled_invc (S : Scalings G α) {a a' : Arr2 α} (h : ScaledBy S.act (fun i j => d i + d j) a a') :
    RelM (ScaledBy S.act fun i j => -d j - d i) (invc a) (invc a') := by
  unfold invc
  rw [h.nr]
  exact scaled_solvec S h (eye_scaled S _ _ d)

end cholesky

/-! ## Reflections -/

section reflections

theorem dotTo_scaled (S : Scalings G α) {n : Nat} {f f' u u' : Nat → α} {g h : G} (hf : ∀ k, k < n → f' k = S.act g (f k))
    (hu : ∀ k, k < n → u' k = S.act h (u k)) : dotTo n f' u' = S.act (g + h) (dotTo n f u) := by
  unfold dotTo
  rw [← S.dot, List.map_map]
  congr 1
  refine List.map_congr_left fun k hk => ?_
  rw [List.mem_range] at hk
  simp only [Function.comp, hf k hk, hu k hk]

theorem dot_scaled (S : Scalings G α) {g h : G} {x x' y y' : Arr1 α} (hx : Scaled1 S.act (fun _ => g) x x')
    (hy : Scaled1 S.act (fun _ => h) y y') : RelM (fun s t => t = S.act (g + h) s) (x.dot y) (x'.dot y') := by
  unfold Arr1.dot
  rw [hx.len, hy.len]
  split
  · next e => exact dotTo_scaled S hx.get fun k hk => hy.get k (by omega)
  · rfl

theorem idx_scaled {act : G → α → α} {h : Nat → G} {x y : Arr1 α} (hx : Scaled1 act h x y) (i : Nat) :
    RelM (fun s t => t = act (h i) s) (x.idx i) (y.idx i) := by
  unfold Arr1.idx
  rw [hx.len]
  split
  · next e => exact hx.get i e
  · rfl

theorem act_mul (S : Scalings G α) (g : G) (x c : α) : S.act g x * c = S.act g (x * c) := by
  have := S.mul g 0 x c
  rwa [S.act_none, add_zero] at this

theorem mul_act (S : Scalings G α) (g : G) (c x : α) : c * S.act g x = S.act g (c * x) := by
  have := S.mul 0 g c x
  rwa [S.act_none, zero_add] at this

theorem act_sub_zero (S : Scalings G α) (g : G) (x : α) : S.act g x - 0 = S.act g (x - 0) := by
  have := S.sub g x 0
  rwa [S.act_zero] at this

/-- The axis is the same, the diagonal entry has the factor of the column. -/
def AxisRel (S : Scalings G α) (e : G) (n : Nat) (x y : Arr1 α × Option α) : Prop :=
  x.1.len = n ∧ y.1.len = n ∧
    ((x.2 = none ∧ y.2 = none) ∨
      ∃ d, x.2 = some d ∧ y.2 = some (S.act e d) ∧ Scaled1 S.act (fun _ => 0) x.1 y.1)

theorem scaled_axis (S : Scalings G α) {e : G} {x y : Arr1 α} (h : Scaled1 S.act (fun _ => e) x y) :
    RelM (AxisRel S e x.len) (reflectionAxisMut x) (reflectionAxisMut y) := by
  unfold reflectionAxisMut
  refine relM_bind (dot_scaled S h h) ?_
  rintro s _ rfl
  refine relM_bind (idx_scaled h 0) ?_
  rintro f _ rfl
  simp only [S.sqrt, S.signum, S.abs, mul_act, S.mul, S.add, act_mul, S.isZero, S.neg]
  unfold Arr1.idxSet
  rw [h.len]
  by_cases hl : 0 < x.len
  swap
  · rw [if_neg hl, if_neg hl]; rfl
  rw [if_pos hl, if_pos hl]
  simp only [ok_bind]
  cases NdFloat.isZero ((s + NdFloat.abs f * NdFloat.sqrt s) * NdFloat.ofRat 2) with
  | true => exact ⟨rfl, h.len, Or.inl ⟨rfl, rfl⟩⟩
  | false =>
    refine ⟨rfl, h.len, Or.inr ⟨_, rfl, rfl, h.len, fun i (hi : i < x.len) => ?_⟩⟩
    change (if i = 0 then _ else y.get i) / _ = S.act 0 ((if i = 0 then _ else x.get i) / _)
    rw [S.act_none]
    split
    · rw [S.div, sub_self, S.act_none]
    · rw [h.get i hi, S.div, sub_self, S.act_none]

theorem scaled_reflectCols (S : Scalings G α) {f : Nat → G} {axis axis' : Arr1 α} {b b' : Arr2 α}
    (ha : Scaled1 S.act (fun _ => 0) axis axis') (hb : ScaledBy S.act (fun _ j => f j) b b') :
    RelM (fun u v => u.nr = b.nr ∧ u.nc = b.nc ∧ ScaledBy S.act (fun _ j => f j) u v) (reflectCols axis 0 b)
      (reflectCols axis' 0 b') := by
  unfold reflectCols
  rw [hb.nc]
  refine relM_forRange ⟨rfl, rfl, hb⟩ ?_
  rintro i - hi u v ⟨h1, h2, h3⟩
  rw [h3.nr]
  refine relM_bind (h3.colSlice _ _ _) ?_
  rintro x y ⟨-, hxy⟩
  refine relM_bind (dot_scaled S ha hxy) ?_
  rintro s _ rfl
  simp only [act_sub_zero, act_mul]
  refine relM_bind (scaledAdd_scaled S hxy ha rfl (fun i _ => by abel)) ?_
  rintro w w' ⟨-, hw⟩
  refine ⟨h1, h2, (h3.putCol 0 i hw).congr fun r c _ _ => ?_⟩
  split
  · next h => rw [h.1]
  · rfl

theorem map_mul_scaled (S : Scalings G α) {g : Nat → Nat → G} {b b' : Arr2 α} (c : α) (h : ScaledBy S.act g b b') :
    ScaledBy S.act g (b.map fun x => x * c) (b'.map fun x => x * c) :=
  ⟨h.nr, h.nc, fun i j hi hj => by
    change b'.get i j * c = S.act _ (b.get i j * c)
    rw [h.get i j hi hj, act_mul]⟩

end reflections

/-! ## QR decomposition -/

section qr
variable {e : Nat → G}

/-- Two packed decompositions, of which the second is that of a matrix with scaled columns, after `m` steps. -/
structure PackedRel (S : Scalings G α) (e : Nat → G) (m : Nat) (x y : Arr2 α × Arr1 α) : Prop where
  nr : y.1.nr = x.1.nr
  nc : y.1.nc = x.1.nc
  len : y.2.len = x.2.len
  diag : ∀ j, j < m → y.2.get j = S.act (e j) (x.2.get j)
  above : ∀ i j, i < x.1.nr → j < x.1.nc → (i < j ∨ m ≤ j) → y.1.get i j = S.act (e j) (x.1.get i j)
  below : ∀ i j, i < x.1.nr → j < x.1.nc → j ≤ i → j < m → NdFloat.isZero (x.2.get j) = false →
    y.1.get i j = x.1.get i j

theorem scaled_clearColumn (S : Scalings G α) {a a' : Arr2 α} {dg dg' : Arr1 α} (i : Nat) (hr : i < a.nr) (hc : i < a.nc)
    (h : PackedRel S e i (a, dg) (a', dg')) :
    RelM (fun x y => x.1.nr = a.nr ∧ x.1.nc = a.nc ∧ y.2 = S.act (e i) x.2 ∧
      PackedRel S e (i + 1) (x.1, dg.upd i x.2) (y.1, dg'.upd i y.2)) (clearColumn a i 0) (clearColumn a' i 0) := by
  have hn := h.nr
  have hm := h.nc
  simp only at hn hm
  rw [clearColumn_eq a i hr hc, clearColumn_eq a' i (by omega) (by omega)]
  refine relM_bind (scaled_axis S (e := e i) (x := ⟨a.nr - i, fun r => a.get (i + r) i⟩) ⟨by simp only [hn], ?_⟩) ?_
  · intro r (hr' : r < a.nr - i)
    exact h.above _ _ (by simp only; omega) hc (Or.inr le_rfl)
  · rintro ⟨w, o⟩ ⟨w', o'⟩ ⟨hl, hl', ho⟩
    simp only at hl hl' ho
    rcases ho with ⟨rfl, rfl⟩ | ⟨d, rfl, rfl, hw⟩
    · refine ⟨rfl, rfl, (S.act_zero _).symm, hn, hm, h.len, ?_, ?_, ?_⟩
      · intro j hj
        change (if j = i then (0 : α) else dg'.get j) = S.act _ (if j = i then 0 else dg.get j)
        split
        · exact (S.act_zero _).symm
        · exact h.diag j (by omega)
      · intro r c hr' hc' hrc
        change (if c = i ∧ i ≤ r ∧ r < i + w'.len then w'.get (r - i) else a'.get r c) =
          S.act _ (if c = i ∧ i ≤ r ∧ r < i + w.len then w.get (r - i) else a.get r c)
        rw [if_neg (by omega), if_neg (by omega)]
        exact h.above r c hr' hc' (by omega)
      · intro r c hr' hc' hrc hci hz
        change NdFloat.isZero (if c = i then 0 else dg.get c) = false at hz
        by_cases hci' : c = i
        · rw [if_pos hci', S.zero_isZero] at hz
          cases hz
        · rw [if_neg hci'] at hz
          change (if c = i ∧ i ≤ r ∧ r < i + w'.len then w'.get (r - i) else a'.get r c) =
            (if c = i ∧ i ≤ r ∧ r < i + w.len then w.get (r - i) else a.get r c)
          rw [if_neg (by omega), if_neg (by omega)]
          exact h.below r c hr' hc' hrc (by omega) hz
    · have hw' : ∀ k, k < w.len → w'.get k = w.get k := fun k hk => by rw [hw.get k hk, S.act_none]
      have hp : ∀ r c, r < a.nr → c < a.nc → c ≠ i → (a'.putCol i i w').get r c = a'.get r c ∧
          (a.putCol i i w).get r c = a.get r c := fun r c _ _ hne => by
        unfold Arr2.putCol
        simp [hne]
      have hq : ∀ r, i ≤ r → r < a.nr → (a'.putCol i i w').get r i = w'.get (r - i) ∧
          (a.putCol i i w).get r i = w.get (r - i) := fun r h1 h2 => by
        exact ⟨if_pos ⟨rfl, h1, by omega⟩, if_pos ⟨rfl, h1, by omega⟩⟩
      refine ⟨rfl, rfl, rfl, hn, hm, h.len, ?_, ?_, ?_⟩
      · intro j hj
        change (if j = i then S.act (e i) d else dg'.get j) = S.act _ (if j = i then d else dg.get j)
        split
        · next hji => rw [hji]
        · exact h.diag j (by omega)
      · intro r c hr' hc' hrc
        have hr' : r < a.nr := hr'
        have hc' : c < a.nc := hc'
        change (if i ≤ r ∧ r < a'.nr ∧ i + 1 ≤ c ∧ c < a'.nc then _ else (a'.putCol i i w').get r c) =
          S.act _ (if i ≤ r ∧ r < a.nr ∧ i + 1 ≤ c ∧ c < a.nc then _ else (a.putCol i i w).get r c)
        rw [hn, hm]
        have hget : ∀ k, k < a.nr → i < c → a'.get k c = S.act (e c) (a.get k c) := fun k hk hic =>
          h.above k c hk hc' (by omega)
        split
        · next hin =>
          unfold blockEntry
          rw [(hp r c hr' hc' (by omega)).1, (hp r c hr' hc' (by omega)).2, S.signum, hget r hr' (by omega), hw.len,
            dotTo_scaled S (f := w.get) (u := fun k => (a.putCol i i w).get (i + k) c) (g := 0) (h := e c), zero_add,
            act_sub_zero, act_mul, hw' (r - i) (by omega), act_mul, S.add, act_mul]
          · exact hw.get
          · intro k hk
            rw [(hp (i + k) c (by omega) hc' (by omega)).1, (hp (i + k) c (by omega) hc' (by omega)).2]
            exact hget _ (by omega) (by omega)
        · next hin =>
          by_cases hci : c = i
          · subst hci
            have hrc' : r < c := by omega
            unfold Arr2.putCol
            simp only
            rw [if_neg (by omega), if_neg (by omega)]
            exact h.above r c hr' hc' (by omega)
          · rw [(hp r c hr' hc' hci).1, (hp r c hr' hc' hci).2]
            exact h.above r c hr' hc' (by omega)
      · intro r c hr' hc' hrc hci hz
        have hr' : r < a.nr := hr'
        have hc' : c < a.nc := hc'
        change (if i ≤ r ∧ r < a'.nr ∧ i + 1 ≤ c ∧ c < a'.nc then _ else (a'.putCol i i w').get r c) =
          (if i ≤ r ∧ r < a.nr ∧ i + 1 ≤ c ∧ c < a.nc then _ else (a.putCol i i w).get r c)
        rw [if_neg (by omega), if_neg (by omega)]
        change NdFloat.isZero (if c = i then d else dg.get c) = false at hz
        by_cases hci' : c = i
        · subst hci'
          rw [(hq r hrc hr').1, (hq r hrc hr').2]
          exact hw' _ (by omega)
        · rw [if_neg hci'] at hz
          rw [(hp r c hr' hc' hci').1, (hp r c hr' hc' hci').2]
          exact h.below r c hr' hc' hrc (by omega) hz

theorem scaled_qrInto (S : Scalings G α) {a a' : Arr2 α} (h : ScaledBy S.act (fun _ j => e j) a a') :
    RelM (fun x y => x.qr.nr = a.nr ∧ x.qr.nc = a.nc ∧ x.diag.len = a.nc ∧ a.nc ≤ a.nr ∧
      PackedRel S e a.nc (x.qr, x.diag) (y.qr, y.diag)) (qrInto a) (qrInto a') := by
  unfold qrInto
  rw [h.nr, h.nc]
  split
  · rfl
  · next hlt =>
    refine relM_bind (R := fun (x y : Arr2 α × Arr1 α) => x.1.nr = a.nr ∧ x.1.nc = a.nc ∧ x.2.len = a.nc ∧
      PackedRel S e a.nc x y) ?_ ?_
    · refine relM_forRange_idx (R := fun m (x y : Arr2 α × Arr1 α) => x.1.nr = a.nr ∧ x.1.nc = a.nc ∧ x.2.len = a.nc ∧
        PackedRel S e m x y) (Nat.zero_le _)
        ⟨rfl, rfl, rfl, h.nr, h.nc, rfl, by simp, fun i j hi hj _ => h.get i j hi hj, by simp⟩ ?_
      rintro i - hi ⟨b, dg⟩ ⟨b', dg'⟩ ⟨h1, h2, h3, h4⟩
      simp only at h1 h2 h3
      refine relM_bind (scaled_clearColumn S i (by omega) (by omega) h4) ?_
      rintro ⟨c, x⟩ ⟨c', y⟩ ⟨g1, g2, g3, g4⟩
      simp only at g1 g2 g3 g4 ⊢
      have hl : dg'.len = dg.len := h4.len
      unfold Arr1.idxSet
      rw [if_pos (by omega), if_pos (by omega)]
      exact ⟨g1.trans h1, g2.trans h2, h3, g4⟩
    · rintro ⟨b, dg⟩ ⟨b', dg'⟩ ⟨h1, h2, h3, h4⟩
      exact ⟨h1, h2, h3, by omega, h4⟩

variable {q q' : QRDecomp α}

theorem isInvertible_scaled (S : Scalings G α) {m : Nat} (hm : q.diag.len = m)
    (h : PackedRel S e m (q.qr, q.diag) (q'.qr, q'.diag)) : q'.isInvertible = q.isInvertible := by
  have hl : q'.diag.len = q.diag.len := h.len
  unfold QRDecomp.isInvertible Arr1.toList
  rw [hl, List.all_map, List.all_map]
  rw [Bool.eq_iff_iff, List.all_eq_true, List.all_eq_true]
  refine forall₂_congr fun j hj => ?_
  rw [List.mem_range] at hj
  have := h.diag j (by omega)
  simp only at this
  simp only [Function.comp, this, S.isZero]

theorem isInvertible_get {j : Nat} (h : q.isInvertible = true) (hj : j < q.diag.len) : NdFloat.isZero (q.diag.get j) = false := by
  unfold QRDecomp.isInvertible Arr1.toList at h
  rw [List.all_map, List.all_eq_true] at h
  have := h j (List.mem_range.2 hj)
  simpa using this

/-- What the columns with a nonzero diagonal entry have in common. -/
structure SameAxes (S : Scalings G α) (e : Nat → G) (q q' : QRDecomp α) : Prop where
  thin : q.qr.nc ≤ q.qr.nr
  len : q.diag.len = q.qr.nc
  rel : PackedRel S e q.qr.nc (q.qr, q.diag) (q'.qr, q'.diag)
  inv : q.isInvertible = true

theorem SameAxes.axis {S : Scalings G α} (h : SameAxes S e q q') (i : Nat) :
    RelM (fun x y => Scaled1 S.act (fun _ => 0) x y) (q.qr.colSlice i q.qr.nr i) (q'.qr.colSlice i q.qr.nr i) := by
  refine relM_mono (colSlice_scaled (k := fun _ => 0) h.rel.nr h.rel.nc fun r h1 h2 h3 h4 => ?_) fun x y hxy => hxy.2
  rw [S.act_none]
  exact h.rel.below r i h3 h4 h1 h4 (isInvertible_get h.inv (by rw [h.len]; exact h4))

theorem SameAxes.diag1 {S : Scalings G α} (h : SameAxes S e q q') : Scaled1 S.act e q.diag q'.diag :=
  ⟨h.rel.len, fun i hi => h.rel.diag i (by rw [← h.len]; exact hi)⟩

theorem scaled_qtMul (S : Scalings G α) (h : SameAxes S e q q') {f : Nat → G} {b b' : Arr2 α}
    (hb : ScaledBy S.act (fun _ j => f j) b b') :
    RelM (fun u v => u.nr = b.nr ∧ u.nc = b.nc ∧ ScaledBy S.act (fun _ j => f j) u v) (q.qtMul b) (q'.qtMul b') := by
  have hn : q'.qr.nr = q.qr.nr := h.rel.nr
  have hc : q'.qr.nc = q.qr.nc := h.rel.nc
  unfold QRDecomp.qtMul
  rw [hc]
  refine relM_forRange ⟨rfl, rfl, hb⟩ ?_
  rintro i - hi u v ⟨h1, h2, h3⟩
  rw [hn]
  refine relM_bind (h.axis i) ?_
  intro x y hxy
  rw [h3.nr, h3.nc]
  refine relM_bind (h3.slice _ _ _ _) ?_
  rintro s s' ⟨k1, k2, k3⟩
  refine relM_bind (scaled_reflectCols S hxy (f := f) (k3.congr fun i j _ _ => by rw [Nat.zero_add])) ?_
  rintro t t' ⟨m1, m2, m3⟩
  refine relM_bind (idx_scaled h.diag1 i) ?_
  rintro d _ rfl
  rw [S.signum]
  refine ⟨h1, h2, (h3.put i 0 (map_mul_scaled S _ m3)).congr fun r c _ _ => ?_⟩
  split
  · rw [Nat.sub_zero]
  · rfl

theorem scaled_generateQ (S : Scalings G α) (h : SameAxes S e q q') :
    RelM (fun u v => ScaledBy S.act (fun _ _ => 0) u v) q.generateQ q'.generateQ := by
  have hn : q'.qr.nr = q.qr.nr := h.rel.nr
  have hc : q'.qr.nc = q.qr.nc := h.rel.nc
  unfold QRDecomp.generateQ assembleQ
  simp only
  rw [hn, hc, if_neg (by omega), if_neg (by omega)]
  refine relM_mono (relM_forRev (R := fun u v => u.nr = q.qr.nr ∧ ScaledBy S.act (fun _ _ => 0) u v)
    ⟨rfl, rfl, rfl, fun i j _ _ => (S.act_none _).symm⟩ ?_) fun _ _ h => h.2
  rintro i - hi u v ⟨h1, h3⟩
  refine relM_bind (h.axis i) ?_
  intro x y hxy
  rw [h3.nr, h3.nc]
  refine relM_bind (h3.slice _ _ _ _) ?_
  rintro s s' ⟨k1, k2, k3⟩
  refine relM_bind (scaled_reflectCols S hxy (f := fun _ => 0) k3) ?_
  rintro t t' ⟨m1, m2, m3⟩
  refine relM_bind (idx_scaled h.diag1 i) ?_
  rintro d _ rfl
  rw [S.signum]
  refine ⟨h1, (h3.put _ _ (map_mul_scaled S _ m3)).congr fun r c _ _ => ?_⟩
  split <;> rfl

theorem absDiag_scaled {S : Scalings G α} (h : SameAxes S e q q') (i : Nat) :
    RelM (fun x y => y = S.act (e i) x) (q.absDiag i) (q'.absDiag i) := by
  unfold QRDecomp.absDiag Arr1.at
  rw [h.diag1.len]
  split
  · next hi =>
    change NdFloat.abs (q'.diag.get i) = _
    rw [h.diag1.get i hi, S.abs]
  · rfl

theorem scaled_solveInto (S : Scalings G α) {f : Nat → G} {b b' : Arr2 α} (ht : q.qr.nc ≤ q.qr.nr)
    (hl : q.diag.len = q.qr.nc) (h : PackedRel S e q.qr.nc (q.qr, q.diag) (q'.qr, q'.diag))
    (hb : ScaledBy S.act (fun _ j => f j) b b') :
    RelM (ScaledBy S.act fun i j => f j - e i) (q.solveInto b) (q'.solveInto b') := by
  have hn : q'.qr.nr = q.qr.nr := h.nr
  have hc : q'.qr.nc = q.qr.nc := h.nc
  unfold QRDecomp.solveInto
  rw [hn, hb.nr, isInvertible_scaled S hl h, hc]
  split
  · rfl
  cases hi : q.isInvertible with
  | false => rfl
  | true =>
    simp only [Bool.not_true, Bool.false_eq_true, if_false]
    have hs : SameAxes S e q q' := ⟨ht, hl, h, hi⟩
    refine relM_bind (scaled_qtMul S hs hb) ?_
    rintro u v ⟨h1, h2, h3⟩
    rw [h3.nc]
    refine relM_bind (h3.slice _ _ _ _) ?_
    rintro s s' ⟨k1, k2, k3⟩
    unfold Arr2.slice
    rw [hn, hc, if_pos (by omega), if_pos (by omega)]
    simp only [ok_bind]
    refine scaled_solveSystem S (p := fun _ => 0) (q := e) (f := f) .upper rfl rfl ?_ ?_
      (k3.congr fun i j _ _ => by rw [Nat.zero_add, zero_add])
    · intro r c (hr : r < q.qr.nc - 0) (hc' : c < q.qr.nc - 0) hrc
      simp only [reduceCtorEq, false_and, or_false, true_and] at hrc
      simp only [zero_add]
      exact h.above r c (by simp only; omega) (by simp only; omega) (Or.inl hrc)
    · intro i _
      simp only [zero_add]
      exact absDiag_scaled hs i

theorem scaled_solveTrInto (S : Scalings G α) {f : Nat → G} {b b' : Arr2 α} (ht : q.qr.nc ≤ q.qr.nr)
    (hl : q.diag.len = q.qr.nc) (h : PackedRel S e q.qr.nc (q.qr, q.diag) (q'.qr, q'.diag))
    (hb : ScaledBy S.act (fun i j => e i + f j) b b') :
    RelM (ScaledBy S.act fun _ j => f j) (q.solveTrInto b) (q'.solveTrInto b') := by
  have hn : q'.qr.nr = q.qr.nr := h.nr
  have hc : q'.qr.nc = q.qr.nc := h.nc
  unfold QRDecomp.solveTrInto
  rw [hb.nr, isInvertible_scaled S hl h, hc]
  split
  · rfl
  cases hi : q.isInvertible with
  | false => rfl
  | true =>
    simp only [Bool.not_true, Bool.false_eq_true, if_false]
    have hs : SameAxes S e q q' := ⟨ht, hl, h, hi⟩
    unfold Arr2.slice
    rw [hn, hc, if_pos (by omega), if_pos (by omega)]
    simp only [ok_bind]
    refine relM_bind (scaled_solveSystem S (p := e) (q := fun _ => 0) (f := f) .lower rfl rfl ?_ ?_ hb) ?_
    · intro r c (hr : r < q.qr.nc - 0) (hc' : c < q.qr.nc - 0) hrc
      simp only [reduceCtorEq, false_and, false_or, true_and] at hrc
      simp only [Arr2.t, Nat.zero_add, add_zero]
      exact h.above c r (by simp only; omega) (by simp only; omega) (Or.inl hrc)
    · intro i _
      simp only [add_zero]
      exact absDiag_scaled hs i
    · intro x y hxy
      refine relM_bind (scaled_generateQ S hs) ?_
      intro m m' hm
      unfold Arr2.dot
      rw [hm.nc, hxy.nr]
      split
      · next hlen =>
        refine ⟨hm.nr, hxy.nc, fun i j (hi : i < m.nr) (hj : j < x.nc) => ?_⟩
        have := dotTo_scaled S (n := m.nc) (f := m.get i) (f' := m'.get i) (u := fun k => x.get k j)
          (u' := fun k => y.get k j) (g := 0) (h := f j) (fun k hk => hm.get i k hi hk)
          (fun k hk => by rw [hxy.get k j (by omega) hj, sub_zero])
        rwa [zero_add] at this
      · rfl

theorem scaled_leastSquares_tall (S : Scalings G α) {f : Nat → G} {a a' b b' : Arr2 α} (ht : a.nc ≤ a.nr)
    (h : ScaledBy S.act (fun _ j => e j) a a') (hb : ScaledBy S.act (fun _ j => f j) b b') :
    RelM (ScaledBy S.act fun i j => f j - e i) (leastSquares a b) (leastSquares a' b') := by
  unfold leastSquares
  rw [h.nr, h.nc, if_pos ht, if_pos ht]
  refine relM_bind (scaled_qrInto S h) ?_
  rintro x y ⟨h1, h2, h3, h4, h5⟩
  exact scaled_solveInto S (by omega) (by omega) (by rw [h2]; exact h5) hb

theorem scaled_leastSquares_wide (S : Scalings G α) {f : Nat → G} {a a' b b' : Arr2 α} (ht : a.nr < a.nc)
    (h : ScaledBy S.act (fun i _ => e i) a a') (hb : ScaledBy S.act (fun i j => e i + f j) b b') :
    RelM (ScaledBy S.act fun _ j => f j) (leastSquares a b) (leastSquares a' b') := by
  unfold leastSquares
  rw [h.nr, h.nc, if_neg (by omega), if_neg (by omega)]
  refine relM_bind (scaled_qrInto S h.t) ?_
  rintro x y ⟨h1, h2, h3, h4, h5⟩
  exact scaled_solveTrInto S (by omega) (by omega) (by rw [h2]; exact h5) hb

theorem scaled_intoR (S : Scalings G α) (ht : q.qr.nc ≤ q.qr.nr)
    (hl : q.diag.len = q.qr.nc) (h : PackedRel S e q.qr.nc (q.qr, q.diag) (q'.qr, q'.diag)) :
    RelM (ScaledBy S.act fun _ j => e j) q.intoR q'.intoR := by
  have hn : q'.qr.nr = q.qr.nr := h.nr
  have hc : q'.qr.nc = q.qr.nc := h.nc
  have hl' : q'.diag.len = q.diag.len := h.len
  unfold QRDecomp.intoR Arr2.slice
  simp only
  rw [hn, hc, if_pos (by omega), if_pos (by omega)]
  simp only [ok_bind]
  rw [triangularInplace_upper _ rfl, triangularInplace_upper _ rfl]
  unfold unwrapM Arr2.assignDiag
  simp only [ok_bind]
  rw [if_pos (by simp only [Arr1.map]; omega), if_pos (by simp only [Arr1.map]; omega)]
  refine ⟨rfl, rfl, fun i j (hi : i < q.qr.nc - 0) (hj : j < q.qr.nc - 0) => ?_⟩
  simp only [Arr1.map, hl', Nat.zero_add]
  split
  · next hij =>
    have := h.diag i (by omega)
    simp only at this
    rw [this, S.abs, hij.1]
  · split
    · exact (S.act_zero _).symm
    · exact h.above i j (by simp only; omega) (by simp only; omega) (Or.inl (by omega))

end qr

/-! ## Norms -/

theorem foldl_scaled (S : Scalings G α) (g : G) (f f' : α → α → α) (hf : ∀ s x, f' (S.act g s) x = S.act g (f s x)) (l : List α) (s : α) :
    l.foldl f' (S.act g s) = S.act g (l.foldl f s) := by
  induction l generalizing s with
  | nil => rfl
  | cons x l ih => rw [List.foldl_cons, List.foldl_cons, hf, ih]

end LinfaLinalg
