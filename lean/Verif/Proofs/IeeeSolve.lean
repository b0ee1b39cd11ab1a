import Verif.Proofs.IeeeErr
import Verif.Proofs.CholeskyReal

/-! # Triangular solves in IEEE arithmetic -/

set_option linter.unusedSimpArgs false

namespace LinfaLinalg

open Flt

variable {R : Rounding} {u η : ℝ}

theorem Near.le_inv (_ : 0 ≤ u) (h1 : u < 1) {n : Nat} {t : ℝ} (h : Near u n t) : t ≤ ((1 - u) ^ n)⁻¹ := by
  have p : 0 < (1 - u) ^ n := pow_pos (by linarith) n
  rw [← one_div, le_div_iff₀ p]
  exact h.2

theorem inv_pow_mono (h0 : 0 ≤ u) (h1 : u < 1) {m n : Nat} (h : m ≤ n) : ((1 - u) ^ m)⁻¹ ≤ ((1 - u) ^ n)⁻¹ := by
  have p : 0 < (1 - u) ^ n := pow_pos (by linarith) n
  exact inv_anti₀ p (pow_le_pow_of_le_one (by linarith) (by linarith) h)

theorem inv_pow_le_gam (_ : 0 ≤ u) {n : Nat} (hn : n * u < 1) : ((1 - u) ^ n)⁻¹ ≤ 1 + gam u n := by
  rcases Nat.eq_zero_or_pos n with rfl | hpos
  · simp [gam]
  have h1 : u < 1 := by
    have : (1 : ℝ) ≤ n := by exact_mod_cast hpos
    nlinarith
  have hb : 1 - n * u ≤ (1 - u) ^ n := by
    have := one_add_mul_le_pow (show (-2 : ℝ) ≤ -u by linarith) n
    calc 1 - n * u = 1 + n * (-u) := by ring
      _ ≤ (1 + -u) ^ n := this
      _ = (1 - u) ^ n := by ring
  have hq : 0 < 1 - n * u := by linarith
  refine (inv_anti₀ hq hb).trans (le_of_eq ?_)
  unfold gam
  field_simp
  ring

/-- One step of the elimination, backwards: if the new values are finite, so are the old ones. -/
theorem elimStep_fin {n : Nat} {uplo : UPLO} {a : Arr2 (Flt R)} {d : Nat → Flt R} {x : Nat → Flt R} {i : Nat} (hi : i < n)
    (hR : R.Accurate u η) (hdf : IsFin (d i)) (hdp : Proper (d i)) (hx : ∀ r, r < n → Proper (x r))
    (h : ∀ r, r < n → IsFin (elimStep a d (elimRows uplo) n x i r)) (r : Nat) (hr : r < n) : IsFin (x r) := by
  have := h r hr
  unfold elimStep at this
  split_ifs at this with h1 h2
  · subst h1
    exact (div_err hR (hx r hr) hdp hdf this).1
  · exact (add_err hR this).1
  · exact this

theorem elimStep_proper {n : Nat} {uplo : UPLO} {a : Arr2 (Flt R)} {d : Nat → Flt R} {x : Nat → Flt R} {i : Nat}
    (hx : ∀ r, r < n → Proper (x r)) (r : Nat) (hr : r < n) : Proper (elimStep a d (elimRows uplo) n x i r) := by
  unfold elimStep
  split_ifs
  · exact proper_div _ _
  · exact proper_add _ _
  · exact hx r hr

/-- All intermediate values are proper, and finite if the final ones are. -/
theorem elim_proper {n : Nat} {uplo : UPLO} {a : Arr2 (Flt R)} {d : Nat → Flt R} (l : List Nat) (x : Nat → Flt R)
    (hx : ∀ r, r < n → Proper (x r)) (r : Nat) (hr : r < n) :
    Proper (l.foldl (elimStep a d (elimRows uplo) n) x r) := by
  induction l generalizing x with
  | nil => exact hx r hr
  | cons i l ih => exact ih _ (fun r hr => elimStep_proper hx r hr)

theorem elim_fin {n : Nat} {uplo : UPLO} {a : Arr2 (Flt R)} {d : Nat → Flt R} (hR : R.Accurate u η)
    (hdf : ∀ i, i < n → IsFin (d i)) (hdp : ∀ i, i < n → Proper (d i)) (l : List Nat) (hl : ∀ i ∈ l, i < n)
    (x : Nat → Flt R) (hx : ∀ r, r < n → Proper (x r))
    (h : ∀ r, r < n → IsFin (l.foldl (elimStep a d (elimRows uplo) n) x r)) (r : Nat) (hr : r < n) : IsFin (x r) := by
  induction l generalizing x r with
  | nil => exact h r hr
  | cons i l ih =>
    have hi := hl i (by simp)
    exact elimStep_fin hi hR (hdf i hi) (hdp i hi) hx
      (fun r hr => ih (fun j hj => hl j (by simp [hj])) _ (fun r hr => elimStep_proper hx r hr) h r hr) r hr

theorem elim_diag {n : Nat} {uplo : UPLO} {a : Arr2 (Flt R)} {d : Nat → Flt R} (hR : R.Accurate u η)
    (hdf : ∀ i, i < n → IsFin (d i)) (hdp : ∀ i, i < n → Proper (d i)) (l : List Nat) (hl : ∀ i ∈ l, i < n)
    (x : Nat → Flt R) (hx : ∀ r, r < n → Proper (x r))
    (h : ∀ r, r < n → IsFin (l.foldl (elimStep a d (elimRows uplo) n) x r)) (i : Nat) (hi : i ∈ l) : (d i).rv ≠ 0 := by
  induction l generalizing x with
  | nil => cases hi
  | cons j l ih =>
    have hj := hl j (by simp)
    have hl' : ∀ k ∈ l, k < n := fun k hk => hl k (by simp [hk])
    have hp := fun r hr => elimStep_proper (a := a) (d := d) (uplo := uplo) (i := j) hx r hr
    rcases List.mem_cons.1 hi with rfl | hi
    · have := elim_fin hR hdf hdp l hl' _ hp h i hj
      unfold elimStep at this
      rw [if_pos rfl] at this
      exact (div_err hR (hx i hj) (hdp i hj) (hdf i hj) this).2.1
    · exact ih hl' _ hp h hi

/-- Invariant of the elimination after `k` steps: `S` is the set of rows already solved. -/
def FltElim (u η : ℝ) (n : Nat) (uplo : UPLO) (a : Arr2 ℝ) (d : Nat → ℝ) (B : Nat → ℝ) (k : Nat)
    (S : Nat → Prop) [DecidablePred S] (x : Nat → ℝ) : Prop :=
  ∀ r, r < n → ∃ (p : ℝ) (q : Nat → ℝ) (E : ℝ), Near u k p ∧ (∀ c, Near u k (q c)) ∧
    |E| ≤ η * (2 * k + if S r then |d r| else 0) * ((1 - u) ^ k)⁻¹ ∧
    (if S r then 0 else x r * p) +
      ∑ c ∈ Finset.range n, (if S c then triEnt uplo a d r c * q c * x c else 0) + E = B r

theorem fltElim_step {n : Nat} {uplo : UPLO} {a : Arr2 (Flt R)} {d : Nat → Flt R} (hR : R.Accurate u η)
    {B : Nat → ℝ} {k : Nat} {S : Nat → Prop} [DecidablePred S] {x : Nat → Flt R} {i : Nat} (hi : i < n)
    (hiS : ¬ S i) (hdf : IsFin (d i)) (hdp : Proper (d i)) (hx : ∀ r, r < n → Proper (x r))
    (hap : ∀ r, r < n → Proper (a.get r i))
    (hrows : ∀ r, r < n → r ≠ i → (¬ S r ↔ ((elimRows uplo i n).1 ≤ r ∧ r < (elimRows uplo i n).2)))
    (htri : ∀ r, r < n → r ≠ i → (¬ S r ↔ InTri uplo r i))
    (S' : Nat → Prop) [DecidablePred S'] (hS' : ∀ r, r < n → (S' r ↔ S r ∨ r = i))
    (hy' : ∀ r, r < n → IsFin (elimStep a d (elimRows uplo) n x i r))
    (h : FltElim u η n uplo (vals a) (fun i => (d i).rv) B k S fun r => (x r).rv) :
    FltElim u η n uplo (vals a) (fun i => (d i).rv) B (k + 1) S'
      fun r => (elimStep a d (elimRows uplo) n x i r).rv := by
  have h0 := hR.u_nonneg
  have h1 := hR.u_lt_one
  have hη := hR.η_nonneg
  set y := elimStep a d (elimRows uplo) n x i with hy
  set e := triEnt uplo (vals a) (fun i => (d i).rv) with he
  have yi : y i = x i / d i := by simp [hy, elimStep]
  have yS : ∀ r, r < n → S r → y r = x r := by
    intro r hr hS
    have hri : r ≠ i := by rintro rfl; exact hiS hS
    have := (hrows r hr hri)
    simp only [hy, elimStep]
    rw [if_neg hri, if_neg (by rw [← this]; simpa using hS)]
  have yN : ∀ r, r < n → r ≠ i → ¬ S r → y r = x r + -(y i) * a.get r i := by
    intro r hr hri hS
    have := (hrows r hr hri).1 hS
    rw [yi]
    simp only [hy, elimStep]
    rw [if_neg hri, if_pos this]
  have hsum : ∀ r, ∀ q q' : Nat → ℝ, (∀ c, c < n → c ≠ i → q' c = q c) →
      ∑ c ∈ Finset.range n, (if S' c then e r c * q' c * (y c).rv else 0) =
      (∑ c ∈ Finset.range n, (if S c then e r c * q c * (x c).rv else 0)) +
        e r i * q' i * (y i).rv := by
    intro r q q' hq'
    have : ∀ c ∈ Finset.range n, (if S' c then e r c * q' c * (y c).rv else 0) =
        (if S c then e r c * q c * (x c).rv else 0) +
          (if c = i then e r i * q' i * (y i).rv else 0) := by
      intro c hc
      rw [Finset.mem_range] at hc
      by_cases hci : c = i
      · subst hci
        rw [if_pos ((hS' c hc).2 (Or.inr rfl)), if_neg hiS, if_pos rfl, zero_add]
      · rw [if_neg hci, add_zero]
        by_cases hS : S c
        · rw [if_pos ((hS' c hc).2 (Or.inl hS)), if_pos hS, yS c hc hS, hq' c hc hci]
        · rw [if_neg (by rw [hS' c hc]; tauto), if_neg hS]
    rw [Finset.sum_congr rfl this, Finset.sum_add_distrib, Finset.sum_ite_eq' (Finset.range n) i,
      if_pos (Finset.mem_range.2 hi)]
  set K := ((1 - u) ^ k)⁻¹ with hK
  set K' := ((1 - u) ^ (k + 1))⁻¹ with hK'
  have hK0 : 0 < K := inv_pos.2 (pow_pos (by linarith) k)
  have hKK : K ≤ K' := inv_pow_mono h0 h1 (by omega)
  intro r hr
  obtain ⟨p, q, E, hp, hq, hE, hinv⟩ := h r hr
  have hp0 := hp.pos h0 h1
  have hpK : p ≤ K := hp.le_inv h0 h1
  dsimp only at hinv hE ⊢
  rw [← he] at hinv ⊢
  rw [← hK] at hE
  rw [← hK']
  by_cases hri : r = i
  · subst hri
    have hfy := hy' r hr
    rw [yi] at hfy
    obtain ⟨-, hd0, t, e1, ht, he1, et⟩ := div_err hR (hx r hr) hdp hdf hfy
    have ht0 := ht.pos h0 h1
    have hti := ht.inv h0 h1
    have hpt : p * t⁻¹ ≤ K' := (hp.mul h0 h1 hti).le_inv h0 h1
    have hpt0 : 0 ≤ p * t⁻¹ := (mul_pos hp0 (inv_pos.2 ht0)).le
    refine ⟨1, fun c => if c = r then p * t⁻¹ else q c, E - e1 * (d r).rv * (p * t⁻¹), near_one h0 h1 _, ?_, ?_, ?_⟩
    · intro c
      dsimp only
      split_ifs
      · exact hp.mul h0 h1 hti
      · exact (hq c).mono h0 h1 (by omega)
    · rw [if_pos ((hS' r hr).2 (Or.inr rfl))]
      rw [if_neg hiS, add_zero] at hE
      have b1 : |e1 * (d r).rv * (p * t⁻¹)| ≤ η * |(d r).rv| * K' := by
        rw [abs_mul, abs_mul, abs_of_nonneg hpt0]
        exact mul_le_mul (mul_le_mul_of_nonneg_right he1 (abs_nonneg _)) hpt hpt0 (by positivity)
      have b2 : η * (2 * k) * K ≤ η * (2 * k) * K' := mul_le_mul_of_nonneg_left hKK (by positivity)
      refine (abs_sub _ _).trans ?_
      push_cast
      have b3 : 0 ≤ η * K' := mul_nonneg hη (hK0.le.trans hKK)
      calc |E| + |e1 * (d r).rv * (p * t⁻¹)| ≤ η * (2 * k) * K' + η * |(d r).rv| * K' := by linarith
        _ ≤ _ := by nlinarith
    · rw [if_pos ((hS' r hr).2 (Or.inr rfl)), hsum r q _ (fun c _ hc => if_neg hc)]
      rw [if_neg hiS] at hinv
      have : e r r = (d r).rv := by rw [he]; unfold triEnt; rw [if_pos rfl]
      rw [if_pos rfl, this, yi, et]
      have hxx : (d r).rv * (p * t⁻¹) * ((x r).rv / (d r).rv * t + e1) =
          (x r).rv * p + e1 * (d r).rv * (p * t⁻¹) := by
        field_simp
      rw [hxx]; linarith
  · by_cases hS : S r
    · refine ⟨1, q, E, near_one h0 h1 _, fun c => (hq c).mono h0 h1 (by omega), ?_, ?_⟩
      · rw [if_pos ((hS' r hr).2 (Or.inl hS))]
        rw [if_pos hS] at hE
        refine hE.trans ?_
        push_cast
        have := abs_nonneg (d r).rv
        exact mul_le_mul (mul_le_mul_of_nonneg_left (by linarith) hη) hKK hK0.le (by positivity)
      · rw [if_pos ((hS' r hr).2 (Or.inl hS)), hsum r q q (fun _ _ _ => rfl)]
        rw [if_pos hS] at hinv
        have : e r i = 0 := by
          rw [he]; unfold triEnt
          rw [if_neg hri, if_neg (by rw [← htri r hr hri]; simpa using hS)]
        rw [this]; linarith
    · have hfy := hy' r hr
      rw [yN r hr hri hS] at hfy
      obtain ⟨-, hfm, t, e1, ht, he1, et⟩ := add_err hR hfy
      have hpy : Proper (-(y i)) := proper_neg (by rw [yi]; exact proper_div _ _)
      obtain ⟨-, -, s, e2, hs, he2, es⟩ := mul_err hR hpy (hap r hr) hfm
      rw [neg_rv] at es
      have ht0 := ht.pos h0 h1
      have hti := ht.inv h0 h1
      have hpt : p * t⁻¹ ≤ K' := (hp.mul h0 h1 hti).le_inv h0 h1
      have hpt0 : 0 ≤ p * t⁻¹ := (mul_pos hp0 (inv_pos.2 ht0)).le
      refine ⟨p * t⁻¹, fun c => if c = i then s * p else q c, E - e2 * p - e1 * (p * t⁻¹), hp.mul h0 h1 hti, ?_, ?_, ?_⟩
      · intro c
        dsimp only
        split_ifs
        · exact (hs.mul h0 h1 hp).mono h0 h1 (by omega)
        · exact (hq c).mono h0 h1 (by omega)
      · have hnS' : ¬ S' r := by rw [hS' r hr]; tauto
        rw [if_neg hnS', add_zero]
        rw [if_neg hS, add_zero] at hE
        have b1 : |e1 * (p * t⁻¹)| ≤ η * K' := by
          rw [abs_mul, abs_of_nonneg hpt0]
          exact mul_le_mul he1 hpt hpt0 hη
        have b2 : |e2 * p| ≤ η * K' := by
          rw [abs_mul, abs_of_nonneg hp0.le]
          exact mul_le_mul he2 (hpK.trans hKK) hp0.le hη
        have b3 : η * (2 * k) * K ≤ η * (2 * k) * K' := mul_le_mul_of_nonneg_left hKK (by positivity)
        have := abs_sub (E - e2 * p) (e1 * (p * t⁻¹))
        have := abs_sub E (e2 * p)
        push_cast
        nlinarith
      · rw [if_neg (by rw [hS' r hr]; tauto), hsum r q _ (fun c _ hc => if_neg hc)]
        rw [if_neg hS] at hinv
        have : e r i = (a.get r i).rv := by
          rw [he]; unfold triEnt
          rw [if_neg hri, if_pos ((htri r hr hri).1 hS)]; rfl
        rw [if_pos rfl, this]
        have hxx : (y r).rv * (p * t⁻¹) = (x r).rv * p - (a.get r i).rv * (s * p) * (y i).rv + e2 * p +
            e1 * (p * t⁻¹) := by
          rw [yN r hr hri hS, et, es]
          field_simp
          ring
        rw [hxx]; linarith

theorem fltElim_lower (hR : R.Accurate u η) {n : Nat} {a : Arr2 (Flt R)} {d : Nat → Flt R} (x : Nat → Flt R)
    (hdf : ∀ i, i < n → IsFin (d i)) (hdp : ∀ i, i < n → Proper (d i)) (hx : ∀ r, r < n → Proper (x r))
    (hap : ∀ r c, r < n → c < n → Proper (a.get r c)) (m : Nat) (hm : m ≤ n)
    (hf : ∀ r, r < n → IsFin ((List.range' 0 m).foldl (elimStep a d (elimRows .lower) n) x r)) :
    FltElim u η n .lower (vals a) (fun i => (d i).rv) (fun r => (x r).rv) m (fun r => r < m)
      fun r => ((List.range' 0 m).foldl (elimStep a d (elimRows .lower) n) x r).rv := by
  induction m with
  | zero =>
    intro r hr
    exact ⟨1, fun _ => 1, 0, near_one hR.u_nonneg hR.u_lt_one _,
      fun _ => near_one hR.u_nonneg hR.u_lt_one _, by simp, by simp⟩
  | succ m ih =>
    rw [List.range'_concat, List.foldl_append, Nat.zero_add, Nat.one_mul] at hf ⊢
    simp only [List.foldl_cons, List.foldl_nil] at hf ⊢
    have hp := elim_proper (a := a) (d := d) (uplo := .lower) (List.range' 0 m) x hx
    have hf' := elimStep_fin (by omega) hR (hdf m (by omega)) (hdp m (by omega)) hp hf
    refine fltElim_step hR (S := fun r => r < m) (by omega) (by simp) (hdf m (by omega)) (hdp m (by omega))
      hp (fun r hr => hap r m hr (by omega)) ?_ ?_ _ ?_ hf (ih (by omega) hf')
    · intro r hr hri; simp only [elimRows]; omega
    · intro r hr hri; simp only [inTri_upper, inTri_lower]; omega
    · intro r hr; omega

theorem fltElim_upper (hR : R.Accurate u η) {n : Nat} {a : Arr2 (Flt R)} {d : Nat → Flt R} (x : Nat → Flt R)
    (hdf : ∀ i, i < n → IsFin (d i)) (hdp : ∀ i, i < n → Proper (d i)) (hx : ∀ r, r < n → Proper (x r))
    (hap : ∀ r c, r < n → c < n → Proper (a.get r c)) (lo m : Nat) (hm : lo + m = n)
    (hf : ∀ r, r < n → IsFin ((List.range' lo m).reverse.foldl (elimStep a d (elimRows .upper) n) x r)) :
    FltElim u η n .upper (vals a) (fun i => (d i).rv) (fun r => (x r).rv) m (fun r => lo ≤ r)
      fun r => ((List.range' lo m).reverse.foldl (elimStep a d (elimRows .upper) n) x r).rv := by
  induction m generalizing lo with
  | zero =>
    intro r hr
    refine ⟨1, fun _ => 1, 0, near_one hR.u_nonneg hR.u_lt_one _,
      fun _ => near_one hR.u_nonneg hR.u_lt_one _, ?_, ?_⟩
    · rw [if_neg (by omega)]; simp
    have : ∀ c ∈ Finset.range n, (if lo ≤ c then triEnt .upper (vals a) (fun i => (d i).rv) r c *
        1 * (x c).rv else 0) = 0 := by
      intro c hc; rw [Finset.mem_range] at hc; rw [if_neg (by omega)]
    simp only [List.range'_zero, List.reverse_nil, List.foldl_nil]
    rw [Finset.sum_eq_zero this, if_neg (by omega), add_zero, add_zero, mul_one]
  | succ m ih =>
    rw [List.range'_succ, List.reverse_cons, List.foldl_append] at hf ⊢
    simp only [List.foldl_cons, List.foldl_nil] at hf ⊢
    have hp := elim_proper (a := a) (d := d) (uplo := .upper) (List.range' (lo + 1) m).reverse x hx
    have hf' := elimStep_fin (by omega) hR (hdf lo (by omega)) (hdp lo (by omega)) hp hf
    refine fltElim_step hR (S := fun r => lo + 1 ≤ r) (by omega) (by simp) (hdf lo (by omega)) (hdp lo (by omega))
      hp (fun r hr => hap r lo hr (by omega)) ?_ ?_ _ ?_ hf (ih (lo + 1) (by omega) hf')
    · intro r hr hri; simp only [elimRows]; omega
    · intro r hr hri; simp only [inTri_upper, inTri_lower]; omega
    · intro r hr; omega

/-- Elimination in IEEE arithmetic solves a nearby triangular system, row by row. -/
theorem fltElim_solves (hR : R.Accurate u η) {n : Nat} {a : Arr2 (Flt R)} {d : Nat → Flt R} (uplo : UPLO)
    (x : Nat → Flt R) (hdf : ∀ i, i < n → IsFin (d i)) (hdp : ∀ i, i < n → Proper (d i))
    (hx : ∀ r, r < n → Proper (x r)) (hap : ∀ r c, r < n → c < n → Proper (a.get r c))
    (hf : ∀ r, r < n → IsFin ((elimOrder uplo n).foldl (elimStep a d (elimRows uplo) n) x r))
    (r : Nat) (hr : r < n) :
    ∃ (q : Nat → ℝ) (E : ℝ), (∀ c, Near u n (q c)) ∧ |E| ≤ η * (2 * n + |(d r).rv|) * ((1 - u) ^ n)⁻¹ ∧
      ∑ c ∈ Finset.range n, triEnt uplo (vals a) (fun i => (d i).rv) r c * q c *
        ((elimOrder uplo n).foldl (elimStep a d (elimRows uplo) n) x c).rv + E = (x r).rv := by
  cases uplo with
  | lower =>
    obtain ⟨p, q, E, -, hq, hE, h⟩ := fltElim_lower hR x hdf hdp hx hap n le_rfl hf r hr
    rw [if_pos hr, zero_add] at h
    rw [if_pos hr] at hE
    refine ⟨q, E, hq, hE, ?_⟩
    refine Eq.trans ?_ h
    congr 1
    apply Finset.sum_congr rfl
    intro c hc
    rw [if_pos (Finset.mem_range.1 hc)]
    rfl
  | upper =>
    obtain ⟨p, q, E, -, hq, hE, h⟩ := fltElim_upper hR x hdf hdp hx hap 0 n (by omega) hf r hr
    rw [if_pos (Nat.zero_le _), zero_add] at h
    rw [if_pos (Nat.zero_le _)] at hE
    refine ⟨q, E, hq, hE, ?_⟩
    refine Eq.trans ?_ h
    congr 1

/-! ## Cholesky -/

/-- A finite sum of products: the factors are finite, and each product is off by at most `n + 1` factors. -/
theorem flt_sumTo_products (hR : R.Accurate u η) (n : Nat) (f g : Nat → Flt R) (hf : ∀ k, k < n → Proper (f k))
    (hg : ∀ k, k < n → Proper (g k)) (h : IsFin (sumTo n fun k => f k * g k)) :
    (∀ k, k < n → IsFin (f k) ∧ IsFin (g k)) ∧ ∃ (q : Nat → ℝ) (E : ℝ), (∀ k, Near u (n + 1) (q k)) ∧
      |E| ≤ η * (2 * n) * ((1 - u) ^ (n + 1))⁻¹ ∧
      (sumTo n fun k => f k * g k).rv = ∑ k ∈ Finset.range n, (f k).rv * (g k).rv * q k + E := by
  have h0 := hR.u_nonneg
  have h1 := hR.u_lt_one
  have hη := hR.η_nonneg
  induction n with
  | zero =>
    refine ⟨fun k hk => absurd hk (Nat.not_lt_zero _), fun _ => 1, 0, fun _ => near_one h0 h1 _, ?_, ?_⟩
    · simp
    · simp [zero_rv]
  | succ n ih =>
    rw [sumTo_succ] at h
    obtain ⟨a1, a2, t, e1, ht, he1, et⟩ := add_err hR h
    obtain ⟨a3, a4, s, e2, hs, he2, es⟩ := mul_err hR (hf n (by omega)) (hg n (by omega)) a2
    obtain ⟨b1, q, E, hq, hE, eE⟩ := ih (fun k hk => hf k (by omega)) (fun k hk => hg k (by omega)) a1
    refine ⟨fun k hk => ?_, fun k => if k = n then s * t else q k * t, E * t + e2 * t + e1, ?_, ?_, ?_⟩
    · rcases Nat.lt_or_eq_of_le (Nat.le_of_lt_succ hk) with hk | rfl
      · exact b1 k hk
      · exact ⟨a3, a4⟩
    · intro k
      dsimp only
      split_ifs
      · exact (hs.mul h0 h1 ht).mono h0 h1 (by omega)
      · exact (hq k).mul h0 h1 ht
    · have ht0 := ht.pos h0 h1
      have p : 0 < 1 - u := by linarith
      set K := ((1 - u) ^ (n + 1 + 1))⁻¹ with hK
      have hK1 : 1 ≤ K := by
        have := inv_pow_mono h0 h1 (Nat.zero_le (n + 1 + 1))
        rwa [pow_zero, inv_one] at this
      have htK : t ≤ K := (ht.le_inv h0 h1).trans (inv_pow_mono h0 h1 (by omega))
      have c1 : |E * t| ≤ η * (2 * n) * K := by
        rw [abs_mul, abs_of_pos ht0]
        have ht1 := ht.le_inv h0 h1
        calc |E| * t ≤ (η * (2 * n) * ((1 - u) ^ (n + 1))⁻¹) * ((1 - u) ^ 1)⁻¹ :=
              mul_le_mul hE ht1 ht0.le (by positivity)
          _ = η * (2 * n) * K := by rw [hK, pow_succ _ (n + 1), mul_inv, pow_one]; ring
      have c2 : |e2 * t| ≤ η * K := by
        rw [abs_mul, abs_of_pos ht0]
        exact mul_le_mul he2 htK ht0.le hη
      have c3 : |e1| ≤ η * K := he1.trans (le_mul_of_one_le_right hη hK1)
      have := abs_add_three (E * t) (e2 * t) e1
      push_cast
      linarith
    · dsimp only
      rw [sumTo_succ, et, Finset.sum_range_succ, if_pos rfl, es, eE, add_mul, add_mul, Finset.sum_mul]
      have : ∑ k ∈ Finset.range n, (f k).rv * (g k).rv * (if k = n then s * t else q k * t) =
          ∑ k ∈ Finset.range n, (f k).rv * (g k).rv * q k * t := by
        apply Finset.sum_congr rfl
        intro k hk
        rw [Finset.mem_range] at hk
        rw [if_neg (by omega)]
        ring
      rw [this]
      ring

theorem flt_cholRows_proper {m : Nat} {A b : Arr2 (Flt R)} (h : CholRows m A b) (r c : Nat) (hr : r < m) (hc : c ≤ r) :
    Proper (b.get r c) := by
  rcases Nat.lt_or_eq_of_le hc with hc | rfl
  · rw [h.off r hr c hc]
    exact proper_div _ _
  · rw [h.diag c hr]
    exact proper_sqrt _

/-- A row of the factor with a finite diagonal entry is finite. -/
theorem flt_cholRows_fin (hR : R.Accurate u η) {n : Nat} {A b : Arr2 (Flt R)} (h : CholRows n A b) (r : Nat) (hr : r < n)
    (hf : IsFin (b.get r r)) (c : Nat) (hc : c ≤ r) : IsFin (b.get r c) := by
  rcases Nat.lt_or_eq_of_le hc with hc | rfl
  · rw [h.diag r hr] at hf
    have h1 := (sqrt_err hR (proper_sub _ _) hf).1
    have h2 := (sub_err hR h1).2.1
    exact ((flt_sumTo_products hR r _ _ (fun k hk => flt_cholRows_proper h r k hr hk.le)
      (fun k hk => flt_cholRows_proper h r k hr hk.le) h2).1 c hc).1
  · exact hf

/-- One entry of the product of the computed factor with its transpose. -/
theorem flt_cholRows_dot (hR : R.Accurate u η) {n : Nat} {A b : Arr2 (Flt R)} (h : CholRows n A b)
    (hf : ∀ r c, r < n → c ≤ r → IsFin (b.get r c)) (r c : Nat) (hc : c ≤ r) (hr : r < n) :
    IsFin (A.get r c) ∧ ∃ (q : Nat → ℝ) (E : ℝ), (∀ k, Near u (n + 2) (q k)) ∧
      |E| ≤ η * (2 * n + 2 * |(b.get c c).rv|) * ((1 - u) ^ (n + 2))⁻¹ ∧
      ∑ k ∈ Finset.range n, lowEnt (vals b) r k * lowEnt (vals b) c k * q k + E = (A.get r c).rv := by
  have h0 := hR.u_nonneg
  have h1 := hR.u_lt_one
  have hη := hR.η_nonneg
  have split : ∀ q : Nat → ℝ,
      ∑ k ∈ Finset.range n, lowEnt (vals b) r k * lowEnt (vals b) c k * q k =
        (∑ k ∈ Finset.range c, (b.get c k).rv * (b.get r k).rv * q k) +
          (b.get r c).rv * (b.get c c).rv * q c := by
    intro q
    have e1 : ∑ k ∈ Finset.range n, lowEnt (vals b) r k * lowEnt (vals b) c k * q k =
        ∑ k ∈ Finset.range (c + 1), lowEnt (vals b) r k * lowEnt (vals b) c k * q k := by
      symm
      apply Finset.sum_subset
      · intro k hk; rw [Finset.mem_range] at *; omega
      · intro k _ hk
        rw [Finset.mem_range] at hk
        have : lowEnt (vals b) c k = 0 := by unfold lowEnt; rw [if_neg (by omega)]
        rw [this, mul_zero, zero_mul]
    rw [e1, Finset.sum_range_succ]
    congr 1
    · apply Finset.sum_congr rfl
      intro k hk
      rw [Finset.mem_range] at hk
      unfold lowEnt
      rw [if_pos (by omega), if_pos (by omega)]
      simp only [vals]
      ring
    · unfold lowEnt
      rw [if_pos hc, if_pos le_rfl]
      rfl
  set K := ((1 - u) ^ (n + 2))⁻¹ with hK
  have hcn : c < n := by omega
  have hcc : (c : ℝ) + 1 ≤ n := by exact_mod_cast hcn
  have hK1 : 1 ≤ K := by
    have := inv_pow_mono h0 h1 (Nat.zero_le (n + 2))
    rwa [pow_zero, inv_one] at this
  have hKn : ∀ {m : Nat} {t : ℝ}, Near u m t → m ≤ n + 2 → t ≤ K := fun ht hm =>
    (ht.le_inv h0 h1).trans (inv_pow_mono h0 h1 hm)
  have hE' : ∀ {E : ℝ}, |E| ≤ η * (2 * c) * ((1 - u) ^ (c + 1))⁻¹ → |E| ≤ η * (2 * c) * K := fun hE =>
    hE.trans (mul_le_mul_of_nonneg_left (inv_pow_mono h0 h1 (by omega)) (by positivity))
  rcases Nat.lt_or_eq_of_le hc with hc' | rfl
  · have e1 := h.off r hr c hc'
    have hb := hf r c hr hc
    rw [e1] at hb
    obtain ⟨d1, hd0, t, e4, ht, he4, et⟩ := div_err hR (proper_sub _ _) (flt_cholRows_proper h c c hcn le_rfl)
      (hf c c hcn le_rfl) hb
    obtain ⟨d2, d3, s, e3, hs, he3, es⟩ := sub_err hR d1
    obtain ⟨-, q, E, hq, hE, eE⟩ := flt_sumTo_products hR c (fun i => b.get c i) (fun i => b.get r i)
      (fun k hk => flt_cholRows_proper h c k hcn hk.le)
      (fun k hk => flt_cholRows_proper h r k hr (by omega)) d3
    have ht0 := ht.pos h0 h1
    have hs0 := hs.pos h0 h1
    have hw := (ht.inv h0 h1).mul h0 h1 (hs.inv h0 h1)
    have hw0 := hw.pos h0 h1
    refine ⟨d2, fun k => if k = c then t⁻¹ * s⁻¹ else q k, E - e4 * (b.get c c).rv * (t⁻¹ * s⁻¹) - e3 * s⁻¹, ?_, ?_, ?_⟩
    · intro k
      dsimp only
      split_ifs
      · exact hw.mono h0 h1 (by omega)
      · exact (hq k).mono h0 h1 (by omega)
    · have c1 := hE' hE
      have c2 : |e4 * (b.get c c).rv * (t⁻¹ * s⁻¹)| ≤ η * |(b.get c c).rv| * K := by
        rw [abs_mul, abs_mul, abs_of_pos hw0]
        exact mul_le_mul (mul_le_mul_of_nonneg_right he4 (abs_nonneg _)) (hKn hw (by omega)) hw0.le (by positivity)
      have c3 : |e3 * s⁻¹| ≤ η * K := by
        rw [abs_mul, abs_of_pos (inv_pos.2 hs0)]
        exact mul_le_mul he3 (hKn (hs.inv h0 h1) (by omega)) (inv_pos.2 hs0).le hη
      have g1 := abs_sub (E - e4 * (b.get c c).rv * (t⁻¹ * s⁻¹)) (e3 * s⁻¹)
      have g2 := abs_sub E (e4 * (b.get c c).rv * (t⁻¹ * s⁻¹))
      have hbk := abs_nonneg (b.get c c).rv
      calc _ ≤ η * (2 * c + |(b.get c c).rv| + 1) * K := by linarith
        _ ≤ _ := mul_le_mul_of_nonneg_right (mul_le_mul_of_nonneg_left (by linarith) hη) (by linarith)
    · rw [split, if_pos rfl]
      have e5 : ∑ k ∈ Finset.range c, (b.get c k).rv * (b.get r k).rv * (if k = c then t⁻¹ * s⁻¹ else q k) =
          ∑ k ∈ Finset.range c, (b.get c k).rv * (b.get r k).rv * q k := by
        apply Finset.sum_congr rfl
        intro k hk
        rw [Finset.mem_range] at hk
        rw [if_neg (by omega)]
      rw [e5]
      rw [← e1] at et
      have e6 : (b.get r c).rv * (b.get c c).rv * (t⁻¹ * s⁻¹) =
          (A.get r c).rv - (sumTo c fun i => b.get c i * b.get r i).rv + e3 * s⁻¹ +
            e4 * (b.get c c).rv * (t⁻¹ * s⁻¹) := by
        rw [et, es]
        field_simp
      rw [e6, eE]
      ring
  · have e1 := h.diag c hr
    have hb := hf c c hr le_rfl
    rw [e1] at hb
    obtain ⟨d1, hd0, t, e4, ht, he4, et⟩ := sqrt_err hR (proper_sub _ _) hb
    obtain ⟨d2, d3, s, e3, hs, he3, es⟩ := sub_err hR d1
    obtain ⟨-, q, E, hq, hE, eE⟩ := flt_sumTo_products hR c (fun i => b.get c i) (fun i => b.get c i)
      (fun k hk => flt_cholRows_proper h c k hcn hk.le)
      (fun k hk => flt_cholRows_proper h c k hr (by omega)) d3
    have ht0 := ht.pos h0 h1
    have hs0 := hs.pos h0 h1
    have hti := ht.inv h0 h1
    have hw := (hti.mul h0 h1 hti).mul h0 h1 (hs.inv h0 h1)
    have hw0 := hw.pos h0 h1
    have et : (b.get c c).rv = Real.sqrt (pivot A b c).rv * t + e4 := by rw [e1]; exact et
    set l := (b.get c c).rv with hl
    refine ⟨d2, fun k => if k = c then t⁻¹ * t⁻¹ * s⁻¹ else q k,
      E - (2 * l - e4) * e4 * (t⁻¹ * t⁻¹ * s⁻¹) - e3 * s⁻¹, ?_, ?_, ?_⟩
    · intro k
      dsimp only
      split_ifs
      · exact hw.mono h0 h1 (by omega)
      · exact (hq k).mono h0 h1 (by omega)
    · have c1 := hE' hE
      have c2 : |(2 * l - e4) * e4 * (t⁻¹ * t⁻¹ * s⁻¹)| ≤ (2 * |l| + 1) * η * K := by
        rw [abs_mul, abs_mul, abs_of_pos hw0]
        refine mul_le_mul (mul_le_mul ?_ he4 (abs_nonneg _) (by positivity)) (hKn hw (by omega)) hw0.le (by positivity)
        refine (abs_sub _ _).trans ?_
        rw [abs_mul, abs_two]
        have := hR.η_le_one
        linarith
      have c3 : |e3 * s⁻¹| ≤ η * K := by
        rw [abs_mul, abs_of_pos (inv_pos.2 hs0)]
        exact mul_le_mul he3 (hKn (hs.inv h0 h1) (by omega)) (inv_pos.2 hs0).le hη
      have g1 := abs_sub (E - (2 * l - e4) * e4 * (t⁻¹ * t⁻¹ * s⁻¹)) (e3 * s⁻¹)
      have g2 := abs_sub E ((2 * l - e4) * e4 * (t⁻¹ * t⁻¹ * s⁻¹))
      calc _ ≤ η * (2 * c + 2 * |l| + 2) * K := by linarith
        _ ≤ _ := mul_le_mul_of_nonneg_right (mul_le_mul_of_nonneg_left (by linarith) hη) (by linarith)
    · rw [split, if_pos rfl]
      have e5 : ∑ k ∈ Finset.range c, (b.get c k).rv * (b.get c k).rv * (if k = c then t⁻¹ * t⁻¹ * s⁻¹ else q k) =
          ∑ k ∈ Finset.range c, (b.get c k).rv * (b.get c k).rv * q k := by
        apply Finset.sum_congr rfl
        intro k hk
        rw [Finset.mem_range] at hk
        rw [if_neg (by omega)]
      rw [e5]
      have e6 : (l - e4) * t⁻¹ = Real.sqrt (pivot A b c).rv := by
        rw [et]
        field_simp
        unfold pivot
        ring
      have e7 : l * l * (t⁻¹ * t⁻¹ * s⁻¹) - (2 * l - e4) * e4 * (t⁻¹ * t⁻¹ * s⁻¹) = (pivot A b c).rv * s⁻¹ := by
        have : l * l * (t⁻¹ * t⁻¹ * s⁻¹) - (2 * l - e4) * e4 * (t⁻¹ * t⁻¹ * s⁻¹) =
            ((l - e4) * t⁻¹) * ((l - e4) * t⁻¹) * s⁻¹ := by ring
        rw [this, e6, Real.mul_self_sqrt (show 0 ≤ (pivot A b c).rv from hd0)]
      have e8 : (pivot A b c).rv * s⁻¹ = (A.get c c).rv - (sumTo c fun i => b.get c i * b.get c i).rv + e3 * s⁻¹ := by
        unfold pivot
        rw [es]
        field_simp
      rw [e8, eE] at e7
      linarith

end LinfaLinalg
