import Verif.Proofs.FormatClosed
import Verif.Proofs.Eigh
import Verif.Proofs.Svd
import Mathlib.Data.Fintype.Pigeonhole
import Mathlib.Data.Fintype.Pi
import Mathlib.Data.Fintype.Sum
import Mathlib.Data.Fintype.BigOperators

/-! # Loops over finitely many states

A loop whose state takes finitely many values either ends before a state comes back or never ends. -/

namespace LinfaLinalg
open Par

/-- A loop `while !done(s) { s = step(s)?; }` with a limit on the number of iterations. -/
structure IsLoop {σ : Type} (loop : Nat → σ → M σ) (done : σ → Prop) (step : σ → M σ) : Prop where
  stop : ∀ s n, done s → loop n s = .ok s
  zero : ∀ s, ¬ done s → loop 0 s = .error .fuel
  succ : ∀ s n, ¬ done s → loop (n + 1) s = step s >>= loop n

theorem IsLoop.trace {σ : Type} {loop : Nat → σ → M σ} {done : σ → Prop} {step : σ → M σ} (h : IsLoop loop done step)
    {Inv : σ → Prop} (hinv : ∀ s, Inv s → ¬ done s → wp (step s) Inv (fun e => e ≠ .fuel)) :
    ∀ (N : Nat) (s : σ), Inv s → loop N s = .error .fuel →
      ∃ f : Nat → σ, f 0 = s ∧ (∀ i ≤ N, Inv (f i) ∧ ¬ done (f i)) ∧ ∀ i < N, step (f i) = .ok (f (i + 1)) := by
  intro N
  induction N with
  | zero =>
    intro s hs hl
    refine ⟨fun _ => s, rfl, fun i _ => ⟨hs, fun hd => ?_⟩, fun i hi => absurd hi (Nat.not_lt_zero i)⟩
    rw [h.stop s 0 hd] at hl
    cases hl
  | succ N ih =>
    intro s hs hl
    have hd : ¬ done s := fun hd => by rw [h.stop s _ hd] at hl; cases hl
    rw [h.succ s N hd] at hl
    have hw := hinv s hs hd
    cases hst : step s with
    | error e =>
      rw [hst] at hl hw
      exact absurd (by cases hl; rfl) hw
    | ok t =>
      rw [hst] at hl hw
      obtain ⟨f, f0, f1, f2⟩ := ih t hw hl
      refine ⟨fun i => if i = 0 then s else f (i - 1), by simp, fun i hi => ?_, fun i hi => ?_⟩
      · by_cases h0 : i = 0
        · simp only [h0, if_true]; exact ⟨hs, hd⟩
        · simp only [h0, if_false]; exact f1 _ (by omega)
      · by_cases h0 : i = 0
        · subst h0
          simp [hst, f0]
        · simp only [h0, if_false, Nat.add_eq_zero_iff, one_ne_zero, and_false]
          have := f2 (i - 1) (by omega)
          rw [show i - 1 + 1 = i + 1 - 1 by omega] at this
          exact this

theorem IsLoop.run {σ : Type} {loop : Nat → σ → M σ} {done : σ → Prop} {step : σ → M σ} (h : IsLoop loop done step)
    {N : Nat} {f : Nat → σ} (f1 : ∀ i ≤ N, ¬ done (f i)) (f2 : ∀ i < N, step (f i) = .ok (f (i + 1))) (i m : Nat) :
    ∀ k, i + k ≤ N → loop (k + m) (f i) = loop m (f (i + k)) := by
  intro k
  induction k with
  | zero => intro _; simp
  | succ k ih =>
    intro hk
    have h1 : ∀ k m, i + k ≤ N → loop (k + m) (f i) = loop m (f (i + k)) := by
      intro k
      induction k with
      | zero => intro m _; simp
      | succ k ih' =>
        intro m hk
        rw [show k + 1 + m = k + (m + 1) by omega, ih' (m + 1) (by omega), h.succ _ _ (f1 _ (by omega)),
          f2 _ (by omega)]
        rfl
    exact h1 _ _ hk

/-- A loop that has not ended after as many iterations as there are codes of states never ends. -/
theorem IsLoop.forever {σ γ : Type} [Fintype γ] {loop : Nat → σ → M σ} {done : σ → Prop} {step : σ → M σ}
    (h : IsLoop loop done step) {Inv : σ → Prop}
    (hinv : ∀ s, Inv s → ¬ done s → wp (step s) Inv (fun e => e ≠ .fuel)) (code : σ → γ)
    (hcode : ∀ s t, Inv s → Inv t → code s = code t → ∀ n, loop n s = .error .fuel → loop n t = .error .fuel)
    {N : Nat} (hN : Fintype.card γ ≤ N) {s : σ} (hs : Inv s) (hl : loop N s = .error .fuel) (n : Nat) :
    loop n s = .error .fuel := by
  obtain ⟨f, f0, f1, f2⟩ := h.trace hinv N s hs hl
  have f1' : ∀ i ≤ N, ¬ done (f i) := fun i hi => (f1 i hi).2
  have hstop : ∀ i k, i + k ≤ N → loop k (f i) = .error .fuel := fun i k hk => by
    have := h.run f1' f2 i 0 k hk
    rw [Nat.add_zero] at this
    rw [this]
    exact h.zero _ (f1' _ hk)
  obtain ⟨i, j, hij, hc⟩ := Fintype.exists_ne_map_eq_of_card_lt (fun i : Fin (N + 1) => code (f i))
    (by rw [Fintype.card_fin]; omega)
  have key : ∀ i j : Nat, i < j → j ≤ N → code (f i) = code (f j) → ∀ n, loop n (f i) = .error .fuel := by
    intro i j hij hj hc n
    induction n using Nat.strong_induction_on with
    | _ n ih =>
      by_cases hn : n < j - i
      · exact hstop i n (by omega)
      · have h1 := h.run f1' f2 i (n - (j - i)) (j - i) (by omega)
        rw [show j - i + (n - (j - i)) = n by omega, show i + (j - i) = j by omega] at h1
        rw [h1]
        exact hcode _ _ (f1 i (by omega)).1 (f1 j hj).1 hc _ (ih _ (by omega))
  have key' : ∃ i ≤ N, ∀ n, loop n (f i) = .error .fuel := by
    rcases Nat.lt_or_gt_of_ne (fun he => hij (Fin.ext he) : (i : Nat) ≠ j) with hlt | hlt
    · exact ⟨i, by omega, key i j hlt (by omega) hc⟩
    · exact ⟨j, by omega, key j i hlt (by omega) hc.symm⟩
  obtain ⟨i, hi, hf⟩ := key'
  by_cases hn : n ≤ i
  · rw [← f0]
    exact hstop 0 n (by omega)
  · have h1 := h.run f1' f2 0 (n - i) i (by omega)
    rw [show i + (n - i) = n by omega, Nat.zero_add, f0] at h1
    rw [h1]
    exact hf _

/-! ## The number of numbers of a format -/

/-- Codes of numbers of a format. -/
abbrev Codes (a b : Nat) := Option Bool ⊕ (Bool × Fin a × Fin b)

theorem card_codes (a b : Nat) : Fintype.card (Codes a b) = 3 + 2 * (a * b) := by
  simp only [Codes, Fintype.card_sum, Fintype.card_option, Fintype.card_bool, Fintype.card_prod, Fintype.card_fin]

variable {F : Format}

/-- Codes of the numbers of the format. -/
abbrev FCode (F : Format) := Codes (2 ^ (F.mant + 1)) (F.emax - F.mant - F.emin).toNat

/-- A bound for how many numbers there are in the format: not a number, two infinities, and a sign, a significand and
an exponent. -/
def Format.size (F : Format) : Nat := 3 + 2 * (2 ^ (F.mant + 1) * (F.emax - F.mant - F.emin).toNat)

theorem card_fcode : Fintype.card (FCode F) = F.size := card_codes _ _

local notation "𝔽" => Flt (Rounding.ieee F)

open Classical in
/-- The code of a number of the format. -/
noncomputable def fcode : 𝔽 → FCode F
  | .nan => .inl none
  | .inf s => .inl (some s)
  | .fin s m =>
    if h : ∃ p : Fin (2 ^ (F.mant + 1)) × Fin (F.emax - F.mant - F.emin).toNat, m = (p.1 : ℕ) * (2 : ℝ) ^ ((p.2 : ℤ) + F.emin) then .inr (s, h.choose)
    else .inl none

theorem fcode_inj {x y : 𝔽} (hx : IsFloat F x) (hy : IsFloat F y) (h : fcode x = fcode y) : x = y := by
  have hp : ∀ m, IsMag F m → ∃ p : Fin (2 ^ (F.mant + 1)) × Fin (F.emax - F.mant - F.emin).toNat, m = (p.1 : ℕ) * (2 : ℝ) ^ ((p.2 : ℤ) + F.emin) := by
    rintro m ⟨k, e, hk, h1, h2, rfl⟩
    refine ⟨(⟨k, hk⟩, ⟨(e - F.emin).toNat, by omega⟩), ?_⟩
    dsimp only
    rw [Int.toNat_of_nonneg (by omega)]
    congr 2
    ring
  cases x with
  | nan =>
    cases y with
    | nan => rfl
    | inf t => simp [fcode] at h
    | fin t n =>
      simp only [fcode] at h
      rw [dif_pos (hp n hy)] at h
      cases h
  | inf s =>
    cases y with
    | nan => simp [fcode] at h
    | inf t => simp only [fcode, Sum.inl.injEq, Option.some.injEq] at h; rw [h]
    | fin t n =>
      simp only [fcode] at h
      rw [dif_pos (hp n hy)] at h
      cases h
  | fin s m =>
    cases y with
    | nan =>
      simp only [fcode] at h
      rw [dif_pos (hp m hx)] at h
      cases h
    | inf t =>
      simp only [fcode] at h
      rw [dif_pos (hp m hx)] at h
      cases h
    | fin t n =>
      simp only [fcode] at h
      rw [dif_pos (hp m hx), dif_pos (hp n hy)] at h
      simp only [Sum.inr.injEq, Prod.mk.injEq] at h
      have h1 := (hp m hx).choose_spec
      have h2 := (hp n hy).choose_spec
      rw [h.2, ← h2] at h1
      rw [h.1, h1]

end LinfaLinalg
