import Verif.Model.Lobpcg
import Verif.Proofs.Basic
import Mathlib.Data.List.Induction

/-! # Inversion rules for `lobpcg` -/

set_option linter.unusedSectionVars false

namespace LinfaLinalg

variable {α : Type} [Zero α] [One α] [Add α] [Sub α] [Mul α] [Div α] [Neg α] [NdFloat α]

theorem bind_eq_ok {β γ : Type} {m : M β} {f : β → M γ} {c : γ} :
    (m >>= f) = .ok c ↔ ∃ b, m = .ok b ∧ f b = .ok c := by
  cases m with
  | ok b => simp
  | error e => simp

theorem catchM_eq_ok {β : Type} {m : M β} {b : β} : catchM m = .ok (.ok b) ↔ m = .ok b := by
  rcases m with (e | _ | _ | _) | b' <;> simp [catchM]

theorem catchM_eq_err {β : Type} {m : M β} {e : LinalgError} :
    catchM m = .ok (.error e) ↔ m = .error (.err e) := by
  rcases m with (e' | _ | _ | _) | b' <;> simp [catchM]

theorem unwrapM_eq_ok {β : Type} {m : M β} {b : β} : unwrapM m = .ok b ↔ m = .ok b := by
  rcases m with (e | _ | _ | _) | b' <;> simp [unwrapM]

/-- What the second half of the loop body computes, equation by equation. -/
structure TailRun (eig : EigSolver α) (P : LobParams α) (cholYY : Option (Arr2 α)) (st : LobState α)
    (r0 : Arr2 α) (norms : List α) (st' : LobState α) : Prop where
  run : ∃ (v w u xv z r l ar : Arr2 α) (eg : Bool) (g : XRGram α)
      (pap pap' : Option (Arr2 α × Arr2 α)) (lambda : Arr1 α)
      (vecs gram tau p ap xt x axt ax : Arr2 α),
    ndarrayMask r0 st.mask = .ok v ∧ P.precondition v = .ok w ∧ P.constrain cholYY w = .ok u ∧
    st.x.t.dot u = .ok xv ∧ genMatMul (-1) st.x xv 1 u = .ok z ∧ orthonormalize z = .ok (r, l) ∧
    P.apply st.calls r = .ok ar ∧
    (st.explicitGram = true → eg = true) ∧
    xrGram { st with calls := st.calls + 1, explicitGram := eg } r ar = .ok g ∧
    activePAP st.mask st.pap = .ok pap ∧
    lobEig eig P.order { st with calls := st.calls + 1, explicitGram := eg } r g pap =
      .ok (pap', .ok (lambda, vecs, gram)) ∧
    vecs.slice 0 st.x.nc 0 vecs.nc = .ok tau ∧
    updatePAP st.x.nc st.blockSize r ar vecs pap' = .ok (p, ap) ∧
    st.x.dot tau = .ok xt ∧ xt.add p = .ok x ∧ st.ax.dot tau = .ok axt ∧ axt.add ap = .ok ax ∧
    st' = { st with
      calls := st.calls + 1, explicitGram := eg, lambda := lambda, x := x, ax := ax,
      pap := some (p, ap), iter := st.iter - 1, gram := some gram }

theorem lobTail_inv {eig : EigSolver α} {P : LobParams α} {cholYY : Option (Arr2 α)}
    {st st' : LobState α} {r0 : Arr2 α} {norms : List α}
    (h : lobTail eig P cholYY st r0 norms = .ok (.ok st')) :
    TailRun eig P cholYY st r0 norms st' := by
  unfold lobTail at h
  simp only [bind_eq_ok] at h
  obtain ⟨v, hv, w, hw, u, hu, xv, hxv, z, hz, o, ho, h⟩ := h
  rcases o with e | ⟨r, l⟩
  · simp at h
  rw [catchM_eq_ok] at ho
  simp only [bind_eq_ok] at h
  obtain ⟨ar, har, g, hg, pap, hpap, ⟨pap', res⟩, hres, h⟩ := h
  rcases res with e | ⟨lambda, vecs, gram⟩
  · simp at h
  simp only [bind_eq_ok] at h
  obtain ⟨tau, htau, ⟨p, ap⟩, hp, xt, hxt, x, hx, axt, haxt, ax, hax, h⟩ := h
  injection h with h
  injection h with h
  exact ⟨v, w, u, xv, z, r, l, ar, _, g, pap, pap', lambda, vecs, gram, tau, p, ap, xt, x, axt, ax, hv, hw,
    hu, hxv, hz, ho, har, fun he => by simp [he], hg, hpap, hres, htau, hp, hxt, hx, haxt, hax, h.symm⟩

theorem lobHead_inv {P : LobParams α} {st st' : LobState α} {r : Arr2 α} {norms : List α}
    (h : lobHead P st = .ok (st', r, norms)) :
    lobResidual st = .ok (r, norms) ∧
    st' = { st with
      best := updateBest st.best ⟨st.lambda, st.x, norms⟩
      mask := updateMask P.tol norms st.mask
      blockSize := (updateMask P.tol norms st.mask).count true
      ident := if (updateMask P.tol norms st.mask).count true ≠ st.blockSize then
          Arr2.eye ((updateMask P.tol norms st.mask).count true)
            ((updateMask P.tol norms st.mask).count true)
        else st.ident
      hist := st.hist ++ [⟨⟨st.lambda, st.x, norms⟩, updateMask P.tol norms st.mask, st.gram⟩] } := by
  unfold lobHead at h
  simp only [bind_eq_ok] at h
  obtain ⟨⟨r', n'⟩, h1, h2⟩ := h
  injection h2 with h2
  simp only [Prod.mk.injEq] at h2
  obtain ⟨h2, rfl, rfl⟩ := h2
  exact ⟨h1, h2.symm⟩

theorem lobTail_frame {eig : EigSolver α} {P : LobParams α} {cholYY : Option (Arr2 α)}
    {st st' : LobState α} {r0 : Arr2 α} {norms : List α}
    (h : lobTail eig P cholYY st r0 norms = .ok (.ok st')) :
    st'.hist = st.hist ∧ st'.best = st.best ∧ st'.mask = st.mask ∧ st'.iter = st.iter - 1 ∧
      st'.calls = st.calls + 1 ∧ (st.explicitGram = true → st'.explicitGram = true) ∧
      st'.blockSize = st.blockSize := by
  obtain ⟨v, w, u, xv, z, r, l, ar, eg, g, pap, pap', lambda, vecs, gram, tau, p, ap, xt, x, axt, ax, -, -,
    -, -, -, -, -, he, -, -, -, -, -, -, -, -, -, rfl⟩ := (lobTail_inv h).run
  exact ⟨rfl, rfl, rfl, rfl, rfl, he, rfl⟩

/-- How the main loop can end. -/
def LoopEnd (eig : EigSolver α) (P : LobParams α) (cholYY : Option (Arr2 α)) (st : LobState α)
    (r : Arr2 α) (norms : List α) : Option LinalgError → Prop
  | none => st.blockSize = 0 ∨ st.iter = 0
  | some e => st.blockSize ≠ 0 ∧ st.iter ≠ 0 ∧ lobTail eig P cholYY st r norms = .ok (.error e)

/-- Invariant rule for the main loop: `I` holds at the top, `J` after the first half of the body. -/
theorem lobLoop_rule {eig : EigSolver α} {P : LobParams α} {cholYY : Option (Arr2 α)}
    (I : LobState α → Prop) (J : LobState α → Arr2 α → List α → Prop)
    (hhead : ∀ st st' r norms, I st → lobHead P st = .ok (st', r, norms) → J st' r norms)
    (htail : ∀ st st' r norms, J st r norms → st.blockSize ≠ 0 → st.iter ≠ 0 →
      lobTail eig P cholYY st r norms = .ok (.ok st') → I st')
    {n : Nat} {st st' : LobState α} {o : Option LinalgError} (hI : I st)
    (h : lobLoop eig P cholYY n st = .ok (st', o)) :
    ∃ r norms, J st' r norms ∧ LoopEnd eig P cholYY st' r norms o := by
  induction n generalizing st with
  | zero =>
    unfold lobLoop at h
    simp only [bind_eq_ok] at h
    obtain ⟨⟨st1, r, norms⟩, h1, h⟩ := h
    simp only at h
    split_ifs at h with hc
    injection h with h
    simp only [Prod.mk.injEq] at h
    obtain ⟨rfl, rfl⟩ := h
    exact ⟨r, norms, hhead _ _ _ _ hI h1, hc⟩
  | succ n ih =>
    unfold lobLoop at h
    simp only [bind_eq_ok] at h
    obtain ⟨⟨st1, r, norms⟩, h1, h⟩ := h
    simp only at h
    have hJ := hhead _ _ _ _ hI h1
    split_ifs at h with hc
    · injection h with h
      simp only [Prod.mk.injEq] at h
      obtain ⟨rfl, rfl⟩ := h
      exact ⟨r, norms, hJ, hc⟩
    · rw [not_or] at hc
      simp only [bind_eq_ok] at h
      obtain ⟨res, h2, h⟩ := h
      rcases res with e | st2
      · simp only at h
        injection h with h
        simp only [Prod.mk.injEq] at h
        obtain ⟨rfl, rfl⟩ := h
        exact ⟨r, norms, hJ, hc.1, hc.2, h2⟩
      · exact ih (htail _ _ _ _ hJ hc.1 hc.2 h2) h

/-- The state in which the main loop is entered, and how it was computed. -/
structure StartRun (eig : EigSolver α) (P : LobParams α) (x0 : Arr2 α) (maxiter : Nat)
    (cholYY : Option (Arr2 α)) (st : LobState α) : Prop where
  run : ∃ (x1 x2 l ax xax : Arr2 α) (lambda : Arr1 α) (eigBlock x ax' : Arr2 α),
    x0.nc ≤ x0.nr ∧
    (match P.y with
      | none => cholYY = none
      | some y => ∃ yy c, y.t.dot y = .ok yy ∧ cholesky yy = .ok c ∧ cholYY = some c) ∧
    P.constrain cholYY x0 = .ok x1 ∧ orthonormalize x1 = .ok (x2, l) ∧ P.apply 0 x2 = .ok ax ∧
    x2.t.dot ax = .ok xax ∧ sortedEig eig xax none x0.nc P.order = .ok (lambda, eigBlock) ∧
    x2.dot eigBlock = .ok x ∧ ax.dot eigBlock = .ok ax' ∧
    st = ⟨lambda, x, ax', List.replicate x0.nc true, none, x0.nc, Arr2.eye x0.nc x0.nc, none, true,
      min (x0.nr * 10) maxiter, 1, none, []⟩

/-- `c` is the Cholesky factor of the Gram matrix of the constraints. -/
def CholOf (P : LobParams α) (c : Option (Arr2 α)) : Prop :=
  match P.y with
  | none => c = none
  | some y => ∃ yy c', y.t.dot y = .ok yy ∧ cholesky yy = .ok c' ∧ c = some c'

/-- The outcome of `lobpcg` before the main loop is entered. -/
inductive EarlyExit (eig : EigSolver α) (P : LobParams α) (x0 : Arr2 α) : LinalgError → Prop
  | notThin (h : x0.nr < x0.nc) : EarlyExit eig P x0 (.notThin x0.nr x0.nc)
  | ortho (c : Option (Arr2 α)) (x1 : Arr2 α) (e : LinalgError) (h : x0.nc ≤ x0.nr) (hy : CholOf P c)
      (hc : P.constrain c x0 = .ok x1) (h1 : orthonormalize x1 = .error (.err e)) : EarlyExit eig P x0 e
  | eigen (c : Option (Arr2 α)) (x1 x2 l ax xax : Arr2 α) (e : LinalgError) (h : x0.nc ≤ x0.nr)
      (hy : CholOf P c) (hc : P.constrain c x0 = .ok x1) (h0 : orthonormalize x1 = .ok (x2, l))
      (ha : P.apply 0 x2 = .ok ax) (hx : x2.t.dot ax = .ok xax)
      (h1 : sortedEig eig xax none x0.nc P.order = .error (.err e)) : EarlyExit eig P x0 e

theorem lobpcgRun_inv {eig : EigSolver α} {P : LobParams α} {x0 : Arr2 α} {maxiter : Nat}
    {res : LobpcgResult α} {hist : List (Iterate α)}
    (h : lobpcgRun eig P x0 maxiter = .ok (res, hist)) :
    (∃ e, EarlyExit eig P x0 e ∧ res = .error (e, none) ∧ hist = []) ∨
    ∃ cholYY st0 st o b, StartRun eig P x0 maxiter cholYY st0 ∧
      lobLoop eig P cholYY (min (x0.nr * 10) maxiter) st0 = .ok (st, o) ∧
      st.best = some b ∧ hist = st.hist ∧
      res = match o with
        | none => .ok b
        | some e => .error (e, some b) := by
  unfold lobpcgRun at h
  simp only at h
  split_ifs at h with hthin
  · injection h with h
    simp only [Prod.mk.injEq] at h
    exact Or.inl ⟨_, .notThin hthin, h.1.symm, h.2.symm⟩
  · rw [not_lt] at hthin
    simp only [bind_eq_ok] at h
    obtain ⟨cholYY, hchol, x1, hx1, o1, ho1, h⟩ := h
    have hco : CholOf P cholYY := by
      unfold CholOf
      cases hy : P.y with
      | none =>
        rw [hy] at hchol
        simp only at hchol ⊢
        injection hchol with hchol
        exact hchol.symm
      | some y =>
        rw [hy] at hchol
        simp only [bind_eq_ok, unwrapM_eq_ok] at hchol
        obtain ⟨yy, h1, c, h2, h3⟩ := hchol
        injection h3 with h3
        exact ⟨yy, c, h1, h2, h3.symm⟩
    rcases o1 with e | ⟨x2, l⟩
    · rw [catchM_eq_err] at ho1
      simp only at h
      injection h with h
      simp only [Prod.mk.injEq] at h
      exact Or.inl ⟨e, .ortho cholYY x1 e hthin hco hx1 ho1, h.1.symm, h.2.symm⟩
    · rw [catchM_eq_ok] at ho1
      simp only [bind_eq_ok] at h
      obtain ⟨ax, hax, xax, hxax, o2, ho2, h⟩ := h
      rcases o2 with e | ⟨lambda, eb⟩
      · rw [catchM_eq_err] at ho2
        simp only at h
        injection h with h
        simp only [Prod.mk.injEq] at h
        exact Or.inl ⟨e, .eigen cholYY x1 x2 l ax xax e hthin hco hx1 ho1 hax hxax ho2, h.1.symm, h.2.symm⟩
      · rw [catchM_eq_ok] at ho2
        simp only [bind_eq_ok] at h
        obtain ⟨x, hx, ax', hax', ⟨st, o⟩, hloop, h⟩ := h
        simp only at h
        cases hb : st.best with
        | none => rw [hb] at h; simp at h
        | some b =>
          rw [hb] at h
          refine Or.inr ⟨cholYY, _, st, o, b, ⟨x1, x2, l, ax, xax, lambda, eb, x, ax', hthin, ?_, hx1,
            ho1, hax, hxax, ho2, hx, hax', rfl⟩, hloop, hb, ?_, ?_⟩
          · exact hco
          · cases o <;> simp only at h <;> injection h with h <;> simp only [Prod.mk.injEq] at h <;>
              exact h.2.symm
          · cases o <;> simp only at h <;> injection h with h <;> simp only [Prod.mk.injEq] at h <;>
              exact h.1.symm

end LinfaLinalg

namespace LinfaLinalg

variable {α : Type} [Zero α] [One α] [Add α] [Sub α] [Mul α] [Div α] [Neg α] [NdFloat α]

theorem Arr2.dot_inv {a b c : Arr2 α} (h : a.dot b = .ok c) :
    a.nc = b.nr ∧ c = ⟨a.nr, b.nc, fun i j => dotTo a.nc (a.get i) fun k => b.get k j⟩ := by
  unfold Arr2.dot at h
  split_ifs at h with hc
  injection h with h
  exact ⟨hc, h.symm⟩

theorem Arr2.add_inv {a b c : Arr2 α} (h : a.add b = .ok c) :
    a.nr = b.nr ∧ a.nc = b.nc ∧ c = ⟨a.nr, a.nc, fun i j => a.get i j + b.get i j⟩ := by
  unfold Arr2.add at h
  split_ifs at h with hc
  injection h with h
  exact ⟨hc.1, hc.2, h.symm⟩

theorem Arr2.sub_inv {a b c : Arr2 α} (h : a.sub b = .ok c) :
    a.nr = b.nr ∧ a.nc = b.nc ∧ c = ⟨a.nr, a.nc, fun i j => a.get i j - b.get i j⟩ := by
  unfold Arr2.sub at h
  split_ifs at h with hc
  injection h with h
  exact ⟨hc.1, hc.2, h.symm⟩

theorem Arr2.hcat_inv {a b c : Arr2 α} (h : a.hcat b = .ok c) :
    a.nr = b.nr ∧
      c = ⟨a.nr, a.nc + b.nc, fun i j => if j < a.nc then a.get i j else b.get i (j - a.nc)⟩ := by
  unfold Arr2.hcat at h
  split_ifs at h with hc
  injection h with h
  exact ⟨hc, h.symm⟩

theorem Arr2.vcat_inv {a b c : Arr2 α} (h : a.vcat b = .ok c) :
    a.nc = b.nc ∧
      c = ⟨a.nr + b.nr, a.nc, fun i j => if i < a.nr then a.get i j else b.get (i - a.nr) j⟩ := by
  unfold Arr2.vcat at h
  split_ifs at h with hc
  injection h with h
  exact ⟨hc, h.symm⟩

theorem Arr2.slice_inv {a c : Arr2 α} {r0 r1 c0 c1 : Nat} (h : a.slice r0 r1 c0 c1 = .ok c) :
    r0 ≤ r1 ∧ r1 ≤ a.nr ∧ c0 ≤ c1 ∧ c1 ≤ a.nc ∧
      c = ⟨r1 - r0, c1 - c0, fun i j => a.get (r0 + i) (c0 + j)⟩ := by
  unfold Arr2.slice at h
  split_ifs at h with hc
  injection h with h
  exact ⟨hc.1, hc.2.1, hc.2.2.1, hc.2.2.2, h.symm⟩

theorem Arr1.slice_inv {a c : Arr1 α} {k0 k1 : Nat} (h : a.slice k0 k1 = .ok c) :
    k0 ≤ k1 ∧ k1 ≤ a.len ∧ c = ⟨k1 - k0, fun i => a.get (k0 + i)⟩ := by
  unfold Arr1.slice at h
  split_ifs at h with hc
  injection h with h
  exact ⟨hc.1, hc.2, h.symm⟩

theorem Arr2.scaleCols_inv {a c : Arr2 α} {s : Arr1 α} (h : a.scaleCols s = .ok c) :
    a.nc = s.len ∧ c = ⟨a.nr, a.nc, fun i j => a.get i j * s.get j⟩ := by
  unfold Arr2.scaleCols at h
  split_ifs at h with hc
  injection h with h
  exact ⟨hc, h.symm⟩

theorem Arr2.selectCols_inv {a c : Arr2 α} {idx : List Nat} (h : a.selectCols idx = .ok c) :
    (∀ j ∈ idx, j < a.nc) ∧ c = ⟨a.nr, idx.length, fun i j => a.get i (idx.getD j 0)⟩ := by
  unfold Arr2.selectCols at h
  split_ifs at h with hc
  injection h with h
  refine ⟨?_, h.symm⟩
  simpa using hc

theorem ndarrayMask_inv {a c : Arr2 α} {mask : List Bool} (h : ndarrayMask a mask = .ok c) :
    mask.length = a.nc ∧
      c = ⟨a.nr, (maskIndices mask).length, fun i j => a.get i ((maskIndices mask).getD j 0)⟩ := by
  unfold ndarrayMask at h
  split_ifs at h with hc
  exact ⟨hc, (Arr2.selectCols_inv h).2⟩

theorem genMatMul_inv {alpha beta : α} {a b c d : Arr2 α} (h : genMatMul alpha a b beta c = .ok d) :
    a.nc = b.nr ∧ a.nr = c.nr ∧ b.nc = c.nc ∧ d = ⟨c.nr, c.nc, fun i j =>
      alpha * (dotTo a.nc (a.get i) fun k => b.get k j) + beta * c.get i j⟩ := by
  unfold genMatMul at h
  split_ifs at h with hc
  injection h with h
  exact ⟨hc.1, hc.2.1, hc.2.2, h.symm⟩

theorem maskIndices_length (mask : List Bool) : (maskIndices mask).length = mask.count true := by
  unfold maskIndices
  induction mask using List.reverseRecOn with
  | nil => rfl
  | append_singleton l b ih =>
    rw [List.length_append, List.length_singleton, List.range_succ, List.filter_append,
      List.length_append, List.count_append, ← ih]
    congr 1
    · congr 1
      apply List.filter_congr
      intro i hi
      rw [List.mem_range] at hi
      simp [List.getD_eq_getElem?_getD, List.getElem?_append, hi]
    · cases b <;> simp [List.getD_eq_getElem?_getD]

theorem sortedEig_len {eig : EigSolver α} {a : Arr2 α} {b : Option (Arr2 α)} {size : Nat}
    {order : Order} {vals : Arr1 α} {vecs : Arr2 α}
    (h : sortedEig eig a b size order = .ok (vals, vecs)) : vals.len = size ∧ vecs.nc = size := by
  unfold sortedEig at h
  simp only [bind_eq_ok] at h
  obtain ⟨⟨v1, q1⟩, -, ⟨v2, q2⟩, -, h⟩ := h
  simp only at h
  split_ifs at h with h0
  simp only [bind_eq_ok] at h
  obtain ⟨q3, -, v3, hv3, q4, hq4, h⟩ := h
  injection h with h
  simp only [Prod.mk.injEq] at h
  obtain ⟨rfl, rfl⟩ := h
  obtain ⟨-, -, rfl⟩ := Arr1.slice_inv hv3
  obtain ⟨-, -, -, -, rfl⟩ := Arr2.slice_inv hq4
  exact ⟨rfl, rfl⟩

theorem lobEig_inv {eig : EigSolver α} {order : Order} {st : LobState α} {r : Arr2 α} {g : XRGram α}
    {pap pap' : Option (Arr2 α × Arr2 α)} {v : Arr1 α × Arr2 α × Arr2 α}
    (h : lobEig eig order st r g pap = .ok (pap', .ok v)) :
    (∃ p ap, pap = some (p, ap) ∧ pap' = some (p, ap) ∧ eig3 eig order st r g p ap = .ok v) ∨
    (pap' = none ∧ eig2 eig order st g = .ok v) := by
  unfold lobEig at h
  simp only [bind_eq_ok] at h
  obtain ⟨first, hf, h⟩ := h
  rcases first with e | w
  · simp only [bind_eq_ok] at h
    obtain ⟨res, hr, h⟩ := h
    injection h with h
    simp only [Prod.mk.injEq] at h
    obtain ⟨rfl, rfl⟩ := h
    exact Or.inr ⟨rfl, catchM_eq_ok.1 hr⟩
  · simp only at h
    injection h with h
    simp only [Prod.mk.injEq] at h
    obtain ⟨rfl, h⟩ := h
    injection h with h
    subst h
    rcases pap with _ | ⟨p, ap⟩
    · simp at hf
    · exact Or.inl ⟨p, ap, rfl, rfl, catchM_eq_ok.1 hf⟩

theorem eig3_inv {eig : EigSolver α} {order : Order} {st : LobState α} {r : Arr2 α} {g : XRGram α}
    {p ap : Arr2 α} {v : Arr1 α × Arr2 α × Arr2 α} (h : eig3 eig order st r g p ap = .ok v) :
    ∃ xap rap pap xp rp pap' pp a b, st.x.t.dot ap = .ok xap ∧ r.t.dot ap = .ok rap ∧
      p.t.dot ap = .ok pap ∧ st.x.t.dot p = .ok xp ∧ r.t.dot p = .ok rp ∧
      (st.explicitGram = true → symmetrize pap = .ok pap' ∧ p.t.dot p = .ok pp) ∧
      (st.explicitGram = false → pap' = pap ∧ pp = st.ident) ∧
      block3 g.xax g.xar xap g.rar rap pap' = .ok a ∧ block3 g.xx g.xr xp g.rr rp pp = .ok b ∧
      sortedEig eig a (some b) st.x.nc order = .ok (v.1, v.2.1) ∧ v.2.2 = b := by
  unfold eig3 at h
  simp only [bind_eq_ok] at h
  obtain ⟨xap, h1, rap, h2, pap, h3, xp, h4, rp, h5, ⟨pap', pp⟩, h6, a, h7, b, h8, w, h9, h10⟩ := h
  injection h10 with h10
  subst h10
  refine ⟨xap, rap, pap, xp, rp, pap', pp, a, b, h1, h2, h3, h4, h5, ?_, ?_, h7, h8, h9, rfl⟩
  · intro he
    simp only [he, if_true, bind_eq_ok] at h6
    obtain ⟨q, hq, q', hq', h6⟩ := h6
    injection h6 with h6
    simp only [Prod.mk.injEq] at h6
    obtain ⟨rfl, rfl⟩ := h6
    exact ⟨hq, hq'⟩
  · intro he
    simp only [he] at h6
    injection h6 with h6
    simp only [Prod.mk.injEq] at h6
    exact ⟨h6.1.symm, h6.2.symm⟩

theorem eig2_inv {eig : EigSolver α} {order : Order} {st : LobState α} {g : XRGram α}
    {v : Arr1 α × Arr2 α × Arr2 α} (h : eig2 eig order st g = .ok v) :
    ∃ a b, block2 g.xax g.xar g.rar = .ok a ∧ block2 g.xx g.xr g.rr = .ok b ∧
      sortedEig eig a (some b) st.x.nc order = .ok (v.1, v.2.1) ∧ v.2.2 = b := by
  unfold eig2 at h
  simp only [bind_eq_ok] at h
  obtain ⟨a, h1, b, h2, w, h3, h4⟩ := h
  injection h4 with h4
  subst h4
  exact ⟨a, b, h1, h2, h3, rfl⟩

theorem lobEig_len {eig : EigSolver α} {order : Order} {st : LobState α} {r : Arr2 α} {g : XRGram α}
    {pap pap' : Option (Arr2 α × Arr2 α)} {vals : Arr1 α}
    {vecs gram : Arr2 α} (h : lobEig eig order st r g pap = .ok (pap', .ok (vals, vecs, gram))) :
    vals.len = st.x.nc ∧ vecs.nc = st.x.nc := by
  rcases lobEig_inv h with ⟨p, ap, -, -, h⟩ | ⟨-, h⟩
  · obtain ⟨_, _, _, _, _, _, _, _, _, -, -, -, -, -, -, -, -, -, h, -⟩ := eig3_inv h
    exact sortedEig_len h
  · obtain ⟨_, _, -, -, h, -⟩ := eig2_inv h
    exact sortedEig_len h

theorem lobResidual_inv {st : LobState α} {r : Arr2 α} {norms : List α}
    (h : lobResidual st = .ok (r, norms)) :
    st.x.nc = st.lambda.len ∧ st.ax.nr = st.x.nr ∧ st.ax.nc = st.lambda.len ∧
    r = ⟨st.ax.nr, st.ax.nc, fun i j => st.ax.get i j -
      dotTo st.x.nc (st.x.get i) fun k => (Arr2.fromDiag st.lambda).get k j⟩ ∧
    norms = (List.range r.nc).map fun j => normL2 ((List.range r.nr).map fun i => r.get i j) := by
  unfold lobResidual at h
  simp only [bind_eq_ok] at h
  obtain ⟨lx, h1, r', h2, h3⟩ := h
  injection h3 with h3
  simp only [Prod.mk.injEq] at h3
  obtain ⟨rfl, rfl⟩ := h3
  obtain ⟨h4, rfl⟩ := Arr2.dot_inv h1
  obtain ⟨h5, h6, rfl⟩ := Arr2.sub_inv h2
  exact ⟨h4, h5, h6, rfl, rfl⟩

theorem LobState.norms_length {st : LobState α} {r : Arr2 α} {norms : List α}
    (h : lobResidual st = .ok (r, norms)) : norms.length = st.lambda.len := by
  obtain ⟨-, -, h3, rfl, rfl⟩ := lobResidual_inv h
  simp [h3]

theorem lobTail_len {eig : EigSolver α} {P : LobParams α} {cholYY : Option (Arr2 α)}
    {st st' : LobState α} {r0 : Arr2 α} {norms : List α}
    (h : lobTail eig P cholYY st r0 norms = .ok (.ok st')) : st'.lambda.len = st.x.nc := by
  obtain ⟨v, w, u, xv, z, r, l, ar, eg, g, pap, pap', lambda, vecs, gram, tau, p, ap, xt, x, axt, ax, -, -,
    -, -, -, -, -, -, -, -, hl, -, -, -, -, -, -, rfl⟩ := (lobTail_inv h).run
  exact (lobEig_len hl).1

end LinfaLinalg
